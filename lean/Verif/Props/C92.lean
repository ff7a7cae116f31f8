import Verif.Views.Memory

/-!
C92: which server a `memory://` connection gets.
-/
namespace Docket.Memory

/-! ## Specification -/

/-- The event `e`, after `es`, gives a server to a connection. -/
def Gives (es : List Ev) (e : Ev) (g : Served) : Prop :=
  (run (es ++ [e])).served = g :: (run es).served

/-- The loop exists and has not been closed. -/
def Open (s : State) (uid : Nat) : Prop := ∃ l ∈ s.loops, l.uid = uid ∧ l.closed = false

/-- The loop has been closed. -/
def Closed (s : State) (uid : Nat) : Prop := ∃ l ∈ s.loops, l.uid = uid ∧ l.closed = true

/-! ## The invariant -/

structure Inv (s : State) : Prop where
  uids : (s.loops.map (·.uid)).Nodup
  held : ∀ l ∈ s.loops, l.closed = false → l.held = true
  addrs : ∀ l ∈ s.loops, ∀ l' ∈ s.loops, alive s l = true → alive s l' = true →
    l.addr = l'.addr → l = l'
  entry : ∀ e ∈ s.cache, ∃ l ∈ s.loops, l.uid = e.loop ∧ l.addr = e.addr
  conn : ∀ c x, s.conns c = some x → ∃ l ∈ s.loops, l.uid = x.loop ∧ l.addr = x.addr
  servers : (s.cache.map (·.server) ++ s.shut).Nodup
  bound : ∀ n ∈ s.cache.map (·.server) ++ s.shut, n < s.next
  owner : ∀ e ∈ s.cache, ∀ g ∈ s.served, g.server = e.server → g.url = e.url ∧ g.loop = e.loop
  own : ∀ g ∈ s.served, ∀ g' ∈ s.served, g.server = g'.server → g.url = g'.url ∧ g.loop = g'.loop
  made : ∀ n, n < s.next → n ∈ s.cache.map (·.server) ++ s.shut
  given : ∀ g ∈ s.served, g.server < s.next
  keys : ∀ e ∈ s.cache, ∀ e' ∈ s.cache, e.url = e'.url → e.addr = e'.addr → e = e'

theorem uid_inj {ls : List Loop} (h : (ls.map (·.uid)).Nodup) {l l' : Loop} (hl : l ∈ ls)
    (hl' : l' ∈ ls) (e : l.uid = l'.uid) : l = l' := by
  induction ls with
  | nil => cases hl
  | cons x xs ih =>
    simp only [List.map_cons, List.nodup_cons] at h
    rcases List.mem_cons.mp hl with hl | hl <;> rcases List.mem_cons.mp hl' with hl' | hl'
    · rw [hl, hl']
    · exact absurd (List.mem_map.mpr ⟨l', hl', by rw [← e, hl]⟩) h.1
    · exact absurd (List.mem_map.mpr ⟨l, hl, by rw [e, hl']⟩) h.1
    · exact ih h.2 hl hl'

theorem Inv.init : Inv init :=
  ⟨by simp [Memory.init], by simp [Memory.init], by simp [Memory.init], by simp [Memory.init],
    by simp [Memory.init], by simp [Memory.init], by simp [Memory.init], by simp [Memory.init],
    by simp [Memory.init], by simp [Memory.init], by simp [Memory.init], by simp [Memory.init]⟩

theorem Inv.putConn {s : State} (h : Inv s) {c : Nat} {x : Conn}
    (hx : ∃ l ∈ s.loops, l.uid = x.loop ∧ l.addr = x.addr) : Inv (putConn s c x) := by
  refine ⟨h.uids, h.held, h.addrs, h.entry, ?_, h.servers, h.bound, h.owner, h.own, h.made, h.given, h.keys⟩
  intro j y hy
  simp only [Memory.putConn] at hy
  by_cases hj : j = c
  · rw [if_pos hj] at hy; cases hy; exact hx
  · rw [if_neg hj] at hy; exact h.conn j y hy

/-- Entries are taken out of the cache and their servers are closed. -/
theorem Inv.drop {s : State} (h : Inv s) (p : Entry → Bool) :
    Inv { s with cache := s.cache.filter fun e => !p e
                 shut := s.shut ++ (s.cache.filter p).map (·.server) } := by
  have sub : ∀ l, alive { s with cache := s.cache.filter fun e => !p e, shut := s.shut ++ (s.cache.filter p).map (·.server) } l = true → alive s l = true := by
    intro l hl
    simp only [alive, Bool.or_eq_true, List.any_eq_true, List.mem_filter] at hl ⊢
    rcases hl with hl | ⟨e, ⟨he, _⟩, hu⟩
    · exact Or.inl hl
    · exact Or.inr ⟨e, he, hu⟩
  have perm : ((s.cache.filter fun e => !p e).map (·.server) ++
      (s.shut ++ (s.cache.filter p).map (·.server))).Perm (s.cache.map (·.server) ++ s.shut) := by
    have h1 : ((s.cache.filter p) ++ (s.cache.filter fun e => !p e)).Perm s.cache :=
      List.filter_append_perm p s.cache
    have h2 := (h1.map (·.server)).append_right s.shut
    refine List.Perm.trans ?_ h2
    rw [List.map_append, ← List.append_assoc]
    refine List.perm_append_comm.trans ?_
    rw [List.append_assoc]
  refine ⟨h.uids, h.held, ?_, ?_, h.conn, ?_, ?_, ?_, h.own, ?_, h.given, ?_⟩
  · intro l hl l' hl' ha ha'
    exact h.addrs l hl l' hl' (sub l ha) (sub l' ha')
  · intro e he; exact h.entry e (List.mem_filter.mp he).1
  · exact perm.nodup_iff.mpr h.servers
  · intro n hn; exact h.bound n (perm.subset hn)
  · intro e he; exact h.owner e (List.mem_filter.mp he).1
  · intro n hn; exact perm.symm.subset (h.made n hn)
  · intro e he e' he'
    exact h.keys e (List.mem_filter.mp he).1 e' (List.mem_filter.mp he').1

theorem isClosed_iff (s : State) (u : Nat) : isClosed s u = true ↔ Closed s u := by
  simp [isClosed, Closed, List.any_eq_true]

theorem Inv.open_of {s : State} (h : Inv s) {c : Nat} {x : Conn} (hc : s.conns c = some x)
    (hn : isClosed s x.loop = false) :
    ∃ l ∈ s.loops, l.uid = x.loop ∧ l.addr = x.addr ∧ l.closed = false ∧ l.held = true := by
  obtain ⟨l, hl, h1, h2⟩ := h.conn c x hc
  have : l.closed = false := by
    cases hcl : l.closed with
    | false => rfl
    | true =>
      have : isClosed s x.loop = true := (isClosed_iff s _).mpr ⟨l, hl, h1, hcl⟩
      rw [hn] at this; cases this
  exact ⟨l, hl, h1, h2, this, h.held l hl this⟩

theorem alive_held (s : State) {l : Loop} (h : l.held = true) : alive s l = true := by
  simp [alive, h]

theorem alive_entry (s : State) {l : Loop} {e : Entry} (he : e ∈ s.cache) (h : l.uid = e.loop) :
    alive s l = true := by
  simp only [alive, Bool.or_eq_true, List.any_eq_true]
  exact Or.inr ⟨e, he, by simp [h]⟩

/-- The entry found belongs to the connection's own loop. -/
theorem Inv.found {s : State} (h : Inv s) {x : Conn} {l : Loop} (hl : l ∈ s.loops)
    (h1 : l.uid = x.loop) (h2 : l.addr = x.addr) (h3 : l.held = true) {e : Entry}
    (he : e ∈ s.cache) (ha : e.addr = x.addr) : e.loop = x.loop := by
  obtain ⟨l', hl', g1, g2⟩ := h.entry e he
  have := h.addrs l hl l' hl' (alive_held s h3) (alive_entry s he g1) (by rw [h2, g2, ha])
  rw [← g1, ← this, h1]

theorem find_key {s : State} {x : Conn} {e : Entry}
    (hf : s.cache.find? (fun e => e.url == x.url && e.addr == x.addr) = some e) :
    e ∈ s.cache ∧ e.url = x.url ∧ e.addr = x.addr := by
  refine ⟨List.mem_of_find?_eq_some hf, ?_⟩
  have := List.find?_some hf
  simpa using this

theorem Inv.getOrCreate {s : State} (h : Inv s) {c : Nat} {x : Conn} (hc : s.conns c = some x)
    (hn : isClosed s x.loop = false) : Inv (getOrCreate s c x) := by
  obtain ⟨l, hl, h1, h2, _, h4⟩ := h.open_of hc hn
  unfold Memory.getOrCreate
  split
  · rename_i e hf
    obtain ⟨he, hu, ha⟩ := find_key hf
    have hloop := h.found hl h1 h2 h4 he ha
    have hp := h.putConn (c := c) (x := { x with phase := .connected e.server }) ⟨l, hl, h1, h2⟩
    refine ⟨hp.uids, hp.held, hp.addrs, hp.entry, hp.conn, hp.servers, hp.bound, ?_, ?_, hp.made, ?_, hp.keys⟩
    · intro e' he' g hg heq
      rcases List.mem_cons.mp hg with hg | hg
      · subst hg
        have : e = e' := by
          have hs := (List.nodup_append.mp h.servers).1
          have he'' : e' ∈ s.cache := he'
          clear hp hf
          revert hs he he''
          generalize s.cache = cs
          intro he hs he''
          induction cs with
          | nil => cases he
          | cons y ys ih =>
            simp only [List.map_cons, List.nodup_cons] at hs
            rcases List.mem_cons.mp he with a | a <;> rcases List.mem_cons.mp he'' with b | b
            · rw [a, b]
            · exact absurd (List.mem_map.mpr ⟨e', b, by rw [← a]; exact heq.symm⟩) hs.1
            · exact absurd (List.mem_map.mpr ⟨e, a, by rw [← b]; exact heq⟩) hs.1
            · exact ih a hs.2 b
        subst this
        exact ⟨hu.symm, hloop.symm⟩
      · exact h.owner e' he' g hg heq
    · intro g hg g' hg' heq
      rcases List.mem_cons.mp hg with hg | hg <;> rcases List.mem_cons.mp hg' with hg' | hg'
      · rw [hg, hg']; exact ⟨rfl, rfl⟩
      · subst hg
        obtain ⟨a, b⟩ := h.owner e he g' hg' heq.symm
        exact ⟨by rw [a, hu], by rw [b, hloop]⟩
      · subst hg'
        obtain ⟨a, b⟩ := h.owner e he g hg heq
        exact ⟨by rw [a, hu], by rw [b, hloop]⟩
      · exact h.own g hg g' hg' heq
    · intro g hg
      rcases List.mem_cons.mp hg with hg | hg
      · subst hg
        exact h.bound _ (List.mem_append.mpr (Or.inl (List.mem_map.mpr ⟨e, he, rfl⟩)))
      · exact h.given g hg
  · rename_i hf
    have hp := h.putConn (c := c) (x := { x with phase := .connected s.next }) ⟨l, hl, h1, h2⟩
    have old : ∀ n, n ∈ s.cache.map (·.server) ++ s.shut → n ≠ s.next := by
      intro n hn e
      have := h.bound n hn
      omega
    have live : ∀ l', l' ∈ s.loops → alive { s with cache := s.cache ++ [⟨x.url, x.addr, x.loop, s.next⟩] } l' = true →
        alive s l' = true := by
      intro l' hl' ha
      simp only [alive, Bool.or_eq_true, List.any_append, List.any_cons, List.any_nil] at ha ⊢
      rcases ha with ha | ha | ha | ha
      · exact Or.inl ha
      · exact Or.inr ha
      · simp at ha
        have : l = l' := uid_inj h.uids hl hl' (by rw [h1, ha])
        rw [← this]; exact Or.inl h4
      · cases ha
    have perm : ((s.cache ++ [(⟨x.url, x.addr, x.loop, s.next⟩ : Entry)]).map (·.server) ++ s.shut).Perm
        (s.next :: (s.cache.map (·.server) ++ s.shut)) := by
      simp only [List.map_append, List.map_cons, List.map_nil, List.append_assoc,
        List.singleton_append]
      exact List.perm_middle
    refine ⟨hp.uids, hp.held, ?_, ?_, hp.conn, ?_, ?_, ?_, ?_, ?_, ?_, ?_⟩
    · intro l1 hl1 l2 hl2 a1 a2 heq
      exact h.addrs l1 hl1 l2 hl2 (live l1 hl1 a1) (live l2 hl2 a2) heq
    · intro e he
      rcases List.mem_append.mp he with he | he
      · exact h.entry e he
      · simp at he
        subst he
        exact ⟨l, hl, h1, h2⟩
    · refine perm.nodup_iff.mpr (List.nodup_cons.mpr ⟨?_, h.servers⟩)
      intro hm
      exact old _ hm rfl
    · intro n hn
      rcases List.mem_cons.mp (perm.subset hn) with hn | hn
      · rw [hn]; exact Nat.lt_succ_self _
      · exact Nat.lt_succ_of_lt (h.bound n hn)
    · intro e he g hg heq
      rcases List.mem_append.mp he with he | he
      · rcases List.mem_cons.mp hg with hg | hg
        · subst hg
          exact absurd heq.symm (old _ (List.mem_append.mpr (Or.inl (List.mem_map.mpr ⟨e, he, rfl⟩))))
        · exact h.owner e he g hg heq
      · simp at he
        subst he
        rcases List.mem_cons.mp hg with hg | hg
        · subst hg; exact ⟨rfl, rfl⟩
        · have := h.given g hg
          simp only at heq
          omega
    · intro g hg g' hg' heq
      rcases List.mem_cons.mp hg with hg | hg <;> rcases List.mem_cons.mp hg' with hg' | hg'
      · rw [hg, hg']; exact ⟨rfl, rfl⟩
      · subst hg
        have := h.given g' hg'
        simp only at heq; omega
      · subst hg'
        have := h.given g hg
        simp only at heq; omega
      · exact h.own g hg g' hg' heq
    · intro n hn
      simp only at hn
      refine perm.symm.subset ?_
      by_cases e : n = s.next
      · rw [e]; simp
      · exact List.mem_cons_of_mem _ (h.made n (by omega))
    · intro g hg
      rcases List.mem_cons.mp hg with hg | hg
      · subst hg; exact Nat.lt_succ_self _
      · exact Nat.lt_succ_of_lt (h.given g hg)
    · have none : ∀ e ∈ s.cache, e.url = x.url → e.addr = x.addr → False := by
        intro e he a b
        have := List.find?_eq_none.mp hf e he
        simp [a, b] at this
      intro e he e' he' hu ha
      rcases List.mem_append.mp he with he | he <;> rcases List.mem_append.mp he' with he' | he'
      · exact h.keys e he e' he' hu ha
      · simp at he'; subst he'; exact absurd (none e he hu ha) id
      · simp at he; subst he; exact absurd (none e' he' hu.symm ha.symm) id
      · simp at he he'; rw [he, he']

theorem Inv.onLoop {s : State} (h : Inv s) {u : Nat} {f : Loop → Loop}
    (h1 : ∀ l, (f l).uid = l.uid) (h2 : ∀ l, (f l).addr = l.addr)
    (h3 : ∀ l, (f l).closed = true) (h4 : ∀ l, (f l).held = true → l.held = true) :
    Inv (onLoop s u f) := by
  have g1 : ∀ l, (if l.uid = u then f l else l).uid = l.uid := by intro l; split <;> simp [h1]
  have g2 : ∀ l, (if l.uid = u then f l else l).addr = l.addr := by intro l; split <;> simp [h2]
  have ga : ∀ l, alive (Memory.onLoop s u f) (if l.uid = u then f l else l) = true → alive s l = true := by
    intro l hl
    simp only [alive, Bool.or_eq_true, g1] at hl ⊢
    rcases hl with hl | hl
    · left
      split at hl
      · exact h4 l hl
      · exact hl
    · exact Or.inr hl
  have mem : ∀ l, l ∈ s.loops → (if l.uid = u then f l else l) ∈ (Memory.onLoop s u f).loops :=
    fun l hl => List.mem_map.mpr ⟨l, hl, rfl⟩
  refine ⟨?_, ?_, ?_, ?_, ?_, h.servers, h.bound, h.owner, h.own, h.made, h.given, h.keys⟩
  · have : (Memory.onLoop s u f).loops.map (·.uid) = s.loops.map (·.uid) := by
      simp only [Memory.onLoop, List.map_map]
      exact List.map_congr_left fun l _ => g1 l
    rw [this]; exact h.uids
  · intro l hl hc
    obtain ⟨l', hl', rfl⟩ := List.mem_map.mp hl
    split at hc
    · rw [h3] at hc; cases hc
    · rename_i hu
      rw [if_neg hu]; exact h.held l' hl' hc
  · intro l hl l' hl' ha ha' heq
    obtain ⟨k, hk, rfl⟩ := List.mem_map.mp hl
    obtain ⟨k', hk', rfl⟩ := List.mem_map.mp hl'
    rw [g2, g2] at heq
    rw [h.addrs k hk k' hk' (ga k ha) (ga k' ha') heq]
  · intro e he
    obtain ⟨l, hl, a, b⟩ := h.entry e he
    exact ⟨_, mem l hl, by rw [g1, a], by rw [g2, b]⟩
  · intro c x hx
    obtain ⟨l, hl, a, b⟩ := h.conn c x hx
    exact ⟨_, mem l hl, by rw [g1, a], by rw [g2, b]⟩

theorem Inv.newLoop {s : State} (h : Inv s) {u a : Nat}
    (h1 : s.loops.any (fun l => l.uid == u) = false)
    (h2 : s.loops.any (fun l => alive s l && l.addr == a) = false) :
    Inv { s with loops := ⟨u, a, false, true⟩ :: s.loops } := by
  rw [List.any_eq_false] at h1 h2
  refine ⟨?_, ?_, ?_, ?_, ?_, h.servers, h.bound, h.owner, h.own, h.made, h.given, h.keys⟩
  · simp only [List.map_cons, List.nodup_cons]
    refine ⟨?_, h.uids⟩
    intro hm
    obtain ⟨l, hl, e⟩ := List.mem_map.mp hm
    exact h1 l hl (by simp [e])
  · intro l hl hc
    rcases List.mem_cons.mp hl with hl | hl
    · rw [hl]
    · exact h.held l hl hc
  · intro l hl l' hl' ha ha' heq
    rcases List.mem_cons.mp hl with hl | hl <;> rcases List.mem_cons.mp hl' with hl' | hl'
    · rw [hl, hl']
    · subst hl
      have ha'' : alive s l' = true := ha'
      exact absurd (by simp [ha'', ← heq]) (h2 l' hl')
    · subst hl'
      have ha'' : alive s l = true := ha
      exact absurd (by simp [ha'', heq]) (h2 l hl)
    · exact h.addrs l hl l' hl' ha ha' heq
  · intro e he
    obtain ⟨l, hl, a⟩ := h.entry e he
    exact ⟨l, List.mem_cons_of_mem _ hl, a⟩
  · intro c x hx
    obtain ⟨l, hl, a⟩ := h.conn c x hx
    exact ⟨l, List.mem_cons_of_mem _ hl, a⟩

theorem Inv.step {s : State} (h : Inv s) (e : Ev) : Inv (step s e) := by
  cases e with
  | newLoop u a =>
    simp only [Memory.step]
    split
    · exact h
    · rename_i hc
      simp only [Bool.or_eq_true, not_or, Bool.not_eq_true] at hc
      exact h.newLoop hc.1 hc.2
  | close u => exact h.onLoop (fun _ => rfl) (fun _ => rfl) (fun _ => rfl) (fun _ hl => hl)
  | forget u => exact h.onLoop (fun _ => rfl) (fun _ => rfl) (fun _ => rfl) (fun _ hl => by simp at hl)
  | enter c u url =>
    simp only [Memory.step]
    split
    · exact h
    · split
      · rename_i l hf
        have := List.find?_some hf
        simp at this
        exact h.putConn ⟨l, List.mem_of_find?_eq_some hf, this.1, rfl⟩
      · exact h
  | go c =>
    simp only [Memory.step]
    split
    · rename_i x hc
      split
      · exact h
      · rename_i hn
        simp only [Bool.not_eq_true] at hn
        split
        · exact (h.drop (fun e => isClosed s e.loop)).putConn (h.conn c x hc)
        · exact h.getOrCreate hc hn
        · exact h
    · exact h
  | leave c =>
    simp only [Memory.step]
    split
    · rename_i x hc
      split
      · exact h.putConn (h.conn c x hc)
      · exact h
    · exact h
  | clear =>
    have := h.drop (fun _ => true)
    have e : Memory.step s .clear = { s with cache := s.cache.filter fun e => !(fun _ => true) e, shut := s.shut ++ (s.cache.filter (fun _ => true)).map (·.server) } := by
      have ft : ∀ l : List Entry, l.filter (fun _ => true) = l := fun l => List.filter_eq_self.mpr (fun _ _ => rfl)
      simp [Memory.step, ft]
    rw [e]; exact this

theorem run_snoc (es : List Ev) (e : Ev) : run (es ++ [e]) = step (run es) e := by
  simp [run, List.foldl_append]

theorem Inv.run (es : List Ev) : Inv (run es) := by
  have : ∀ (es : List Ev) s, Inv s → Inv (es.foldl Memory.step s) := by
    intro es
    induction es with
    | nil => intro s h; exact h
    | cons e es ih => intro s h; exact ih _ (h.step e)
  exact this es _ Inv.init

/-! ## What happens to a server -/

/-- Only looking up the cache gives a server. -/
theorem gives_cases {s : State} {e : Ev} {g : Served} (h : (step s e).served = g :: s.served) :
    ∃ c x, e = .go c ∧ s.conns c = some x ∧ x.phase = .getting ∧ isClosed s x.loop = false ∧
      step s e = getOrCreate s c x ∧ g.conn = c ∧ g.url = x.url ∧ g.loop = x.loop := by
  have no : ∀ l : List Served, l ≠ g :: l := by
    intro l hl
    have := congrArg List.length hl
    simp at this
  cases e with
  | newLoop u a =>
    simp only [step] at h
    split at h <;> exact absurd h (no _)
  | close u => exact absurd h (no _)
  | forget u => exact absurd h (no _)
  | enter c u url =>
    simp only [step] at h
    split at h
    · exact absurd h (no _)
    · split at h <;> exact absurd h (no _)
  | go c =>
    simp only [step] at h ⊢
    cases hc : s.conns c with
    | none => rw [hc] at h; exact absurd h (no _)
    | some x =>
      rw [hc] at h
      simp only at h ⊢
      cases hn : isClosed s x.loop with
      | true => simp only [hn, if_true] at h; exact absurd h (no _)
      | false =>
        simp only [hn, Bool.false_eq_true, if_false] at h ⊢
        obtain ⟨url, l, a, ph⟩ := x
        cases ph with
        | dropping => exact absurd h (no _)
        | connected n => exact absurd h (no _)
        | over => exact absurd h (no _)
        | getting =>
          simp only at h ⊢
          refine ⟨c, _, rfl, hc, rfl, hn, rfl, ?_⟩
          unfold getOrCreate at h
          split at h
          · simp only [List.cons.injEq, and_true] at h
            rw [← h]; exact ⟨rfl, rfl, rfl⟩
          · simp only [List.cons.injEq, and_true] at h
            rw [← h]; exact ⟨rfl, rfl, rfl⟩
  | leave c =>
    simp only [step] at h
    split at h
    · split at h <;> exact absurd h (no _)
    · exact absurd h (no _)
  | clear => exact absurd h (no _)

/-- The server given is in the cache under the connection's key. -/
theorem gives_entry {s : State} {c : Nat} {x : Conn} {g : Served} (hi : Inv s)
    (hc : s.conns c = some x) (hn : isClosed s x.loop = false)
    (h : (getOrCreate s c x).served = g :: s.served) :
    ∃ e ∈ (getOrCreate s c x).cache, e.url = x.url ∧ e.addr = x.addr ∧ e.loop = x.loop ∧
      e.server = g.server := by
  obtain ⟨l, hl, h1, h2, _, h4⟩ := hi.open_of hc hn
  unfold getOrCreate at h ⊢
  split at h
  · rename_i e hf
    obtain ⟨he, hu, ha⟩ := find_key hf
    simp only [List.cons.injEq, and_true] at h
    subst h
    simp only
    exact ⟨e, he, hu, ha, hi.found hl h1 h2 h4 he ha, rfl⟩
  · simp only [List.cons.injEq, and_true] at h
    subst h
    simp only
    exact ⟨⟨x.url, x.addr, x.loop, s.next⟩, by simp, rfl, rfl, rfl, rfl⟩

/-- The server is kept for its loop, or the loop has been closed. -/
def Kept (s : State) (g : Served) : Prop :=
  Closed s g.loop ∨ ∃ e ∈ s.cache, e.url = g.url ∧ e.loop = g.loop ∧ e.server = g.server

theorem Kept.step {s : State} {g : Served} (h : Kept s g) {e : Ev} (he : e ≠ .clear) :
    Kept (step s e) g := by
  have onL : ∀ u (f : Loop → Loop), (∀ l, (f l).uid = l.uid) → (∀ l, (f l).closed = true) →
      Kept (onLoop s u f) g := by
    intro u f h1 h2
    rcases h with ⟨l, hl, a, b⟩ | h
    · refine Or.inl ⟨_, List.mem_map.mpr ⟨l, hl, rfl⟩, ?_, ?_⟩
      · split
        · rw [h1, a]
        · exact a
      · split
        · exact h2 l
        · exact b
    · exact Or.inr h
  cases e with
  | newLoop u a =>
    simp only [Memory.step]
    split
    · exact h
    · rcases h with ⟨l, hl, a⟩ | h
      · exact Or.inl ⟨l, List.mem_cons_of_mem _ hl, a⟩
      · exact Or.inr h
  | close u => exact onL u _ (fun _ => rfl) (fun _ => rfl)
  | forget u => exact onL u _ (fun _ => rfl) (fun _ => rfl)
  | enter c u url =>
    simp only [Memory.step]
    split
    · exact h
    · split
      · exact h
      · exact h
  | go c =>
    simp only [Memory.step]
    split
    · rename_i x hc
      split
      · exact h
      · split
        · rcases h with h | ⟨e, he, a, b, d⟩
          · exact Or.inl h
          · cases hcl : isClosed s e.loop with
            | true => exact Or.inl (by rw [← b]; exact (isClosed_iff s _).mp hcl)
            | false =>
              exact Or.inr ⟨e, List.mem_filter.mpr ⟨he, by simp [hcl]⟩, a, b, d⟩
        · unfold getOrCreate
          split
          · exact h
          · rcases h with h | ⟨e, he, a⟩
            · exact Or.inl h
            · exact Or.inr ⟨e, List.mem_append.mpr (Or.inl he), a⟩
        · exact h
    · exact h
  | leave c =>
    simp only [Memory.step]
    split
    · split <;> exact h
    · exact h
  | clear => exact absurd rfl he

theorem kept_after {es : List Ev} {e : Ev} {g : Served} (h : Gives es e g) :
    ∀ mid : List Ev, .clear ∉ mid → Kept (run (es ++ e :: mid)) g := by
  have h' := h
  unfold Gives at h'
  rw [run_snoc] at h'
  obtain ⟨c, x, he, hc, _, hn, hstep, _, hu, hl⟩ := gives_cases h'
  have h0 : Kept (run (es ++ [e])) g := by
    rw [run_snoc, hstep]
    rw [hstep] at h'
    obtain ⟨en, g1, g2, _, g4, g5⟩ := gives_entry (Inv.run es) hc hn h'
    exact Or.inr ⟨en, g1, by rw [g2, hu], by rw [g4, hl], g5⟩
  have key : ∀ (mid : List Ev) s, Kept s g → .clear ∉ mid → Kept (mid.foldl Memory.step s) g := by
    intro mid
    induction mid with
    | nil => intro s h _; exact h
    | cons m ms ih =>
      intro s h hm
      exact ih _ (h.step (fun e => hm (by simp [e]))) (fun e => hm (by simp [e]))
  intro mid hm
  have := key mid _ h0 hm
  have e1 : run (es ++ e :: mid) = mid.foldl Memory.step (run (es ++ [e])) := by
    simp [run, List.foldl_append]
  rw [e1]; exact this

theorem open_not_closed {s : State} (h : Inv s) {u : Nat} (ho : Open s u) : ¬ Closed s u := by
  rintro ⟨l, hl, a, b⟩
  obtain ⟨l', hl', a', b'⟩ := ho
  have := uid_inj h.uids hl hl' (by rw [a, a'])
  rw [this, b'] at b
  cases b

/-! ## Theorems -/

/-- **C92, one server.**  Two connections to the same URL in the same event loop get the same
server, whatever happens between them: even when nothing is connected for a while, and
whatever other loops and threads do; unless `clear_memory_servers` is called between them. -/
theorem C92_shared {es mid : List Ev} {e e' : Ev} {g g' : Served} (h : Gives es e g)
    (h' : Gives (es ++ e :: mid) e' g') (hurl : g'.url = g.url) (hloop : g'.loop = g.loop)
    (hclear : .clear ∉ mid) : g'.server = g.server := by
  have hk := kept_after h mid hclear
  have hi := Inv.run (es ++ e :: mid)
  unfold Gives at h'
  rw [run_snoc] at h'
  obtain ⟨c, x, he, hc, _, hn, hstep, _, hu, hl⟩ := gives_cases h'
  rw [hstep] at h'
  obtain ⟨l, hlm, a1, a2, _, _⟩ := hi.open_of hc hn
  rcases hk with hk | ⟨en, hen, b1, b2, b3⟩
  · have : isClosed (run (es ++ e :: mid)) x.loop = true :=
      (isClosed_iff _ _).mpr (by rw [← hl, hloop]; exact hk)
    rw [hn] at this; cases this
  · have haddr : en.addr = x.addr := by
      obtain ⟨l', hl', c1, c2⟩ := hi.entry en hen
      have : l' = l := uid_inj hi.uids hl' hlm (by rw [c1, a1, b2, ← hloop, hl])
      rw [← c2, this, a2]
    have hen' : en ∈ (getOrCreate (run (es ++ e :: mid)) c x).cache := by
      unfold getOrCreate
      split
      · exact hen
      · exact List.mem_append.mpr (Or.inl hen)
    obtain ⟨en2, d1, d2, d3, d4, d5⟩ := gives_entry hi hc hn h'
    have hi' := hi.getOrCreate hc hn
    have := hi'.keys en hen' en2 d1 (by rw [b1, d2, ← hu, hurl]) (by rw [haddr, d3])
    rw [← d5, ← this, b3]

/-- **C92, no sharing.**  Connections to different URLs, or in different event loops, never
get the same server, not even when a loop is gone and another has taken its place in memory. -/
theorem C92_apart (es : List Ev) : ∀ g ∈ (run es).served, ∀ g' ∈ (run es).served,
    g.server = g'.server → g.url = g'.url ∧ g.loop = g'.loop :=
  (Inv.run es).own

/-- **C92, kept.**  A server that has been given to a connection is not closed as long as the
connection's loop is open, unless `clear_memory_servers` is called. -/
theorem C92_kept {es mid : List Ev} {e : Ev} {g : Served} (h : Gives es e g)
    (hopen : Open (run (es ++ e :: mid)) g.loop) (hclear : .clear ∉ mid) :
    g.server ∉ (run (es ++ e :: mid)).shut := by
  have hi := Inv.run (es ++ e :: mid)
  rcases kept_after h mid hclear with hk | ⟨en, hen, _, _, b3⟩
  · exact absurd hk (open_not_closed hi hopen)
  · intro hs
    have := (List.nodup_append.mp hi.servers).2.2 en.server (List.mem_map.mpr ⟨en, hen, rfl⟩)
      g.server hs
    exact this b3

/-- **C92, working.**  No connection is given a server that has been closed. -/
theorem C92_working {es : List Ev} {e : Ev} {g : Served} (h : Gives es e g) :
    g.server ∉ (run (es ++ [e])).shut := by
  refine C92_kept (mid := []) h ?_ (by simp)
  have h' := h
  unfold Gives at h'
  rw [run_snoc] at h'
  obtain ⟨c, x, he, hc, _, hn, hstep, _, hu, hl⟩ := gives_cases h'
  obtain ⟨l, hlm, a1, _, a3, _⟩ := (Inv.run es).open_of hc hn
  show Open (run (es ++ [e])) g.loop
  rw [run_snoc, hstep]
  refine ⟨l, ?_, by rw [a1, hl], a3⟩
  unfold getOrCreate
  split <;> exact hlm

/-- **C92, cleaned up.**  No server is closed twice, and when a connection is made, every
server of a loop that has been closed before has been closed. -/
theorem C92_cleaned_up (es : List Ev) :
    (run es).shut.Nodup ∧
    ∀ (c : Nat) (x : Conn), (run es).conns c = some x → x.phase = .dropping →
      Open (run es) x.loop →
      ∀ g ∈ (run es).served, Closed (run es) g.loop → g.server ∈ (run (es ++ [.go c])).shut := by
  have hi := Inv.run es
  refine ⟨(List.nodup_append.mp hi.servers).2.1, ?_⟩
  intro c x hc hp ho g hg hcl
  have hn : isClosed (run es) x.loop = false := by
    cases h : isClosed (run es) x.loop with
    | false => rfl
    | true => exact absurd ((isClosed_iff _ _).mp h) (open_not_closed hi ho)
  rw [run_snoc]
  simp only [step, hc, hn, hp, Bool.false_eq_true, if_false]
  show g.server ∈ (run es).shut ++ _
  rcases List.mem_append.mp (hi.made _ (hi.given g hg)) with h | h
  · obtain ⟨e, he, hs⟩ := List.mem_map.mp h
    refine List.mem_append.mpr (Or.inr (List.mem_map.mpr ⟨e, List.mem_filter.mpr ⟨he, ?_⟩, hs⟩))
    have := hi.owner e he g hg hs.symm
    rw [← this.2]
    exact (isClosed_iff _ _).mpr hcl
  · exact List.mem_append.mpr (Or.inl h)

/-- **C92, connecting.**  A connection entered in an open loop, in a history in which it is
not known yet, has its server after its two steps, whatever happens in between that leaves
its loop open. -/
theorem C92_connects {es : List Ev} {c u : Nat} {url : String} (hc : (run es).conns c = none)
    (ho : Open (run es) u) :
    ∃ g, Gives (es ++ [.enter c u url, .go c]) (.go c) g ∧ g.conn = c ∧ g.url = url ∧ g.loop = u := by
  obtain ⟨l, hl, h1, h2⟩ := ho
  have hi := Inv.run es
  have hf : ∃ l', (run es).loops.find? (fun l => l.uid == u && !l.closed) = some l' := by
    cases h : (run es).loops.find? (fun l => l.uid == u && !l.closed) with
    | some l' => exact ⟨l', rfl⟩
    | none =>
      have := List.find?_eq_none.mp h l hl
      simp [h1, h2] at this
  obtain ⟨l', hf⟩ := hf
  have hn : isClosed (run es) u = false := by
    cases h : isClosed (run es) u with
    | false => rfl
    | true =>
      exact absurd ((isClosed_iff _ _).mp h) (open_not_closed hi ⟨l, hl, h1, h2⟩)
  have s1 : run (es ++ [.enter c u url]) = putConn (run es) c ⟨url, u, l'.addr, .dropping⟩ := by
    rw [run_snoc]; simp only [step, hc, hf]
  have s2 : run (es ++ [.enter c u url, .go c]) =
      putConn (dropClosed (putConn (run es) c ⟨url, u, l'.addr, .dropping⟩)) c
        ⟨url, u, l'.addr, .getting⟩ := by
    have : es ++ [.enter c u url, .go c] = (es ++ [.enter c u url]) ++ [.go c] := by simp
    rw [this, run_snoc, s1]
    have hn' : isClosed (putConn (run es) c ⟨url, u, l'.addr, .dropping⟩) u = false := hn
    have hc' : (putConn (run es) c ⟨url, u, l'.addr, .dropping⟩).conns c =
        some ⟨url, u, l'.addr, .dropping⟩ := by simp [putConn]
    simp only [step, hc', hn', Bool.false_eq_true, if_false]
  unfold Gives
  rw [run_snoc, s2]
  generalize hs : putConn (dropClosed (putConn (run es) c ⟨url, u, l'.addr, .dropping⟩)) c
        ⟨url, u, l'.addr, .getting⟩ = s
  have hcs : s.conns c = some ⟨url, u, l'.addr, .getting⟩ := by rw [← hs]; simp [putConn]
  have hns : isClosed s u = false := by rw [← hs]; exact hn
  simp only [step, hcs, hns, Bool.false_eq_true, if_false, getOrCreate]
  split
  · exact ⟨_, rfl, rfl, rfl, rfl⟩
  · exact ⟨_, rfl, rfl, rfl, rfl⟩

/-! ## Examples -/

/-- Two loops, one closed and forgotten, whose address a third one gets after its entry has
been dropped; connections in all of them. -/
def busy : List Ev :=
  [.newLoop 1 100, .enter 1 1 "memory://a", .go 1, .go 1, .leave 1,
   .enter 2 1 "memory://a", .go 2, .go 2, .enter 3 1 "memory://b", .go 3, .go 3,
   .forget 1, .newLoop 2 100, .newLoop 2 101, .enter 4 2 "memory://a", .go 4, .go 4,
   .newLoop 3 100, .enter 5 3 "memory://a", .go 5, .go 5]

example : (run busy).served = [⟨5, "memory://a", 3, 3⟩, ⟨4, "memory://a", 2, 2⟩,
    ⟨3, "memory://b", 1, 1⟩, ⟨2, "memory://a", 1, 0⟩, ⟨1, "memory://a", 1, 0⟩] ∧
    (run busy).shut = [0, 1] ∧ (run busy).loops.map (fun l => (l.uid, l.addr)) =
      [(3, 100), (2, 101), (1, 100)] := by decide +kernel

/-- The hypotheses of `C92_shared` and `C92_kept` are met, with nothing connected between. -/
example : Gives (busy.take 3) (.go 1) ⟨1, "memory://a", 1, 0⟩ ∧
    Gives (busy.take 3 ++ .go 1 :: [.leave 1, .enter 2 1 "memory://a", .go 2]) (.go 2)
      ⟨2, "memory://a", 1, 0⟩ := by
  constructor <;> unfold Gives <;> decide +kernel

end Docket.Memory
