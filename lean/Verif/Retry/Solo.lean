import Verif.Core.Frames
import Verif.Core.Gens
/-
The life of one task under a key that nobody else touches: there is always exactly
one message of it, and the number of starts is tied to the number of runs that ended.
This is a consequence of the model, used by the proofs about retries.
-/
namespace Docket
open Redis

/-- The step is not about `k` from outside: no client schedules, cancels or clears,
nothing of `k` is struck, and a message of `k` is redelivered only when no worker
holds it any more. -/
def Undisturbed (k : Key) (s : Sys) : Op → Prop
  | .add k' _ _ | .replace k' _ _ | .cancel k' => k' ≠ k
  | .clear | .clearRead | .clearWrite => False
  | .redeliver _ id => ∀ p ∈ s.procs, p.msg.key = k → p.id ≠ id
  | .strikeOut pid => ∀ p ∈ s.procs, p.pid = pid → p.msg.key ≠ k
  | _ => True

instance (k : Key) (s : Sys) : ∀ op, Decidable (Undisturbed k s op) := by
  intro op; cases op <;> unfold Undisturbed <;> infer_instance

def isStart (k : Key) : Event → Bool
  | .started _ _ m _ => m.key = k
  | _ => false

def isRedelivery (k : Key) : Event → Bool
  | .handed _ _ _ r _ m => r && m.key = k
  | _ => false

/-- How often a task of `k` was started. -/
def starts (l : List Event) (k : Key) : Nat := l.countP (isStart k)
/-- How often a message of `k` was redelivered. -/
def redeliveries (l : List Event) (k : Key) : Nat := l.countP (isRedelivery k)

/-- `m` is the only message of `k`; `c` runs of `k` have ended so far. -/
structure Solo (s : Sys) (k : Key) (m : Msg) (c : Nat) : Prop where
  key : m.key = k
  pos : 0 < m.gen
  gen : s.r.genOf k = some m.gen
  keep : ∀ h, s.r.runs k = some h → h.expireAt = none
  ttl : k ∉ s.ttlJobs
  jobs : s.clearJobs = []
  place : ((s.r.parked k = some m ∧ (k, m.req.when_) ∈ s.r.queue) ∧
      (∀ e ∈ s.r.stream, e.2.key ≠ k) ∧ (∀ p ∈ s.procs, p.msg.key ≠ k)) ∨
    (s.r.parked k = none ∧ ∃ id, (id, m) ∈ s.r.stream ∧
      (∀ e ∈ s.r.stream, e.2.key = k → e = (id, m)) ∧
      ∀ p ∈ s.procs, p.msg.key = k → p.id = id ∧ p.msg = m ∧ p.phase ≠ .stricken)
  one : ∀ p ∈ s.procs, ∀ p' ∈ s.procs, p.msg.key = k → p'.msg.key = k → p = p'
  low : c ≤ starts s.log k
  lowRun : ∀ p ∈ s.procs, p.msg.key = k → p.phase = .running → c + 1 ≤ starts s.log k
  high : starts s.log k ≤ c + redeliveries s.log k + 1
  handed : ∀ p ∈ s.procs, p.msg.key = k → p.phase = .handed →
    starts s.log k ≤ c + redeliveries s.log k
  parked : (s.r.parked k).isSome → starts s.log k ≤ c + redeliveries s.log k
  undelivered : ∀ e ∈ s.r.stream, e.2.key = k → s.r.lastDelivered < e.1 →
    starts s.log k ≤ c + redeliveries s.log k

/-- No message of `k` is left; `c` runs of `k` have ended. -/
structure Over (s : Sys) (k : Key) (c : Nat) : Prop where
  none : ¬ SomeMessage s k
  low : c ≤ starts s.log k
  high : starts s.log k ≤ c + redeliveries s.log k

theorem runs_congr' {s s' : Sys} {k : Key} (h : s'.r.runs k = s.r.runs k) :
    s'.r.genOf k = s.r.genOf k := by
  simp [Redis.genOf, h]

theorem pid_inj {s : Sys} (hw : WF s) {a b : Proc} (ha : a ∈ s.procs) (hb : b ∈ s.procs)
    (h : a.pid = b.pid) : a = b := by
  have h1 := proc?_of_mem hw ha
  have h2 := proc?_of_mem hw hb
  rw [h, h2] at h1
  exact (Option.some.inj h1).symm

theorem nodup_filterMap_key {f : Key → Option Msg} {ks : List Key} (hn : ks.Nodup)
    (hf : ∀ a b v, f a = some v → f b = some v → a = b) : (ks.filterMap f).Nodup := by
  induction ks with
  | nil => simp
  | cons k ks ih =>
    rw [List.nodup_cons] at hn
    cases hk : f k with
    | none => simpa [hk] using ih hn.2
    | some v =>
      simp only [List.filterMap_cons, hk, List.nodup_cons]
      refine ⟨fun hm => ?_, ih hn.2⟩
      obtain ⟨k2, h1, h2⟩ := List.mem_filterMap.1 hm
      exact hn.1 (hf _ _ _ hk h2 ▸ h1)

/-- Nothing of `k` changed, except that workers may have died. -/
theorem Solo.frame {s s' : Sys} {k : Key} {m : Msg} {c : Nat} (h : Solo s k m c)
    (hg : s'.r.genOf k = s.r.genOf k)
    (hx : ∀ h, s'.r.runs k = some h → h.expireAt = none)
    (hpk : s'.r.parked k = s.r.parked k)
    (hq : ∀ t, (k, t) ∈ s.r.queue → (k, t) ∈ s'.r.queue)
    (hst : ∀ e, e.2.key = k → (e ∈ s'.r.stream ↔ e ∈ s.r.stream))
    (hld : s.r.lastDelivered ≤ s'.r.lastDelivered)
    (hps : ∀ p ∈ s'.procs, p.msg.key = k → p ∈ s.procs)
    (httl : k ∉ s'.ttlJobs) (hj : s'.clearJobs = s.clearJobs)
    (hs : starts s'.log k = starts s.log k)
    (hr : redeliveries s'.log k = redeliveries s.log k) : Solo s' k m c where
  key := h.key
  pos := h.pos
  gen := hg.trans h.gen
  keep := hx
  ttl := httl
  jobs := hj.trans h.jobs
  place := by
    rcases h.place with ⟨⟨h1, h2⟩, h3, h4⟩ | ⟨h1, id, h2, h3, h4⟩
    · refine Or.inl ⟨⟨hpk.trans h1, hq _ h2⟩, fun e he hk => ?_, fun p hp hk => ?_⟩
      · exact h3 e ((hst e hk).1 he) hk
      · exact h4 p (hps p hp hk) hk
    · refine Or.inr ⟨hpk.trans h1, id, (hst _ h.key).2 h2, fun e he hk => ?_, fun p hp hk => ?_⟩
      · exact h3 e ((hst e hk).1 he) hk
      · exact h4 p (hps p hp hk) hk
  one := fun p hp p' hp' hk hk' => h.one p (hps p hp hk) p' (hps p' hp' hk') hk hk'
  low := by rw [hs]; exact h.low
  lowRun := fun p hp hk hph => by rw [hs]; exact h.lowRun p (hps p hp hk) hk hph
  high := by rw [hs, hr]; exact h.high
  handed := fun p hp hk hph => by rw [hs, hr]; exact h.handed p (hps p hp hk) hk hph
  parked := fun hp => by rw [hs, hr]; exact h.parked (hpk ▸ hp)
  undelivered := fun e he hk hlt => by
    rw [hs, hr]; exact h.undelivered e ((hst e hk).1 he) hk (by omega)

theorem Solo.not_superseded {s : Sys} {k : Key} {m : Msg} {c : Nat} (h : Solo s k m c) {p : Proc}
    (hp : p ∈ s.procs) (hk : p.msg.key = k) : isSuperseded s.r p.msg.key p.msg.gen = false := by
  rcases h.place with ⟨_, _, h4⟩ | ⟨_, id, _, _, h4⟩
  · exact absurd hk (h4 p hp)
  · obtain ⟨_, h5, _⟩ := h4 p hp hk
    rw [h5, h.key]
    simp [isSuperseded, h.gen]

theorem Solo.held {s : Sys} {k : Key} {m : Msg} {c : Nat} (h : Solo s k m c) {p : Proc}
    (hp : p ∈ s.procs) (hk : p.msg.key = k) :
    s.r.parked k = none ∧ p.msg = m ∧ (p.id, m) ∈ s.r.stream ∧
      (∀ e ∈ s.r.stream, e.2.key = k → e = (p.id, m)) ∧
      (∀ x ∈ s.procs, x.msg.key = k → x = p) := by
  rcases h.place with ⟨_, _, h4⟩ | ⟨h1, id, h2, h3, h4⟩
  · exact absurd hk (h4 p hp)
  · obtain ⟨h5, h6, _⟩ := h4 p hp hk
    subst h5
    exact ⟨h1, h6, h2, h3, fun x hx hxk => h.one x hx p hp hxk hk⟩

/-- Messages of other keys may be added to the stream. -/
theorem mem_append_other {st new : List (MsgId × Msg)} {k : Key} (hn : ∀ e ∈ new, e.2.key ≠ k) :
    ∀ e, e.2.key = k → (e ∈ st ++ new ↔ e ∈ st) := by
  intro e hk
  simp only [List.mem_append]
  exact ⟨fun h => h.elim id (fun h => absurd hk (hn e h)), Or.inl⟩

/-- Messages of other keys may be removed from the stream. -/
theorem mem_filter_other {st : List (MsgId × Msg)} {k : Key} {id : MsgId}
    (hn : ∀ e ∈ st, e.2.key = k → e.1 ≠ id) :
    ∀ e, e.2.key = k → (e ∈ st.filter (fun e => e.1 ≠ id) ↔ e ∈ st) := by
  intro e hk
  simp only [List.mem_filter, decide_eq_true_eq, ne_eq]
  exact ⟨fun h => h.1, fun h => ⟨h, hn e h hk⟩⟩

theorem mem_dropOwn_other {s : Sys} (hw : WF s) {k k' : Key} (hk : k' ≠ k) :
    ∀ e, e.2.key = k → (e ∈ dropOwn s.r k' ↔ e ∈ s.r.stream) := by
  intro e hek
  simp only [dropOwn]
  cases hs : s.r.streamIdOf k' with
  | none => exact Iff.rfl
  | some id =>
    refine mem_filter_other ?_ e hek
    intro e' he' hk' hid
    simp only [Redis.streamIdOf, Option.bind_eq_some_iff] at hs
    obtain ⟨h, h1, h2⟩ := hs
    exact hk (((hw.sid k' h id h1 h2).2 e' he' hid).symm.trans hk')

theorem mem_zinsert_other {k k' : Key} {t t' : Time} {q : List (Key × Time)} (hk : k' ≠ k)
    (h : (k, t) ∈ q) : (k, t) ∈ zinsert k' t' (q.filter (fun e => e.1 ≠ k')) := by
  rw [zinsert_mem]
  right
  simp only [List.mem_filter, decide_eq_true_eq, ne_eq]
  exact ⟨h, fun h => hk h.symm⟩

theorem starts_cons_of {ev : Event} {l : List Event} {k : Key} (h : isStart k ev = false) :
    starts (ev :: l) k = starts l k := by
  simp [starts, h]

theorem redeliveries_cons_of {ev : Event} {l : List Event} {k : Key} (h : isRedelivery k ev = false) :
    redeliveries (ev :: l) k = redeliveries l k := by
  simp [redeliveries, h]

theorem starts_handed {w : WorkerName} {red : Bool} {t : Time} {k : Key} {l : List Event}
    (ms : List (MsgId × Msg)) (pid : Nat) :
    starts ((newHanded pid w red t ms).reverse ++ l) k = starts l k := by
  rw [starts, List.countP_append, List.countP_reverse]
  have : (newHanded pid w red t ms).countP (isStart k) = 0 := by
    rw [List.countP_eq_zero]
    intro ev hev
    obtain ⟨p, e, rfl, _⟩ := mem_newHanded hev
    simp [isStart]
  rw [this, Nat.zero_add]; rfl

theorem redeliveries_handed {w : WorkerName} {t : Time} {k : Key} {l : List Event}
    (ms : List (MsgId × Msg)) (pid : Nat) :
    redeliveries ((newHanded pid w false t ms).reverse ++ l) k = redeliveries l k := by
  rw [redeliveries, List.countP_append, List.countP_reverse]
  have : (newHanded pid w false t ms).countP (isRedelivery k) = 0 := by
    rw [List.countP_eq_zero]
    intro ev hev
    obtain ⟨p, e, rfl, _⟩ := mem_newHanded hev
    simp [isRedelivery]
  rw [this, Nat.zero_add]; rfl

theorem newProcs_id_inj {w : WorkerName} {red : Bool} {new : List (MsgId × Msg)} {np : Nat}
    (hn : (new.map (·.1)).Nodup) : ∀ p ∈ newProcs np w red new, ∀ p' ∈ newProcs np w red new,
      p.id = p'.id → p = p' := by
  induction new generalizing np with
  | nil => simp [newProcs]
  | cons e es ih =>
    simp only [List.map_cons, List.nodup_cons] at hn
    have hne : ∀ p ∈ newProcs (np + 1) w red es, p.id ≠ e.1 := by
      intro p hp hid
      exact hn.1 (List.mem_map.2 ⟨_, (mem_newProcs hp).1, hid⟩)
    intro p hp p' hp' hid
    simp only [newProcs, List.mem_cons] at hp hp'
    rcases hp with rfl | hp <;> rcases hp' with rfl | hp'
    · rfl
    · exact absurd hid.symm (hne p' hp')
    · exact absurd hid (hne p hp)
    · exact ih hn.2 p hp p' hp' hid

/-- The step ends a run of `k`: it is rescheduled, or marked terminal. -/
def EndsRun (s : Sys) (k : Key) (op : Op) : Prop :=
  ∃ p ∈ s.procs, p.msg.key = k ∧ p.phase = .running ∧
    ((∃ t a d, op = .reschedule p.pid t a d ∧ d ≤ s.r.now) ∨
      ∃ st e w, op = .finish p.pid st e w ∧ st.terminal = true)

/-- Operations that end no run. -/
def NoEnd : Op → Prop
  | .reschedule .. | .finish .. => False
  | _ => True

theorem notEndsRun {s : Sys} {k : Key} {op : Op} (h : NoEnd op) : ¬ EndsRun s k op := by
  rintro ⟨p, _, _, _, (⟨t, a, d, rfl, _⟩ | ⟨st, e, w, rfl, _⟩)⟩
  · exact h
  · exact h

theorem notEndsRun_other {s : Sys} (hw : WF s) {k : Key} {op : Op} {p : Proc} (hp : p ∈ s.procs)
    (hk : p.msg.key ≠ k) (hop : (∃ t a d, op = .reschedule p.pid t a d) ∨
      ∃ st e w, op = .finish p.pid st e w) : ¬ EndsRun s k op := by
  rintro ⟨p', hp', hk', _, h⟩
  have : p'.pid = p.pid := by
    rcases hop with ⟨t, a, d, rfl⟩ | ⟨st, e, w, rfl⟩ <;>
    rcases h with ⟨t', a', d', h, _⟩ | ⟨st', e', w', h, _⟩ <;>
    simp at h <;> exact h.1.symm
  exact hk (pid_inj hw hp hp' this.symm ▸ hk')

theorem notEndsRun_nop {cfg : Cfg} {s : Sys} (hw : WF s) {k : Key} {op : Op} (h : step cfg s op = s) :
    ¬ EndsRun s k op := by
  rintro ⟨p, hp, _, hr, (⟨t, a, d, rfl, hd⟩ | ⟨st, e, w, rfl, ht⟩)⟩
  · have := congrArg (fun s => s.log.length) h
    simp [Docket.step, doReschedule, proc?_of_mem hw hp, hr, hd] at this
  · have := congrArg (fun s => s.log.length) h
    simp [Docket.step, doFinish, proc?_of_mem hw hp, hr, ht] at this

/-- What a step can do to the only message of an undisturbed key. -/
theorem Solo.step {cfg : Cfg} {s : Sys} {k : Key} {m : Msg} {c : Nat} (hw : WF s)
    (h : Solo s k m c) (op : Op) (hu : Undisturbed k s op) :
    (Solo (step cfg s op) k m c ∧ ¬ EndsRun s k op) ∨
    (∃ p t a d m', op = .reschedule p.pid t a d ∧ p ∈ s.procs ∧ p.msg = m ∧ p.phase = .running ∧
      m'.req = { m.req with when_ := t, attempt := a } ∧ Solo (step cfg s op) k m' (c + 1)) ∨
    (∃ p st e w, op = .finish p.pid st e w ∧ p ∈ s.procs ∧ p.msg = m ∧ p.phase = .running ∧
      Over (step cfg s op) k (c + 1)) := by
  have he := step_eff cfg s hw.queue op
  generalize hstep : Docket.step cfg s op = s' at he
  have hstay : ∀ x ∈ s.r.stream, ∀ p ∈ s.procs, p.msg.key ≠ k → x.2.key = k → x.1 ≠ p.id := by
    intro x hx p hp hpk hxk hid
    have := (hw.procs.1 p hp).2.2 x hx hid
    rw [this] at hxk
    exact hpk hxk
  cases he with
  | nop => exact Or.inl ⟨h, notEndsRun_nop hw hstep⟩
  | tick d =>
    refine Or.inl ⟨?_, notEndsRun trivial⟩
    have hr : (s.r.advance d).runs k = s.r.runs k := by
      simp only [advance]
      rcases Option.eq_none_or_eq_some (s.r.runs k) with hr | ⟨v, hr⟩
      · simp [hr]
      · simp [hr, h.keep v hr]
    refine h.frame ?_ ?_ rfl (fun _ h => h) (fun _ _ => Iff.rfl) (Nat.le_refl _) (fun _ h _ => h)
      h.ttl rfl rfl rfl
    · simp only [Redis.genOf, hr]
    · intro v hv; exact h.keep v (hr ▸ hv)
  | addNow k' q t ht hwh hx =>
    refine Or.inl ⟨?_, notEndsRun trivial⟩
    have hk : k ≠ k' := fun e => hu e.symm
    refine h.frame (runs_congr' (upd_other _ _ _ _ hk)) ?_ rfl (fun _ h => h)
      (mem_append_other (by simpa using hk.symm)) (Nat.le_refl _) (fun _ h _ => h) h.ttl rfl
      (starts_cons_of rfl) (redeliveries_cons_of rfl)
    intro v hv; exact h.keep v ((upd_other _ _ _ _ hk).symm.trans hv)
  | addLater k' q t ht hwh hx =>
    refine Or.inl ⟨?_, notEndsRun trivial⟩
    have hk : k ≠ k' := fun e => hu e.symm
    refine h.frame (runs_congr' (upd_other _ _ _ _ hk)) ?_ (upd_other _ _ _ _ hk)
      (fun _ h => mem_zinsert_other hk.symm h) (fun _ _ => Iff.rfl) (Nat.le_refl _)
      (fun _ h _ => h) h.ttl rfl (starts_cons_of rfl) (redeliveries_cons_of rfl)
    intro v hv; exact h.keep v ((upd_other _ _ _ _ hk).symm.trans hv)
  | replaceNow k' q t ht hwh =>
    refine Or.inl ⟨?_, notEndsRun trivial⟩
    have hk : k ≠ k' := fun e => hu e.symm
    refine h.frame (runs_congr' (upd_other _ _ _ _ hk)) ?_ (upd_other _ _ _ _ hk)
      ?_ (fun e he => (mem_append_other (by simpa using hk.symm) e he).trans
        (mem_dropOwn_other hw hk.symm e he)) (Nat.le_refl _)
      (fun _ h _ => h) h.ttl rfl (starts_cons_of rfl) (redeliveries_cons_of rfl)
    · intro v hv; exact h.keep v ((upd_other _ _ _ _ hk).symm.trans hv)
    · intro t h; simp only [List.mem_filter, ne_eq, decide_eq_true_eq]; exact ⟨h, hk⟩
  | replaceLater k' q t ht hwh =>
    refine Or.inl ⟨?_, notEndsRun trivial⟩
    have hk : k ≠ k' := fun e => hu e.symm
    refine h.frame (runs_congr' (upd_other _ _ _ _ hk)) ?_ (upd_other _ _ _ _ hk)
      (fun _ h => mem_zinsert_other hk.symm h) (mem_dropOwn_other hw hk.symm) (Nat.le_refl _)
      (fun _ h _ => h) h.ttl rfl (starts_cons_of rfl) (redeliveries_cons_of rfl)
    intro v hv; exact h.keep v ((upd_other _ _ _ _ hk).symm.trans hv)
  | cancel k' =>
    refine Or.inl ⟨?_, notEndsRun trivial⟩
    have hk : k ≠ k' := fun e => hu e.symm
    refine h.frame (runs_congr' (upd_other _ _ _ _ hk)) ?_ (upd_other _ _ _ _ hk)
      ?_ (mem_dropOwn_other hw hk.symm) (Nat.le_refl _)
      (fun _ h _ => h) ?_ rfl (starts_cons_of rfl) (redeliveries_cons_of rfl)
    · intro v hv; exact h.keep v ((upd_other _ _ _ _ hk).symm.trans hv)
    · intro t h; simp only [List.mem_filter, ne_eq, decide_eq_true_eq]; exact ⟨h, hk⟩
    · simp only [List.mem_cons, not_or]; exact ⟨hk, h.ttl⟩
  | cancelTtl k' hk' =>
    refine Or.inl ⟨?_, notEndsRun trivial⟩
    have hk : k ≠ k' := fun e => h.ttl (e ▸ hk')
    refine h.frame (runs_congr' (upd_other _ _ _ _ hk)) ?_ rfl (fun _ h => h) (fun _ _ => Iff.rfl)
      (Nat.le_refl _) (fun _ h _ => h) (fun hm => h.ttl (List.mem_of_mem_erase hm)) rfl rfl rfl
    intro v hv; exact h.keep v ((upd_other _ _ _ _ hk).symm.trans hv)
  | clear op j js hop =>
    rcases hop with ⟨rfl, _⟩ | ⟨rfl, _⟩
    · exact absurd hu id
    · exact absurd hu id
  | clearRead => exact absurd hu id
  | schedule t ht =>
    refine Or.inl ⟨?_, notEndsRun trivial⟩
    by_cases hk : k ∈ dueKeys s.r t
    · obtain ⟨m0, hm0, _, _⟩ := dueKeys_parked hw.queue hk
      rcases h.place with ⟨⟨h1, _⟩, h3, h4⟩ | ⟨h1, _⟩
      case inr => rw [hm0] at h1; cases h1
      have hmm : m0 = m := Option.some.inj (hm0.symm.trans h1)
      subst hmm
      have hidle := h.parked (by simp [h1])
      have hmem : m0 ∈ (dueKeys s.r t).filterMap s.r.parked :=
        List.mem_filterMap.2 ⟨k, hk, h1⟩
      obtain ⟨id, hid⟩ := numbered_of_mem (i := s.r.nextId) hmem
      have hkeys : ∀ e ∈ numbered s.r.nextId ((dueKeys s.r t).filterMap s.r.parked),
          e.2.key = k → e.2 = m0 := by
        intro e he hek
        have := (mem_numbered he).2.2
        obtain ⟨k2, _, hp2⟩ := List.mem_filterMap.1 this
        have := hw.queue.key _ _ hp2
        rw [← this, hek, h1] at hp2
        exact (Option.some.inj hp2).symm
      have huniq : ∀ e ∈ numbered s.r.nextId ((dueKeys s.r t).filterMap s.r.parked),
          e.2.key = k → e = (id, m0) := by
        intro e he hek
        have hnd : ((dueKeys s.r t).filterMap s.r.parked).Nodup := by
          refine nodup_filterMap_key (dueKeys_nodup hw.queue t) ?_
          intro a b v ha hb
          exact (hw.queue.key _ _ ha).symm.trans (hw.queue.key _ _ hb)
        have h2 := hkeys e he hek
        refine Prod.ext ?_ h2
        exact numbered_unique hnd he hid h2
      exact {
        key := h.key
        pos := h.pos
        gen := by
          have := h.gen
          simp only [Redis.genOf, if_pos hk, Option.bind_some, Redis.run]
          simp only [Redis.genOf, Option.bind_eq_some_iff] at this
          obtain ⟨v, h5, h6⟩ := this
          simp [h5, h6]
        keep := by
          intro v hv
          simp only [if_pos hk, Option.some.injEq] at hv
          subst hv
          obtain ⟨v, h5, _⟩ := Option.bind_eq_some_iff.1 h.gen
          simp [Redis.run, h5, h.keep v h5]
        ttl := h.ttl
        jobs := h.jobs
        place := by
          right
          refine ⟨by simp [hk], id, List.mem_append.2 (Or.inr hid), ?_, ?_⟩
          · intro e he hek
            rcases List.mem_append.1 he with he | he
            · exact absurd hek (h3 e he)
            · exact huniq e he hek
          · intro p hp hpk; exact absurd hpk (h4 p hp)
        one := h.one
        low := h.low
        lowRun := h.lowRun
        high := h.high
        handed := h.handed
        parked := fun _ => hidle
        undelivered := fun _ _ _ _ => hidle }
    · refine h.frame (runs_congr' (if_neg hk)) ?_ (if_neg hk) ?_ (mem_append_other ?_)
        (Nat.le_refl _) (fun _ h _ => h) h.ttl rfl rfl rfl
      · intro v hv; exact h.keep v ((if_neg hk).symm.trans hv)
      · intro t' h
        simp only [List.mem_filter, h, true_and, decide_eq_true_eq]
        intro hle
        exact hk (List.mem_map.2 ⟨(k, t'), List.mem_filter.2 ⟨h, by simpa using hle⟩, rfl⟩)
      · intro e he hek
        have := (mem_numbered he).2.2
        obtain ⟨k2, hk2, hp2⟩ := List.mem_filterMap.1 this
        have := hw.queue.key _ _ hp2
        rw [← this, hek] at hk2
        exact hk hk2
  | poll w n new hnew =>
    refine Or.inl ⟨?_, notEndsRun trivial⟩
    have hsub : ∀ e ∈ new, e ∈ s.r.stream ∧ s.r.lastDelivered < e.1 := by
      intro e he
      rw [hnew] at he
      have := List.mem_filter.1 (List.mem_of_mem_take he)
      exact ⟨this.1, by simpa using this.2⟩
    have hnod : (new.map (·.1)).Nodup := by
      have hs := hw.stream.sorted
      have : new.Pairwise (fun a b => a.1 < b.1) := by
        rw [hnew]
        exact (hs.filter _).take
      rw [List.Nodup, List.pairwise_map]
      exact this.imp (fun h => Nat.ne_of_lt h)
    have hld : s.r.lastDelivered ≤ (new.getLast?.map (·.1)).getD s.r.lastDelivered := by
      cases hl : new.getLast? with
      | none => simp
      | some e =>
        have := hsub e (List.mem_of_getLast? hl)
        simp; omega
    have hs := starts_handed (k := k) (w := w) (red := false) (t := s.r.now) (l := s.log) new s.nextPid
    have hr := redeliveries_handed (k := k) (w := w) (t := s.r.now) (l := s.log) new s.nextPid
    by_cases hin : ∃ e ∈ new, e.2.key = k
    · obtain ⟨e, hen, hek⟩ := hin
      obtain ⟨hes, hlt⟩ := hsub e hen
      rcases h.place with ⟨_, h3, _⟩ | ⟨h1, id, h2, h3, h4⟩
      · exact absurd hek (h3 e hes)
      have hidle := h.undelivered e hes hek hlt
      have heq := h3 e hes hek
      have hnone : ∀ p ∈ s.procs, p.msg.key ≠ k := by
        intro p hp hpk
        have h5 := (h4 p hp hpk).1
        have h6 := (hw.procs.1 p hp).1
        rw [heq] at hlt
        simp only at hlt
        omega
      have hnewp : ∀ p ∈ s.procs ++ newProcs s.nextPid w false new, p.msg.key = k →
          p ∈ newProcs s.nextPid w false new := by
        intro p hp hpk
        rcases List.mem_append.1 hp with hp | hp
        · exact absurd hpk (hnone p hp)
        · exact hp
      have hpid : ∀ p ∈ newProcs s.nextPid w false new, p.msg.key = k → (p.id, p.msg) = (id, m) := by
        intro p hp hpk
        exact h3 _ (hsub _ (mem_newProcs hp).1).1 hpk
      exact {
        key := h.key
        pos := h.pos
        gen := h.gen
        keep := h.keep
        ttl := h.ttl
        jobs := h.jobs
        place := by
          right
          refine ⟨h1, id, h2, h3, ?_⟩
          intro p hp hpk
          have hp := hnewp p hp hpk
          have := hpid p hp hpk
          simp only [Prod.mk.injEq] at this
          refine ⟨this.1, this.2, ?_⟩
          rw [(mem_newProcs hp).2.1]; decide
        one := by
          intro p hp p' hp' hpk hpk'
          have hp := hnewp p hp hpk
          have hp' := hnewp p' hp' hpk'
          refine newProcs_id_inj hnod p hp p' hp' ?_
          have e1 := hpid p hp hpk
          have e2 := hpid p' hp' hpk'
          simp only [Prod.mk.injEq] at e1 e2
          rw [e1.1, e2.1]
        low := by rw [hs]; exact h.low
        lowRun := by
          intro p hp hpk hph
          rw [(mem_newProcs (hnewp p hp hpk)).2.1] at hph; cases hph
        high := by rw [hs, hr]; exact h.high
        handed := by intro p _ _ _; rw [hs, hr]; exact hidle
        parked := by intro _; rw [hs, hr]; exact hidle
        undelivered := by intro _ _ _ _; rw [hs, hr]; exact hidle }
    · refine h.frame rfl h.keep rfl (fun _ h => h) (fun _ _ => Iff.rfl) hld ?_ h.ttl rfl hs hr
      intro p hp hpk
      rcases List.mem_append.1 hp with hp | hp
      · exact hp
      · exact absurd ⟨_, (mem_newProcs hp).1, hpk⟩ hin
  | redeliver w pe e hpe hes hid hidle =>
    refine Or.inl ⟨?_, notEndsRun trivial⟩
    by_cases hek : e.2.key = k
    · rcases h.place with ⟨_, h3, _⟩ | ⟨h1, id, h2, h3, h4⟩
      · exact absurd hek (h3 e hes)
      have heq := h3 e hes hek
      subst heq
      have hnone : ∀ p ∈ s.procs, p.msg.key ≠ k := by
        intro p hp hpk
        exact hu p hp hpk (h4 p hp hpk).1
      have hs : starts (.handed s.nextPid id w true s.r.now m :: s.log) k = starts s.log k :=
        starts_cons_of rfl
      have hr : redeliveries (.handed s.nextPid id w true s.r.now m :: s.log) k =
          redeliveries s.log k + 1 := by
        simp [redeliveries, isRedelivery, h.key]
      have hhi := h.high
      have hlow := h.low
      have hnewp : ∀ p ∈ s.procs ++ [⟨s.nextPid, w, id, m, true, .handed⟩], p.msg.key = k →
          p = ⟨s.nextPid, w, id, m, true, .handed⟩ := by
        intro p hp hpk
        rcases List.mem_append.1 hp with hp | hp
        · exact absurd hpk (hnone p hp)
        · simpa using hp
      exact {
        key := h.key
        pos := h.pos
        gen := h.gen
        keep := h.keep
        ttl := h.ttl
        jobs := h.jobs
        place := by
          right
          refine ⟨h1, id, h2, h3, ?_⟩
          intro p hp hpk
          rw [hnewp p hp hpk]
          exact ⟨rfl, rfl, by simp⟩
        one := by
          intro p hp p' hp' hpk hpk'
          rw [hnewp p hp hpk, hnewp p' hp' hpk']
        low := by rw [hs]; exact h.low
        lowRun := by
          intro p hp hpk hph
          rw [hnewp p hp hpk] at hph; cases hph
        high := by simp only [hs, hr]; omega
        handed := by intro p _ _ _; simp only [hs, hr]; omega
        parked := by intro _; simp only [hs, hr]; omega
        undelivered := by intro _ _ _ _; simp only [hs, hr]; omega }
    · refine h.frame rfl h.keep rfl (fun _ h => h) (fun _ _ => Iff.rfl) (Nat.le_refl _) ?_ h.ttl rfl
        (starts_cons_of rfl) (redeliveries_cons_of (by simp [isRedelivery, hek]))
      intro p hp hpk
      rcases List.mem_append.1 hp with hp | hp
      · exact hp
      · simp only [List.mem_singleton] at hp
        subst hp
        exact absurd hpk hek
  | forget id hm =>
    refine Or.inl ⟨?_, notEndsRun trivial⟩
    exact h.frame rfl h.keep rfl (fun _ h => h) (fun _ _ => Iff.rfl) (Nat.le_refl _)
      (fun _ h _ => h) h.ttl rfl rfl rfl
  | renew w id =>
    refine Or.inl ⟨?_, notEndsRun trivial⟩
    exact h.frame rfl h.keep rfl (fun _ h => h) (fun _ _ => Iff.rfl) (Nat.le_refl _)
      (fun _ h _ => h) h.ttl rfl (starts_cons_of rfl) (redeliveries_cons_of rfl)
  | crash w =>
    refine Or.inl ⟨?_, notEndsRun trivial⟩
    exact h.frame rfl h.keep rfl (fun _ h => h) (fun _ _ => Iff.rfl) (Nat.le_refl _)
      (fun _ h _ => (List.mem_filter.1 h).1) h.ttl rfl rfl rfl
  | abandon pid =>
    refine Or.inl ⟨?_, notEndsRun trivial⟩
    exact h.frame rfl h.keep rfl (fun _ h => h) (fun _ _ => Iff.rfl) (Nat.le_refl _)
      (fun _ h _ => (List.mem_filter.1 h).1) h.ttl rfl rfl rfl
  | strikeOut p hp hph =>
    refine Or.inl ⟨?_, notEndsRun trivial⟩
    have hk : k ≠ p.msg.key := fun e => hu p hp rfl e.symm
    refine h.frame (runs_congr' (upd_other _ _ _ _ hk)) ?_ rfl (fun _ h => h) (fun _ _ => Iff.rfl)
      (Nat.le_refl _) ?_ h.ttl rfl (starts_cons_of rfl) (redeliveries_cons_of rfl)
    · intro v hv; exact h.keep v ((upd_other _ _ _ _ hk).symm.trans hv)
    · intro x hx hxk
      obtain ⟨y, hy, rfl⟩ := List.mem_map.1 hx
      by_cases hyp : y.pid = p.pid
      · rw [if_pos hyp] at hxk
        have : y = p := pid_inj hw hy hp hyp
        subst this
        exact absurd hxk.symm hk
      · rw [if_neg hyp]; exact hy
  | claimSuperseded p hp hph hs =>
    refine Or.inl ⟨?_, notEndsRun trivial⟩
    have hk : p.msg.key ≠ k := fun e => by rw [h.not_superseded hp e] at hs; cases hs
    exact h.frame rfl h.keep rfl (fun _ h => h)
      (mem_filter_other (fun e he hek => hstay e he p hp hk hek)) (Nat.le_refl _)
      (fun _ h _ => (List.mem_filter.1 h).1) h.ttl rfl rfl rfl
  | claim p hp hph hs =>
    refine Or.inl ⟨?_, notEndsRun trivial⟩
    by_cases hk : p.msg.key = k
    · obtain ⟨h1, h2, h3, h4, h5⟩ := h.held hp hk
      have hidle := h.handed p hp hk hph
      have hlow := h.low
      have hss : starts (.started p.pid p.id p.msg s.r.now :: s.log) k = starts s.log k + 1 := by
        simp [starts, isStart, hk]
      have hrr : redeliveries (.started p.pid p.id p.msg s.r.now :: s.log) k =
          redeliveries s.log k := redeliveries_cons_of rfl
      have hback : ∀ x ∈ s.procs.map (fun x => if x.pid = p.pid then
          { x with phase := Phase.running } else x), x.msg.key = k →
          x = { p with phase := .running } := by
        intro x hx hxk
        obtain ⟨y, hy, rfl⟩ := List.mem_map.1 hx
        have hyk : y.msg.key = k := by
          by_cases hyp : y.pid = p.pid
          · rw [if_pos hyp] at hxk; exact hxk
          · rw [if_neg hyp] at hxk; exact hxk
        have := h5 y hy hyk
        subst this
        simp
      exact {
        key := h.key
        pos := h.pos
        gen := by
          have := h.gen
          simp only [Redis.genOf, Option.bind_eq_some_iff] at this
          obtain ⟨v, h6, h7⟩ := this
          simp [Redis.genOf, hk, claimedRun, Redis.run, h6, h7]
        keep := by
          intro v hv
          simp only [hk, upd_same, Option.some.injEq] at hv
          subst hv
          obtain ⟨v, h6, _⟩ := Option.bind_eq_some_iff.1 h.gen
          simp [claimedRun, Redis.run, h6, h.keep v h6]
        ttl := h.ttl
        jobs := h.jobs
        place := by
          right
          refine ⟨h1, p.id, h3, h4, ?_⟩
          intro x hx hxk
          rw [hback x hx hxk]
          exact ⟨rfl, h2, by simp⟩
        one := by
          intro x hx x' hx' hxk hxk'
          rw [hback x hx hxk, hback x' hx' hxk']
        low := by simp only [hss]; omega
        lowRun := by intro x _ _ _; simp only [hss]; omega
        high := by simp only [hss, hrr]; omega
        handed := by
          intro x hx hxk hxp
          rw [hback x hx hxk] at hxp; cases hxp
        parked := by intro hpk; simp [h1] at hpk
        undelivered := by
          intro e he hek hlt
          have := h4 e he hek
          subst this
          have := (hw.procs.1 p hp).1
          simp only at hlt
          omega }
    · have hk' : k ≠ p.msg.key := fun e => hk e.symm
      refine h.frame (runs_congr' (upd_other _ _ _ _ hk')) ?_ rfl (fun _ h => h)
        (fun _ _ => Iff.rfl) (Nat.le_refl _) ?_ h.ttl rfl
        (starts_cons_of (by simp [isStart, hk])) (redeliveries_cons_of rfl)
      · intro v hv; exact h.keep v ((upd_other _ _ _ _ hk').symm.trans hv)
      · intro x hx hxk
        obtain ⟨y, hy, rfl⟩ := List.mem_map.1 hx
        by_cases hyp : y.pid = p.pid
        · rw [if_pos hyp] at hxk
          have : y = p := pid_inj hw hy hp hyp
          subst this
          exact absurd hxk hk
        · rw [if_neg hyp]; exact hy
  | store p data =>
    refine Or.inl ⟨?_, notEndsRun trivial⟩
    exact h.frame rfl h.keep rfl (fun _ h => h) (fun _ _ => Iff.rfl) (Nat.le_refl _)
      (fun _ h _ => h) h.ttl rfl rfl rfl
  | finish p st e w hp hph hs =>
    by_cases hk : p.msg.key = k
    · right; right
      obtain ⟨h1, h2, h3, h4, h5⟩ := h.held hp hk
      have hrun : p.phase = .running := by
        rcases hph with ⟨h6, _⟩ | ⟨h6, _⟩
        · exact h6
        · rcases h.place with ⟨_, _, h7⟩ | ⟨_, id, _, _, h7⟩
          · exact absurd hk (h7 p hp)
          · exact absurd h6 (h7 p hp hk).2.2
      have hlow := h.lowRun p hp hk hrun
      have hhi := h.high
      have hss : starts (.finished p.pid p.id p.msg st true :: s.log) k = starts s.log k :=
        starts_cons_of rfl
      have hrr : redeliveries (.finished p.pid p.id p.msg st true :: s.log) k =
          redeliveries s.log k := redeliveries_cons_of rfl
      refine ⟨p, st, e, w, rfl, hp, h2, hrun, ?_, ?_, ?_⟩
      · rintro (⟨x, hx, hxk⟩ | hpk | ⟨x, hx, hxk⟩)
        · simp only [List.mem_filter, ne_eq, decide_eq_true_eq] at hx
          have := h4 x hx.1 hxk
          subst this
          exact hx.2 rfl
        · simp [h1] at hpk
        · simp only [List.mem_filter, ne_eq, decide_eq_true_eq] at hx
          have := h5 x hx.1 hxk
          subst this
          exact hx.2 rfl
      · simp only [hss]; omega
      · simp only [hss, hrr]; omega
    · refine Or.inl ⟨?_, notEndsRun_other hw hp hk (Or.inr ⟨_, _, _, rfl⟩)⟩
      have hk' : k ≠ p.msg.key := fun e => hk e.symm
      refine h.frame (runs_congr' (upd_other _ _ _ _ hk')) ?_ rfl (fun _ h => h)
        (mem_filter_other (fun e he hek => hstay e he p hp hk hek)) (Nat.le_refl _)
        (fun _ h _ => (List.mem_filter.1 h).1) h.ttl rfl (starts_cons_of rfl) (redeliveries_cons_of rfl)
      intro v hv; exact h.keep v ((upd_other _ _ _ _ hk').symm.trans hv)
  | finishSuperseded p st e w hp hph hs =>
    refine Or.inl ⟨?_, notEndsRun_other hw hp (fun e => by rw [h.not_superseded hp e] at hs; cases hs) (Or.inr ⟨_, _, _, rfl⟩)⟩
    have hk : p.msg.key ≠ k := fun e => by rw [h.not_superseded hp e] at hs; cases hs
    exact h.frame rfl h.keep rfl (fun _ h => h)
      (mem_filter_other (fun e he hek => hstay e he p hp hk hek)) (Nat.le_refl _)
      (fun _ h _ => (List.mem_filter.1 h).1) h.ttl rfl (starts_cons_of rfl) (redeliveries_cons_of rfl)
  | rescheduleNow p t a d q hp hph hq hd hwh =>
    by_cases hk : p.msg.key = k
    · right; left
      obtain ⟨h1, h2, h3, h4, h5⟩ := h.held hp hk
      have hlow := h.lowRun p hp hk hph
      have hhi := h.high
      have hnp : ∀ x ∈ s.procs.filter (fun x => x.pid ≠ p.pid), x.msg.key ≠ k := by
        intro x hx hxk
        simp only [List.mem_filter, ne_eq, decide_eq_true_eq] at hx
        have := h5 x hx.1 hxk
        subst this
        exact hx.2 rfl
      have hns : ∀ e ∈ s.r.stream.filter (fun e => e.1 ≠ p.id), e.2.key ≠ k := by
        intro x hx hxk
        simp only [List.mem_filter, ne_eq, decide_eq_true_eq] at hx
        have := h4 x hx.1 hxk
        subst this
        exact hx.2 rfl
      have hss : starts (.accepted ⟨p.msg.key, q, s.r.nextGen p.msg.key⟩ :: s.log) k =
        starts s.log k := starts_cons_of rfl
      have hrr : redeliveries (.accepted ⟨p.msg.key, q, s.r.nextGen p.msg.key⟩ :: s.log) k =
          redeliveries s.log k := redeliveries_cons_of rfl
      refine ⟨p, t, a, d, ⟨p.msg.key, q, s.r.nextGen p.msg.key⟩, rfl, hp, h2, hph,
        by rw [hq, h2], ?_⟩
      exact {
        key := hk
        pos := by simp [Redis.nextGen]
        gen := by simp [Redis.genOf, hk, queuedRun]
        keep := by
          intro v hv
          simp only [hk, upd_same, Option.some.injEq] at hv
          subst hv
          obtain ⟨v, h6, _⟩ := Option.bind_eq_some_iff.1 h.gen
          simp [queuedRun, Redis.run, h6, h.keep v h6]
        ttl := h.ttl
        jobs := h.jobs
        place := by
          right
          refine ⟨h1, s.r.nextId, by simp, ?_, ?_⟩
          · intro e he hek
            rcases List.mem_append.1 he with he | he
            · exact absurd hek (hns e he)
            · simpa using he
          · intro x hx hxk; exact absurd hxk (hnp x hx)
        one := by intro x hx _ _ hxk; exact absurd hxk (hnp x hx)
        low := by simp only [hss]; omega
        lowRun := by intro x hx hxk; exact absurd hxk (hnp x hx)
        high := by simp only [hss, hrr]; omega
        handed := by intro x hx hxk; exact absurd hxk (hnp x hx)
        parked := by intro _; simp only [hss, hrr]; omega
        undelivered := by intro _ _ _ _; simp only [hss, hrr]; omega }
    · refine Or.inl ⟨?_, notEndsRun_other hw hp hk (Or.inl ⟨_, _, _, rfl⟩)⟩
      have hk' : k ≠ p.msg.key := fun e => hk e.symm
      refine h.frame (runs_congr' (upd_other _ _ _ _ hk')) ?_ rfl (fun _ h => h)
        (fun e he => (mem_append_other (by simpa using hk) e he).trans
          (mem_filter_other (fun e he hek => hstay e he p hp hk hek) e he)) (Nat.le_refl _)
        (fun _ h _ => (List.mem_filter.1 h).1) h.ttl rfl (starts_cons_of rfl) (redeliveries_cons_of rfl)
      intro v hv; exact h.keep v ((upd_other _ _ _ _ hk').symm.trans hv)
  | rescheduleLater p t a d q hp hph hq hd hwh =>
    by_cases hk : p.msg.key = k
    · right; left
      obtain ⟨h1, h2, h3, h4, h5⟩ := h.held hp hk
      have hlow := h.lowRun p hp hk hph
      have hhi := h.high
      have hnp : ∀ x ∈ s.procs.filter (fun x => x.pid ≠ p.pid), x.msg.key ≠ k := by
        intro x hx hxk
        simp only [List.mem_filter, ne_eq, decide_eq_true_eq] at hx
        have := h5 x hx.1 hxk
        subst this
        exact hx.2 rfl
      have hns : ∀ e ∈ s.r.stream.filter (fun e => e.1 ≠ p.id), e.2.key ≠ k := by
        intro x hx hxk
        simp only [List.mem_filter, ne_eq, decide_eq_true_eq] at hx
        have := h4 x hx.1 hxk
        subst this
        exact hx.2 rfl
      have hss : starts (.accepted ⟨p.msg.key, q, s.r.nextGen p.msg.key⟩ :: s.log) k =
        starts s.log k := starts_cons_of rfl
      have hrr : redeliveries (.accepted ⟨p.msg.key, q, s.r.nextGen p.msg.key⟩ :: s.log) k =
          redeliveries s.log k := redeliveries_cons_of rfl
      refine ⟨p, t, a, d, ⟨p.msg.key, q, s.r.nextGen p.msg.key⟩, rfl, hp, h2, hph,
        by rw [hq, h2], ?_⟩
      exact {
        key := hk
        pos := by simp [Redis.nextGen]
        gen := by simp [Redis.genOf, hk, scheduledRun]
        keep := by
          intro v hv
          simp only [hk, upd_same, Option.some.injEq] at hv
          subst hv
          obtain ⟨v, h6, _⟩ := Option.bind_eq_some_iff.1 h.gen
          simp [scheduledRun, Redis.run, h6, h.keep v h6]
        ttl := h.ttl
        jobs := h.jobs
        place := by
          left
          refine ⟨⟨by simp [hk], ?_⟩, hns, hnp⟩
          rw [zinsert_mem]; left; simp [hk]
        one := by intro x hx _ _ hxk; exact absurd hxk (hnp x hx)
        low := by simp only [hss]; omega
        lowRun := by intro x hx hxk; exact absurd hxk (hnp x hx)
        high := by simp only [hss, hrr]; omega
        handed := by intro x hx hxk; exact absurd hxk (hnp x hx)
        parked := by intro _; simp only [hss, hrr]; omega
        undelivered := by intro _ _ _ _; simp only [hss, hrr]; omega }
    · refine Or.inl ⟨?_, notEndsRun_other hw hp hk (Or.inl ⟨_, _, _, rfl⟩)⟩
      have hk' : k ≠ p.msg.key := fun e => hk e.symm
      refine h.frame (runs_congr' (upd_other _ _ _ _ hk')) ?_ (upd_other _ _ _ _ hk')
        (fun _ h => mem_zinsert_other hk h)
        (mem_filter_other (fun e he hek => hstay e he p hp hk hek)) (Nat.le_refl _)
        (fun _ h _ => (List.mem_filter.1 h).1) h.ttl rfl (starts_cons_of rfl) (redeliveries_cons_of rfl)
      intro v hv; exact h.keep v ((upd_other _ _ _ _ hk').symm.trans hv)
  | prog op k' f hop =>
    refine Or.inl ⟨?_, notEndsRun (by rcases hop with ⟨_, rfl, _⟩ | ⟨_, rfl, _⟩ | ⟨_, rfl, _⟩ <;> trivial)⟩
    exact h.frame rfl h.keep rfl (fun _ h => h) (fun _ _ => Iff.rfl) (Nat.le_refl _)
      (fun _ h _ => h) h.ttl rfl rfl rfl

end Docket
