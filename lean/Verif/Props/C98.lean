import Verif.Props.C31_C32
/-
C98 A task that waits for a concurrency slot is not forgotten.
-/
namespace Docket.Waiting
open Redis

/-! ### What it means

`limited` says which functions are declared with the limit. -/

/-- The execution has asked for a slot. -/
def Asked (pre : List COp) (pid : Nat) : Prop := ∃ t, COp.acquire pid t ∈ pre

/-- The execution has had a slot and given it back. -/
def GaveBack (pre : List COp) (c : CSys) (p : Proc) : Prop :=
  Asked pre p.pid ∧ ∀ h ∈ c.holding, h.pid ≠ p.pid

/-- A task of the limit is queued, running, or due to be redelivered because its worker is
gone, and no execution of it has given its slot back yet: it still has to pass the limit, and
to hand its slot on. -/
structure UnderWay (limited : String → Bool) (pre : List COp) (c : CSys) (e : MsgId × Msg) : Prop where
  queued : e ∈ c.s.r.stream
  limited : limited e.2.req.fn = true
  unserved : ∀ p ∈ c.s.procs, p.id = e.1 → ¬ GaveBack pre c p

/-- The name of the backstop task, _concurrency.py:830. -/
def backstop : String := "_safeguard_wake"

/-- A backstop is scheduled or queued. -/
def BackstopToCome (c : CSys) : Prop :=
  (∃ e ∈ c.s.r.stream, e.2.req.fn = backstop) ∨
  ∃ x ∈ c.s.r.queue, ∃ m, c.s.r.parked x.1 = some m ∧ m.req.fn = backstop

/-- An execution's end. -/
def EndsBy (pid : Nat) (op : COp) : Prop :=
  (∃ st e w, op = .core (.finish pid st e w)) ∨ ∃ t a d, op = .core (.reschedule pid t a d)

/-- What a worker does about the limit: tasks declared with the limit ask for a slot while they
run, and once; an execution that holds a slot gives it back before it ends; only backstops
scavenge. -/
structure Lawful (limited : String → Bool) (cfg : CCfg) (pre : List COp) (op : COp) : Prop where
  asks : ∀ pid t, op = .acquire pid t → ¬ Asked pre pid ∧ ∃ p ∈ (crun cfg pre).s.procs, p.pid = pid ∧
    p.phase = .running ∧ limited p.msg.req.fn = true ∧ t ≤ (crun cfg pre).s.r.now
  returns : ∀ pid, EndsBy pid op → ∀ h ∈ (crun cfg pre).holding, h.pid ≠ pid
  scavenges : ∀ t, op = .scavenge t → ∃ p ∈ (crun cfg pre).s.procs, p.phase = .running ∧
    p.msg.req.fn = backstop

/-- The property: whenever a task waits for a slot, some task of the limit is under way, or a
backstop is to come. -/
def C98_statement : Prop :=
  ∀ (limited : String → Bool) (cfg : CCfg) (ops : List COp), 0 < cfg.max →
    (∀ pre op, pre ++ [op] <+: ops → Lawful limited cfg pre op) →
    (crun cfg ops).waiters ≠ [] →
    (∃ e, UnderWay limited ops (crun cfg ops) e) ∨ BackstopToCome (crun cfg ops)

/-- The proviso of the positive theorem. -/
structure Smooth (limited : String → Bool) (cfg : CCfg) (pre : List COp) (op : COp) : Prop
    extends Lawful limited cfg pre op where
  /-- no task of the limit is cancelled, replaced, struck or cleared away, nor ends without
  having asked: it leaves the work stream only to wait, or by ending after it gave its slot back -/
  leaves : ∀ e ∈ (crun cfg pre).s.r.stream, limited e.2.req.fn = true →
    e ∉ (cstep cfg (crun cfg pre) op).s.r.stream →
    ∃ p ∈ (crun cfg pre).s.procs, p.id = e.1 ∧
      ((∃ t, op = .acquire p.pid t) ∨ (GaveBack pre (crun cfg pre) p ∧ EndsBy p.pid op))
  /-- no waiting task has been cancelled -/
  standing : ∀ e ∈ (crun cfg pre).waiters, (crun cfg pre).s.r.stateOf e.2.key = some .scheduled
  /-- a task asks for a slot while its key holds one only when it is redelivered and the slot of
  its dead predecessor is stale -/
  fresh : ∀ pid t p, op = .acquire pid t → p ∈ (crun cfg pre).s.procs → p.pid = pid →
    ∀ s ∈ (crun cfg pre).slots, s.1 = p.msg.key → p.redelivered = true ∧ s.2 + cfg.redelivery ≤ t
  /-- what a living worker runs is not redelivered -/
  single : ∀ w id, op = .core (.redeliver w id) → ∀ p ∈ (crun cfg pre).s.procs, p.id ≠ id

/-! ### The invariant -/

structure Inv (limited : String → Bool) (pre : List COp) (c : CSys) : Prop where
  slot : ∀ s ∈ c.slots, ∃ e, UnderWay limited pre c e ∧ e.2.key = s.1
  wait : c.waiters ≠ [] → ∃ e, UnderWay limited pre c e
  msg : ∀ p ∈ c.s.procs, limited p.msg.req.fn = true → (p.id, p.msg) ∈ c.s.r.stream
  ids : (c.s.procs.map (·.id)).Nodup
  asked : ∀ pid, Asked pre pid → pid < c.s.nextPid
  held : ∀ h ∈ c.holding, Asked pre h.pid
  parked : ∀ w ∈ c.waiters, limited w.2.req.fn = true
  holds : ∀ h ∈ c.holding, ∀ p ∈ c.s.procs, p.pid = h.pid →
    limited p.msg.req.fn = true ∧ h.key = p.msg.key

theorem UnderWay.keep {limited : String → Bool} {pre pre' : List COp} {c c' : CSys} {e : MsgId × Msg}
    (h : UnderWay limited pre c e) (hs : e ∈ c'.s.r.stream)
    (hg : ∀ p' ∈ c'.s.procs, p'.id = e.1 → GaveBack pre' c' p' →
      ∃ p ∈ c.s.procs, p.id = e.1 ∧ GaveBack pre c p) : UnderWay limited pre' c' e :=
  ⟨hs, h.limited, fun p' hp' hid hgb => by
    obtain ⟨p, hp, hid', hgb'⟩ := hg p' hp' hid hgb
    exact h.unserved p hp hid' hgb'⟩

theorem asked_snoc {pre : List COp} {op : COp} {pid : Nat} :
    Asked (pre ++ [op]) pid ↔ Asked pre pid ∨ ∃ t, op = .acquire pid t := by
  simp only [Asked, List.mem_append, List.mem_singleton]
  constructor
  · rintro ⟨t, h | h⟩
    · exact Or.inl ⟨t, h⟩
    · exact Or.inr ⟨t, h.symm⟩
  · rintro (⟨t, h⟩ | ⟨t, h⟩)
    · exact ⟨t, Or.inl h⟩
    · exact ⟨t, Or.inr h.symm⟩

theorem newProcs_ids (pid : Nat) (w : WorkerName) (red : Bool) (ms : List (MsgId × Msg)) :
    (newProcs pid w red ms).map (·.id) = ms.map (·.1) := by
  induction ms generalizing pid with
  | nil => rfl
  | cons e ms ih => simp [newProcs, ih]

/-- Executions after a step of the docket: the old ones, or new ones of messages of the stream. -/
theorem step_procs {cfg : Cfg} {s : Sys} (h : WF s) (op : Op) :
    ∀ p' ∈ (step cfg s op).procs, (∃ p ∈ s.procs, p.pid = p'.pid ∧ p.id = p'.id ∧ p.msg = p'.msg) ∨
      (s.nextPid ≤ p'.pid ∧ (p'.id, p'.msg) ∈ (step cfg s op).r.stream) := by
  have he := step_eff cfg s h.queue op
  generalize Docket.step cfg s op = s' at he
  have sub : ∀ (f : Proc → Bool) (P : Proc → Prop), ∀ p' ∈ s.procs.filter f,
      (∃ p ∈ s.procs, p.pid = p'.pid ∧ p.id = p'.id ∧ p.msg = p'.msg) ∨ P p' :=
    fun f P p' hp' => Or.inl ⟨p', (List.mem_filter.1 hp').1, rfl, rfl, rfl⟩
  have phase : ∀ (q : Nat) (ph : Phase) (P : Proc → Prop),
      ∀ p' ∈ s.procs.map (fun p => if p.pid = q then { p with phase := ph } else p),
      (∃ p ∈ s.procs, p.pid = p'.pid ∧ p.id = p'.id ∧ p.msg = p'.msg) ∨ P p' := by
    intro q ph P p' hp'
    obtain ⟨y, hy, rfl⟩ := List.mem_map.1 hp'
    refine Or.inl ⟨y, hy, ?_⟩
    split <;> exact ⟨rfl, rfl, rfl⟩
  cases he with
  | poll w n new hnew =>
    intro p' hp'
    rcases List.mem_append.1 hp' with hp' | hp'
    · exact Or.inl ⟨p', hp', rfl, rfl, rfl⟩
    · obtain ⟨h1, _, _, _, h5, _⟩ := mem_newProcs hp'
      subst hnew
      exact Or.inr ⟨h5, (List.mem_filter.1 (List.mem_of_mem_take h1)).1⟩
  | redeliver w p e hpm hem hid hidle =>
    intro p' hp'
    rcases List.mem_append.1 hp' with hp' | hp'
    · exact Or.inl ⟨p', hp', rfl, rfl, rfl⟩
    · rw [List.mem_singleton] at hp'
      subst hp'
      exact Or.inr ⟨Nat.le_refl _, hem⟩
  | crash w => exact sub _ _
  | abandon pid => exact sub _ _
  | strikeOut p => exact phase _ _ _
  | claim p => exact phase _ _ _
  | claimSuperseded p => exact sub _ _
  | finish p => exact sub _ _
  | finishSuperseded p => exact sub _ _
  | rescheduleNow p => exact sub _ _
  | rescheduleLater p => exact sub _ _
  | _ => exact fun p' hp' => Or.inl ⟨p', hp', rfl, rfl, rfl⟩

theorem step_ids {cfg : Cfg} {s : Sys} (h : WF s) (op : Op) (hn : (s.procs.map (·.id)).Nodup)
    (hr : ∀ w id, op = .redeliver w id → ∀ p ∈ s.procs, p.id ≠ id) :
    ((step cfg s op).procs.map (·.id)).Nodup := by
  have he := step_eff cfg s h.queue op
  generalize Docket.step cfg s op = s' at he
  have sub : ∀ (f : Proc → Bool), ((s.procs.filter f).map (·.id)).Nodup :=
    fun f => List.Sublist.nodup (List.Sublist.map _ List.filter_sublist) hn
  have phase : ∀ (q : Nat) (ph : Phase),
      ((s.procs.map (fun p => if p.pid = q then { p with phase := ph } else p)).map (·.id)).Nodup := by
    intro q ph
    have : (s.procs.map (fun p => if p.pid = q then { p with phase := ph } else p)).map (·.id) =
        s.procs.map (·.id) := by
      rw [List.map_map]
      apply List.map_congr_left
      intro x _
      simp only [Function.comp]
      split <;> rfl
    rw [this]; exact hn
  cases he with
  | poll w n new hnew =>
    simp only [List.map_append, newProcs_ids]
    rw [List.nodup_append]
    refine ⟨hn, ?_, ?_⟩
    · subst hnew
      have h1 : ((s.r.stream.filter (fun e => s.r.lastDelivered < e.1)).take n).Pairwise
          (fun a b => a.1 < b.1) := ((h.stream.sorted.filter _).take)
      rw [List.nodup_iff_pairwise_ne, List.pairwise_map]
      exact h1.imp (fun h => Nat.ne_of_lt h)
    · intro a ha b hb hab
      obtain ⟨p, hp, rfl⟩ := List.mem_map.1 ha
      obtain ⟨e, he, rfl⟩ := List.mem_map.1 hb
      subst hnew
      have h1 := (List.mem_filter.1 (List.mem_of_mem_take he)).2
      have h2 := (h.procs.1 p hp).1
      simp only [decide_eq_true_eq] at h1
      omega
  | redeliver w p e hpm hem hid hidle =>
    simp only [List.map_append, List.map_cons, List.map_nil]
    rw [List.nodup_append]
    refine ⟨hn, by simp, ?_⟩
    intro a ha b hb hab
    obtain ⟨q, hq, rfl⟩ := List.mem_map.1 ha
    simp only [List.mem_singleton] at hb
    exact hr w e.1 rfl q hq (hab.trans hb)
  | crash w => exact sub _
  | abandon pid => exact sub _
  | strikeOut p => exact phase _ _
  | claim p => exact phase _ _
  | claimSuperseded p => exact sub _
  | finish p => exact sub _
  | finishSuperseded p => exact sub _
  | rescheduleNow p => exact sub _
  | rescheduleLater p => exact sub _
  | _ => exact hn

/-- The end of an execution either changes nothing or removes it. -/
theorem step_ends {cfg : Cfg} {s : Sys} (h : WF s) {op : Op} {pid : Nat} (hop : EndsBy pid (.core op)) :
    step cfg s op = s ∨ ∀ p ∈ (step cfg s op).procs, p.pid ≠ pid := by
  have he := step_eff cfg s h.queue op
  generalize Docket.step cfg s op = s' at he
  have key : ∀ q, ∀ p ∈ s.procs.filter (fun x => decide (x.pid ≠ q)), p.pid ≠ q := by
    intro q p hp
    simpa using (List.mem_filter.1 hp).2
  rcases hop with ⟨st, e, w, hop⟩ | ⟨t, a, d, hop⟩
  · injection hop with hop
    subst hop
    cases he with
    | nop => exact Or.inl rfl
    | finish p => exact Or.inr (key _)
    | finishSuperseded p => exact Or.inr (key _)
    | clear op j js hop => rcases hop with ⟨h1, _⟩ | ⟨h1, _⟩ <;> cases h1
    | prog op k f hop => rcases hop with ⟨n, h1, _⟩ | ⟨n, h1, _⟩ | ⟨n, h1, _⟩ <;> cases h1
  · injection hop with hop
    subst hop
    cases he with
    | nop => exact Or.inl rfl
    | rescheduleNow p => exact Or.inr (key _)
    | rescheduleLater p => exact Or.inr (key _)
    | clear op j js hop => rcases hop with ⟨h1, _⟩ | ⟨h1, _⟩ <;> cases h1
    | prog op k f hop => rcases hop with ⟨n, h1, _⟩ | ⟨n, h1, _⟩ | ⟨n, h1, _⟩ <;> cases h1

theorem expireSlots_sub (c : CSys) : (∀ s ∈ (expireSlots c).slots, s ∈ c.slots) ∧
    (expireSlots c).holding = c.holding := by
  simp only [expireSlots]
  split
  · split
    · exact ⟨by simp, rfl⟩
    · exact ⟨fun s h => h, rfl⟩
  · exact ⟨fun s h => h, rfl⟩

/-- The ways an attempt to acquire can go. -/
theorem acquire_ways (cfg : CCfg) (c : CSys) (p : Proc) (t : Time) :
    (∃ c1 : CSys, luaAcquire cfg c p t = (c1, true) ∧ c1.s = c.s ∧ c1.waiters = c.waiters ∧
      c1.holding = c.holding ∧ ∀ x ∈ c1.slots, x ∈ c.slots ∨ x.1 = p.msg.key) ∨
    (luaAcquire cfg c p t = (luaPark c p, false) ∧
      ((∃ x ∈ c.slots, x.1 = p.msg.key ∧ ¬ (p.redelivered = true ∧ x.2 + cfg.redelivery ≤ t)) ∨
       ((∀ x ∈ c.slots, x.1 ≠ p.msg.key) ∧ cfg.max ≤ c.slots.length))) := by
  have htake : ∀ (c1 : CSys), (∀ x ∈ c1.slots, x ∈ c.slots) → ∀ x ∈ (c1.take cfg p.msg.key t).slots,
      x ∈ c.slots ∨ x.1 = p.msg.key := by
    intro c1 hsub x hx
    simp only [CSys.take] at hx
    rcases zinsert_mem.1 hx with h | h
    · right; rw [h]
    · left; exact hsub x (List.mem_filter.1 h).1
  simp only [luaAcquire]
  cases hf : c.slots.find? (fun e => e.1 = p.msg.key) with
  | some e =>
    have hem := List.mem_of_find?_eq_some hf
    have hek := List.find?_some hf
    simp only [decide_eq_true_eq] at hek
    simp only
    by_cases hst : p.redelivered = true ∧ stale cfg t e = true
    · rw [if_pos hst]
      exact Or.inl ⟨_, rfl, rfl, rfl, rfl, htake c (fun _ h => h)⟩
    · rw [if_neg hst]
      refine Or.inr ⟨rfl, Or.inl ⟨e, hem, hek, ?_⟩⟩
      simpa [stale] using hst
  | none =>
    have hno : ∀ x ∈ c.slots, x.1 ≠ p.msg.key := by
      intro x hx
      have := List.find?_eq_none.1 hf x hx
      simpa using this
    simp only
    by_cases hlt : c.slots.length < cfg.max
    · rw [if_pos hlt]
      exact Or.inl ⟨_, rfl, rfl, rfl, rfl, htake c (fun _ h => h)⟩
    · rw [if_neg hlt]
      cases hs : c.slots.find? (stale cfg t) with
      | none => exact Or.inr ⟨rfl, Or.inr ⟨hno, Nat.le_of_not_lt hlt⟩⟩
      | some e =>
        exact Or.inl ⟨_, rfl, rfl, rfl, rfl, htake _ (fun x h => (List.mem_filter.1 h).1)⟩

theorem proc?_of {s : Sys} (hw : WF s) {p : Proc} (hp : p ∈ s.procs) : s.proc? p.pid = some p :=
  proc?_of_mem hw hp

theorem Inv.same {limited : String → Bool} {pre : List COp} {c : CSys} (h : Inv limited pre c) (op : COp)
    (hop : ∀ pid t, op ≠ .acquire pid t) : Inv limited (pre ++ [op]) c := by
  have ha : ∀ pid, Asked (pre ++ [op]) pid ↔ Asked pre pid := by
    intro pid
    rw [asked_snoc]
    constructor
    · rintro (h | ⟨t, h⟩)
      · exact h
      · exact absurd h (hop pid t)
    · exact Or.inl
  have hu : ∀ e, UnderWay limited pre c e → UnderWay limited (pre ++ [op]) c e :=
    fun e he => he.keep he.queued (fun p hp hid hg => ⟨p, hp, hid, (ha _).1 hg.1, hg.2⟩)
  exact {
    slot := fun s hs => by obtain ⟨e, h1, h2⟩ := h.slot s hs; exact ⟨e, hu e h1, h2⟩
    wait := fun hne => by obtain ⟨e, h1⟩ := h.wait hne; exact ⟨e, hu e h1⟩
    msg := h.msg
    ids := h.ids
    asked := fun pid hp => h.asked pid ((ha pid).1 hp)
    held := fun x hx => (ha _).2 (h.held x hx)
    parked := h.parked
    holds := h.holds }

theorem Inv.core {limited : String → Bool} {cfg : CCfg} {pre : List COp} (h : Inv limited pre (crun cfg pre))
    {op : Op} (sm : Smooth limited cfg pre (.core op)) :
    Inv limited (pre ++ [.core op]) (cstep cfg (crun cfg pre) (.core op)) := by
  have hwf := CSys.wf_run cfg pre
  have hs1 := sm.leaves
  have hs2 := sm.single
  generalize crun cfg pre = c at h hwf hs1 hs2
  obtain ⟨e1, e2, e3, e4⟩ := expireSlots_waiters { c with
      s := Docket.step cfg.toCfg c.s op
      signals := signalled c.signals op }
  obtain ⟨e5, e6⟩ := expireSlots_sub { c with
      s := Docket.step cfg.toCfg c.s op
      signals := signalled c.signals op }
  have e7 := expireSlots_s { c with
      s := Docket.step cfg.toCfg c.s op
      signals := signalled c.signals op }
  simp only at e1 e5 e6 e7
  simp only [cstep] at hs1 ⊢
  generalize expireSlots { c with
      s := Docket.step cfg.toCfg c.s op
      signals := signalled c.signals op } = c' at *
  rw [e7] at hs1
  have ha : ∀ pid, Asked (pre ++ [COp.core op]) pid ↔ Asked pre pid := by
    intro pid; simp [asked_snoc]
  have hgave : ∀ p' ∈ c'.s.procs, GaveBack (pre ++ [COp.core op]) c' p' →
      ∃ p ∈ c.s.procs, p.id = p'.id ∧ GaveBack pre c p := by
    intro p' hp' hg
    rw [e7] at hp'
    rcases step_procs hwf op p' hp' with ⟨p, hp, h1, h2, h3⟩ | ⟨h1, _⟩
    · refine ⟨p, hp, h2, h1 ▸ (ha _).1 hg.1, ?_⟩
      rw [h1, ← e6]
      exact hg.2
    · have := h.asked _ ((ha _).1 hg.1)
      omega
  have hu : ∀ e, UnderWay limited pre c e → UnderWay limited (pre ++ [.core op]) c' e := by
    intro e he
    refine he.keep ?_ (fun p' hp' hid hg => ?_)
    · rw [e7]
      refine Classical.byContradiction fun hne => ?_
      obtain ⟨p, hp, hid, hc⟩ := hs1 e he.queued he.limited hne
      rcases hc with ⟨t, hc⟩ | ⟨hc, _⟩
      · cases hc
      · exact he.unserved p hp hid hc
    · obtain ⟨p, hp, h1, h2⟩ := hgave p' hp' hg
      exact ⟨p, hp, h1.trans hid, h2⟩
  refine ⟨?_, ?_, ?_, ?_, ?_, ?_, ?_, ?_⟩
  · intro s hs
    obtain ⟨e, h1, h2⟩ := h.slot s (e5 s hs)
    exact ⟨e, hu e h1, h2⟩
  · intro hne
    rw [e1] at hne
    obtain ⟨e, h1⟩ := h.wait hne
    exact ⟨e, hu e h1⟩
  · intro p' hp' hl
    rw [e7] at hp' ⊢
    rcases step_procs hwf op p' hp' with ⟨p, hp, h1, h2, h3⟩ | ⟨_, h1⟩
    · have hin := h.msg p hp (h3 ▸ hl)
      rw [← h2, ← h3]
      refine Classical.byContradiction fun hne => ?_
      obtain ⟨q, hq, hid, hc⟩ := hs1 _ hin (h3 ▸ hl) hne
      have hqp : q = p := nodup_map_inj h.ids hq hp hid
      subst hqp
      rcases hc with ⟨t, hc⟩ | ⟨_, hc⟩
      · cases hc
      · rcases step_ends (cfg := cfg.toCfg) hwf hc with h4 | h4
        · rw [h4] at hne; exact hne hin
        · exact h4 p' hp' h1.symm
    · exact h1
  · rw [e7]
    exact step_ids hwf op h.ids (fun w id ho => hs2 w id (by rw [ho]))
  · intro pid hp
    rw [e7]
    have := h.asked pid ((ha pid).1 hp)
    have := (step_alive (cfg := cfg.toCfg) hwf op).1
    omega
  · intro x hx
    rw [e6] at hx
    exact (ha _).2 (h.held x hx)
  · intro w hw
    rw [e1] at hw
    exact h.parked w hw
  · intro x hx p' hp' hpid
    rw [e6] at hx
    rw [e7] at hp'
    rcases step_procs hwf op p' hp' with ⟨p, hp, h1, h2, h3⟩ | ⟨h1, _⟩
    · rw [← h3]
      exact h.holds x hx p hp (h1.trans hpid)
    · have := h.asked _ (h.held x hx)
      omega

/-- Handing free slots to waiters, when every waiter is still scheduled. -/
theorem wake_first (cfg : CCfg) (c : CSys) (hwf : WF c.s) (hok : WaitOK c)
    (hst : ∀ e ∈ c.waiters, c.s.r.stateOf e.2.key = some .scheduled)
    (hne : (wake cfg c).waiters ≠ []) (hlt : c.slots.length < cfg.max) :
    ∃ w ∈ c.waiters, ∃ e ∈ (wake cfg c).s.r.stream, e.2.req = w.2.req ∧ ∀ p ∈ c.s.procs, p.id ≠ e.1 := by
  have hw := wake_waiters cfg hok
  cases hl : c.waiters with
  | nil => rw [hw, hl] at hne; simp at hne
  | cons w ws =>
    obtain ⟨n, hn⟩ : ∃ n, cfg.max - c.slots.length = n + 1 := ⟨cfg.max - c.slots.length - 1, by omega⟩
    refine ⟨w, by simp, (c.s.r.nextId, { w.2 with gen := c.s.r.nextGen w.2.key }), ?_, rfl, ?_⟩
    · simp only [wake, hl, hn, List.take_succ_cons, List.foldl_cons]
      apply wakeAll_stream_sub
      rw [wakeOne_woken c w (hst w (by simp [hl]))]
      simp
    · intro p hp
      have h1 := (hwf.procs.1 p hp).1
      have h2 := hwf.stream.ldlt
      simp only
      omega

theorem wake_sub (cfg : CCfg) {c : CSys} (hok : WaitOK c) : ∀ e ∈ (wake cfg c).waiters, e ∈ c.waiters := by
  intro e he
  rw [wake_waiters cfg hok] at he
  exact List.mem_of_mem_drop he

/-- A step that frees slots and wakes waiters keeps the invariant: `c1` is the state with the
slots freed, `gone` the key that gives up its slot. -/
theorem Inv.wakes {limited : String → Bool} {cfg : CCfg} {pre pre' : List COp} {c c1 c' : CSys}
    (h : Inv limited pre c) (hmax : 0 < cfg.max) (hwf : WF c.s) (hok : WaitOK c)
    (hst : ∀ e ∈ c.waiters, c.s.r.stateOf e.2.key = some .scheduled)
    (h1 : c1.s = c.s) (h2 : c1.waiters = c.waiters) (h3 : c1.nextW = c.nextW) (h4 : c1.cleanups = c.cleanups)
    (hs : c'.s = (wake cfg c1).s) (hw : c'.waiters = (wake cfg c1).waiters) (hsl : c'.slots = c1.slots)
    (ha : ∀ pid, Asked pre' pid ↔ Asked pre pid)
    (hh : ∀ x ∈ c'.holding, x ∈ c.holding)
    (hu : ∀ s ∈ c1.slots, ∃ e, UnderWay limited pre c e ∧ e.2.key = s.1 ∧
      ∀ p ∈ c.s.procs, p.id = e.1 → ¬ GaveBack pre' c' p) : Inv limited pre' c' := by
  have hsame := wake_same cfg c1
  have hprocs : c'.s.procs = c.s.procs := by rw [hs, hsame.procs, h1]
  have hsub : ∀ e ∈ c.s.r.stream, e ∈ c'.s.r.stream := by
    intro e he
    rw [hs]
    exact wakeAll_stream_sub _ _ e (by rw [h1]; exact he)
  have hok1 : WaitOK c1 := hok.slots h1 h2 h3 h4
  have hslot : ∀ s ∈ c1.slots, ∃ e, UnderWay limited pre' c' e ∧ e.2.key = s.1 := by
    intro s hs'
    obtain ⟨e, u1, u2, u3⟩ := hu s hs'
    exact ⟨e, ⟨hsub e u1.queued, u1.limited, by rw [hprocs]; exact u3⟩, u2⟩
  refine ⟨?_, ?_, ?_, ?_, ?_, ?_, ?_, ?_⟩
  · intro s hs'
    rw [hsl] at hs'
    exact hslot s hs'
  · intro hne
    by_cases hlt : c1.slots.length < cfg.max
    · obtain ⟨w, w1, e, e1, e2, e3⟩ := wake_first cfg c1 (h1 ▸ hwf) hok1
        (by rw [h2, h1]; exact hst) (hw ▸ hne) hlt
      refine ⟨e, ?_, ?_, ?_⟩
      · rw [hs]; exact e1
      · rw [e2]; exact h.parked w (h2 ▸ w1)
      · intro p hp hid
        rw [hprocs] at hp
        rw [h1] at e3
        exact absurd hid (e3 p hp)
    · cases hcs : c1.slots with
      | nil => rw [hcs] at hlt; simp at hlt; omega
      | cons s rest =>
        obtain ⟨e, u1, _⟩ := hslot s (by simp [hcs])
        exact ⟨e, u1⟩
  · intro p hp hl
    rw [hprocs] at hp
    exact hsub _ (h.msg p hp hl)
  · rw [hprocs]; exact h.ids
  · intro pid hp
    rw [hs, hsame.nextPid, h1]
    exact h.asked pid ((ha pid).1 hp)
  · intro x hx
    exact (ha _).2 (h.held x (hh x hx))
  · intro w hw'
    rw [hw] at hw'
    exact h.parked w (h2 ▸ wake_sub cfg hok1 w hw')
  · intro x hx p hp hpid
    rw [hprocs] at hp
    exact h.holds x (hh x hx) p hp hpid

theorem release_way (cfg : CCfg) (c : CSys) (k : Key) (t : Time) :
    ∃ c1 : CSys, luaRelease cfg c k t = wake cfg c1 ∧ c1.s = c.s ∧ c1.waiters = c.waiters ∧
      c1.nextW = c.nextW ∧ c1.cleanups = c.cleanups ∧ c1.holding = c.holding ∧
      ∀ s ∈ c1.slots, s ∈ c.slots ∧ s.1 ≠ k := by
  simp only [luaRelease]
  split
  · refine ⟨_, rfl, rfl, rfl, rfl, rfl, rfl, ?_⟩
    intro s hs
    have h1 := (List.mem_filter.1 hs).1
    have h2 := List.mem_filter.1 h1
    exact ⟨h2.1, by simpa using h2.2⟩
  · refine ⟨_, rfl, rfl, rfl, rfl, rfl, rfl, ?_⟩
    intro s hs
    have h2 := List.mem_filter.1 hs
    exact ⟨h2.1, by simpa using h2.2⟩

/-- A living holder's own task is under way. -/
theorem Inv.holder {limited : String → Bool} {pre : List COp} {c : CSys} (h : Inv limited pre c)
    {x : Holder} (hx : x ∈ c.holding) {p : Proc} (hp : p ∈ c.s.procs) (hpid : p.pid = x.pid) :
    UnderWay limited pre c (p.id, p.msg) ∧ p.msg.key = x.key := by
  obtain ⟨h1, h2⟩ := h.holds x hx p hp hpid
  refine ⟨⟨h.msg p hp h1, h1, ?_⟩, h2.symm⟩
  intro q hq hid hg
  have hqp : q = p := nodup_map_inj h.ids hq hp hid
  subst hqp
  exact hg.2 x hx hpid.symm

theorem find_holder {c : CSys} {pid : Nat} {x : Holder}
    (hf : c.holders.find? (fun h => h.pid = pid) = some x) :
    x ∈ c.holding ∧ x.pid = pid ∧ ∃ p ∈ c.s.procs, p.pid = x.pid := by
  have h1 := List.mem_of_find?_eq_some hf
  have h2 := List.find?_some hf
  simp only [CSys.holders, List.mem_filter, CSys.alive, List.any_eq_true, decide_eq_true_eq] at h1
  exact ⟨h1.1, by simpa using h2, h1.2⟩

theorem Inv.release {limited : String → Bool} {cfg : CCfg} {pre : List COp} (hmax : 0 < cfg.max)
    (h : Inv limited pre (crun cfg pre)) {pid : Nat} {t : Time}
    (sm : Smooth limited cfg pre (.release pid t)) :
    Inv limited (pre ++ [.release pid t]) (cstep cfg (crun cfg pre) (.release pid t)) := by
  have hwf := CSys.wf_run cfg pre
  have hok := WaitOK.run cfg pre
  have hst := sm.standing
  generalize crun cfg pre = c at h hwf hok hst
  have hsame := h.same (.release pid t) (by intro _ _ hc; cases hc)
  simp only [cstep]
  split
  · rename_i x hf
    split
    · obtain ⟨hx, hxp, p0, hp0, hp0x⟩ := find_holder hf
      obtain ⟨c1, r1, r2, r3, r4, r5, r6, r7⟩ := release_way cfg c x.key t
      have hhold : (luaRelease cfg c x.key t).holding = c.holding := by
        rw [r1, (wake_same cfg c1).holding, r6]
      refine h.wakes (c1 := c1) hmax hwf hok hst r2 r3 r4 r5 (by rw [r1]) (by rw [r1])
        (by rw [r1]; exact (wake_same cfg c1).slots) (by intro q; simp [asked_snoc]) ?_ ?_
      · intro y hy
        exact (List.mem_filter.1 hy).1
      · intro s hs
        obtain ⟨s1, s2⟩ := r7 s hs
        obtain ⟨e, u1, u2⟩ := h.slot s s1
        refine ⟨e, u1, u2, ?_⟩
        intro p hp hid hg
        have ha : Asked pre p.pid := by
          have := hg.1; simpa [asked_snoc] using this
        by_cases hpp : p.pid = pid
        · have h1 := (h.holds x hx p hp (hpp.trans hxp.symm)).2
          have h2 := (hwf.procs.1 p hp).2.2 e u1.queued hid.symm
          exact s2 (by rw [← u2, h2, h1])
        · refine u1.unserved p hp hid ⟨ha, fun y hy hyp => ?_⟩
          exact hg.2 y (List.mem_filter.2 ⟨hy, by simp [hyp, hpp]⟩) hyp
    · exact hsame
  · exact hsame

theorem Inv.scavenge {limited : String → Bool} {cfg : CCfg} {pre : List COp} (hmax : 0 < cfg.max)
    (h : Inv limited pre (crun cfg pre)) {t : Time}
    (sm : Smooth limited cfg pre (.scavenge t)) :
    Inv limited (pre ++ [.scavenge t]) (cstep cfg (crun cfg pre) (.scavenge t)) := by
  have hwf := CSys.wf_run cfg pre
  have hok := WaitOK.run cfg pre
  have hst := sm.standing
  generalize crun cfg pre = c at h hwf hok hst
  have hsame := h.same (.scavenge t) (by intro _ _ hc; cases hc)
  simp only [cstep]
  split
  · simp only [luaScavenge]
    split
    · exact hsame
    · refine h.wakes (c1 := evict cfg c t) hmax hwf hok hst rfl rfl rfl rfl rfl rfl
        (wake_same cfg _).slots (by intro q; simp [asked_snoc]) ?_ ?_
      · intro y hy
        rw [(wake_same cfg _).holding] at hy
        exact hy
      · intro s hs
        obtain ⟨e, u1, u2⟩ := h.slot s (List.mem_filter.1 hs).1
        refine ⟨e, u1, u2, ?_⟩
        intro p hp hid hg
        refine u1.unserved p hp hid ⟨?_, ?_⟩
        · have := hg.1; simpa [asked_snoc] using this
        · have := hg.2; rw [(wake_same cfg _).holding] at this; exact this
  · exact hsame

theorem Inv.acquire {limited : String → Bool} {cfg : CCfg} {pre : List COp} (hmax : 0 < cfg.max)
    (h : Inv limited pre (crun cfg pre)) {pid : Nat} {t : Time}
    (sm : Smooth limited cfg pre (.acquire pid t)) :
    Inv limited (pre ++ [.acquire pid t]) (cstep cfg (crun cfg pre) (.acquire pid t)) := by
  have hwf := CSys.wf_run cfg pre
  obtain ⟨hna, p, hp, rfl, hrun, hlim, ht⟩ := sm.asks pid t rfl
  have hfr := sm.fresh p.pid t p rfl hp rfl
  generalize crun cfg pre = c at h hwf hp ht hfr
  have hnh : ∀ x ∈ c.holding, x.pid ≠ p.pid := by
    intro x hx hxp
    exact hna (hxp ▸ h.held x hx)
  have hcond : p.phase = .running ∧ t ≤ c.s.r.now ∧ c.holding.all (fun h => decide (h.pid ≠ p.pid)) = true :=
    ⟨hrun, ht, by rw [List.all_eq_true]; intro x hx; simpa using hnh x hx⟩
  have hin := h.msg p hp hlim
  have haq : ∀ q, Asked (pre ++ [COp.acquire p.pid t]) q ↔ Asked pre q ∨ q = p.pid := by
    intro q
    rw [asked_snoc]
    constructor
    · rintro (h1 | ⟨t', h1⟩)
      · exact Or.inl h1
      · injection h1 with h1 h2; exact Or.inr h1.symm
    · rintro (h1 | h1)
      · exact Or.inl h1
      · exact Or.inr ⟨t, by rw [h1]⟩
  simp only [cstep, proc?_of hwf hp, if_pos hcond]
  rcases acquire_ways cfg c p t with ⟨c1, a1, a2, a3, a4, a5⟩ | ⟨a1, a2⟩
  · rw [a1]
    simp only [if_true]
    have hu : ∀ e, UnderWay limited pre c e → UnderWay limited (pre ++ [.acquire p.pid t])
        { c1 with holding := ⟨p.pid, p.msg.key, t⟩ :: c.holding } e := by
      intro e he
      refine he.keep (by show e ∈ c1.s.r.stream; rw [a2]; exact he.queued) ?_
      intro q hq hid hg
      have hq' : q ∈ c.s.procs := by
        have : q ∈ c1.s.procs := hq
        rwa [a2] at this
      rcases (haq _).1 hg.1 with h1 | h1
      · exact ⟨q, hq', hid, h1, fun x hx => hg.2 x (List.mem_cons_of_mem _ hx)⟩
      · exact absurd h1.symm (hg.2 ⟨p.pid, p.msg.key, t⟩ (by simp))
    have hown : UnderWay limited (pre ++ [.acquire p.pid t])
        { c1 with holding := ⟨p.pid, p.msg.key, t⟩ :: c.holding } (p.id, p.msg) := by
      refine ⟨by show _ ∈ c1.s.r.stream; rw [a2]; exact hin, hlim, ?_⟩
      intro q hq hid hg
      have hq' : q ∈ c.s.procs := by
        have : q ∈ c1.s.procs := hq
        rwa [a2] at this
      have hqp : q = p := nodup_map_inj h.ids hq' hp hid
      subst hqp
      exact hg.2 ⟨q.pid, q.msg.key, t⟩ (by simp) rfl
    refine ⟨?_, ?_, ?_, ?_, ?_, ?_, ?_, ?_⟩
    · intro s hs
      rcases a5 s hs with hs | hs
      · obtain ⟨e, u1, u2⟩ := h.slot s hs
        exact ⟨e, hu e u1, u2⟩
      · exact ⟨_, hown, hs.symm⟩
    · intro _
      exact ⟨_, hown⟩
    · intro q hq hl
      have hq' : q ∈ c.s.procs := by
        have : q ∈ c1.s.procs := hq
        rwa [a2] at this
      show _ ∈ c1.s.r.stream
      rw [a2]; exact h.msg q hq' hl
    · show (c1.s.procs.map (·.id)).Nodup
      rw [a2]; exact h.ids
    · intro q hq
      show q < c1.s.nextPid
      rw [a2]
      rcases (haq q).1 hq with h1 | h1
      · exact h.asked q h1
      · rw [h1]; exact (hwf.procs.1 p hp).2.1
    · intro x hx
      rcases List.mem_cons.1 hx with rfl | hx
      · exact (haq _).2 (Or.inr rfl)
      · exact (haq _).2 (Or.inl (h.held x hx))
    · intro w hw
      have hw' : w ∈ c1.waiters := hw
      rw [a3] at hw'
      exact h.parked w hw'
    · intro x hx q hq hqp
      have hq' : q ∈ c.s.procs := by
        have : q ∈ c1.s.procs := hq
        rwa [a2] at this
      rcases List.mem_cons.1 hx with rfl | hx
      · have hqp' : q = p := nodup_map_inj hwf.procs.2 hq' hp hqp
        subst hqp'
        exact ⟨hlim, rfl⟩
      · exact h.holds x hx q hq' hqp
  · rw [a1]
    simp only [Bool.false_eq_true, if_false]
    have hne : (∀ x ∈ c.slots, x.1 ≠ p.msg.key) ∧ cfg.max ≤ c.slots.length := by
      rcases a2 with ⟨x, hx, hk, hc⟩ | h1
      · exact absurd (hfr x hx hk) hc
      · exact h1
    rw [luaPark_eq]
    have hother : ∀ e ∈ c.s.r.stream, e.2.key ≠ p.msg.key → e.1 ≠ p.id := by
      intro e he hk hid
      exact hk (by rw [(hwf.procs.1 p hp).2.2 e he hid])
    have hu : ∀ e, UnderWay limited pre c e → e.1 ≠ p.id → UnderWay limited (pre ++ [.acquire p.pid t])
        { luaPark c p with s := (luaPark c p).s.dropProc p.pid } e := by
      intro e he hid0
      rw [luaPark_eq]
      refine he.keep (List.mem_filter.2 ⟨he.queued, by simpa using hid0⟩) ?_
      intro q hq hid hg
      obtain ⟨hq1, hq2⟩ := List.mem_filter.1 hq
      simp only [decide_eq_true_eq] at hq2
      rcases (haq _).1 hg.1 with h1 | h1
      · exact ⟨q, hq1, hid, h1, hg.2⟩
      · exact absurd h1 hq2
    rw [luaPark_eq] at hu
    have hslot : ∀ s ∈ c.slots, ∃ e, UnderWay limited (pre ++ [.acquire p.pid t])
        { luaPark c p with s := (luaPark c p).s.dropProc p.pid } e ∧ e.2.key = s.1 := by
      intro s hs
      obtain ⟨e, u1, u2⟩ := h.slot s hs
      rw [luaPark_eq]
      exact ⟨e, hu e u1 (hother e u1.queued (by rw [u2]; exact hne.1 s hs)), u2⟩
    rw [luaPark_eq] at hslot
    refine ⟨hslot, ?_, ?_, ?_, ?_, ?_, ?_, ?_⟩
    · intro _
      obtain ⟨s, hs⟩ : ∃ s, s ∈ c.slots :=
        List.exists_mem_of_length_pos (Nat.lt_of_lt_of_le hmax hne.2)
      obtain ⟨e, u1, _⟩ := hslot s hs
      exact ⟨e, u1⟩
    · intro q hq hl
      obtain ⟨hq1, hq2⟩ := List.mem_filter.1 hq
      simp only [decide_eq_true_eq] at hq2
      refine List.mem_filter.2 ⟨h.msg q hq1 hl, ?_⟩
      simp only [decide_eq_true_eq]
      intro hid
      exact hq2 (by rw [nodup_map_inj h.ids hq1 hp hid])
    · exact List.Sublist.nodup (List.Sublist.map _ List.filter_sublist) h.ids
    · intro q hq
      show q < c.s.nextPid
      rcases (haq q).1 hq with h1 | h1
      · exact h.asked q h1
      · rw [h1]; exact (hwf.procs.1 p hp).2.1
    · intro x hx
      exact (haq _).2 (Or.inl (h.held x hx))
    · intro w hw
      rcases List.mem_append.1 hw with hw | hw
      · exact h.parked w hw
      · rw [List.mem_singleton] at hw
        subst hw
        exact hlim
    · intro x hx q hq hqp
      exact h.holds x hx q (List.mem_filter.1 hq).1 hqp

theorem Inv.renew {limited : String → Bool} {cfg : CCfg} {pre : List COp}
    (h : Inv limited pre (crun cfg pre)) {pid : Nat} {t : Time} :
    Inv limited (pre ++ [.renewSlot pid t]) (cstep cfg (crun cfg pre) (.renewSlot pid t)) := by
  generalize crun cfg pre = c at h
  have hsame := h.same (.renewSlot pid t) (by intro _ _ hc; cases hc)
  simp only [cstep]
  split
  · rename_i x hf
    split
    · obtain ⟨hx, hxp, p, hp, hpx⟩ := find_holder hf
      have hmem : ∀ y ∈ c.holding.map (fun h => if h.pid = pid then { h with last := t } else h),
          ∃ z ∈ c.holding, z.pid = y.pid ∧ z.key = y.key := by
        intro y hy
        obtain ⟨z, hz, rfl⟩ := List.mem_map.1 hy
        refine ⟨z, hz, ?_⟩
        split <;> exact ⟨rfl, rfl⟩
      have hmem' : ∀ z ∈ c.holding, ∃ y ∈ c.holding.map (fun h => if h.pid = pid then { h with last := t } else h),
          y.pid = z.pid := by
        intro z hz
        refine ⟨_, List.mem_map.2 ⟨z, hz, rfl⟩, ?_⟩
        split <;> rfl
      have hu : ∀ e, UnderWay limited (pre ++ [.renewSlot pid t]) c e →
          UnderWay limited (pre ++ [.renewSlot pid t]) { c.take cfg x.key t with
            holding := c.holding.map (fun h => if h.pid = pid then { h with last := t } else h) } e := by
        intro e he
        refine he.keep he.queued ?_
        intro q hq hid hg
        refine ⟨q, hq, hid, hg.1, fun z hz hzq => ?_⟩
        obtain ⟨y, hy, hyz⟩ := hmem' z hz
        exact hg.2 y hy (hyz.trans hzq)
      refine ⟨?_, ?_, hsame.msg, hsame.ids, hsame.asked, ?_, hsame.parked, ?_⟩
      · intro s hs
        rcases zinsert_mem.1 hs with hs | hs
        · obtain ⟨u1, u2⟩ := hsame.holder hx hp hpx
          exact ⟨_, hu _ u1, by rw [u2, hs]⟩
        · obtain ⟨e, u1, u2⟩ := hsame.slot s (List.mem_filter.1 hs).1
          exact ⟨e, hu e u1, u2⟩
      · intro hne
        obtain ⟨e, u1⟩ := hsame.wait hne
        exact ⟨e, hu e u1⟩
      · intro y hy
        obtain ⟨z, hz, h1, _⟩ := hmem y hy
        rw [← h1]; exact hsame.held z hz
      · intro y hy q hq hqp
        obtain ⟨z, hz, h1, h2⟩ := hmem y hy
        rw [← h2]
        exact hsame.holds z hz q hq (hqp.trans h1.symm)
    · exact hsame
  · exact hsame

/-- Steps that leave the stream, the executions and the slots alone, and add no waiter. -/
theorem Inv.frame {limited : String → Bool} {pre : List COp} {c c' : CSys} (h : Inv limited pre c)
    (h1 : c'.s.r.stream = c.s.r.stream) (h2 : c'.s.procs = c.s.procs) (h3 : c'.s.nextPid = c.s.nextPid)
    (h4 : c'.slots = c.slots) (h5 : c'.holding = c.holding) (h6 : ∀ w ∈ c'.waiters, w ∈ c.waiters) :
    Inv limited pre c' := by
  have hu : ∀ e, UnderWay limited pre c e → UnderWay limited pre c' e := by
    intro e he
    refine ⟨by rw [h1]; exact he.queued, he.limited, ?_⟩
    rw [h2]
    intro p hp hid hg
    exact he.unserved p hp hid ⟨hg.1, by have := hg.2; rwa [h5] at this⟩
  refine ⟨?_, ?_, ?_, ?_, ?_, ?_, ?_, ?_⟩
  · rw [h4]; intro s hs
    obtain ⟨e, u1, u2⟩ := h.slot s hs
    exact ⟨e, hu e u1, u2⟩
  · intro hne
    obtain ⟨w, hw⟩ := List.exists_mem_of_ne_nil _ hne
    obtain ⟨e, u1⟩ := h.wait (List.ne_nil_of_mem (h6 w hw))
    exact ⟨e, hu e u1⟩
  · rw [h1, h2]; exact h.msg
  · rw [h2]; exact h.ids
  · rw [h3]; exact h.asked
  · rw [h5]; exact h.held
  · exact fun w hw => h.parked w (h6 w hw)
  · rw [h2, h5]; exact h.holds

theorem Inv.step {limited : String → Bool} {cfg : CCfg} {pre : List COp} (hmax : 0 < cfg.max)
    (h : Inv limited pre (crun cfg pre)) {op : COp} (sm : Smooth limited cfg pre op) :
    Inv limited (pre ++ [op]) (crun cfg (pre ++ [op])) := by
  have hstep : crun cfg (pre ++ [op]) = cstep cfg (crun cfg pre) op := by
    rw [crun_append]; rfl
  rw [hstep]
  cases op with
  | core op => exact h.core sm
  | acquire pid t => exact h.acquire hmax sm
  | renewSlot pid t => exact h.renew
  | release pid t => exact h.release hmax sm
  | scavenge t => exact h.scavenge hmax sm
  | cleanupRead k =>
    have hsame := h.same (.cleanupRead k) (by intro _ _ hc; cases hc)
    simp only [cstep]
    split
    · split
      · exact hsame.frame rfl rfl rfl rfl rfl (fun _ h => h)
      · exact hsame
    · exact hsame
  | cleanupWrite k e =>
    have hsame := h.same (.cleanupWrite k e) (by intro _ _ hc; cases hc)
    simp only [cstep]
    split
    · exact hsame.frame rfl rfl rfl rfl rfl (fun w hw => (List.mem_filter.1 hw).1)
    · exact hsame

theorem Inv.run {limited : String → Bool} {cfg : CCfg} (hmax : 0 < cfg.max) (ops : List COp)
    (h : ∀ pre op, pre ++ [op] <+: ops → Smooth limited cfg pre op) : Inv limited ops (crun cfg ops) := by
  suffices ∀ pre suf, ops = pre ++ suf → Inv limited pre (crun cfg pre) → Inv limited ops (crun cfg ops) from
    this [] ops rfl ⟨by simp [crun], by simp [crun], by simp [crun], by simp [crun], by simp [Asked], by simp [crun],
      by simp [crun], by simp [crun]⟩
  intro pre suf
  induction suf generalizing pre with
  | nil => intro h1 h2; rw [h1, List.append_nil]; exact h2
  | cons o suf ih =>
    intro h1 h2
    exact ih (pre ++ [o]) (by simp [h1]) (h2.step hmax (h pre o ⟨suf, by simp [h1]⟩))

/-! ### The theorems -/

/-- C98.  As long as a task waits for a slot, some task of the limit is under way that still has
to give its slot back, however many workers crash and whoever holds the slots; no backstop is
needed.  The proviso: no task of the limit is cancelled, replaced, struck or cleared away, or
ends without asking for its slot, no live execution is redelivered, and a redelivered task finds
the slot of its predecessor stale. -/
theorem C98_not_forgotten_partial (limited : String → Bool) (cfg : CCfg) (ops : List COp)
    (hmax : 0 < cfg.max) (h : ∀ pre op, pre ++ [op] <+: ops → Smooth limited cfg pre op)
    (hw : (crun cfg ops).waiters ≠ []) : ∃ e, UnderWay limited ops (crun cfg ops) e :=
  (Inv.run hmax ops h).wait hw

/-- C98, in the end: when no task of the limit is left in the work stream, none waits. -/
theorem C98_none_left_behind_partial (limited : String → Bool) (cfg : CCfg) (ops : List COp)
    (hmax : 0 < cfg.max) (h : ∀ pre op, pre ++ [op] <+: ops → Smooth limited cfg pre op)
    (hl : ∀ e ∈ (crun cfg ops).s.r.stream, limited e.2.req.fn = false) :
    (crun cfg ops).waiters = [] := by
  refine Classical.byContradiction fun hne => ?_
  obtain ⟨e, he⟩ := C98_not_forgotten_partial limited cfg ops hmax h hne
  have h1 := hl e he.queued
  rw [he.limited] at h1
  cases h1

/-! ### Checking concrete histories -/

def askedB (pre : List COp) (pid : Nat) : Bool :=
  pre.any (fun o => match o with
    | .acquire q _ => decide (q = pid)
    | _ => false)

theorem askedB_iff {pre : List COp} {pid : Nat} : askedB pre pid = true ↔ Asked pre pid := by
  simp only [askedB, List.any_eq_true, Asked]
  constructor
  · rintro ⟨o, ho, h⟩
    split at h
    · rename_i q t
      simp only [decide_eq_true_eq] at h
      subst h
      exact ⟨t, ho⟩
    · cases h
  · rintro ⟨t, h⟩
    exact ⟨_, h, by simp⟩

def gaveB (pre : List COp) (c : CSys) (p : Proc) : Bool :=
  askedB pre p.pid && c.holding.all (fun h => decide (h.pid ≠ p.pid))

theorem gaveB_iff {pre : List COp} {c : CSys} {p : Proc} : gaveB pre c p = true ↔ GaveBack pre c p := by
  simp [gaveB, GaveBack, askedB_iff]

def endsB (op : COp) : Option Nat :=
  match op with
  | .core (.finish pid _ _ _) => some pid
  | .core (.reschedule pid _ _ _) => some pid
  | _ => none

theorem endsB_iff {op : COp} {pid : Nat} : endsB op = some pid ↔ EndsBy pid op := by
  simp only [EndsBy]
  constructor
  · intro h
    unfold endsB at h
    split at h
    · cases h; exact Or.inl ⟨_, _, _, rfl⟩
    · cases h; exact Or.inr ⟨_, _, _, rfl⟩
    · cases h
  · rintro (⟨st, e, w, rfl⟩ | ⟨t, a, d, rfl⟩) <;> rfl

def lawfulB (limited : String → Bool) (cfg : CCfg) (pre : List COp) (op : COp) : Bool :=
  (match op with
    | .acquire pid t => !askedB pre pid && (crun cfg pre).s.procs.any (fun p => decide (p.pid = pid ∧
        p.phase = .running ∧ limited p.msg.req.fn = true ∧ t ≤ (crun cfg pre).s.r.now))
    | .scavenge _ => (crun cfg pre).s.procs.any (fun p => decide (p.phase = .running ∧ p.msg.req.fn = backstop))
    | _ => true) &&
  (match endsB op with
    | some pid => (crun cfg pre).holding.all (fun h => decide (h.pid ≠ pid))
    | none => true)

theorem lawfulB_sound {limited : String → Bool} {cfg : CCfg} {pre : List COp} {op : COp}
    (h : lawfulB limited cfg pre op = true) : Lawful limited cfg pre op := by
  simp only [lawfulB, Bool.and_eq_true] at h
  refine ⟨?_, ?_, ?_⟩
  · rintro pid t rfl
    have h1 := h.1
    simp only [Bool.and_eq_true, Bool.not_eq_true', List.any_eq_true, decide_eq_true_eq] at h1
    refine ⟨fun hc => ?_, ?_⟩
    · rw [← askedB_iff, h1.1] at hc; cases hc
    · obtain ⟨p, hp, h2⟩ := h1.2
      exact ⟨p, hp, h2⟩
  · intro pid he
    have h2 := h.2
    rw [endsB_iff.2 he] at h2
    simpa using h2
  · rintro t rfl
    have h1 := h.1
    simpa using h1

def smoothB (limited : String → Bool) (cfg : CCfg) (pre : List COp) (op : COp) : Bool :=
  lawfulB limited cfg pre op &&
  (crun cfg pre).s.r.stream.all (fun e => !limited e.2.req.fn ||
    decide (e ∈ (cstep cfg (crun cfg pre) op).s.r.stream) ||
    (crun cfg pre).s.procs.any (fun p => decide (p.id = e.1) &&
      ((match op with
        | .acquire pid _ => decide (pid = p.pid)
        | _ => false) || (gaveB pre (crun cfg pre) p && decide (endsB op = some p.pid))))) &&
  (crun cfg pre).waiters.all (fun e => decide ((crun cfg pre).s.r.stateOf e.2.key = some .scheduled)) &&
  (match op with
    | .acquire pid t => (crun cfg pre).s.procs.all (fun p => !decide (p.pid = pid) ||
        (crun cfg pre).slots.all (fun s => !decide (s.1 = p.msg.key) ||
          (p.redelivered && decide (s.2 + cfg.redelivery ≤ t))))
    | .core (.redeliver _ id) => (crun cfg pre).s.procs.all (fun p => decide (p.id ≠ id))
    | _ => true)

theorem smoothB_sound {limited : String → Bool} {cfg : CCfg} {pre : List COp} {op : COp}
    (h : smoothB limited cfg pre op = true) : Smooth limited cfg pre op := by
  simp only [smoothB, Bool.and_eq_true] at h
  obtain ⟨⟨⟨h1, h2⟩, h3⟩, h4⟩ := h
  refine ⟨lawfulB_sound h1, ?_, ?_, ?_, ?_⟩
  · intro e he hl hne
    have h5 := List.all_eq_true.1 h2 e he
    simp only [hl, hne, Bool.not_true, Bool.false_or, decide_false, List.any_eq_true, Bool.and_eq_true,
      decide_eq_true_eq, Bool.or_eq_true] at h5
    obtain ⟨p, hp, hid, hc⟩ := h5
    refine ⟨p, hp, hid, ?_⟩
    rcases hc with hc | hc
    · left
      split at hc
      · rename_i pid t
        simp only [decide_eq_true_eq] at hc
        subst hc
        exact ⟨t, rfl⟩
      · cases hc
    · exact Or.inr ⟨gaveB_iff.1 hc.1, endsB_iff.1 hc.2⟩
  · simpa using h3
  · rintro pid t p rfl hp rfl s hs hk
    have h5 := List.all_eq_true.1 h4 p hp
    simp only [decide_true, Bool.not_true, Bool.false_or, List.all_eq_true, Bool.or_eq_true] at h5
    rcases h5 s hs with h6 | h6
    · simp [hk] at h6
    · simpa using h6
  · rintro w id rfl
    simpa using h4

def checks (f : List COp → COp → Bool) (pre : List COp) : List COp → Bool
  | [] => true
  | o :: os => f pre o && checks f (pre ++ [o]) os

theorem checks_sound {f : List COp → COp → Bool} {ops : List COp} (h : checks f [] ops = true) :
    ∀ pre op, pre ++ [op] <+: ops → f pre op = true := by
  suffices ∀ (ops acc : List COp), checks f acc ops = true → ∀ pre op, pre ++ [op] <+: ops →
      f (acc ++ pre) op = true by
    intro pre op hp
    simpa using this ops [] h pre op hp
  intro ops
  induction ops with
  | nil => intro acc _ pre op hp; simp at hp
  | cons o os ih =>
    intro acc hc pre op hp
    simp only [checks, Bool.and_eq_true] at hc
    cases pre with
    | nil =>
      obtain ⟨suf, hs⟩ := hp
      simp only [List.nil_append, List.cons_append, List.cons.injEq] at hs
      rw [hs.1, List.append_nil]
      exact hc.1
    | cons x pre =>
      obtain ⟨suf, hs⟩ := hp
      simp only [List.cons_append, List.cons.injEq] at hs
      obtain ⟨rfl, hs⟩ := hs
      have := ih (acc ++ [x]) hc.2 pre op ⟨suf, hs⟩
      simpa using this

/-! ### Waiting for ever -/

/-- Neither a task of the limit nor a backstop. -/
def Other (limited : String → Bool) (fn : String) : Prop := limited fn = false ∧ fn ≠ backstop

/-- Nothing that could wake a waiter is queued, scheduled or running. -/
structure Deserted (limited : String → Bool) (c : CSys) : Prop where
  stream : ∀ e ∈ c.s.r.stream, Other limited e.2.req.fn
  later : ∀ x ∈ c.s.r.queue, ∀ m, c.s.r.parked x.1 = some m → Other limited m.req.fn
  running : ∀ p ∈ c.s.procs, Other limited p.msg.req.fn

/-- No client adds a task of the limit (or a backstop). -/
def NoNew (limited : String → Bool) : COp → Prop
  | .core (.add _ q _) => Other limited q.fn
  | .core (.replace _ q _) => Other limited q.fn
  | _ => True

structure LInv (limited : String → Bool) (pre : List COp) (c : CSys) : Prop where
  asked : ∀ pid, Asked pre pid → pid < c.s.nextPid
  held : ∀ h ∈ c.holding, Asked pre h.pid
  holds : ∀ h ∈ c.holding, ∀ p ∈ c.s.procs, p.pid = h.pid → limited p.msg.req.fn = true

theorem LInv.same {limited : String → Bool} {pre : List COp} {c c' : CSys} (h : LInv limited pre c) (op : COp)
    (h1 : ∀ p ∈ c'.s.procs, (∃ q ∈ c.s.procs, q.pid = p.pid ∧ q.msg = p.msg) ∨ c.s.nextPid ≤ p.pid)
    (h2 : c.s.nextPid ≤ c'.s.nextPid)
    (h3 : ∀ x ∈ c'.holding, ∃ y ∈ c.holding, y.pid = x.pid)
    (hop : ∀ pid t, op ≠ .acquire pid t) : LInv limited (pre ++ [op]) c' := by
  have ha : ∀ pid, Asked (pre ++ [op]) pid ↔ Asked pre pid := by
    intro pid
    rw [asked_snoc]
    constructor
    · rintro (h | ⟨t, h⟩)
      · exact h
      · exact absurd h (hop pid t)
    · exact Or.inl
  refine ⟨fun pid hp => ?_, fun x hx => ?_, fun x hx p hp hpx => ?_⟩
  · have := h.asked pid ((ha pid).1 hp); omega
  · obtain ⟨y, hy, hyx⟩ := h3 x hx
    rw [← hyx]; exact (ha _).2 (h.held y hy)
  · obtain ⟨y, hy, hyx⟩ := h3 x hx
    rcases h1 p hp with ⟨q, hq, h4, h5⟩ | h4
    · rw [← h5]
      exact h.holds y hy q hq (h4.trans (hpx.trans hyx.symm))
    · have := h.asked _ (h.held y hy)
      omega

theorem LInv.step {limited : String → Bool} {cfg : CCfg} {pre : List COp}
    (h : LInv limited pre (crun cfg pre)) {op : COp} (lw : Lawful limited cfg pre op) :
    LInv limited (pre ++ [op]) (cstep cfg (crun cfg pre) op) := by
  have hwf := CSys.wf_run cfg pre
  have hasks := lw.asks
  generalize crun cfg pre = c at h hwf hasks
  have hid : ∀ (c' : CSys), c'.s.procs = c.s.procs → ∀ p ∈ c'.s.procs,
      (∃ q ∈ c.s.procs, q.pid = p.pid ∧ q.msg = p.msg) ∨ c.s.nextPid ≤ p.pid := by
    intro c' he p hp
    exact Or.inl ⟨p, he ▸ hp, rfl, rfl⟩
  have hrefl : ∀ x ∈ c.holding, ∃ y ∈ c.holding, y.pid = x.pid := fun x hx => ⟨x, hx, rfl⟩
  have hnil : ∀ op : COp, (∀ pid t, op ≠ .acquire pid t) → LInv limited (pre ++ [op]) c :=
    fun op hop => h.same op (hid c rfl) (Nat.le_refl _) hrefl hop
  cases op with
  | core op =>
    have e7 := expireSlots_s { c with
      s := Docket.step cfg.toCfg c.s op
      signals := signalled c.signals op }
    have e6 := (expireSlots_sub { c with
      s := Docket.step cfg.toCfg c.s op
      signals := signalled c.signals op }).2
    refine h.same _ ?_ ?_ ?_ (by intro _ _ hc; cases hc)
    · intro p hp
      simp only [cstep, e7] at hp
      rcases step_procs hwf op p hp with ⟨q, hq, h1, _, h3⟩ | ⟨h1, _⟩
      · exact Or.inl ⟨q, hq, h1, h3⟩
      · exact Or.inr h1
    · simp only [cstep, e7]
      exact (step_alive (cfg := cfg.toCfg) hwf op).1
    · intro x hx
      simp only [cstep, e6] at hx
      exact ⟨x, hx, rfl⟩
  | acquire pid t =>
    obtain ⟨hna, p, hp, rfl, hrun, hlim, ht⟩ := hasks pid t rfl
    have hnh : ∀ x ∈ c.holding, x.pid ≠ p.pid := fun x hx hxp => hna (hxp ▸ h.held x hx)
    have hcond : p.phase = .running ∧ t ≤ c.s.r.now ∧ c.holding.all (fun h => decide (h.pid ≠ p.pid)) = true :=
      ⟨hrun, ht, by rw [List.all_eq_true]; intro x hx; simpa using hnh x hx⟩
    have haq : ∀ q, Asked (pre ++ [COp.acquire p.pid t]) q ↔ Asked pre q ∨ q = p.pid := by
      intro q
      rw [asked_snoc]
      constructor
      · rintro (h1 | ⟨t', h1⟩)
        · exact Or.inl h1
        · injection h1 with h1 h2; exact Or.inr h1.symm
      · rintro (h1 | h1)
        · exact Or.inl h1
        · exact Or.inr ⟨t, by rw [h1]⟩
    simp only [cstep, proc?_of hwf hp, if_pos hcond]
    rcases acquire_ways cfg c p t with ⟨c1, a1, a2, a3, a4, a5⟩ | ⟨a1, a2⟩
    · rw [a1]
      simp only [if_true]
      refine ⟨?_, ?_, ?_⟩
      · intro q hq
        show q < c1.s.nextPid
        rw [a2]
        rcases (haq q).1 hq with h1 | h1
        · exact h.asked q h1
        · rw [h1]; exact (hwf.procs.1 p hp).2.1
      · intro x hx
        rcases List.mem_cons.1 hx with rfl | hx
        · exact (haq _).2 (Or.inr rfl)
        · exact (haq _).2 (Or.inl (h.held x hx))
      · intro x hx q hq hqp
        have hq' : q ∈ c.s.procs := by
          have : q ∈ c1.s.procs := hq
          rwa [a2] at this
        rcases List.mem_cons.1 hx with rfl | hx
        · have hqp' : q = p := nodup_map_inj hwf.procs.2 hq' hp hqp
          subst hqp'
          exact hlim
        · exact h.holds x hx q hq' hqp
    · rw [a1]
      simp only [Bool.false_eq_true, if_false]
      rw [luaPark_eq]
      refine ⟨?_, ?_, ?_⟩
      · intro q hq
        show q < c.s.nextPid
        rcases (haq q).1 hq with h1 | h1
        · exact h.asked q h1
        · rw [h1]; exact (hwf.procs.1 p hp).2.1
      · intro x hx
        exact (haq _).2 (Or.inl (h.held x hx))
      · intro x hx q hq hqp
        exact h.holds x hx q (List.mem_filter.1 hq).1 hqp
  | renewSlot pid t =>
    simp only [cstep]
    split
    · split
      · refine h.same _ (hid _ rfl) (Nat.le_refl _) ?_ (by intro _ _ hc; cases hc)
        intro y hy
        obtain ⟨z, hz, rfl⟩ := List.mem_map.1 hy
        refine ⟨z, hz, ?_⟩
        split <;> rfl
      · exact hnil _ (by intro _ _ hc; cases hc)
    · exact hnil _ (by intro _ _ hc; cases hc)
  | release pid t =>
    simp only [cstep]
    split
    · rename_i x hf
      split
      · obtain ⟨c1, r1, r2, r3, r4, r5, r6, r7⟩ := release_way cfg c x.key t
        have hsm := wake_same cfg c1
        refine h.same _ (hid _ ?_) ?_ ?_ (by intro _ _ hc; cases hc)
        · show (luaRelease cfg c x.key t).s.procs = _
          rw [r1, hsm.procs, r2]
        · show _ ≤ (luaRelease cfg c x.key t).s.nextPid
          rw [r1, hsm.nextPid, r2]; exact Nat.le_refl _
        · intro y hy
          exact ⟨y, (List.mem_filter.1 hy).1, rfl⟩
      · exact hnil _ (by intro _ _ hc; cases hc)
    · exact hnil _ (by intro _ _ hc; cases hc)
  | scavenge t =>
    simp only [cstep]
    split
    · simp only [luaScavenge]
      split
      · exact hnil _ (by intro _ _ hc; cases hc)
      · have hsm := wake_same cfg (evict cfg c t)
        refine h.same _ (hid _ hsm.procs) (by rw [hsm.nextPid]; exact Nat.le_refl _) ?_ (by intro _ _ hc; cases hc)
        intro y hy
        rw [hsm.holding] at hy
        exact ⟨y, hy, rfl⟩
    · exact hnil _ (by intro _ _ hc; cases hc)
  | cleanupRead k =>
    simp only [cstep]
    split
    · split
      · exact h.same _ (hid _ rfl) (Nat.le_refl _) hrefl (by intro _ _ hc; cases hc)
      · exact hnil _ (by intro _ _ hc; cases hc)
    · exact hnil _ (by intro _ _ hc; cases hc)
  | cleanupWrite k e =>
    simp only [cstep]
    split
    · exact h.same _ (hid _ rfl) (Nat.le_refl _) hrefl (by intro _ _ hc; cases hc)
    · exact hnil _ (by intro _ _ hc; cases hc)

theorem LInv.run {limited : String → Bool} {cfg : CCfg} (ops : List COp)
    (h : ∀ pre op, pre ++ [op] <+: ops → Lawful limited cfg pre op) : LInv limited ops (crun cfg ops) := by
  suffices ∀ pre suf, ops = pre ++ suf → LInv limited pre (crun cfg pre) → LInv limited ops (crun cfg ops) from
    this [] ops rfl ⟨by simp [Asked], by simp [crun], by simp [crun]⟩
  intro pre suf
  induction suf generalizing pre with
  | nil => intro h1 h2; rw [h1, List.append_nil]; exact h2
  | cons o suf ih =>
    intro h1 h2
    have hstep : crun cfg (pre ++ [o]) = cstep cfg (crun cfg pre) o := by
      rw [crun_append]; rfl
    exact ih (pre ++ [o]) (by simp [h1]) (hstep ▸ h2.step (h pre o ⟨suf, by simp [h1]⟩))

/-- A docket step brings in only what a client adds. -/
theorem core_deserted {limited : String → Bool} {cfg : Cfg} {c : CSys} {op : Op} (hwf : WF c.s)
    (h : Deserted limited c) (hn : NoNew limited (.core op)) {c' : CSys} (hc : c'.s = step cfg c.s op) :
    Deserted limited c' := by
  suffices (∀ e ∈ (step cfg c.s op).r.stream, Other limited e.2.req.fn) ∧
      (∀ x ∈ (step cfg c.s op).r.queue, ∀ m, (step cfg c.s op).r.parked x.1 = some m → Other limited m.req.fn) ∧
      (∀ p ∈ (step cfg c.s op).procs, Other limited p.msg.req.fn) by
    exact ⟨hc ▸ this.1, hc ▸ this.2.1, hc ▸ this.2.2⟩
  obtain ⟨h1, h2, h3⟩ := h
  generalize hs : c.s = s at *
  have hp3 : ∀ p' ∈ (step cfg s op).procs, Other limited p'.msg.req.fn ∨
      (p'.id, p'.msg) ∈ (step cfg s op).r.stream := by
    intro p' hp'
    rcases step_procs hwf op p' hp' with ⟨q, hq, _, _, h4⟩ | ⟨_, h4⟩
    · left; rw [← h4]; exact h3 q hq
    · exact Or.inr h4
  suffices hh : (∀ e ∈ (step cfg s op).r.stream, Other limited e.2.req.fn) ∧
      (∀ x ∈ (step cfg s op).r.queue, ∀ m, (step cfg s op).r.parked x.1 = some m → Other limited m.req.fn) by
    refine ⟨hh.1, hh.2, fun p' hp' => ?_⟩
    rcases hp3 p' hp' with h4 | h4
    · exact h4
    · exact hh.1 _ h4
  clear hp3
  have he := step_eff cfg s hwf.queue op
  generalize Docket.step cfg s op = s' at he
  have hput : ∀ (k : Key) (q : Request) (g : Nat) (qq : List (Key × Time)) (t : Time), Other limited q.fn →
      (∀ x ∈ qq, x ∈ s.r.queue) →
      ∀ x ∈ zinsert k t (qq.filter (fun e => decide (e.1 ≠ k))), ∀ m,
        upd s.r.parked k (some ⟨k, q, g⟩) x.1 = some m → Other limited m.req.fn := by
    intro k q g qq t hq hqq x hx m hm
    by_cases hk : x.1 = k
    · rw [hk, upd_same] at hm
      cases hm
      exact hq
    · rw [upd_other _ _ _ _ hk] at hm
      rcases zinsert_mem.1 hx with hx | hx
      · exact absurd (by rw [hx]) hk
      · exact h2 x (hqq x (List.mem_filter.1 hx).1) m hm
  have hcut : ∀ (k : Key), ∀ x ∈ s.r.queue.filter (fun e => decide (e.1 ≠ k)), ∀ m,
      upd s.r.parked k none x.1 = some m → Other limited m.req.fn := by
    intro k x hx m hm
    obtain ⟨hx1, hx2⟩ := List.mem_filter.1 hx
    rw [upd_other _ _ _ _ (by simpa using hx2)] at hm
    exact h2 x hx1 m hm
  have hadd : ∀ (st : List (MsgId × Msg)) (m : MsgId × Msg), (∀ e ∈ st, e ∈ s.r.stream) → Other limited m.2.req.fn →
      ∀ e ∈ st ++ [m], Other limited e.2.req.fn := by
    intro st m hst hm e he
    rcases List.mem_append.1 he with he | he
    · exact h1 e (hst e he)
    · rw [List.mem_singleton] at he; rw [he]; exact hm
  have hdrop : ∀ k, ∀ e ∈ dropOwn s.r k, e ∈ s.r.stream := by
    intro k e he
    unfold dropOwn at he
    split at he
    · exact (List.mem_filter.1 he).1
    · exact he
  cases he with
  | addNow k q t => exact ⟨hadd _ _ (fun _ h => h) hn, h2⟩
  | addLater k q t => exact ⟨h1, hput k q _ _ _ hn (fun _ h => h)⟩
  | replaceNow k q t => exact ⟨hadd _ _ (hdrop k) hn, hcut k⟩
  | replaceLater k q t => exact ⟨fun e he => h1 e (hdrop k e he), hput k q _ _ _ hn (fun _ h => h)⟩
  | cancel k => exact ⟨fun e he => h1 e (hdrop k e he), hcut k⟩
  | clear op j js hop =>
    refine ⟨?_, by simp⟩
    intro e he
    simp only at he
    split at he
    · cases he
    · exact h1 e he
  | schedule t ht =>
    refine ⟨?_, ?_⟩
    · intro e he
      rcases List.mem_append.1 he with he | he
      · exact h1 e he
      · have h4 := (mem_numbered he).2.2
        obtain ⟨k, hk, hkm⟩ := List.mem_filterMap.1 h4
        simp only [dueKeys, List.mem_map, List.mem_filter] at hk
        obtain ⟨x, hx, rfl⟩ := hk
        exact h2 x hx.1 e.2 hkm
    · intro x hx m hm
      have hx1 := (List.mem_filter.1 hx).1
      simp only at hm
      split at hm
      · cases hm
      · exact h2 x hx1 m hm
  | claimSuperseded p => exact ⟨fun e he => h1 e (List.mem_filter.1 he).1, h2⟩
  | finish p => exact ⟨fun e he => h1 e (List.mem_filter.1 he).1, h2⟩
  | finishSuperseded p => exact ⟨fun e he => h1 e (List.mem_filter.1 he).1, h2⟩
  | rescheduleNow p t a d q hp hph hq =>
    refine ⟨hadd _ _ (fun e he => (List.mem_filter.1 he).1) ?_, h2⟩
    subst hq; exact h3 p hp
  | rescheduleLater p t a d q hp hph hq =>
    refine ⟨fun e he => h1 e (List.mem_filter.1 he).1, hput _ q _ _ _ ?_ (fun _ h => h)⟩
    subst hq; exact h3 p hp
  | _ => exact ⟨h1, h2⟩

theorem Deserted.step {limited : String → Bool} {cfg : CCfg} {pre : List COp} {op : COp}
    (hl : LInv limited pre (crun cfg pre)) (h : Deserted limited (crun cfg pre))
    (lw : Lawful limited cfg pre op) (hn : NoNew limited op) :
    Deserted limited (cstep cfg (crun cfg pre) op) := by
  have hwf := CSys.wf_run cfg pre
  have hasks := lw.asks
  have hscav := lw.scavenges
  generalize crun cfg pre = c at h hwf hl hasks hscav
  cases op with
  | core op =>
    refine core_deserted (cfg := cfg.toCfg) hwf h hn ?_
    simp only [cstep, expireSlots_s]
  | acquire pid t =>
    obtain ⟨_, p, hp, _, _, hlim, _⟩ := hasks pid t rfl
    have := (h.running p hp).1
    rw [hlim] at this; cases this
  | renewSlot pid t =>
    simp only [cstep]
    split
    · split
      · exact ⟨h.stream, h.later, h.running⟩
      · exact h
    · exact h
  | release pid t =>
    simp only [cstep]
    split
    · rename_i x hf
      exfalso
      obtain ⟨hx, _, p, hp, hpx⟩ := find_holder hf
      have h1 := hl.holds x hx p hp hpx
      have h2 := (h.running p hp).1
      rw [h1] at h2; cases h2
    · exact h
  | scavenge t =>
    obtain ⟨p, hp, _, hb⟩ := hscav t rfl
    exact absurd hb (h.running p hp).2
  | cleanupRead k =>
    simp only [cstep]
    split
    · split
      · exact ⟨h.stream, h.later, h.running⟩
      · exact h
    · exact h
  | cleanupWrite k e =>
    simp only [cstep]
    split
    · exact ⟨h.stream, h.later, h.running⟩
    · exact h

/-- C98, the other side.  A task that waits when nothing that could wake it is queued, scheduled
or running waits for ever: whatever the workers do, and whatever other tasks are added, until a
client adds a new task of the same limit (or cancels the waiting one, or clears the docket). -/
theorem C98_deserted_waits_forever (limited : String → Bool) (cfg : CCfg) (ops more : List COp)
    (w : MsgId) (m : Msg)
    (hlaw : ∀ pre op, pre ++ [op] <+: ops ++ more → Lawful limited cfg pre op)
    (hw : Waits (crun cfg ops) w m) (hm : limited m.req.fn = true) (hd : Deserted limited (crun cfg ops))
    (hmore : ∀ pre op, pre ++ [op] <+: more → NoNew limited op ∧
      NotAbout (crun cfg (ops ++ pre)) m.key op) :
    Waits (crun cfg (ops ++ more)) w m := by
  have key : ∀ pre suf, more = pre ++ suf → LInv limited (ops ++ pre) (crun cfg (ops ++ pre)) →
      Deserted limited (crun cfg (ops ++ pre)) → Waits (crun cfg (ops ++ pre)) w m →
      Waits (crun cfg (ops ++ more)) w m := by
    intro pre suf
    induction suf generalizing pre with
    | nil => intro h1 _ _ h2; rw [h1, List.append_nil]; exact h2
    | cons o suf ih =>
      intro h1 h2 h3 h4
      have hstep : crun cfg (ops ++ (pre ++ [o])) = cstep cfg (crun cfg (ops ++ pre)) o := by
        rw [← List.append_assoc, crun_append]; rfl
      have hl : Lawful limited cfg (ops ++ pre) o := hlaw _ _ ⟨suf, by simp [h1]⟩
      obtain ⟨hn, hna⟩ := hmore pre o ⟨suf, by simp [h1]⟩
      have h2' := h2.step hl
      have h3' := Deserted.step h2 h3 hl hn
      refine ih (pre ++ [o]) (by simp [h1]) ?_ ?_ ?_
      · rw [hstep, ← List.append_assoc]; exact h2'
      · rw [hstep]; exact h3'
      · rw [hstep]
        rcases h4.step (cfg := cfg) (CSys.wf_run cfg _) (WaitOK.run cfg _) o hna with h5 | h5
        · exact h5
        · exfalso
          obtain ⟨_, id, h6, _⟩ := h5
          have h7 := (h3'.stream _ h6).1
          simp only at h7
          rw [hm] at h7; cases h7
  refine key [] more rfl ?_ (by simpa using hd) (by simpa using hw)
  simp only [List.append_nil]
  exact LInv.run ops (fun pre op hp => hlaw pre op (hp.trans (List.prefix_append _ _)))

/-! ### Concrete histories -/

/-- A task of the limit, and the backstop that is scheduled when it is parked at time `t`. -/
def task : Request := ⟨"f", "", "", 0, 1⟩
def stop (t : Time) : Request := ⟨backstop, "", "", t, 1⟩
def isLimited (fn : String) : Bool := fn = "f"
/-- One slot; a redelivery timeout of 100. -/
def one : CCfg := ⟨⟨0, 100⟩, 1⟩

/-- Three tasks; the second and the third wait; the worker of the first crashes, it is
redelivered, takes its slot over and ends; the second is woken and runs. -/
def recovering : List COp :=
  [.core (.add "a" task 0), .core (.add "b" task 0), .core (.add "c" task 0), .core (.poll "v" 1),
   .core (.poll "w" 2), .core (.claim 0), .core (.claim 1), .core (.claim 2), .acquire 0 0, .acquire 1 0,
   .acquire 2 0, .core (.crash "v"), .core (.tick 100), .core (.redeliver "w" 1), .core (.claim 3),
   .acquire 3 100, .release 3 100, .core (.finish 3 .completed none false), .core (.poll "w" 1),
   .core (.claim 4), .acquire 4 100]

theorem recovering_smooth : ∀ pre op, pre ++ [op] <+: recovering → Smooth isLimited one pre op :=
  fun pre op h => smoothB_sound (checks_sound (f := smoothB isLimited one) (by decide +kernel) pre op h)

example : 0 < one.max ∧ (crun one recovering).waiters.map (·.2.key) = ["c"] ∧
    (crun one recovering).s.r.stream.map (·.2.key) = ["b"] := by decide +kernel

/-- The same, until all have run: nobody waits. -/
def recovered : List COp := recovering ++
  [.release 4 100, .core (.finish 4 .completed none false), .core (.poll "w" 1), .core (.claim 5),
   .acquire 5 100, .release 5 100, .core (.finish 5 .completed none false)]

theorem recovered_smooth : ∀ pre op, pre ++ [op] <+: recovered → Smooth isLimited one pre op :=
  fun pre op h => smoothB_sound (checks_sound (f := smoothB isLimited one) (by decide +kernel) pre op h)

example : (crun one recovered).s.r.stream = [] ∧ (crun one recovered).waiters = [] := by decide +kernel

/-- Three tasks; the second and the third wait; their backstops run while the first still runs,
and find nothing to do; the first ends and wakes the second. -/
def handedOn : List COp :=
  [.core (.add "a" task 0), .core (.add "b" task 0), .core (.add "c" task 0), .core (.poll "w" 3),
   .core (.claim 0), .core (.claim 1), .core (.claim 2), .acquire 0 0, .acquire 1 0,
   .core (.add "__safeguard__:b" (stop 100) 0), .acquire 2 0, .core (.add "__safeguard__:c" (stop 100) 0),
   .core (.tick 90), .renewSlot 0 90, .core (.renew "w" 1), .core (.tick 10), .core (.schedule 100), .core (.poll "w" 2),
   .core (.claim 3), .scavenge 100, .core (.finish 3 .completed none false),
   .core (.claim 4), .scavenge 100, .core (.finish 4 .completed none false),
   .release 0 100, .core (.finish 0 .completed none false)]

/-- The task that was woken is cancelled before a worker takes it up. -/
def cancelled : List COp := handedOn ++ [.core (.cancel "b")]

/-- The task that was woken is struck. -/
def struck : List COp := handedOn ++
  [.core (.poll "w" 1), .core (.strikeOut 5), .core (.finish 5 .cancelled none false)]

/-- The task that was woken fails before it asks for a slot: another dependency fails. -/
def failing : List COp := handedOn ++
  [.core (.poll "w" 1), .core (.claim 5), .core (.finish 5 .failed (some "E") false)]

/-- The worker of the first task crashes; the task is redelivered while its own slot, renewed
after its message, is not stale yet, and is parked behind itself; that worker crashes before it
has scheduled the backstop. -/
def selfParked : List COp :=
  [.core (.add "a" task 0), .core (.add "b" task 0), .core (.poll "w" 2),
   .core (.claim 0), .core (.claim 1), .acquire 0 0, .acquire 1 0,
   .core (.add "__safeguard__:b" (stop 100) 0),
   .core (.tick 80), .core (.renew "w" 1), .core (.tick 15), .renewSlot 0 95, .core (.tick 5),
   .core (.schedule 100), .core (.poll "w" 1), .core (.claim 2), .scavenge 100,
   .core (.finish 2 .completed none false), .core (.crash "w"), .core (.tick 80),
   .core (.redeliver "v" 1), .core (.claim 3), .acquire 3 180, .core (.crash "v")]

theorem lawful_of {ops : List COp} (h : checks (lawfulB isLimited one) [] ops = true) :
    ∀ pre op, pre ++ [op] <+: ops → Lawful isLimited one pre op :=
  fun pre op hp => lawfulB_sound (checks_sound h pre op hp)

/-- With nothing queued, scheduled or running, nobody can wake a waiter. -/
theorem violates {ops : List COp} (h : checks (lawfulB isLimited one) [] ops = true)
    (hw : (crun one ops).waiters ≠ []) (hs : (crun one ops).s.r.stream = [])
    (hq : (crun one ops).s.r.queue = []) : ¬ C98_statement := by
  intro hc
  rcases hc isLimited one ops (by decide) (lawful_of h) hw with ⟨e, he⟩ | ⟨e, he, _⟩ | ⟨x, hx, _⟩
  · have := he.queued; rw [hs] at this; cases this
  · rw [hs] at he; cases he
  · rw [hq] at hx; cases hx

theorem deserts {ops : List COp} (hs : (crun one ops).s.r.stream = []) (hq : (crun one ops).s.r.queue = [])
    (hp : (crun one ops).s.procs = []) : Deserted isLimited (crun one ops) :=
  ⟨by simp [hs], by simp [hq], by simp [hp]⟩

/-- **Disagreement.**  A task waiting for a slot can wait for ever when the task that was woken
before it is cancelled before a worker takes it up: the slot it was woken for stays free, but the
backstops of the waiting tasks ran while the previous holder was still busy, and nobody else wakes
them (`C98_deserted_waits_forever`). -/
theorem C98_violated_cancelled : ¬ C98_statement :=
  violates (ops := cancelled) (by decide +kernel) (by decide +kernel) (by decide +kernel) (by decide +kernel)

/-- **Disagreement.**  The same when the task that was woken is struck. -/
theorem C98_violated_struck : ¬ C98_statement :=
  violates (ops := struck) (by decide +kernel) (by decide +kernel) (by decide +kernel) (by decide +kernel)

/-- **Disagreement.**  The same when the task that was woken fails before it asks for its slot, for
example because another of its dependencies fails. -/
theorem C98_violated_failing : ¬ C98_statement :=
  violates (ops := failing) (by decide +kernel) (by decide +kernel) (by decide +kernel) (by decide +kernel)

/-- **Disagreement.**  A task whose worker crashed can be redelivered while the slot it held itself
is not stale yet (the slot is renewed on another beat than the message).  It then waits for its own
slot; if its new worker crashes before the backstop is scheduled, it and every task waiting in front
of it wait for ever. -/
theorem C98_violated_own_slot : ¬ C98_statement :=
  violates (ops := selfParked) (by decide +kernel) (by decide +kernel) (by decide +kernel) (by decide +kernel)

theorem not_safeguard {k : Key} (h : k.length < 14) (k' : Key) : k ≠ safeguardKey k' := by
  intro hc
  rw [hc] at h
  simp only [safeguardKey, String.length_append] at h
  have h2 : "__safeguard__:".length = 14 := by decide
  omega

/-- In each of these histories the waiting task waits in the sense of `C98_deserted_waits_forever`,
which applies to it. -/
example : ∀ ops ∈ [cancelled, struck, failing], (∃ w m, Waits (crun one ops) w m ∧ isLimited m.req.fn = true) ∧
    Deserted isLimited (crun one ops) := by
  intro ops h
  simp only [List.mem_cons, List.not_mem_nil, or_false] at h
  rcases h with rfl | rfl | rfl
  all_goals
    refine ⟨⟨2, ⟨"c", task, 2⟩, ⟨by decide +kernel, by decide +kernel, ⟨_, rfl, by decide +kernel, by decide +kernel,
      by decide +kernel⟩, by decide +kernel, by decide +kernel, ?_, not_safeguard (by decide)⟩, by decide⟩,
      deserts (by decide +kernel) (by decide +kernel) (by decide +kernel)⟩
    intro w' hc
    revert hc
    rw [show (crun one _).cleanups = [] by decide +kernel]
    simp

example : (crun one selfParked).waiters.map (·.2.key) = ["b", "a"] ∧ Deserted isLimited (crun one selfParked) :=
  ⟨by decide +kernel, deserts (by decide +kernel) (by decide +kernel) (by decide +kernel)⟩

end Docket.Waiting
