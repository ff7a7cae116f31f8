import Verif.Props.C59

/-!
# C59: what waits for a slot is what was asked for

A message may be parked, woken, handed out and rescheduled any number of times; its function and
arguments are those of a call of `add` or `replace` all the same.
-/
namespace Docket.Payload
open Docket Redis

/-- What a message asks for. -/
structure Asked where
  key : Key
  fn : String
  args : String
  kwargs : String
deriving DecidableEq, Repr

def asked (m : Msg) : Asked := ⟨m.key, m.req.fn, m.req.args, m.req.kwargs⟩

/-- Whether the call asks for this. -/
def Asks (a : Asked) : COp → Prop
  | .core (.add k q _) => a = ⟨k, q.fn, q.args, q.kwargs⟩
  | .core (.replace k q _) => a = ⟨k, q.fn, q.args, q.kwargs⟩
  | _ => False

/-- No message that asks for this is anywhere: in the work stream, in the schedule, with a worker
or waiting for a slot. -/
structure Nowhere (a : Asked) (c : CSys) : Prop where
  stream : ∀ e ∈ c.s.r.stream, asked e.2 ≠ a
  parked : ∀ k m, c.s.r.parked k = some m → asked m ≠ a
  procs : ∀ p ∈ c.s.procs, asked p.msg ≠ a
  waiters : ∀ e ∈ c.waiters, asked e.2 ≠ a

theorem core_nowhere {cfg : Cfg} {s : Sys} (hw : WF s) {a : Asked} {op : Op} (hop : ¬ Asks a (.core op))
    (h1 : ∀ e ∈ s.r.stream, asked e.2 ≠ a) (h2 : ∀ k m, s.r.parked k = some m → asked m ≠ a)
    (h3 : ∀ p ∈ s.procs, asked p.msg ≠ a) :
    (∀ e ∈ (Docket.step cfg s op).r.stream, asked e.2 ≠ a) ∧
    (∀ k m, (Docket.step cfg s op).r.parked k = some m → asked m ≠ a) ∧
    (∀ p ∈ (Docket.step cfg s op).procs, asked p.msg ≠ a) := by
  have hu : ∀ (k' : Key) (m' : Msg), asked m' ≠ a → ∀ k m, upd s.r.parked k' (some m') k = some m → asked m ≠ a := by
    intro k' m' hm k m h
    by_cases hk : k = k'
    · subst hk; rw [upd_same] at h; cases h; exact hm
    · rw [upd_other _ _ _ _ hk] at h; exact h2 k m h
  have hn : ∀ (k' : Key) k m, upd s.r.parked k' none k = some m → asked m ≠ a := by
    intro k' k m h
    by_cases hk : k = k'
    · subst hk; rw [upd_same] at h; cases h
    · rw [upd_other _ _ _ _ hk] at h; exact h2 k m h
  have hph : ∀ (p : Proc) (ph : Phase), ∀ x ∈ s.procs.map (fun x => if x.pid = p.pid then { x with phase := ph } else x),
      asked x.msg ≠ a := by
    intro p ph x hx
    obtain ⟨y, hy, rfl⟩ := List.mem_map.1 hx
    split <;> exact h3 y hy
  have heff := step_eff cfg s hw.queue op
  generalize Docket.step cfg s op = s' at heff ⊢
  cases heff with
  | nop => exact ⟨h1, h2, h3⟩
  | tick d => exact ⟨h1, h2, h3⟩
  | addNow k q t _ _ _ =>
    refine ⟨?_, h2, h3⟩
    intro e he
    rcases List.mem_append.1 he with he | he
    · exact h1 e he
    · rw [List.mem_singleton.1 he]; exact fun h => hop h.symm
  | addLater k q t _ _ _ => exact ⟨h1, hu _ _ (fun h => hop h.symm), h3⟩
  | replaceNow k q t _ _ =>
    refine ⟨?_, hn k, h3⟩
    intro e he
    rcases List.mem_append.1 he with he | he
    · exact h1 e (mem_dropOwn he)
    · rw [List.mem_singleton.1 he]; exact fun h => hop h.symm
  | replaceLater k q t _ _ => exact ⟨fun e he => h1 e (mem_dropOwn he), hu _ _ (fun h => hop h.symm), h3⟩
  | cancel k => exact ⟨fun e he => h1 e (mem_dropOwn he), hn k, h3⟩
  | cancelTtl k _ => exact ⟨h1, h2, h3⟩
  | clear op j js _ =>
    refine ⟨?_, ?_, h3⟩
    · intro e he
      simp only at he
      split at he
      · cases he
      · exact h1 e he
    · intro k m hm
      simp only at hm
      split at hm
      · cases hm
      · exact h2 k m hm
  | clearRead => exact ⟨h1, h2, h3⟩
  | schedule t _ =>
    refine ⟨?_, ?_, h3⟩
    · intro e he
      rcases List.mem_append.1 he with he | he
      · exact h1 e he
      · obtain ⟨k', _, hp'⟩ := List.mem_filterMap.1 (mem_numbered he).2.2
        exact h2 k' _ hp'
    · intro k m hm
      simp only at hm
      split at hm
      · cases hm
      · exact h2 k m hm
  | poll w n new hnew =>
    refine ⟨h1, h2, ?_⟩
    intro p hp
    rcases List.mem_append.1 hp with hp | hp
    · exact h3 p hp
    · have he := (mem_newProcs hp).1
      rw [hnew] at he
      exact h1 _ (List.mem_filter.1 (List.mem_of_mem_take he)).1
  | redeliver w p e _ he _ _ =>
    refine ⟨h1, h2, ?_⟩
    intro x hx
    rcases List.mem_append.1 hx with hx | hx
    · exact h3 x hx
    · rw [List.mem_singleton.1 hx]; exact h1 e he
  | forget id _ => exact ⟨h1, h2, h3⟩
  | renew w id _ _ => exact ⟨h1, h2, h3⟩
  | crash w => exact ⟨h1, h2, fun p hp => h3 p (List.mem_filter.1 hp).1⟩
  | abandon pid => exact ⟨h1, h2, fun p hp => h3 p (List.mem_filter.1 hp).1⟩
  | strikeOut p hp hph' => exact ⟨h1, h2, hph p _⟩
  | claimSuperseded p hp hph' _ =>
    exact ⟨fun e he => h1 e (List.mem_filter.1 he).1, h2, fun p hp => h3 p (List.mem_filter.1 hp).1⟩
  | claim p hp hph' _ => exact ⟨h1, h2, hph p _⟩
  | store p data _ _ _ => exact ⟨h1, h2, h3⟩
  | finish p st e w _ _ _ =>
    exact ⟨fun e he => h1 e (List.mem_filter.1 he).1, h2, fun p hp => h3 p (List.mem_filter.1 hp).1⟩
  | finishSuperseded p st e w _ _ _ =>
    exact ⟨fun e he => h1 e (List.mem_filter.1 he).1, h2, fun p hp => h3 p (List.mem_filter.1 hp).1⟩
  | rescheduleNow p t a' d q hp _ _ _ _ =>
    refine ⟨?_, h2, fun p hp => h3 p (List.mem_filter.1 hp).1⟩
    intro e he
    rcases List.mem_append.1 he with he | he
    · exact h1 e (List.mem_filter.1 he).1
    · rw [List.mem_singleton.1 he]
      have := h3 p hp
      subst_vars
      exact this
  | rescheduleLater p t a' d q hp _ _ _ _ =>
    refine ⟨fun e he => h1 e (List.mem_filter.1 he).1, hu _ _ ?_, fun p hp => h3 p (List.mem_filter.1 hp).1⟩
    have := h3 p hp
    subst_vars
    exact this
  | prog op k' f _ => exact ⟨h1, h2, h3⟩

theorem Nowhere.slots {a : Asked} {c c1 : CSys} (h : Nowhere a c) (hs : c1.s = c.s) (hw : c1.waiters = c.waiters) :
    Nowhere a c1 :=
  ⟨by rw [hs]; exact h.1, by rw [hs]; exact h.2, by rw [hs]; exact h.3, by rw [hw]; exact h.4⟩

theorem Nowhere.wakeAll {a : Asked} (l : List (MsgId × Msg)) (hl : ∀ e ∈ l, asked e.2 ≠ a) {c : CSys} (h : Nowhere a c) :
    Nowhere a (l.foldl wakeOne c) := by
  induction l generalizing c with
  | nil => exact h
  | cons x l ih =>
    rw [List.foldl_cons]
    have hx : asked x.2 ≠ a := hl x List.mem_cons_self
    have hn : ∀ (k' : Key) k m, upd c.s.r.parked k' none k = some m → asked m ≠ a := by
      intro k' k m hm
      by_cases hk : k = k'
      · subst hk; rw [upd_same] at hm; cases hm
      · rw [upd_other _ _ _ _ hk] at hm; exact h.parked k m hm
    refine ih (fun e he => hl e (List.mem_cons_of_mem _ he)) ?_
    by_cases hs : c.s.r.stateOf x.2.key = some .scheduled
    · rw [wakeOne_woken c x hs]
      refine ⟨?_, hn _, h.procs, fun e he => h.waiters e (List.mem_filter.1 he).1⟩
      intro e he
      rcases List.mem_append.1 he with he | he
      · exact h.stream e he
      · rw [List.mem_singleton.1 he]; exact hx
    · rw [wakeOne_dropped c x hs]
      exact ⟨h.stream, hn _, h.procs, fun e he => h.waiters e (List.mem_filter.1 he).1⟩

theorem Nowhere.wake {a : Asked} (cfg : CCfg) {c : CSys} (h : Nowhere a c) : Nowhere a (wake cfg c) :=
  h.wakeAll _ (fun e he => h.waiters e (List.mem_of_mem_take he))

theorem Nowhere.step {a : Asked} (cfg : CCfg) {c : CSys} (hw : WF c.s) (h : Nowhere a c) (op : COp) (hop : ¬ Asks a op) :
    Nowhere a (cstep cfg c op) := by
  cases op with
  | core op =>
    obtain ⟨h1, h2, h3⟩ := core_nowhere (cfg := cfg.toCfg) hw hop h.stream h.parked h.procs
    refine Nowhere.slots (c := { c with s := Docket.step cfg.toCfg c.s op }) ⟨h1, h2, h3, h.waiters⟩ ?_ ?_
    · simp only [cstep, expireSlots_s]
    · simp only [cstep, (expireSlots_waiters _).1]
  | acquire pid t =>
    simp only [cstep]
    cases hp : c.s.proc? pid with
    | none => exact h
    | some p =>
      have hne := h.procs p (find_pid hp).1
      simp only
      split
      · rcases acquire_cases cfg c p t with ⟨c1, h1, h2, h3, _⟩ | h1
        · rw [h1]; exact h.slots h2 h3
        · rw [h1, luaPark_eq]
          refine ⟨fun e he => h.stream e (List.mem_filter.1 he).1, h.parked,
            fun x hx => h.procs x (List.mem_filter.1 hx).1, ?_⟩
          intro e he
          rcases List.mem_append.1 he with he | he
          · exact h.waiters e he
          · rw [List.mem_singleton.1 he]; exact hne
      · exact h
  | renewSlot pid t =>
    simp only [cstep]
    cases c.holders.find? (fun h => h.pid = pid) with
    | none => exact h
    | some x =>
      simp only
      split
      · exact h.slots rfl rfl
      · exact h
  | release pid t =>
    simp only [cstep]
    cases c.holders.find? (fun h => h.pid = pid) with
    | none => exact h
    | some x =>
      simp only
      split
      · obtain ⟨c1, h1, h2, h3⟩ := release_s cfg c x.key t
        rw [h1]
        exact ((h.slots h2 h3).wake cfg).slots rfl rfl
      · exact h
  | scavenge t =>
    simp only [cstep]
    split
    · simp only [luaScavenge]
      split
      · exact h
      · exact (h.slots (c1 := evict cfg c t) rfl rfl).wake cfg
    · exact h
  | cleanupRead k' =>
    simp only [cstep]
    split
    · cases (c.s.r.runs k').bind (·.waiter) <;> exact h.slots rfl rfl
    · exact h
  | cleanupWrite k' e =>
    simp only [cstep]
    split
    · exact ⟨h.stream, h.parked, h.procs, fun x hx => h.waiters x (List.mem_filter.1 hx).1⟩
    · exact h

theorem Nowhere.run {a : Asked} (cfg : CCfg) (ops : List COp) : ∀ {c : CSys}, WF c.s → Nowhere a c →
    (∀ op ∈ ops, ¬ Asks a op) → Nowhere a (crunFrom cfg c ops) := by
  induction ops with
  | nil => intro c _ h _; exact h
  | cons o ops ih =>
    intro c hw h hop
    rw [crunFrom_cons]
    exact ih (CSys.wf_step cfg hw o) (h.step cfg hw o (hop o List.mem_cons_self))
      (fun op ho => hop op (List.mem_cons_of_mem _ ho))

/-- **C59**: whatever waits for a slot, and whatever a worker executes after it was parked and
woken any number of times, asks for what some call of `add` or `replace` asked for. -/
theorem C59_only_asked_for (cfg : CCfg) (ops : List COp) :
    (∀ e ∈ (crun cfg ops).waiters, ∃ op ∈ ops, Asks (asked e.2) op) ∧
    (∀ p ∈ (crun cfg ops).s.procs, ∃ op ∈ ops, Asks (asked p.msg) op) := by
  have key : ∀ a, ¬ (∃ op ∈ ops, Asks a op) → Nowhere a (crun cfg ops) := fun a h =>
    Nowhere.run cfg ops WF.init ⟨by simp, by simp, by simp, by simp⟩ (fun op ho hc => h ⟨op, ho, hc⟩)
  refine ⟨fun e he => ?_, fun p hp => ?_⟩
  · refine Classical.byContradiction fun h => ?_
    exact (key _ h).waiters e he rfl
  · refine Classical.byContradiction fun h => ?_
    exact (key _ h).procs p hp rfl

/-- **C59, cancel, continued**: once the waiting place of a cancelled task has been given up, what it
asked for is never begun, even if the key is scheduled again, unless somebody asks for the same
again. -/
theorem C59_cleaned_up (cfg : CCfg) (ops more : List COp) (w : MsgId) (m : Msg)
    (hs : ∀ e ∈ (crun cfg ops).s.r.stream, asked e.2 ≠ asked m)
    (hq : ∀ k m', (crun cfg ops).s.r.parked k = some m' → asked m' ≠ asked m)
    (hp : ∀ p ∈ (crun cfg ops).s.procs, asked p.msg ≠ asked m)
    (hw : ∀ e ∈ (crun cfg ops).waiters, asked e.2 = asked m → e.1 = w)
    (hr : ((crun cfg ops).s.r.runs m.key).bind (·.waiter) = some w)
    (hc : m.key ∈ (crun cfg ops).signals)
    (hop : ∀ op ∈ more, ¬ Asks (asked m) op) :
    ∀ p ∈ (crunFrom cfg (crun cfg ops) (.cleanupRead m.key :: .cleanupWrite m.key w :: more)).s.procs,
      asked p.msg ≠ asked m := by
  have hwf := CSys.wf_run cfg ops
  generalize crun cfg ops = c at *
  rw [crunFrom_cons, crunFrom_cons]
  have h1 : cstep cfg c (.cleanupRead m.key) = { c with cleanups := (m.key, w) :: c.cleanups } := by
    simp only [cstep]; rw [if_pos hc, hr]
  have h2 : cstep cfg (cstep cfg c (.cleanupRead m.key)) (.cleanupWrite m.key w) =
      luaCancelCleanup { c with cleanups := (m.key, w) :: c.cleanups } m.key w := by
    rw [h1]; simp only [cstep]; rw [if_pos List.mem_cons_self]
  have h3 : Nowhere (asked m) (cstep cfg (cstep cfg c (.cleanupRead m.key)) (.cleanupWrite m.key w)) := by
    rw [h2]
    refine ⟨hs, hq, hp, ?_⟩
    intro e he hc'
    have := List.mem_filter.1 he
    exact absurd (hw e this.1 hc') (by simpa using this.2)
  exact (Nowhere.run cfg more (CSys.wf_step cfg (CSys.wf_step cfg hwf _) _) h3 hop).procs

private abbrev rq : Request := ⟨"f", "", "", 0, 1⟩

/-- "a" holds the only slot and "b" waits and is cancelled. -/
private def cancelled : List COp :=
  [.core (.add "a" rq 0), .core (.add "b" ⟨"f", "old", "", 0, 1⟩ 0), .core (.poll "w" 2),
   .core (.claim 0), .core (.claim 1), .acquire 0 0, .acquire 1 0, .core (.cancel "b")]

/-- The hypotheses of `C59_cleaned_up` hold for it, and what comes after is not nothing: the key is
scheduled again and its new task is begun. -/
example : let c := crun ⟨⟨10, 100⟩, 1⟩ cancelled
    let m : Msg := ⟨"b", ⟨"f", "old", "", 0, 1⟩, 2⟩
    (∀ e ∈ c.s.r.stream, asked e.2 ≠ asked m) ∧ (∀ p ∈ c.s.procs, asked p.msg ≠ asked m) ∧
    c.waiters = [(1, m)] ∧ (c.s.r.runs "b").bind (·.waiter) = some 1 ∧ "b" ∈ c.signals ∧
    (crunFrom ⟨⟨10, 100⟩, 1⟩ c [.cleanupRead "b", .cleanupWrite "b" 1, .core (.add "b" ⟨"f", "new", "", 0, 1⟩ 0), .release 0 0,
      .core (.poll "w" 1), .core (.claim 2)]).s.procs.map (fun p => (p.msg.key, p.msg.req.args)) = [("a", ""), ("b", "new")] := by
  decide +kernel

/-- C59, cancel and schedule again: what a waiting task that was cancelled asked for is not begun
afterwards, unless somebody asks for the same again. -/
def C59_cancel_statement : Prop :=
  ∀ (cfg : CCfg) (ops more : List COp) (w : MsgId) (m : Msg), (w, m) ∈ (crun cfg ops).waiters →
    (∀ p ∈ (crun cfg ops).s.procs, asked p.msg ≠ asked m) → (∀ op ∈ more, ¬ Asks (asked m) op) →
    ∀ p ∈ (crunFrom cfg (crun cfg ops) (.core (.cancel m.key) :: more)).s.procs, asked p.msg ≠ asked m

/-- **Disagreement.** When the announcement of the cancellation is missed or acted on late, the place
in the line stays, and waking asks only whether the key is `scheduled`
(_concurrency.py:217-223): a key that was cancelled and scheduled again for later runs at once,
with the arguments that had been cancelled. -/
theorem C59_violated_readd : ¬ C59_cancel_statement := by
  intro h
  have := h ⟨⟨10, 100⟩, 1⟩ (cancelled.dropLast)
    [.core (.add "b" ⟨"f", "new", "", 50, 1⟩ 0), .release 0 0, .core (.poll "w" 1), .core (.claim 2)] 1
    ⟨"b", ⟨"f", "old", "", 0, 1⟩, 2⟩ (by decide +kernel) (by decide +kernel)
    (by
      intro op ho
      simp only [List.mem_cons, List.not_mem_nil, or_false] at ho
      rcases ho with rfl | rfl | rfl | rfl
      · simp [Asks, asked]
      · exact fun h => h
      · exact fun h => h
      · exact fun h => h)
  revert this
  decide +kernel

end Docket.Payload
