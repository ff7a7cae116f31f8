import Verif.Core.Lifecycle
/-
C17 Execution states follow the documented lifecycle.
C18 A worker runs the function with the arguments that were scheduled.
-/
namespace Docket
open Redis

/-! ### C17 -/

/-- What must have happened in the step from `s` to `s'` for the recorded state of `k` to
become the given one (`none`: no record any more). -/
def CauseOf (cfg : Cfg) (s : Sys) (op : Op) (s' : Sys) (k : Key) : Option RunState → Prop
  | some .scheduled => ∃ m, m.key = k ∧ newEvents s s' = [.accepted m]
  | some .queued => (∃ m, m.key = k ∧ newEvents s s' = [.accepted m]) ∨
      (∃ t m, op = .schedule t ∧ s.r.parked k = some m ∧ m.req.when_ ≤ t ∧ t ≤ s.r.now)
  | some .running => ∃ pid id m, m.key = k ∧ newEvents s s' = [.started pid id m s.r.now] ∧
      ∃ w b t, Event.handed pid id w b t m ∈ s.log
  | some .completed => ∃ pid id m t, m.key = k ∧
      newEvents s s' = [.finished pid id m .completed true] ∧ Event.started pid id m t ∈ s.log
  | some .failed => ∃ pid id m t, m.key = k ∧
      newEvents s s' = [.finished pid id m .failed true] ∧ Event.started pid id m t ∈ s.log
  | some .cancelled => newEvents s s' = [.cancelled k] ∨
      ∃ pid id m, m.key = k ∧ newEvents s s' = [.finished pid id m .cancelled true]
  | none => (∃ d, op = .tick d) ∨ cfg.ttl = 0

theorem advance_runs (r : Redis) (d : Nat) (k : Key) :
    (r.advance d).runs k = none ∨ (r.advance d).runs k = r.runs k := by
  simp only [advance]
  rcases Option.eq_none_or_eq_some (r.runs k) with hr | ⟨v, hr⟩
  · left; simp [hr]
  · rw [hr]
    simp only [Option.filter]
    split
    · right; rfl
    · left; rfl

theorem stateOf_upd_other (r : Redis) (k k' : Key) (v : Option Run) (h : k ≠ k') :
    Redis.stateOf { r with runs := upd r.runs k' v } k = r.stateOf k := by
  simp [Redis.stateOf, upd_other _ _ _ _ h]

theorem expired_state {ttl : Nat} {r : Redis} {k : Key} :
    (expiredRun ttl r k).bind (·.state) = r.stateOf k ∨
      ((expiredRun ttl r k).bind (·.state) = none ∧ ttl = 0) := by
  simp only [expiredRun, Redis.stateOf]
  by_cases h : ttl > 0
  · left; rw [if_pos h]; cases r.runs k <;> rfl
  · right; rw [if_neg h]; exact ⟨rfl, by omega⟩

/-- C17, unconditionally: in every reachable state, whenever a step changes the recorded
state of a key, the step is one that may cause the new state: scheduled and queued come
from a scheduling call (or from the scheduler moving a due task), running from a worker
starting a task it was handed, completed and failed from the end of an execution that
had been started, cancelled from `cancel` or from the end of an execution, and a record
disappears only by expiry or with `execution_ttl=0`. -/
theorem C17_causes (cfg : Cfg) (ops : List Op) (op : Op) (k : Key) :
    let s := run cfg ops
    let s' := step cfg s op
    s'.r.stateOf k ≠ s.r.stateOf k → CauseOf cfg s op s' k (s'.r.stateOf k) := by
  intro s s' hne
  have hw : WF s := WF.run cfg ops
  have hor : OriginInv s := OriginInv.run cfg ops
  have he := step_eff cfg s hw.queue op
  simp only [s'] at hne ⊢
  generalize Docket.step cfg s op = s' at he hne
  have hother : ∀ {k' : Key} {v : Option Run}, (upd s.r.runs k' v k).bind (·.state) ≠ s.r.stateOf k →
      k = k' := by
    intro k' v h
    by_cases hk : k = k'
    · exact hk
    · exact absurd (by simp [Redis.stateOf, upd_other _ _ _ _ hk]) h
  have hone : ∀ {s' : Sys} {ev : Event}, s'.log = ev :: s.log → newEvents s s' = [ev] :=
    fun h => newEvents_eq (l := [_]) h
  cases he with
  | tick d =>
    rcases advance_runs s.r d k with h0 | h0
    · have : (s.r.advance d).stateOf k = none := by simp [Redis.stateOf, h0]
      simp only [this]
      exact Or.inl ⟨d, rfl⟩
    · exact absurd (by simp [Redis.stateOf, h0]) hne
  | addNow k' q t ht hwh hx =>
    have hk := hother hne; subst hk
    simp only [Redis.stateOf, upd_same, Option.bind_some, queuedRun]
    exact Or.inl ⟨_, rfl, hone rfl⟩
  | addLater k' q t ht hwh hx =>
    have hk := hother hne; subst hk
    simp only [Redis.stateOf, upd_same, Option.bind_some, scheduledRun]
    exact ⟨_, rfl, hone rfl⟩
  | replaceNow k' q t ht hwh =>
    have hk := hother hne; subst hk
    simp only [Redis.stateOf, upd_same, Option.bind_some, queuedRun]
    exact Or.inl ⟨_, rfl, hone rfl⟩
  | replaceLater k' q t ht hwh =>
    have hk := hother hne; subst hk
    simp only [Redis.stateOf, upd_same, Option.bind_some, scheduledRun]
    exact ⟨_, rfl, hone rfl⟩
  | cancel k' =>
    have hk := hother hne; subst hk
    have hcr : (cancelRun s.r k).state = s.r.stateOf k ∨ (cancelRun s.r k).state = some .cancelled := by
      have hrun : ∀ st, s.r.stateOf k = some st → (s.r.run k).state = some st := by
        intro st h
        simp only [Redis.stateOf, Option.bind_eq_some_iff] at h
        obtain ⟨v, h1, h2⟩ := h
        simp [Redis.run, h1, h2]
      simp only [cancelRun]
      cases hs : s.r.stateOf k with
      | none => exact Or.inr rfl
      | some st => cases st <;> first | exact Or.inr rfl | exact Or.inl (hrun _ hs)
    simp only [Redis.stateOf, upd_same, Option.bind_some] at hne ⊢
    rcases hcr with h1 | h1
    · exact absurd h1 hne
    · rw [h1]; exact Or.inl (hone rfl)
  | cancelTtl k' hk' =>
    have hk := hother hne; subst hk
    simp only [Redis.stateOf, upd_same] at hne ⊢
    rcases expired_state (ttl := cfg.ttl) (r := s.r) (k := k) with h1 | ⟨h1, h2⟩
    · exact absurd h1 hne
    · rw [h1]; exact Or.inr h2
  | clear op j js hop =>
    by_cases hk : k ∈ j.scheduledKeys ∨ k ∈ j.streamKeys
    · simp only [Redis.stateOf, if_pos hk] at hne ⊢
      rcases expired_state (ttl := cfg.ttl) (r := s.r) (k := k) with h1 | ⟨h1, h2⟩
      · exact absurd h1 hne
      · rw [h1]; exact Or.inr h2
    · simp only [Redis.stateOf, if_neg hk] at hne
      exact absurd rfl hne
  | schedule t ht =>
    by_cases hk : k ∈ dueKeys s.r t
    · obtain ⟨m, h1, h2, _⟩ := dueKeys_parked hw.queue hk
      simp only [Redis.stateOf, if_pos hk, Option.bind_some]
      exact Or.inr ⟨t, m, rfl, h1, h2, ht⟩
    · simp only [Redis.stateOf, if_neg hk] at hne
      exact absurd rfl hne
  | strikeOut p hp hph =>
    exfalso
    have hk := hother hne
    rw [hk] at hne
    simp only [Redis.stateOf, upd_same] at hne
    apply hne
    cases s.r.runs p.msg.key <;> rfl
  | claim p hp hph hs =>
    have hk := hother hne; subst hk
    simp only [Redis.stateOf, upd_same, Option.bind_some, claimedRun]
    obtain ⟨t, hh⟩ := hor.isHanded p hp
    exact ⟨p.pid, p.id, p.msg, rfl, hone rfl, p.worker, p.redelivered, t, hh⟩
  | finish p st e w hp hph hs =>
    have hk := hother hne; subst hk
    simp only [Redis.stateOf, upd_same]
    by_cases ht : cfg.ttl > 0
    · rw [if_pos ht]
      simp only [Option.bind_some, terminalRun]
      rcases hph with ⟨hph, hterm⟩ | ⟨hph, rfl⟩
      · obtain ⟨t, hstart⟩ := hor.running p hp hph
        cases st with
        | completed => exact ⟨_, _, _, t, rfl, hone rfl, hstart⟩
        | failed => exact ⟨_, _, _, t, rfl, hone rfl, hstart⟩
        | cancelled => exact Or.inr ⟨_, _, _, rfl, hone rfl⟩
        | _ => cases hterm
      · exact Or.inr ⟨_, _, _, rfl, hone rfl⟩
    · rw [if_neg ht]; exact Or.inr (by omega)
  | rescheduleNow p t a d q hp hph hq hd hwh =>
    have hk := hother hne; subst hk
    simp only [Redis.stateOf, upd_same, Option.bind_some, queuedRun]
    exact Or.inl ⟨⟨p.msg.key, q, s.r.nextGen p.msg.key⟩, rfl, hone rfl⟩
  | rescheduleLater p t a d q hp hph hq hd hwh =>
    have hk := hother hne; subst hk
    simp only [Redis.stateOf, upd_same, Option.bind_some, scheduledRun]
    exact ⟨⟨p.msg.key, q, s.r.nextGen p.msg.key⟩, rfl, hone rfl⟩
  | _ => exact absurd rfl hne

/-- C17 with the documented transitions.  Along every history from an empty docket that
is calm for `k` (`CalmStep`: no strike of `k`, no retry by a superseded execution, no
orphaned record, no cancel while a worker holds `k` or while the record does not name
`k`'s stream message, no takeover of a message that a live worker still holds), a step
that changes the recorded state of `k` goes
* to queued from scheduled, unless `k` was just scheduled again;
* to running only from queued;
* to completed or failed only from running;
* to cancelled only from scheduled, queued, running or no record.
Partial: without calm both key claims fail, see `C17_violated_*`. -/
theorem C17_lifecycle_partial (cfg : Cfg) (ops : List Op) (op : Op) (k : Key)
    (hcalm : EachStep cfg (CalmStep k) {} (ops ++ [op])) :
    let s := run cfg ops
    let s' := step cfg s op
    s'.r.stateOf k ≠ s.r.stateOf k →
    (s'.r.stateOf k = some .queued →
      s.r.stateOf k = some .scheduled ∨ ∃ m, m.key = k ∧ newEvents s s' = [.accepted m]) ∧
    (s'.r.stateOf k = some .running → s.r.stateOf k = some .queued) ∧
    (s'.r.stateOf k = some .completed ∨ s'.r.stateOf k = some .failed →
      s.r.stateOf k = some .running) ∧
    (s'.r.stateOf k = some .cancelled →
      s.r.stateOf k ≠ some .completed ∧ s.r.stateOf k ≠ some .failed) := by
  intro s s' hne
  have hsplit : ∀ (l : List Op) (s0 : Sys), EachStep cfg (CalmStep k) s0 (l ++ [op]) →
      EachStep cfg (CalmStep k) s0 l ∧ CalmStep k (runFrom cfg s0 l) op := by
    intro l
    induction l with
    | nil => intro s0 h; exact ⟨trivial, h.1⟩
    | cons o l ih => intro s0 h; exact ⟨⟨h.1, (ih _ h.2).1⟩, (ih _ h.2).2⟩
  obtain ⟨h1, h2⟩ := hsplit ops {} hcalm
  have hi : CalmInv s k := (CalmInv.init k).runFrom ops h1
  have hcause := C17_causes cfg ops op k hne
  have hone : ∀ {s' : Sys} {ev : Event}, s'.log = ev :: s.log → newEvents s s' = [ev] :=
    fun h => newEvents_eq (l := [_]) h
  have hlog : s'.log = newEvents s s' ++ s.log := newEvents_spec cfg hi.wf [op]
  change CauseOf cfg s op s' k (s'.r.stateOf k) at hcause
  have hother : ∀ {k' : Key} {v : Option Run}, (upd s.r.runs k' v k).bind (·.state) ≠ s.r.stateOf k →
      k = k' := by
    intro k' v h
    by_cases hk : k = k'
    · exact hk
    · exact absurd (by simp [Redis.stateOf, upd_other _ _ _ _ hk]) h
  -- what the end of an execution finds
  have hfin : ∀ pid id m st, newEvents s s' = [.finished pid id m st true] → m.key = k →
      (∃ t, Event.started pid id m t ∈ s.log) → (st = .completed ∨ st = .failed) →
      s.r.stateOf k = some .running := by
    intro pid id m st hnew hmk _ hst
    have he := step_eff cfg s hi.wf.queue op
    rw [hnew] at hlog
    change Eff cfg s op s' at he
    generalize s' = s'' at he hlog
    cases he with
    | finish p st' e w hp hph hs =>
      simp only [List.cons_append, List.nil_append, List.cons.injEq, Event.finished.injEq,
        and_true] at hlog
      obtain ⟨rfl, rfl, rfl, rfl⟩ := hlog
      have hrun : p.phase = .running := by
        rcases hph with ⟨h, _⟩ | ⟨_, h⟩
        · exact h
        · subst h; simp at hst
      exact hi.life.running p hp hmk hrun (current_of_not_superseded hi.gens hp hmk
        (hi.origin.pos _ (hi.origin.procs p hp)) hs)
    | poll w n new hnew2 =>
      have h3 : (newHanded s.nextPid w false s.r.now new).reverse = [.finished pid id m st true] :=
        List.append_cancel_right hlog
      have : Event.finished pid id m st true ∈ newHanded s.nextPid w false s.r.now new := by
        rw [← List.mem_reverse, h3]; simp
      obtain ⟨_, _, h4, _⟩ := mem_newHanded this
      cases h4
    | _ => first
      | (have := congrArg List.length hlog; simp at this; done)
      | simp at hlog
  refine ⟨?_, ?_, ?_, ?_⟩
  · intro hq
    rw [hq] at hcause
    rcases hcause with hm | ⟨t, m, rfl, hm, hwh, ht⟩
    · exact Or.inr hm
    · left
      have hdue : k ∈ dueKeys s.r t := by
        have he := step_eff cfg s hi.wf.queue (.schedule t)
        by_cases hk : k ∈ dueKeys s.r t
        · exact hk
        · exfalso
          apply hne
          change Eff cfg s (.schedule t) s' at he
          generalize s' = s'' at he
          cases he with
          | nop => rfl
          | schedule _ _ => simp only [Redis.stateOf, if_neg hk]
          | clear _ _ _ h => rcases h with ⟨h, _⟩ | ⟨h, _⟩ <;> cases h
          | prog _ _ _ h => rcases h with ⟨_, h, _⟩ | ⟨_, h, _⟩ | ⟨_, h, _⟩ <;> cases h
      simp only [dueKeys, List.mem_map, List.mem_filter] at hdue
      obtain ⟨⟨a, b⟩, ⟨hmem, _⟩, hab⟩ := hdue
      simp only at hab
      subst hab
      obtain ⟨m', hm', hout⟩ := hi.known.queue b hmem
      have hrec : HasRecord s a := by
        cases hr : s.r.genOf a with
        | none =>
          have : Orphaned s a := ⟨by simp [HasRecord, hr], Or.inr (Or.inl (by simp [hm']))⟩
          exact absurd this h2.1.notOrphaned
        | some g => simp [HasRecord, hr]
      have hcur := ((hi.carried a m' hout).2 hrec).gen
      rw [hi.wf.queue.key _ _ hm'] at hcur
      exact hi.life.parked m' hm' hcur
  · intro hr
    rw [hr] at hcause
    obtain ⟨pid, id, m, hmk, hnew, _⟩ := hcause
    obtain ⟨p, hp, _, _, _, rfl, _, _, hs⟩ := started_step cfg hi.wf op hlog
      (pid := pid) (id := id) (m := m) (t := s.r.now) (by rw [hnew]; simp)
    have hcur := current_of_not_superseded hi.gens hp hmk
      (hi.origin.pos _ (hi.origin.procs p hp)) hs
    rcases hi.life.held p hp hmk hcur with h | h
    · exact h
    · exact absurd (hr.trans h.symm) hne
  · rintro (hr | hr)
    · rw [hr] at hcause
      obtain ⟨pid, id, m, t, hmk, hnew, hst⟩ := hcause
      exact hfin pid id m _ hnew hmk ⟨t, hst⟩ (Or.inl rfl)
    · rw [hr] at hcause
      obtain ⟨pid, id, m, t, hmk, hnew, hst⟩ := hcause
      exact hfin pid id m _ hnew hmk ⟨t, hst⟩ (Or.inr rfl)
  · intro hr
    have he := step_eff cfg s hi.wf.queue op
    change Eff cfg s op s' at he
    rw [hr] at hcause
    rcases hcause with hnew | ⟨pid, id, m, hmk, hnew⟩
    · rw [hnew] at hlog
      generalize hss : s' = s'' at he hlog hr hne
      cases he with
      | cancel k' =>
        have hk := hother hne
        subst hk
        have hrun : ∀ st, s.r.stateOf k = some st → (s.r.run k).state = some st := by
          intro st h
          simp only [Redis.stateOf, Option.bind_eq_some_iff] at h
          obtain ⟨v, h1, h2⟩ := h
          simp [Redis.run, h1, h2]
        simp only [Redis.stateOf, upd_same, Option.bind_some] at hr
        constructor <;> intro hc
        · have := hrun _ hc
          simp only [cancelRun, hc] at hr
          rw [this] at hr; cases hr
        · have := hrun _ hc
          simp only [cancelRun, hc] at hr
          rw [this] at hr; cases hr
      | poll w n new hnew2 =>
        have h3 : (newHanded s.nextPid w false s.r.now new).reverse = [.cancelled k] :=
          List.append_cancel_right hlog
        have : Event.cancelled k ∈ newHanded s.nextPid w false s.r.now new := by
          rw [← List.mem_reverse, h3]; simp
        obtain ⟨_, _, h4, _⟩ := mem_newHanded this
        cases h4
      | _ => first
        | (have := congrArg List.length hlog; simp at this; done)
        | simp at hlog
    · rw [hnew] at hlog
      generalize hss : s' = s'' at he hlog hr hne
      cases he with
      | finish p st' e w hp hph hs =>
        simp only [List.cons_append, List.nil_append, List.cons.injEq, Event.finished.injEq,
          and_true] at hlog
        obtain ⟨rfl, rfl, rfl, rfl⟩ := hlog
        rcases hi.life.held p hp hmk (current_of_not_superseded hi.gens hp hmk
          (hi.origin.pos _ (hi.origin.procs p hp)) hs) with h | h <;> rw [h] <;> simp
      | poll w n new hnew2 =>
        have h3 : (newHanded s.nextPid w false s.r.now new).reverse =
            [.finished pid id m .cancelled true] := List.append_cancel_right hlog
        have : Event.finished pid id m .cancelled true ∈
            newHanded s.nextPid w false s.r.now new := by
          rw [← List.mem_reverse, h3]; simp
        obtain ⟨_, _, h4, _⟩ := mem_newHanded this
        cases h4
      | _ => first
        | (have := congrArg List.length hlog; simp at this; done)
        | simp at hlog

/-- A calm history: scheduled, moved, claimed, lost in a crash, redelivered, retried,
replaced and finally completed; then added again and cancelled. -/
example : EachStep ⟨10, 3⟩ (CalmStep "k") {}
    [.add "k" ⟨"f", "a", "b", 5, 1⟩ 0, .tick 5, .schedule 5, .poll "w" 1, .claim 0, .crash "w", .tick 3,
     .redeliver "v" 1, .claim 1, .reschedule 1 8 2 8, .poll "v" 1, .claim 2,
     .finish 2 .completed none true, .add "k" ⟨"f", "c", "b", 20, 1⟩ 8, .cancel "k",
     .add "k" ⟨"f", "c", "b", 0, 1⟩ 8, .poll "v" 1, .claim 3, .finish 3 .failed (some "e") true] := by
  decide

/-- First half of the full claim of C17. -/
def C17_only_running_ends : Prop := ∀ (cfg : Cfg) (ops : List Op) (op : Op) (k : Key),
  let s := run cfg ops
  let s' := step cfg s op
  s'.r.stateOf k ≠ s.r.stateOf k → s'.r.stateOf k = some .completed →
    s.r.stateOf k = some .running

/-- Second half: a finished or cancelled record does not become running in one step
(that is, without a scheduling in between). -/
def C17_no_restart : Prop := ∀ (cfg : Cfg) (ops : List Op) (op : Op) (k : Key) (st : RunState),
  (run cfg ops).r.stateOf k = some st → st.terminal = true →
    (step cfg (run cfg ops) op).r.stateOf k ≠ some .running

/-- The code violates the first: a running task that is cancelled but ends normally goes
from cancelled to completed (`_terminal` does not look at the state). -/
theorem C17_violated_cancelled_to_completed : ¬ C17_only_running_ends := by
  intro h
  have := h ⟨10, 3⟩ [.add "k" ⟨"f", "a", "b", 0, 1⟩ 0, .poll "w" 1, .claim 0, .cancel "k"]
    (.finish 0 .completed none false) "k" (by decide) (by decide)
  revert this
  decide

/-- The code violates the second: when a message is redelivered while its first worker
is still alive, and that worker completes before the second one claims, `_claim` accepts
the same generation again and the task runs a second time. -/
theorem C17_violated_completed_to_running : ¬ C17_no_restart := by
  intro h
  exact h ⟨10, 3⟩ [.add "k" ⟨"f", "a", "b", 0, 1⟩ 0, .poll "w" 1, .claim 0, .tick 3, .redeliver "v" 1,
    .finish 0 .completed none false] (.claim 1) "k" .completed (by decide) (by decide) (by decide)

/-! ### C18 -/

/-- The call `op`, made in state `s`, asks for exactly the message `m` (up to the
generation the system assigns): an add or replace with this key and request, or a
retry/deferral by a running execution of the same task, with the new time and attempt. -/
def AsksFor (s : Sys) (op : Op) (m : Msg) : Prop :=
  (∃ t, op = .add m.key m.req t) ∨ (∃ t, op = .replace m.key m.req t) ∨
  ∃ p ∈ s.procs, ∃ d, op = .reschedule p.pid m.req.when_ m.req.attempt d ∧
    p.phase = .running ∧ p.msg.key = m.key ∧ p.msg.req.fn = m.req.fn ∧
    p.msg.req.args = m.req.args ∧ p.msg.req.kwargs = m.req.kwargs

theorem accepted_asked (cfg : Cfg) {s : Sys} (hw : WF s) (op : Op) {m : Msg}
    (h : Event.accepted m ∈ (step cfg s op).log) (hn : Event.accepted m ∉ s.log) : AsksFor s op m := by
  have he := step_eff cfg s hw.queue op
  generalize step cfg s op = s' at he h
  cases he with
  | addNow k q t | addLater k q t =>
    simp only [List.mem_cons, Event.accepted.injEq] at h
    rcases h with rfl | h
    · exact Or.inl ⟨t, rfl⟩
    · exact absurd h hn
  | replaceNow k q t | replaceLater k q t =>
    simp only [List.mem_cons, Event.accepted.injEq] at h
    rcases h with rfl | h
    · exact Or.inr (Or.inl ⟨t, rfl⟩)
    · exact absurd h hn
  | rescheduleNow p t a d q hp hph hq | rescheduleLater p t a d q hp hph hq =>
    simp only [List.mem_cons, Event.accepted.injEq] at h
    rcases h with rfl | h
    · subst hq
      exact Or.inr (Or.inr ⟨p, hp, d, rfl, hph, rfl, rfl, rfl, rfl⟩)
    · exact absurd h hn
  | poll w n new hnew =>
    simp only [List.mem_append, List.mem_reverse] at h
    rcases h with h | h
    · obtain ⟨_, _, h4, _⟩ := mem_newHanded h
      cases h4
    · exact absurd h hn
  | _ => first
    | exact absurd h hn
    | (simp only [List.mem_cons, reduceCtorEq, false_or] at h; exact absurd h hn)

/-- C18, exact payload: in every history, for every message that is ever handed to a
worker or started there was an earlier call that asked for exactly this key, function,
arguments, time and attempt. -/
theorem C18_payload (cfg : Cfg) (ops : List Op) (m : Msg)
    (h : (∃ pid id w b t, Event.handed pid id w b t m ∈ (run cfg ops).log) ∨
      ∃ pid id t, Event.started pid id m t ∈ (run cfg ops).log) :
    ∃ before op after, ops = before ++ op :: after ∧ AsksFor (run cfg before) op m := by
  have hor := OriginInv.run cfg ops
  have hacc : Event.accepted m ∈ (run cfg ops).log := by
    rcases h with ⟨pid, id, w, b, t, h⟩ | ⟨pid, id, t, h⟩
    · exact hor.handed _ _ _ _ _ _ h
    · exact hor.started _ _ _ _ h
  clear h hor
  have main : ∀ (l : List Op) (pre : List Op), Event.accepted m ∉ (run cfg pre).log →
      Event.accepted m ∈ (run cfg (pre ++ l)).log →
      ∃ before op after, pre ++ l = before ++ op :: after ∧ AsksFor (run cfg before) op m := by
    intro l
    induction l with
    | nil => intro pre h1 h2; rw [List.append_nil] at h2; exact absurd h2 h1
    | cons o l ih =>
      intro pre h1 h2
      by_cases h3 : Event.accepted m ∈ (run cfg (pre ++ [o])).log
      · refine ⟨pre, o, l, rfl, accepted_asked cfg (WF.run cfg pre) o ?_ h1⟩
        have : run cfg (pre ++ [o]) = step cfg (run cfg pre) o := by
          rw [run, runFrom_append]; rfl
        rw [this] at h3; exact h3
      · obtain ⟨b, op, a, h4, h5⟩ := ih (pre ++ [o]) h3 (by simpa using h2)
        exact ⟨b, op, a, by simpa using h4, h5⟩
  obtain ⟨b, op, a, h1, h2⟩ := main ops [] (by simp [run]) (by simpa using hacc)
  exact ⟨b, op, a, by simpa using h1, h2⟩

/-- C18, end to end: however often it was retried or deferred, every started message
carries the key, function and arguments of some add or replace call of the history. -/
theorem C18_original_call (cfg : Cfg) (ops : List Op) (pid : Nat) (id : MsgId) (m : Msg) (t : Time)
    (h : Event.started pid id m t ∈ (run cfg ops).log) :
    ∃ q u, (Op.add m.key q u ∈ ops ∨ Op.replace m.key q u ∈ ops) ∧
      q.fn = m.req.fn ∧ q.args = m.req.args ∧ q.kwargs = m.req.kwargs := by
  -- by strong induction on the length of the history
  have main : ∀ n (ops : List Op), ops.length ≤ n → ∀ m, Event.accepted m ∈ (run cfg ops).log →
      ∃ q u, (Op.add m.key q u ∈ ops ∨ Op.replace m.key q u ∈ ops) ∧
        q.fn = m.req.fn ∧ q.args = m.req.args ∧ q.kwargs = m.req.kwargs := by
    intro n
    induction n with
    | zero =>
      intro ops hn m hm
      have : ops = [] := List.length_eq_zero_iff.1 (by omega)
      subst this; simp [run] at hm
    | succ n ih =>
      intro ops hn m hm
      rcases List.eq_nil_or_concat ops with rfl | ⟨pre, o, rfl⟩
      · simp [run] at hm
      · rw [List.concat_eq_append] at hm hn ⊢
        have hlen : pre.length ≤ n := by simpa using hn
        have hw := WF.run cfg pre
        by_cases h0 : Event.accepted m ∈ (run cfg pre).log
        · obtain ⟨q, u, h1, h2⟩ := ih pre hlen m h0
          exact ⟨q, u, by rcases h1 with h1 | h1 <;> simp [h1], h2⟩
        · have : run cfg (pre ++ [o]) = step cfg (run cfg pre) o := by
            rw [run, runFrom_append]; rfl
          rw [this] at hm
          rcases accepted_asked cfg hw o hm h0 with ⟨u, rfl⟩ | ⟨u, rfl⟩ | ⟨p, hp, d, rfl, hph, e1, e2, e3, e4⟩
          · exact ⟨m.req, u, Or.inl (by simp), rfl, rfl, rfl⟩
          · exact ⟨m.req, u, Or.inr (by simp), rfl, rfl, rfl⟩
          · have hacc := (OriginInv.run cfg pre).procs p hp
            obtain ⟨q, u, h1, h2, h3, h4⟩ := ih pre hlen p.msg hacc
            rw [e1] at h1
            exact ⟨q, u, by rcases h1 with h1 | h1 <;> simp [h1], h2.trans e2, h3.trans e3, h4.trans e4⟩
  exact main ops.length ops (Nat.le_refl _) m ((OriginInv.run cfg ops).started _ _ _ _ h)

/-- A retried task started with the arguments of the original call. -/
example : Event.started 1 2 ⟨"k", ⟨"f", "a", "b", 4, 2⟩, 2⟩ 4 ∈
    (run ⟨10, 3⟩ [.add "k" ⟨"f", "a", "b", 0, 1⟩ 0, .poll "w" 1, .claim 0, .reschedule 0 4 2 0, .tick 4,
      .schedule 4, .poll "w" 1, .claim 1]).log := by decide

end Docket
