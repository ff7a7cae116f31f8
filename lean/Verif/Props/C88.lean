import Verif.Core.Calls
import Verif.Core.Log
import Verif.Core.Spec

/-
C88.  What `add`, `replace` and `schedule` tell their caller, and what the docket counts.
-/
namespace Docket.Calls

open Docket Docket.Redis

/-! ### Specification -/

/-- How many tasks were accepted onto the docket. -/
def accepted (log : List Event) : Nat :=
  log.countP (fun e => match e with | .accepted _ => true | _ => false)

/-- The call put the task on the docket: it was accepted under its key with just this request,
it is in the stream if due and in the schedule if not, and its record has the state the caller
is told. -/
def PutOn (s s' : Sys) (h : Handle) (t : Time) : Prop :=
  ∃ g, s'.log = .accepted ⟨h.key, h.req, g⟩ :: s.log ∧
    (if h.req.when_ ≤ t then InStream s' ⟨h.key, h.req, g⟩ else InSchedule s' ⟨h.key, h.req, g⟩) ∧
    (s'.r.run h.key).state = some h.state ∧
    h.state = (if h.req.when_ ≤ t then .queued else .scheduled)

/-- What each verdict means. -/
def Truthful (struck : Bool) (s s' : Sys) (h : Handle) (t : Time) : Prop :=
  match h.verdict with
  | .scheduled => struck = false ∧ PutOn s s' h t
  | .alreadyScheduled => struck = false ∧ s' = s
  | .struck => struck = true ∧ s' = s

/-! ### Lemmas -/

theorem place_putOn (s : Sys) (r : Redis) (k : Key) (q : Request) (t : Time) :
    PutOn s { s with
        r := schedulePlace r k q (decide (q.when_ ≤ t))
        log := .accepted (newMsg (schedulePlace r k q (decide (q.when_ ≤ t))) k q) :: s.log }
      (handleOf k q t .scheduled) t := by
  by_cases hw : q.when_ ≤ t
  · simp only [hw, decide_true, schedulePlace_now]
    refine ⟨r.nextGen k, ?_, ?_, ?_, ?_⟩
    · simp [newMsg, Redis.genOf, queuedRun, handleOf]
    · simp [handleOf, hw, InStream]
    · simp [handleOf, hw, Redis.run, queuedRun]
    · simp [handleOf, hw]
  · simp only [hw, decide_false, schedulePlace_later]
    refine ⟨r.nextGen k, ?_, ?_, ?_, ?_⟩
    · simp [newMsg, Redis.genOf, scheduledRun, handleOf]
    · simp [handleOf, hw, InSchedule, zinsert_mem]
    · simp [handleOf, hw, Redis.run, scheduledRun]
    · simp [handleOf, hw]

theorem doAdd_cases (s : Sys) (k : Key) (q : Request) (t : Time) :
    doAdd s k q t = (s, .alreadyScheduled) ∨
    ((doAdd s k q t).2 = .scheduled ∧ PutOn s (doAdd s k q t).1 (handleOf k q t .scheduled) t) := by
  by_cases hx : scheduleExists s.r k = true
  · exact Or.inl (by simp [doAdd, doSchedule, luaSchedule, hx])
  · refine Or.inr ⟨by simp [doAdd, doSchedule, luaSchedule, hx], ?_⟩
    have := place_putOn s s.r k q t
    simpa [doAdd, doSchedule, luaSchedule, hx] using this

theorem doReplace_put (s : Sys) (k : Key) (q : Request) (t : Time) :
    (doReplace s k q t).2 = .scheduled ∧ PutOn s (doReplace s k q t).1 (handleOf k q t .scheduled) t := by
  refine ⟨by simp [doReplace, doSchedule, luaSchedule], ?_⟩
  have := place_putOn s (scheduleReplaceCleanup s.r k) k q t
  simpa [doReplace, doSchedule, luaSchedule] using this

theorem PutOn.accepted {s s' : Sys} {h : Handle} {t : Time} (hp : PutOn s s' h t) :
    accepted s'.log = accepted s.log + 1 := by
  obtain ⟨g, hl, _⟩ := hp
  rw [hl]
  simp [Calls.accepted]

theorem doCancelTtl_log (cfg : Cfg) (s : Sys) (k : Key) : (doCancelTtl cfg s k).log = s.log := by
  unfold doCancelTtl
  split <;> rfl

/-! ### Theorems -/

/-- C88, verdicts.  Whatever state the docket is in: `add` answers STRUCK if a strike matches, and
nothing changes; it answers ALREADY_SCHEDULED only if nothing changed; it answers SCHEDULED only if
exactly this task is now on the docket, and then the state it shows is the recorded one. -/
theorem C88_add_verdict (s : State) (struck : Bool) (k : Key) (q : Request) (t : Time) :
    Truthful struck s.sys (add s struck k q t).1.sys (add s struck k q t).2 t ∧
    (add s struck k q t).2.key = k ∧ (add s struck k q t).2.req = q := by
  cases struck with
  | true => exact ⟨⟨rfl, rfl⟩, rfl, rfl⟩
  | false =>
    rcases doAdd_cases s.sys k q t with h | ⟨h1, h2⟩
    · simp [add, h, handleOf, Truthful]
    · refine ⟨?_, ?_, ?_⟩
      · simp only [add, h1]
        exact ⟨rfl, h2⟩
      · simp [add, h1, handleOf]
      · simp [add, h1, handleOf]

/-- C88, verdicts of `replace`: it is STRUCK or SCHEDULED, and that is what happened. -/
theorem C88_replace_verdict (s : State) (struck : Bool) (k : Key) (q : Request) (t : Time) :
    Truthful struck s.sys (replace s struck k q t).1.sys (replace s struck k q t).2 t ∧
    (replace s struck k q t).2.key = k ∧ (replace s struck k q t).2.req = q ∧
    (replace s struck k q t).2.verdict ≠ .alreadyScheduled := by
  cases struck with
  | true => exact ⟨⟨rfl, rfl⟩, rfl, rfl, by simp [replace, struckCall]⟩
  | false =>
    obtain ⟨h1, h2⟩ := doReplace_put s.sys k q t
    refine ⟨?_, ?_, ?_, ?_⟩
    · simp only [replace, h1]
      exact ⟨rfl, h2⟩
    · simp [replace, h1, handleOf]
    · simp [replace, h1, handleOf]
    · simp [replace, h1, handleOf]

/-- C88, verdicts of `schedule`, as those of `add`. -/
theorem C88_schedule_verdict (s : State) (struck : Bool) (k : Key) (q : Request) (t : Time) :
    Truthful struck s.sys (schedule s struck k q t).1.sys (schedule s struck k q t).2 t ∧
    (schedule s struck k q t).2.key = k ∧ (schedule s struck k q t).2.req = q := by
  cases struck with
  | true => exact ⟨⟨rfl, rfl⟩, rfl, rfl⟩
  | false =>
    rcases doAdd_cases s.sys k q t with h | ⟨h1, h2⟩
    · simp [schedule, h, handleOf, Truthful]
    · refine ⟨?_, ?_, ?_⟩
      · simp only [schedule, h1]
        exact ⟨rfl, h2⟩
      · simp [schedule, h1, handleOf]
      · simp [schedule, h1, handleOf]

/-- Steps of others that put a task on the docket. -/
def Puts : Op → Prop
  | .add .. | .replace .. | .reschedule .. => True
  | _ => False

theorem other_accepted (cfg : Cfg) {s : Sys} (hw : WF s) (op : Op) :
    accepted s.log ≤ accepted (Docket.step cfg s op).log ∧
    (¬ Puts op → accepted (Docket.step cfg s op).log = accepted s.log) := by
  have hand : ∀ (n : Nat) (w : WorkerName) (r : Bool) (t : Time) (l : List (MsgId × Msg)),
      accepted (newHanded n w r t l).reverse = 0 := by
    intro n w r t l
    unfold accepted
    rw [List.countP_eq_zero]
    intro e he
    obtain ⟨pid, m, h⟩ := mem_newHanded (List.mem_reverse.1 he)
    rw [h.1]
    simp
  have he := step_eff cfg s hw.queue op
  generalize Docket.step cfg s op = s' at he
  cases he with
  | poll w n new hnew =>
    have := hand s.nextPid w false s.r.now new
    simp only [accepted] at this
    simp only [accepted, List.countP_append, this]
    exact ⟨by omega, fun _ => by omega⟩
  | _ => simp [accepted, Puts]

/-- The call is one of another process or interrupted, and puts a task on the docket. -/
def Unseen : Call → Prop
  | .other op => Puts op
  | _ => False

theorem step_wf (cfg : Cfg) {s : State} (h : WF s.sys) (c : Call) : WF (step cfg s c).sys := by
  cases c with
  | add b k q t =>
    have := h.step (cfg := cfg) (.add k q t)
    simp only [step, add, struckCall, Docket.step] at *
    split
    · rename_i ht
      rw [if_pos ht] at this
      cases b
      · exact this
      · exact h
    · exact h
  | replace b k q t =>
    have := h.step (cfg := cfg) (.replace k q t)
    simp only [step, replace, struckCall, Docket.step] at *
    split
    · rename_i ht
      rw [if_pos ht] at this
      cases b
      · exact this
      · exact h
    · exact h
  | schedule b k q t =>
    have := h.step (cfg := cfg) (.add k q t)
    simp only [step, schedule, struckCall, Docket.step] at *
    split
    · rename_i ht
      rw [if_pos ht] at this
      cases b
      · exact this
      · exact h
    · exact h
  | cancel k =>
    exact (h.step (cfg := cfg) (.cancel k)).step (cfg := cfg) (.cancelTtl k)
  | other op => exact h.step op

theorem step_scheduled (cfg : Cfg) {s : State} (hw : WF s.sys) (c : Call) :
    (step cfg s c).counters.scheduled + accepted s.sys.log ≤
      s.counters.scheduled + accepted (step cfg s c).sys.log ∧
    (¬ Unseen c → (step cfg s c).counters.scheduled + accepted s.sys.log =
      s.counters.scheduled + accepted (step cfg s c).sys.log) := by
  have eq : ∀ {a b : Nat} {p : Prop}, a = b → a ≤ b ∧ (p → a = b) := fun h => ⟨Nat.le_of_eq h, fun _ => h⟩
  cases c with
  | add b k q t =>
    refine eq ?_
    simp only [step]
    split
    · cases b with
      | true => rfl
      | false =>
        rcases doAdd_cases s.sys k q t with h | ⟨h1, h2⟩
        · simp [add, h]
        · have := h2.accepted
          simp only [add, h1, Bool.false_eq_true, if_false, if_true]
          omega
    · rfl
  | replace b k q t =>
    refine eq ?_
    simp only [step]
    split
    · cases b with
      | true => rfl
      | false =>
        obtain ⟨h1, h2⟩ := doReplace_put s.sys k q t
        have := h2.accepted
        simp only [replace, Bool.false_eq_true, if_false]
        omega
    · rfl
  | schedule b k q t =>
    refine eq ?_
    simp only [step]
    split
    · cases b with
      | true => rfl
      | false =>
        rcases doAdd_cases s.sys k q t with h | ⟨h1, h2⟩
        · simp [schedule, h]
        · have := h2.accepted
          simp only [schedule, h1, Bool.false_eq_true, if_false, if_true]
          omega
    · rfl
  | cancel k =>
    refine eq ?_
    simp only [step, cancel, doCancelTtl_log]
    simp [doCancel, accepted]
  | other op =>
    obtain ⟨h1, h2⟩ := other_accepted cfg hw op
    refine ⟨?_, fun h => ?_⟩
    · simp only [step]; omega
    · have := h2 h
      simp only [step]; omega

/-- C88, `docket_tasks_scheduled`.  Whatever else happens on the docket, this counter never
exceeds the number of tasks accepted; and if all tasks come from this docket's own calls, none
of them interrupted, it is that number. -/
theorem C88_scheduled_counts_accepted (cfg : Cfg) (cs : List Call) :
    (run cfg cs).counters.scheduled ≤ accepted (run cfg cs).sys.log ∧
    ((∀ c ∈ cs, ¬ Unseen c) → (run cfg cs).counters.scheduled = accepted (run cfg cs).sys.log) := by
  have gen : ∀ (s : State), WF s.sys →
      (cs.foldl (step cfg) s).counters.scheduled + accepted s.sys.log ≤
        s.counters.scheduled + accepted (cs.foldl (step cfg) s).sys.log ∧
      ((∀ c ∈ cs, ¬ Unseen c) → (cs.foldl (step cfg) s).counters.scheduled + accepted s.sys.log =
        s.counters.scheduled + accepted (cs.foldl (step cfg) s).sys.log) := by
    induction cs with
    | nil => exact fun s _ => ⟨Nat.le_refl _, fun _ => rfl⟩
    | cons c cs ih =>
      intro s hw
      obtain ⟨h1, h2⟩ := step_scheduled cfg hw c
      obtain ⟨h3, h4⟩ := ih (step cfg s c) (step_wf cfg hw c)
      simp only [List.foldl_cons]
      refine ⟨by omega, fun h => ?_⟩
      have h5 := h2 (h c List.mem_cons_self)
      have h6 := h4 (fun c' hc => h c' (List.mem_cons_of_mem _ hc))
      omega
  obtain ⟨h1, h2⟩ := gen {} WF.init
  have z : accepted (({} : State).sys.log) = 0 := rfl
  have z' : ({} : State).counters.scheduled = 0 := rfl
  rw [z, z'] at h1 h2
  simp only [Nat.add_zero, Nat.zero_add] at h1 h2
  exact ⟨h1, h2⟩

/-- C88, the other counters, per call: `docket_tasks_stricken` grows exactly if a strike matched,
and then nothing else does. -/
theorem C88_stricken_counts_struck (s : State) (struck : Bool) (k : Key) (q : Request) (t : Time)
    (out : State × Handle)
    (h : out = add s struck k q t ∨ out = replace s struck k q t ∨ out = schedule s struck k q t) :
    out.1.counters.stricken = s.counters.stricken + (if out.2.verdict = .struck then 1 else 0) ∧
    (out.2.verdict = .struck → out.1.sys = s.sys ∧ out.1.counters.added = s.counters.added ∧
      out.1.counters.replaced = s.counters.replaced ∧ out.1.counters.cancelled = s.counters.cancelled ∧
      out.1.counters.scheduled = s.counters.scheduled) ∧
    (out.2.verdict = .struck ↔ struck = true) := by
  cases struck with
  | true => rcases h with rfl | rfl | rfl <;> simp [add, replace, schedule, struckCall]
  | false =>
    rcases h with rfl | rfl | rfl
    · rcases doAdd_cases s.sys k q t with h | ⟨h1, h2⟩
      · simp [add, h, handleOf]
      · simp [add, h1, handleOf]
    · obtain ⟨h1, h2⟩ := doReplace_put s.sys k q t
      simp [replace, h1, handleOf]
    · rcases doAdd_cases s.sys k q t with h | ⟨h1, h2⟩
      · simp [schedule, h, handleOf]
      · simp [schedule, h1, handleOf]

/-- The full statement for `docket_tasks_added`: it counts the tasks `add` put on the docket. -/
def C88_added_statement : Prop := ∀ (s : State) (k : Key) (q : Request) (t : Time),
  (add s false k q t).1.counters.added + accepted s.sys.log =
    s.counters.added + accepted (add s false k q t).1.sys.log

/-- The full statement for `docket_tasks_cancelled`: it does not count a call that cancelled
nothing. -/
def C88_cancelled_statement : Prop := ∀ (cfg : Cfg) (cs : List Call) (k : Key),
  ¬ SomeMessage (run cfg cs).sys k →
    (cancel cfg (run cfg cs) k).counters.cancelled = (run cfg cs).counters.cancelled

/-- The full statement for `docket_tasks_replaced`: it does not count a call that replaced
nothing. -/
def C88_replaced_statement : Prop := ∀ (cfg : Cfg) (cs : List Call) (k : Key) (q : Request) (t : Time),
  ¬ SomeMessage (run cfg cs).sys k →
    (replace (run cfg cs) false k q t).1.counters.replaced = (run cfg cs).counters.replaced

/-- C88, `docket_tasks_added`.  A call of `add` that no strike matches counts as one task added, a
call of `schedule` as none; the number of tasks `add` put on the docket is never greater.  Partial:
a call that found the key taken counts too, see `C88_violated_added`. -/
theorem C88_added_partial (s : State) (k : Key) (q : Request) (t : Time) :
    (add s false k q t).1.counters.added = s.counters.added + 1 ∧
    ((add s false k q t).2.verdict = .scheduled →
      (add s false k q t).1.counters.added + accepted s.sys.log =
        s.counters.added + accepted (add s false k q t).1.sys.log) ∧
    (add s false k q t).1.counters.cancelled = s.counters.cancelled ∧
    (add s false k q t).1.counters.replaced = s.counters.replaced ∧
    (schedule s false k q t).1.counters.added = s.counters.added := by
  have h0 : (add s false k q t).1.counters.added = s.counters.added + 1 := by
    simp only [add]
    simp only [Bool.false_eq_true, if_false]
    split <;> rfl
  refine ⟨h0, fun h => ?_, ?_, ?_, ?_⟩
  · rcases doAdd_cases s.sys k q t with hx | ⟨h1, h2⟩
    · simp [add, hx, handleOf] at h
    · have := h2.accepted
      rw [h0]
      simp only [add, Bool.false_eq_true, if_false]
      omega
  all_goals
    simp only [add, schedule, Bool.false_eq_true, if_false]
    split <;> rfl

/-- C88, `docket_tasks_replaced` and `docket_tasks_cancelled`.  A call of `replace` that no strike
matches counts as one task replaced and one cancelled, a call of `cancel` as one cancelled; neither
counts as a task added or struck, and `schedule` counts as neither.  So no task that was replaced or
cancelled goes uncounted.  Partial: calls that found nothing count too, see
`C88_violated_cancelled` and `C88_violated_replaced`. -/
theorem C88_cancelled_partial (cfg : Cfg) (s : State) (k : Key) (q : Request) (t : Time) :
    (replace s false k q t).1.counters =
      { s.counters with replaced := s.counters.replaced + 1, cancelled := s.counters.cancelled + 1,
                        scheduled := s.counters.scheduled + 1 } ∧
    (cancel cfg s k).counters = { s.counters with cancelled := s.counters.cancelled + 1 } ∧
    (schedule s false k q t).1.counters.replaced = s.counters.replaced ∧
    (schedule s false k q t).1.counters.cancelled = s.counters.cancelled := by
  refine ⟨rfl, rfl, ?_, ?_⟩
  all_goals
    simp only [schedule, Bool.false_eq_true, if_false]
    split <;> rfl

section examples

def q0 : Request := ⟨"f", "a", "b", 0, 1⟩
def q9 : Request := ⟨"g", "c", "d", 9, 1⟩

/-- **Disagreement.** A second `add` of the same key changes nothing and is counted as a task
added all the same (docket.py:438). -/
theorem C88_violated_added : ¬ C88_added_statement := by
  intro h
  exact absurd (h (run ⟨10, 3⟩ [.add false "k" q0 0]) "k" q0 0) (by decide)

/-- **Disagreement.** Cancelling a key nothing is known of is counted as a task cancelled
(docket.py:613). -/
theorem C88_violated_cancelled : ¬ C88_cancelled_statement := by
  intro h
  exact absurd (h ⟨10, 3⟩ [] "k" (by decide)) (by decide)

/-- **Disagreement.** A `replace` of a key nothing is known of is counted as a task replaced and
a task cancelled (docket.py:550-551). -/
theorem C88_violated_replaced : ¬ C88_replaced_statement := by
  intro h
  exact absurd (h ⟨10, 3⟩ [] "k" q0 0 (by decide)) (by decide)

/-- All verdicts occur. -/
example : (add {} false "k" q0 0).2 = ⟨"k", q0, .queued, .scheduled⟩ ∧
    (add {} false "k" q9 0).2 = ⟨"k", q9, .scheduled, .scheduled⟩ ∧
    (add (run ⟨10, 3⟩ [.add false "k" q0 0]) false "k" q9 0).2.verdict = .alreadyScheduled ∧
    (add {} true "k" q0 0).2.verdict = .struck := by decide

/-- A history in which nothing goes unseen and the counter is not trivial. -/
example : (∀ c ∈ [Call.add false "a" q0 0, .add false "a" q0 0, .other (.poll "w" 1), .other (.claim 0),
      .replace false "a" q9 0, .schedule false "b" q0 0, .add true "c" q0 0, .cancel "a"], ¬ Unseen c) ∧
    (run ⟨10, 3⟩ [.add false "a" q0 0, .add false "a" q0 0, .other (.poll "w" 1), .other (.claim 0),
      .replace false "a" q9 0, .schedule false "b" q0 0, .add true "c" q0 0, .cancel "a"]).counters =
      { added := 2, replaced := 1, cancelled := 2, scheduled := 3, stricken := 1 } := by
  refine ⟨?_, by decide⟩
  intro c hc
  simp only [List.mem_cons, List.not_mem_nil, or_false] at hc
  rcases hc with h | h | h | h | h | h | h | h <;> subst h <;> exact id

end examples

end Docket.Calls
