/-
The worker's main loop, `Worker._worker_loop` (worker.py:608-846), interleaved with the
tasks it started and with cancellation signals, as asyncio may interleave them: at every
`await`.  What happens inside a task is in Verif/Worker/Execute.lean; here only its phases
matter.  Redis is left out: what it answers is an input of each step.
-/
namespace Docket.Loop

abbrev Key := Nat

/-- How the asyncio task of an execution ended. -/
inductive Ending
  /-- `_execute` returned -/
  | returned
  /-- it raised `AdmissionBlocked` -/
  | blocked
  /-- it raised something else, e.g. because the outcome could not be stored -/
  | raised
  /-- `CancelledError` left `_execute` -/
  | cancelled
  deriving DecidableEq

/-- Where `_execute` (worker.py:1011-1235) is. -/
inductive Phase
  /-- the asyncio task was created and has not run yet -/
  | created
  /-- stricken: waiting for `mark_as_cancelled`, 1017-1025 -/
  | striking
  /-- not stricken: waiting for the claim, 1028 -/
  | claiming
  /-- inside the `try`, 1062-1156: resolving, running, completing -/
  | running
  /-- in an `except` clause, 1166-1230: waiting for the outcome to be recorded -/
  | recording
  | done (e : Ending)
  deriving DecidableEq

def Phase.isDone : Phase → Bool
  | .done _ => true
  | _ => false

/-- An entry of `active_tasks` and `task_executions`. -/
structure Task where
  uid : Nat
  key : Key
  phase : Phase
  deriving DecidableEq

/-- Where the main loop is. -/
inductive PC
  /-- at the top of the `while`, 783 -/
  | top
  /-- in `process_completed_tasks`, with these tasks still to do, 693-740 -/
  | completing (rest : List Nat)
  /-- starting the messages of an answer (`none`: the entry was deleted), 796-804; the flag
  says whether they are redeliveries -/
  | starting (redelivery : Bool) (messages : List (Option Key))
  /-- the loop ended; no more tasks are started -/
  | stopped
  deriving DecidableEq

structure Cfg where
  concurrency : Nat
  /-- `iterations_by_key` of `run_at_most` -/
  limits : Key → Option Nat := fun _ => none

structure St where
  pc : PC := .top
  active : List Task := []
  /-- `_tasks_by_key` -/
  byKey : Key → Option Nat := fun _ => none
  /-- `available_slots` -/
  slots : Int := 0
  next : Nat := 0
  /-- `_execution_counts` -/
  counts : Key → Nat := fun _ => 0
  /-- history: the keys of the tasks whose claim succeeded -/
  started : List Key := []
  /-- history: the counts asked of Redis, with the number of active tasks at that time -/
  asks : List (Int × Nat) := []
  /-- history: the tasks that received `cancel()` before they ended -/
  interrupted : List Nat := []

inductive Op
  /-- the main loop goes on to its next `await`; `reply` is what Redis answers if it is
  asked, cut to the number asked for as Redis does -/
  | loop (reply : List (Option Key))
  /-- a task starts: it consults the strike list, whose verdict apart from `run_at_most` is
  given -/
  | check (u : Nat) (stricken : Bool)
  /-- the cancellation of a stricken task was recorded -/
  | struck (u : Nat)
  /-- the claim was answered -/
  | claimed (u : Nat) (ok : Bool)
  /-- the block inside the `try` ended by returning, by a refusal, or by something that is
  recorded next -/
  | ends (u : Nat) (e : Option Ending)
  /-- the outcome was recorded, or that failed -/
  | recorded (u : Nat) (ok : Bool)
  /-- a cancellation signal arrives, `_handle_cancellation`, worker.py:1374-1388 (the listener
  ends with the loop); `swallow`: the task catches it and goes on -/
  | signal (k : Key) (swallow : Bool)
  /-- the loop is left: a stop request, or the connection was lost -/
  | leave
  /-- `_run` starts the loop again once all tasks have ended, 544-568, 842-844 -/
  | rerun
  deriving DecidableEq

def updKey {α : Type} (f : Key → α) (k : Key) (v : α) : Key → α := fun x => if x = k then v else f x

def St.setPhase (s : St) (u : Nat) (p : Phase) : St :=
  { s with active := s.active.map (fun t => if t.uid = u then { t with phase := p } else t) }

def St.find (s : St) (u : Nat) : Option Task := s.active.find? (fun t => t.uid = u)

/-- `start_task`, worker.py:669-691. -/
def startTask (s : St) (k : Key) : St :=
  { s with
    active := s.active ++ [⟨s.next, k, .created⟩]
    byKey := updKey s.byKey k (some s.next)
    next := s.next + 1
    slots := s.slots - 1 }

/-- One task of `process_completed_tasks`, worker.py:694-740: it is forgotten; if it ended in
an exception other than `AdmissionBlocked`, that leaves the loop (`CancelledError` by the
`except` at 829, the others through the task group). -/
def completeOne (s : St) (u : Nat) (rest : List Nat) : St :=
  match s.find u with
  | none => { s with pc := .completing rest }
  | some t =>
    { s with
      active := s.active.filter (fun x => x.uid ≠ u)
      byKey := updKey s.byKey t.key none
      pc := match t.phase with
        | .done .raised | .done .cancelled => .stopped
        | _ => .completing rest }

/-- Asking Redis for up to `available_slots` messages, 629-667. -/
def ask (s : St) (redelivery : Bool) (reply : List (Option Key)) : St :=
  { s with
    asks := (s.slots, s.active.length) :: s.asks
    pc := .starting redelivery (reply.take s.slots.toNat) }

/-- The main loop, worker.py:783-820, up to the next `await`. -/
def loopStep (cfg : Cfg) (s : St) (reply : List (Option Key)) : St :=
  match s.pc with
  | .top => { s with pc := .completing ((s.active.filter (fun t => t.phase.isDone)).map Task.uid) }
  | .completing (u :: rest) => completeOne s u rest
  | .completing [] =>
    let s := { s with slots := (cfg.concurrency : Int) - s.active.length }
    if s.slots ≤ 0 then { s with pc := .top } else ask s true reply
  | .starting r (m :: ms) =>
    let s := { s with pc := .starting r ms }
    match m with
    | none => s
    | some k => startTask s k
  | .starting true [] => if s.slots ≤ 0 then { s with pc := .top } else ask s false reply
  | .starting false [] => { s with pc := .top }
  | .stopped => s

/-- `strike_list.is_stricken` with the condition of `run_at_most`, worker.py:525-536. -/
def limited (cfg : Cfg) (s : St) (k : Key) : Bool :=
  match cfg.limits k with
  | none => false
  | some n => s.counts k ≥ n

/-- `task.cancel()`: `CancelledError` is raised where the task waits. -/
def interrupt (s : St) (t : Task) (swallow : Bool) : St :=
  match t.phase with
  | .done _ => s
  | .running =>
    let s := { s with interrupted := t.uid :: s.interrupted }
    if swallow then s else s.setPhase t.uid .recording
  | _ => { s with interrupted := t.uid :: s.interrupted }.setPhase t.uid (.done .cancelled)

def step (cfg : Cfg) (s : St) : Op → St
  | .loop reply => loopStep cfg s reply
  | .check u stricken => match s.find u with
    | some ⟨_, k, .created⟩ =>
      if stricken || limited cfg s k then s.setPhase u .striking else s.setPhase u .claiming
    | _ => s
  | .struck u => match s.find u with
    | some ⟨_, _, .striking⟩ => s.setPhase u (.done .returned)
    | _ => s
  | .claimed u ok => match s.find u with
    | some ⟨_, k, .claiming⟩ =>
      if ok then { s with
        counts := if (cfg.limits k).isSome then updKey s.counts k (s.counts k + 1) else s.counts
        started := k :: s.started }.setPhase u .running
      else s.setPhase u (.done .returned)
    | _ => s
  | .ends u e => match s.find u with
    | some ⟨_, _, .running⟩ => match e with
      | some e => if e = .cancelled then s else s.setPhase u (.done e)
      | none => s.setPhase u .recording
    | _ => s
  | .recorded u ok => match s.find u with
    | some ⟨_, _, .recording⟩ => s.setPhase u (.done (if ok then .returned else .raised))
    | _ => s
  | .signal k swallow =>
    if s.pc = .stopped then s
    else match s.byKey k with
      | none => s
      | some u => match s.find u with
        | none => s
        | some t => interrupt s t swallow
  | .leave => { s with pc := .stopped }
  | .rerun =>
    if s.pc = .stopped ∧ s.active.all (fun t => t.phase.isDone) then { s with pc := .top, active := [] } else s

def runFrom (cfg : Cfg) (s : St) (ops : List Op) : St := ops.foldl (step cfg) s
def run (cfg : Cfg) (ops : List Op) : St := runFrom cfg {} ops

theorem run_snoc (cfg : Cfg) (ops : List Op) (op : Op) : run cfg (ops ++ [op]) = step cfg (run cfg ops) op := by
  simp [run, runFrom]

theorem runFrom_append (cfg : Cfg) (s : St) (a b : List Op) :
    runFrom cfg s (a ++ b) = runFrom cfg (runFrom cfg s a) b := by
  simp [runFrom]

/-- Induction over histories. -/
theorem run_induction (cfg : Cfg) (P : St → Prop) (h0 : P {})
    (hs : ∀ ops op, P (run cfg ops) → P (step cfg (run cfg ops) op)) (ops : List Op) : P (run cfg ops) := by
  have : ∀ n (ops : List Op), ops.length = n → P (run cfg ops) := by
    intro n
    induction n with
    | zero => intro ops h; rw [List.length_eq_zero_iff.1 h]; exact h0
    | succ n ih =>
      intro ops h
      rcases List.eq_nil_or_concat ops with h' | ⟨ops', op, h'⟩
      · rw [h'] at h; cases h
      · rw [h', List.concat_eq_append, run_snoc]
        refine hs _ _ (ih _ ?_)
        rw [h'] at h
        simpa using h
  exact this _ ops rfl

end Docket.Loop
