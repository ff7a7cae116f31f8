/-
How a worker executes one task: `resolved_dependencies` (_resolution.py:162-238),
`Worker._execute` (worker.py:1011-1235) and the handling of its end in
`process_completed_tasks` (worker.py:693-740).  Redis errors are left out here; the
scripts behind `mark_as_...` are in the core model.
-/
namespace Docket.Execute

/-- Something with an exit, pushed on the exit stack when it is entered. -/
abbrev Res := Nat

inductive Err
  /-- `AdmissionBlocked` with its two flags, _base.py:56-87 -/
  | blocked (handled reschedule : Bool)
  /-- any other `Exception` -/
  | other (what : String)
  deriving DecidableEq

def Err.isBlocked : Err → Bool
  | .blocked .. => true
  | .other _ => false

/-- A value passed to the task; which of the roles the worker looks for it plays. -/
structure Val where
  name : String
  runtime : Bool := false
  failure : Bool := false
  completion : Bool := false
  deriving DecidableEq

/-- What entering a dependency comes to. -/
inductive Entered
  | value (v : Val)
  | error (e : Err)
  /-- a `CancelledError`, which `except Exception` does not catch -/
  | cancelled
  deriving DecidableEq

/-- A dependency: what it puts on the exit stack when entered, in order (itself, and the
dependencies it depends on: `_Depends` resolves those on the same stack; also those it had
opened when it failed), and the outcome. -/
structure Dep where
  opens : List Res
  entered : Entered
  deriving DecidableEq

/-- A dependency parameter: a dependency, or a `TaskArgument()` without a name, which is
refused (_resolution.py:190-198). -/
inductive Param
  | dep (d : Dep)
  | bareArgument
  deriving DecidableEq

/-- An entry of the resolved arguments. -/
inductive Slot
  | value (v : Val)
  | failed (parameter : String) (e : Err)
  deriving DecidableEq

def Slot.err? : Slot → Option Err
  | .value _ => none
  | .failed _ e => some e

def Slot.val? : Slot → Option Val
  | .value v => some v
  | .failed .. => none

/-- Python dict assignment: a known key keeps its place. -/
def put {α : Type} (d : List (String × α)) (k : String) (v : α) : List (String × α) :=
  match d with
  | [] => [(k, v)]
  | (k', v') :: rest => if k' = k then (k, v) :: rest else (k', v') :: put rest k v

def lookup {α : Type} (d : List (String × α)) (k : String) : Option α :=
  (d.find? (fun e => e.1 = k)).map (·.2)

/-- `{**a, **b}`. -/
def union {α : Type} (a b : List (String × α)) : List (String × α) := b.foldl (fun d e => put d e.1 e.2) a

/-- The task function: the names of its positional parameters, its dependency parameters
and the dependencies in its annotations (which are bound to the argument). -/
structure Func where
  positional : List String
  params : List (String × Param)
  annotations : List (String × List (Option Val → Dep))

/-- What the task body, called with its keyword arguments, comes to. -/
inductive BodyOut
  | returned (isNone : Bool)
  | raised (e : Err)
  | cancelled
  deriving DecidableEq

inductive HandlerOut
  | handled
  | notHandled
  | raised (e : Err)
  deriving DecidableEq

/-- How a piece of code inside the `async with` ended. -/
inductive Out
  | done
  | raised (e : Err)
  | cancelled
  deriving DecidableEq

/-- What the exit of a resource does: nothing, swallow the exception, or raise. -/
inductive ExitOut
  | pass
  | suppress
  | raises (e : Err)
  deriving DecidableEq

/-- Everything an execution depends on. -/
structure World where
  /-- `strike_list.is_stricken(execution)` -/
  stricken : Bool := false
  /-- whether `execution.claim` succeeds -/
  claimed : Bool := true
  /-- the execution's positional arguments -/
  args : List Val := []
  kwargs : List (String × Val) := []
  func : Func
  /-- `Worker.dependencies` -/
  workerDeps : List (String × Dep) := []
  /-- the conflicts `validate_task_dependencies` finds (C41), by key -/
  conflicts : List (String × Slot) → List String := fun _ => []
  body : List (String × Val) → BodyOut
  /-- what exiting a resource does, given how the block ended -/
  exit : Res → Out → ExitOut := fun _ _ => .pass
  /-- `on_complete` on success, and on failure -/
  onSuccess : Val → HandlerOut := fun _ => .notHandled
  onFailure : Val → HandlerOut := fun _ => .notHandled
  /-- `handle_failure` -/
  handleFailure : Val → Err → HandlerOut := fun _ _ => .notHandled
  /-- whether a handler that handled the failure acknowledged the message, as `Retry` does -/
  acks : Val → Bool := fun _ => true
  /-- whether results are kept (`execution_ttl`) -/
  ttl : Bool := true
  /-- serialising or storing the result or the exception raised -/
  storeFails : Option Err := none
  storeErrorFails : Option Err := none

/-- The observable effects of an execution. -/
inductive Eff
  | opened (r : Res)
  | closed (r : Res)
  | called (kwargs : List (String × Val))
  | stored
  | completed (withResult : Bool)
  | failed
  | cancelled
  | completionHandler (v : Val)
  | failureHandler (v : Val)
  | rescheduled
  deriving DecidableEq

/-- The state of `resolved_dependencies`: the exit stack (oldest first), the arguments, and
whether a cancellation ended it. -/
structure R where
  opened : List Res := []
  args : List (String × Slot) := []
  aborted : Bool := false
  deriving DecidableEq

/-- `arguments[slot] = await stack.enter_async_context(dependency)` with its `except`,
_resolution.py:177-182, 200-206; with `keep = false` the value is not stored (216-221). -/
def enterInto (slot name : String) (keep : Bool) (d : Dep) (r : R) : R :=
  if r.aborted then r
  else match d.entered with
    | .value v => { r with
        opened := r.opened ++ d.opens
        args := if keep then put r.args slot (.value v) else r.args }
    | .error e => { r with
        opened := r.opened ++ d.opens
        args := put r.args slot (.failed name e) }
    | .cancelled => { r with
        opened := r.opened ++ d.opens
        aborted := true }

/-- The worker's dependencies, _resolution.py:177-182. -/
def resolveWorker (deps : List (String × Dep)) (r : R) : R :=
  deps.foldl (fun r e => enterInto ("__worker_dep__" ++ e.1) e.1 true e.2 r) r

/-- The dependency parameters, _resolution.py:184-206. -/
def resolveParams (kwargs : List (String × Val)) (params : List (String × Param)) (r : R) : R :=
  params.foldl (fun r e =>
    if r.aborted then r
    else match lookup kwargs e.1 with
      | some v => { r with args := put r.args e.1 (.value v) }
      | none => match e.2 with
        | .bareArgument => { r with args := put r.args e.1 (.failed e.1 (.other "No parameter name specified")) }
        | .dep d => enterInto e.1 e.1 true d r) r

/-- `execution.kwargs.get(name, arguments.get(name))`, _resolution.py:210-212. -/
def annotated (kwargs : List (String × Val)) (args : List (String × Slot)) (name : String) : Option Val :=
  match lookup kwargs name with
  | some v => some v
  | none => (lookup args name).bind Slot.val?

/-- The annotation dependencies, _resolution.py:208-221. -/
def resolveAnnotations (kwargs : List (String × Val)) (anns : List (String × List (Option Val → Dep)))
    (r : R) : R :=
  anns.foldl (fun r e =>
    let value := annotated kwargs r.args e.1
    e.2.foldl (fun r d => enterInto e.1 e.1 false (d value) r) r) r

/-- The conflicts, _resolution.py:223-228. -/
def addConflicts (conflicts : List (String × Slot) → List String) (r : R) : R :=
  if r.aborted then r
  else { r with args := union r.args ((conflicts r.args).map (fun c => (c, .failed c (.other "conflict")))) }

/-- `resolved_dependencies` up to the `yield`. -/
def resolve (w : World) : R :=
  addConflicts w.conflicts (resolveAnnotations w.kwargs w.func.annotations
    (resolveParams w.kwargs w.func.params (resolveWorker w.workerDeps {})))

/-- The first value with a role, `get_single_dependency_of_type`, _resolution.py:92-99. -/
def role (p : Val → Bool) (args : List (String × Slot)) : Option Val :=
  (args.filterMap (fun e => e.2.val?)).find? p

/-- The keyword arguments the task is called with, worker.py:1090-1096. -/
def finalKwargs (w : World) (args : List (String × Slot)) : List (String × Val) :=
  union w.kwargs ((args.filter (fun e => !e.1.startsWith "__worker_dep__")).filterMap
    (fun e => e.2.val?.map (fun v => (e.1, v))))

/-- Python refuses a call that gives a parameter both by position and by keyword. -/
def clash (w : World) (kwargs : List (String × Val)) : Bool :=
  (w.func.positional.take w.args.length).any (fun p => kwargs.any (fun e => e.1 = p))

/-- Normal completion, worker.py:1136-1150: the result is stored, unless it is `None` or
results are not kept. -/
def complete (w : World) (isNone : Bool) : List Eff × Out :=
  if isNone || !w.ttl then ([.completed false], .done)
  else match w.storeFails with
    | some e => ([], .raised e)
    | none => ([.stored, .completed true], .done)

/-- After the body returned, worker.py:1113-1156. -/
def finish (w : World) (args : List (String × Slot)) (isNone : Bool) : List Eff × Out :=
  match role Val.completion args with
  | none => complete w isNone
  | some v => match w.onSuccess v with
    | .handled => ([.completionHandler v, .completed false], .done)
    | .notHandled => (.completionHandler v :: (complete w isNone).1, (complete w isNone).2)
    | .raised e => ([.completionHandler v], .raised e)

/-- The block inside `async with resolved_dependencies(...)`, worker.py:1062-1156. -/
def block (w : World) (args : List (String × Slot)) : List Eff × Out :=
  let failures := args.filterMap (fun e => e.2.err?)
  match failures.find? Err.isBlocked with
  | some e => ([], .raised e)
  | none =>
    if failures ≠ [] then ([], .raised (.other "ExceptionGroup"))
    else
      let kwargs := finalKwargs w args
      if clash w kwargs then ([], .raised (.other "TypeError"))
      else match w.body kwargs with
        | .cancelled => ([.called kwargs], .cancelled)
        | .raised e => ([.called kwargs], .raised e)
        | .returned isNone =>
          let f := finish w args isNone
          (.called kwargs :: f.1, f.2)

/-- Leaving the exit stack: every resource is exited, and can swallow or replace what is
being raised. -/
def unwind (exit : Res → Out → ExitOut) : List Res → Out → List Eff × Out
  | [], out => ([], out)
  | r :: rs, out =>
    let out' := match exit r out with
      | .pass => out
      | .suppress => .done
      | .raises e => .raised e
    let rest := unwind exit rs out'
    (.closed r :: rest.1, rest.2)

/-- How `_execute` ended, seen from `process_completed_tasks`. -/
inductive Final
  | finished
  | blocked (handled reschedule : Bool)
  | propagated (e : Err)
  deriving DecidableEq

/-- Storing the exception and marking the execution as failed, worker.py:1213-1230. -/
def recordFailure (w : World) : List Eff × Final :=
  if !w.ttl then ([.failed], .finished)
  else match w.storeErrorFails with
    | some e => ([], .propagated e)
    | none => ([.stored, .failed], .finished)

/-- The failure was not retried, worker.py:1194-1230. -/
def notRetried (w : World) (args : List (String × Slot)) : List Eff × Final :=
  match role Val.completion args with
  | none => recordFailure w
  | some v => match w.onFailure v with
    | .raised e => ([.completionHandler v], .propagated e)
    | _ => (.completionHandler v :: (recordFailure w).1, (recordFailure w).2)

/-- The `except Exception` branch, worker.py:1179-1230; `args` is empty if resolving was
cut short. -/
def onError (w : World) (args : List (String × Slot)) (e : Err) : List Eff × Final :=
  match role Val.failure args with
  | none => notRetried w args
  | some v => match w.handleFailure v e with
    | .handled => ([.failureHandler v] ++ (if w.acks v then [.rescheduled] else []), .finished)
    | .raised e' => ([.failureHandler v], .propagated e')
    | .notHandled => (.failureHandler v :: (notRetried w args).1, (notRetried w args).2)

/-- The three `except` clauses, worker.py:1157-1230. -/
def outer (w : World) (args : List (String × Slot)) : Out → List Eff × Final
  | .done => ([], .finished)
  | .raised (.blocked h r) => ([], .blocked h r)
  | .raised (.other x) => onError w args (.other x)
  | .cancelled => ([.cancelled], .finished)

/-- `Worker._execute`.  A superseded execution is acknowledged by the claim script. -/
def execute (w : World) : List Eff × Final :=
  if w.stricken then ([.cancelled], .finished)
  else if !w.claimed then ([], .finished)
  else
    let r := resolve w
    let inner := if r.aborted then ([], Out.cancelled) else block w r.args
    let u := unwind w.exit r.opened.reverse inner.2
    let o := outer w (if r.aborted then [] else r.args) u.2
    (r.opened.map .opened ++ inner.1 ++ u.1 ++ o.1, o.2)

/-- The effects that acknowledge the message. -/
def Eff.settles : Eff → Bool
  | .completed _ | .failed | .cancelled | .rescheduled => true
  | _ => false

/-- The safety net, worker.py:729-740: what nothing acknowledged is marked as failed. -/
def safetyNet (w : World) (effs : List Eff) : List Eff :=
  if effs.any Eff.settles || !w.claimed then effs else effs ++ [.failed]

/-- `process_completed_tasks` for this execution, worker.py:693-740; the flag says whether
the exception goes on to the worker's loop. -/
def settle (w : World) : List Eff × Bool :=
  match (execute w).2 with
  | .finished => (safetyNet w (execute w).1, false)
  | .blocked true _ => ((execute w).1, false)
  | .blocked false true => (safetyNet w ((execute w).1 ++ [.rescheduled]), false)
  | .blocked false false => (safetyNet w ((execute w).1 ++ [.cancelled]), false)
  | .propagated _ => ((execute w).1, true)

end Docket.Execute
