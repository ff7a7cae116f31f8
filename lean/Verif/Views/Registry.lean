/-
Which function a task runs: the functions a process has registered under names
(docket.py:285-313), what `add` and `replace` put in the message (docket.py:355-554), and how a
worker finds the function again (execution.py:587-593), retries it (_retry.py:99-130) and
perpetuates it (dependencies/_perpetual.py:97-135).
-/
namespace Docket.Registry

/-- A task function: which one it is, and its `__name__`. -/
structure Fn where
  id : Nat
  name : String
  deriving DecidableEq, Repr

/-- A process: its own `Docket` object with its table of tasks. -/
abbrev Process := Nat

abbrev Tasks := String → Option Fn

/-- `self.tasks[name] = function`. -/
def setTask (t : Tasks) (n : String) (f : Fn) : Tasks := fun m => if m = n then some f else t m

/-- `Docket.register`, docket.py:285-299, for a function whose dependencies are valid. -/
def register (t : Tasks) (f : Fn) (names : List String) : Tasks :=
  (if names = [] then [f.name] else names).foldl (fun t n => setTask t n f) t

/-- `Docket.register_collection`, docket.py:301-313, for an importable collection. -/
def registerCollection (t : Tasks) (collection : List Fn) : Tasks :=
  collection.foldl (fun t f => register t f []) t

/-- How an execution ends, for what happens to the task's message. -/
inductive End
  /-- completed, failed or cancelled -/
  | settled
  /-- rescheduled by `Retry` or an admission block: the same execution again -/
  | retried
  /-- perpetuated: `docket.replace(execution.function, when, execution.key)` -/
  | perpetuated
  deriving DecidableEq, Repr

/-- What happened, for stating properties (newest first). -/
inductive Event
  /-- a caller's `add` or `replace` was accepted; `f` is the function the caller named -/
  | asked (k : String) (f : Fn)
  /-- worker `p` ran `f` for the task, found by name or as the fallback -/
  | ran (p : Process) (k : String) (f : Fn) (fallback : Bool)
  deriving DecidableEq, Repr

structure Sys where
  /-- the `tasks` of each process's docket -/
  tasks : Process → Tasks := fun _ _ => none
  /-- the `function` field of the message of each task that is waiting to run -/
  waiting : String → Option String := fun _ => none
  log : List Event := []

/-- Replaces one process's table. -/
def setTable (ts : Process → Tasks) (p : Process) (t : Tasks) : Process → Tasks :=
  fun q => if q = p then t else ts q

def setWaiting (w : String → Option String) (k : String) (v : Option String) : String → Option String :=
  fun j => if j = k then v else w j

inductive Op
  | register (p : Process) (f : Fn) (names : List String)
  | registerCollection (p : Process) (fs : List Fn)
  /-- `add(function, key=k)`, or `replace` -/
  | add (p : Process) (replace : Bool) (k : String) (f : Fn)
  /-- `add("name", key=k)`, or `replace` -/
  | addByName (p : Process) (replace : Bool) (k : String) (n : String)
  /-- worker `p` takes the task of key `k`, which ends so -/
  | run (p : Process) (k : String) (e : End)
  deriving DecidableEq, Repr

/-- The message is placed, unless `add` finds the key taken: execution.py:183-196.
Simplification: a key is taken while its task waits; a running task (which also keeps its key)
is one step here. -/
def place (s : Sys) (replace : Bool) (k : String) (n : String) (f : Fn) : Sys :=
  if !replace && (s.waiting k).isSome then s
  else { s with waiting := setWaiting s.waiting k (some n), log := .asked k f :: s.log }

/-- `Docket.add` and `Docket.replace` of a function, docket.py:379-403 and 495-515: it is
registered under its name, and `Execution.function_name` is `function.__name__`
(execution.py:475). -/
def doAdd (s : Sys) (p : Process) (replace : Bool) (k : String) (f : Fn) : Sys :=
  place { s with tasks := setTable s.tasks p (register (s.tasks p) f []) } replace k f.name f

/-- `Docket.add` and `Docket.replace` of a name, docket.py:381-383: `self.tasks[function]`, or
`KeyError`; the name is what the message carries. -/
def doAddByName (s : Sys) (p : Process) (replace : Bool) (k : String) (n : String) : Sys :=
  match s.tasks p n with
  | none => s
  | some f => place s replace k n f

/-- `Execution.from_message` in a worker, execution.py:587-593; the flag says whether it is the
fallback task (worker.py:279). -/
def find (fallback : Process → Fn) (s : Sys) (p : Process) (n : String) : Fn × Bool :=
  match s.tasks p n with
  | some f => (f, false)
  | none => (fallback p, true)

/-- A worker runs a waiting task, worker.py:669-691, and its end. -/
def doRun (fallback : Process → Fn) (s : Sys) (p : Process) (k : String) (e : End) : Sys :=
  match s.waiting k with
  | none => s
  | some n =>
    let f := (find fallback s p n).1
    let s := { s with log := .ran p k f (find fallback s p n).2 :: s.log }
    match e with
    | .settled => { s with waiting := setWaiting s.waiting k none }
    | .retried => s
    | .perpetuated => { s with
        tasks := setTable s.tasks p (register (s.tasks p) f [])
        waiting := setWaiting s.waiting k (some f.name) }

def step (fallback : Process → Fn) (s : Sys) : Op → Sys
  | .register p f names => { s with tasks := setTable s.tasks p (register (s.tasks p) f names) }
  | .registerCollection p fs =>
    { s with tasks := setTable s.tasks p (registerCollection (s.tasks p) fs) }
  | .add p replace k f => doAdd s p replace k f
  | .addByName p replace k n => doAddByName s p replace k n
  | .run p k e => doRun fallback s p k e

def runFrom (fallback : Process → Fn) (s : Sys) (ops : List Op) : Sys := ops.foldl (step fallback) s

/-- The name under which `get_execution` reports a task, docket.py:647-682: the function is
looked up by the name in the record, and the execution takes the name from the function; an
unknown name gets a placeholder of that name. -/
def reportedName (t : Tasks) (n : String) : String :=
  match t n with
  | some f => f.name
  | none => n

end Docket.Registry
