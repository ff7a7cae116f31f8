import Verif.Views.Registry
/-
Striking a function: `Docket.strike` and `Docket.restore` without a parameter (docket.py:778-830),
and where strikes are looked up: when a task is added (docket.py:413-432, 523-542) and when a
worker takes it (worker.py:1017-1024).  The registered functions, the names in the messages and
how a worker finds a function are those of `Registry`.

Simplifications: a strike is known in every process as soon as it is made (how it travels is in
Strikes/Model.lean and Strikes/Monitor.lean); strikes on parameters are left out (they are in
Strikes/Model.lean).
-/
namespace Docket.Functions
open Docket.Registry (Fn Process Tasks register registerCollection setTable setWaiting)

/-- What `strike` and `restore` are given. -/
inductive Target
  | fn (f : Fn)
  | name (n : String)
  deriving DecidableEq, Repr

/-- `function.__name__ if callable(function) else function`, docket.py:793 and 820. -/
def Target.called : Target → String
  | .fn f => f.name
  | .name n => n

/-- How a run ends.  A perpetual task's run is `settled`, followed by the `add` with `replace` its
worker makes of the function it ran (dependencies/_perpetual.py:133). -/
inductive End
  | settled
  /-- rescheduled by `Retry` or an admission block: the same message again -/
  | retried
  deriving DecidableEq, Repr

/-- What happened, for stating properties (newest first). -/
inductive Event
  | struck (t : Target)
  | restored (t : Target)
  /-- an `add` or `replace` of `f` was accepted -/
  | asked (k : String) (f : Fn)
  /-- an `add` or `replace` of `f` was refused: `Disposition.STRUCK` -/
  | refused (k : String) (f : Fn)
  /-- worker `p` ran `f` for the task, found by name or as the fallback -/
  | ran (p : Process) (k : String) (f : Fn) (fallback : Bool) (e : End)
  /-- worker `p` took the task and cancelled it instead of running it -/
  | dropped (p : Process) (k : String)
  deriving DecidableEq, Repr

structure Sys where
  /-- the `tasks` of each process's docket -/
  tasks : Process → Tasks := fun _ _ => none
  /-- the keys of `task_strikes` that strike out a whole task -/
  struck : List String := []
  /-- the `function` field of the message of each task that is waiting to run -/
  waiting : String → Option String := fun _ => none
  log : List Event := []

inductive Op
  | register (p : Process) (f : Fn) (names : List String)
  | registerCollection (p : Process) (fs : List Fn)
  | add (p : Process) (replace : Bool) (k : String) (f : Fn)
  | addByName (p : Process) (replace : Bool) (k : String) (n : String)
  | strike (t : Target)
  | restore (t : Target)
  /-- worker `p` takes the task of key `k`; if it is run, its run ends so -/
  | run (p : Process) (k : String) (e : End)
  deriving DecidableEq, Repr

/-- `strike_list.is_stricken(execution)` for strikes without a parameter,
strikelist.py:381-394: by the execution's `function_name`. -/
def isStricken (s : Sys) (n : String) : Bool := decide (n ∈ s.struck)

/-- The scheduler made by `Docket.add` and `Docket.replace`, docket.py:413-450 and 523-548, for an
execution of `f` whose `function_name` is `n`: refused if struck; otherwise the message is placed,
unless `add` finds the key taken. -/
def place (s : Sys) (replace : Bool) (k : String) (n : String) (f : Fn) : Sys :=
  if isStricken s n then { s with log := .refused k f :: s.log }
  else if !replace && (s.waiting k).isSome then s
  else { s with waiting := setWaiting s.waiting k (some n), log := .asked k f :: s.log }

/-- `Docket.add` and `Docket.replace` of a function, docket.py:379-403 and 495-515. -/
def doAdd (s : Sys) (p : Process) (replace : Bool) (k : String) (f : Fn) : Sys :=
  place { s with tasks := setTable s.tasks p (register (s.tasks p) f []) } replace k f.name f

/-- `Docket.add` and `Docket.replace` of a name, docket.py:381-383. -/
def doAddByName (s : Sys) (p : Process) (replace : Bool) (k : String) (n : String) : Sys :=
  match s.tasks p n with
  | none => s
  | some f => place s replace k n f

/-- `Docket.strike`, docket.py:778-802. -/
def doStrike (s : Sys) (t : Target) : Sys :=
  { s with struck := t.called :: s.struck, log := .struck t :: s.log }

/-- `Docket.restore`, docket.py:804-829. -/
def doRestore (s : Sys) (t : Target) : Sys :=
  { s with struck := s.struck.filter (fun n => decide (n ≠ t.called)), log := .restored t :: s.log }

/-- `Execution.from_message` in a worker, execution.py:587-593; the flag says whether it is the
fallback task. -/
def find (fallback : Process → Fn) (s : Sys) (p : Process) (n : String) : Fn × Bool :=
  match s.tasks p n with
  | some f => (f, false)
  | none => (fallback p, true)

/-- `Worker._execute`, worker.py:1013-1031, and the run's end. -/
def doRun (fallback : Process → Fn) (s : Sys) (p : Process) (k : String) (e : End) : Sys :=
  match s.waiting k with
  | none => s
  | some n =>
    if isStricken s n then
      { s with waiting := setWaiting s.waiting k none, log := .dropped p k :: s.log }
    else
      { s with
        waiting := match e with
          | .settled => setWaiting s.waiting k none
          | .retried => s.waiting
        log := .ran p k (find fallback s p n).1 (find fallback s p n).2 e :: s.log }

def step (fallback : Process → Fn) (s : Sys) : Op → Sys
  | .register p f names => { s with tasks := setTable s.tasks p (register (s.tasks p) f names) }
  | .registerCollection p fs =>
    { s with tasks := setTable s.tasks p (registerCollection (s.tasks p) fs) }
  | .add p replace k f => doAdd s p replace k f
  | .addByName p replace k n => doAddByName s p replace k n
  | .strike t => doStrike s t
  | .restore t => doRestore s t
  | .run p k e => doRun fallback s p k e

def runFrom (fallback : Process → Fn) (s : Sys) (ops : List Op) : Sys := ops.foldl (step fallback) s

end Docket.Functions
