import Verif.Text

/-
Worker-wide setup of dependencies: the `worker_lifecycle` hooks that a worker enters around its
loop (worker.py:570-605, 736-748), with the tasks it runs meanwhile and drains afterwards.
-/
namespace Docket.Hooks

/-- A class of objects, and what `worker_lifecycle` is on it. -/
structure Cls where
  id : Nat
  /-- a subclass of `Dependency` -/
  dependency : Bool
  /-- `hasattr(cls, "worker_lifecycle")`, worker.py:587 -/
  hook : Bool
  /-- the hook returns a context manager and not `None`, worker.py:747 -/
  manages : Bool
  deriving DecidableEq, Repr

/-- A task function: the classes of the parameters' defaults, and of the annotations' metadata
that are dependencies (`get_annotation_dependencies`), parameter by parameter. -/
structure Fn where
  id : Nat
  defaults : List Cls
  annotated : List (List Cls)
  deriving DecidableEq, Repr

/-- `consider` inside `_dependency_lifecycle_classes`, worker.py:583-590; `seen` and `ordered`
have the same elements. -/
def consider (ordered : List Cls) (c : Cls) : List Cls :=
  if !c.dependency then ordered
  else if decide (c ∈ ordered) || !c.hook then ordered
  else ordered ++ [c]

/-- One round of the loop over the registered tasks, worker.py:592-601. -/
def considerFn (ordered : List Cls) (f : Fn) : List Cls :=
  f.annotated.foldl (fun o deps => deps.foldl consider o) (f.defaults.foldl consider ordered)

/-- `_dependency_lifecycle_classes`, worker.py:570-605: `tasks` are the registered functions,
`workerDeps` the classes of the worker's own dependencies. -/
def lifecycleClasses (tasks : List Fn) (workerDeps : List Cls) : List Cls :=
  workerDeps.foldl consider (tasks.foldl considerFn [])

/-- What can be observed. -/
inductive Event
  | entered (c : Cls)
  | exited (c : Cls)
  | started (n : Nat) (f : Fn)
  | ended (n : Nat) (f : Fn)
  deriving DecidableEq, Repr

/-- Where the worker is. -/
inductive Phase
  /-- between runs of the loop -/
  | idle
  /-- inside the loop, with the hooks entered -/
  | looping
  /-- after the loop, waiting for the tasks still active, worker.py:837-840; `again` when the
  connection was lost and `_run` will begin anew, worker.py:544-568 -/
  | draining (again : Bool)
  deriving DecidableEq, Repr

structure Worker where
  tasks : List Fn := []
  phase : Phase := .idle
  /-- `dependency_stack`, the last entered first -/
  stack : List Cls := []
  /-- `active_tasks` -/
  active : List (Nat × Fn) := []
  next : Nat := 0
  /-- newest first -/
  log : List Event := []
  deriving DecidableEq, Repr

inductive Op
  /-- `Docket.register`, at any time -/
  | register (f : Fn)
  /-- a run of the loop begins; `fails = some n`: entering the hook with number `n` raises -/
  | begin (fails : Option Nat)
  /-- a task is taken up -/
  | start (f : Fn)
  /-- the task with that number is over -/
  | finish (n : Nat)
  /-- the loop is left: the worker stops, is cancelled, fails, or lost its connection
  (`lost = true`) -/
  | leave (lost : Bool)
  deriving DecidableEq, Repr

/-- Entering the hooks, worker.py:745-748: those that return no context manager are skipped. -/
def toEnter (tasks : List Fn) (workerDeps : List Cls) : List Cls :=
  (lifecycleClasses tasks workerDeps).filter (·.manages)

/-- `async with AsyncExitStack()`: leaving exits what was entered, the last one first. -/
def unwind (w : Worker) : Worker :=
  { w with stack := [], log := (w.stack.map Event.exited).reverse ++ w.log }

def enterAll (w : Worker) (cs : List Cls) : Worker :=
  { w with stack := cs.reverse, log := (cs.map Event.entered).reverse ++ w.log }

/-- When the last active task is over, the drained worker's loop returns. -/
def settle (w : Worker) : Worker :=
  match w.phase with
  | .draining _ => if w.active = [] then { w with phase := .idle } else w
  | _ => w

/-- `_worker_loop`, worker.py:608-846, as far as hooks and tasks go.  A worker takes up tasks
only while it is looping and only functions it has registered (for others it runs its fallback
task, which is left out). -/
def step (workerDeps : List Cls) (w : Worker) : Op → Worker
  | .register f => { w with tasks := w.tasks ++ [f] }
  | .begin fails =>
    match w.phase with
    | .idle =>
      match fails with
      | none => { enterAll w (toEnter w.tasks workerDeps) with phase := .looping }
      | some n => unwind (enterAll w ((toEnter w.tasks workerDeps).take n))
    | _ => w
  | .start f =>
    match w.phase with
    | .looping =>
      if f ∈ w.tasks then
        { w with active := w.active ++ [(w.next, f)], next := w.next + 1, log := .started w.next f :: w.log }
      else w
    | _ => w
  | .finish n =>
    match w.active.find? (fun a => a.1 = n) with
    | some a => settle { w with active := w.active.filter (fun a => a.1 ≠ n), log := .ended a.1 a.2 :: w.log }
    | none => w
  | .leave lost =>
    match w.phase with
    | .looping => settle { unwind w with phase := .draining lost }
    | _ => w

def runFrom (workerDeps : List Cls) (w : Worker) (ops : List Op) : Worker :=
  ops.foldl (step workerDeps) w

end Docket.Hooks
