import Verif.Views.Snapshot

/-!
# Assertions about scheduled tasks

Models testing.py:26-235 over the snapshots of `Verif.Views.Snapshot`.

Simplifications: Python's `==` on arguments is equality of values of a type `V`; the arguments
inside a message are reached through a decoding function; the text of the failures is left out.
-/

namespace Docket.Testing
open Docket

/-- A Python function: its identity and its `__name__`. -/
structure Fn where
  id : Nat
  name : String
  deriving DecidableEq

/-- The arguments of a task, as decoded from its message. -/
structure Call (V : Type) where
  args : List V
  kwargs : List (String × V)

/-- The parameter `function: str | Callable`. -/
inductive Which where
  | named (n : String)
  | function (f : Fn)

/-- `function if isinstance(function, str) else function.__name__`. -/
def Which.name : Which → String
  | .named n => n
  | .function f => f.name

structure Criteria (V : Type) where
  function : Which
  args : Option (List V) := none
  kwargs : Option (List (String × V)) := none
  key : Option String := none

/-- `k not in execution.kwargs or execution.kwargs[k] != v`, negated. -/
def hasItem {V : Type} [DecidableEq V] (kw : List (String × V)) (k : String) (v : V) : Bool :=
  match kw.lookup k with
  | none => false
  | some x => x = v

/-- `_matches_criteria`, testing.py:26-54. -/
def matchesCriteria {V : Type} [DecidableEq V] (decode : Msg → Call V) (m : Msg) (c : Criteria V) : Bool :=
  if m.req.fn ≠ c.function.name then false
  else if c.key.any (fun k => m.key ≠ k) then false
  else if c.args.any (fun a => (decode m).args ≠ a) then false
  else if c.kwargs.any (fun kw => kw.any (fun e => !hasItem (decode m).kwargs e.1 e.2)) then false
  else true

/-- How an assertion ends. -/
inductive Outcome where
  | passes
  | fails
  /-- the snapshot raised another exception -/
  | raises
  deriving DecidableEq

/-- Takes a snapshot, then judges its future tasks. -/
def judge (snap : Option Snap.Snapshot) (ok : List Msg → Bool) : Outcome :=
  match snap with
  | none => .raises
  | some s => if ok s.future then .passes else .fails

/-- `assert_task_scheduled`, testing.py:78-132. -/
def assertScheduled {V : Type} [DecidableEq V] (decode : Msg → Call V) (snap : Option Snap.Snapshot) (c : Criteria V) : Outcome :=
  judge snap (fun l => l.any (fun m => matchesCriteria decode m c))

/-- `assert_task_not_scheduled`, testing.py:135-174. -/
def assertNotScheduled {V : Type} [DecidableEq V] (decode : Msg → Call V) (snap : Option Snap.Snapshot) (c : Criteria V) : Outcome :=
  judge snap (fun l => !l.any (fun m => matchesCriteria decode m c))

/-- `assert_task_count`, testing.py:177-212. -/
def assertCount (snap : Option Snap.Snapshot) (function : Option Which) (count : Nat) : Outcome :=
  judge snap (fun l => match function with
    | none => l.length = count
    | some f => (l.filter (fun m => m.req.fn = f.name)).length = count)

/-- `assert_no_tasks`, testing.py:215-239. -/
def assertNoTasks (snap : Option Snap.Snapshot) : Outcome := judge snap (fun l => l.isEmpty)

end Docket.Testing
