import Verif.Core.System

/-!
# Seeding automatic perpetual tasks

Models `Worker._schedule_all_automatic_perpetual_tasks` and `_automatic_perpetual_is_live`
(worker.py:956-998) on top of the system of `Verif.Core`.

Simplifications: the seeding is not interleaved with other processes (each `add` is one atomic
step of the system anyway); `initial_when` is a given time; the lock is a flag.
-/

namespace Docket.Seed

/-- A task function as far as seeding looks at it. -/
structure Fn where
  /-- identity of the function object -/
  id : Nat
  /-- `__name__` -/
  name : String
  /-- for an automatic perpetual task: `initial_when` -/
  auto : Option Nat
  deriving DecidableEq

/-- `docket.tasks`, a dict in insertion order. -/
abbrev Tasks := List (String × Fn)

def Tasks.get (t : Tasks) (n : String) : Option Fn := (t.find? (fun e => e.1 = n)).map (·.2)

/-- `self.tasks[name] = function` -/
def Tasks.set (t : Tasks) (n : String) (f : Fn) : Tasks :=
  if t.any (fun e => e.1 = n) then t.map (fun e => if e.1 = n then (n, f) else e) else t ++ [(n, f)]

/-- `_automatic_perpetual_is_live`, worker.py:988-998. -/
def isLive (s : Sys) (k : Key) : Bool := s.r.knownOf k || s.r.stateOf k == some .running

/-- How the seeding ended: the lock was taken, normally, or with the RuntimeError of a dict
that changed size during iteration. -/
inductive Outcome where
  | locked
  | finished
  | changedSize
  deriving DecidableEq

/-- The request `docket.add(task_function, when=..., key=...)()` makes. -/
def request (f : Fn) (when_ : Nat) : Request := ⟨f.name, "", "", when_, 1⟩

/-- `docket.add`, docket.py:355-444: registers the function under its `__name__`
(docket.py:385, 284-301), and schedules it unless it is stricken (docket.py:415). -/
def addFn (stricken : Fn → Bool) (t : Tasks) (s : Sys) (f : Fn) (when_ : Nat) : Tasks × Sys :=
  (t.set f.name f, if stricken f then s else (doAdd s f.name (request f when_) s.r.now).1)

/-- The loop over `self.docket.tasks.values()`, worker.py:967-984, from index `i` with
`fuel` entries to go.  The iterator reads the current value at its position and complains when
the size of the dict changed. -/
def loop (stricken : Fn → Bool) : Nat → Nat → Tasks → Sys → Sys × Tasks × Outcome
  | 0, _, t, s => (s, t, .finished)
  | fuel + 1, i, t, s =>
    match t[i]? with
    | none => (s, t, .finished)
    | some (_, f) =>
      match f.auto with
      | none => loop stricken fuel (i + 1) t s
      | some when_ =>
        if isLive s f.name then loop stricken fuel (i + 1) t s
        else
          let a := addFn stricken t s f when_
          if a.1.length = t.length then loop stricken fuel (i + 1) a.1 a.2
          else (a.2, a.1, .changedSize)

/-- `_schedule_all_automatic_perpetual_tasks`, worker.py:956-986. -/
def seed (lockFree : Bool) (stricken : Fn → Bool) (t : Tasks) (s : Sys) : Sys × Tasks × Outcome :=
  if lockFree then loop stricken t.length 0 t s else (s, t, .locked)

end Docket.Seed
