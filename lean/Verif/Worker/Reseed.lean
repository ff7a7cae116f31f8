import Verif.Worker.Seed

/-!
# The loop that sows lost automatic tasks again

Models `Worker._reseed_automatic_perpetual_tasks_loop` (worker.py:925-954) and, step by step,
`_schedule_all_automatic_perpetual_tasks` and `_automatic_perpetual_is_live`
(worker.py:956-998): every request to Redis is a step of its own, and anything else can happen
on the docket in between.

Simplifications: the lock is an answer of Redis (whether another worker has it, and for how
long, is not modelled); waiting for the strikes is part of asking for the lock; `initial_when`
is a given time.
-/
namespace Docket.Reseed
open Docket.Seed

/-- Where the loop is. -/
inductive Pc
  /-- `_wait_for_event(session.stopping, interval)`, worker.py:942-946: until this time -/
  | sleeping (until_ : Nat)
  /-- a round that began at this time waits for the strikes and asks for the lock,
  worker.py:957-966 -/
  | asking (since : Nat)
  /-- at this place in the registry, reading `known`, worker.py:967-981, 994-996 -/
  | reading (since i : Nat)
  /-- reading the state of the task, worker.py:997-998 -/
  | looking (since i : Nat)
  /-- about to add the task, worker.py:982-984 -/
  | adding (since i : Nat)
  | over
  deriving DecidableEq, Repr

/-- What comes back from Redis: a failure is an exception, or the lock of another worker. -/
inductive Answer
  | ok
  | failed
  deriving DecidableEq, Repr

structure State where
  sys : Sys
  tasks : Tasks
  pc : Pc
  stopping : Bool := false

inductive Ev
  /-- anything else on the docket: clients, executions, other workers, and the passing of time -/
  | op (o : Op)
  /-- the loop goes on -/
  | go (a : Answer)
  /-- the worker is told to stop -/
  | stop
  deriving DecidableEq, Repr

/-- The end of a round, in whatever way: an exception is logged (worker.py:950-954), and the
loop waits again. -/
def rest (interval : Nat) (s : State) : State := { s with pc := .sleeping (s.sys.r.now + interval) }

/-- One step of the loop, worker.py:942-984. -/
def go (cfg : Cfg) (interval : Nat) (stricken : Fn → Bool) (s : State) (a : Answer) : State :=
  match s.pc with
  | .sleeping u =>
    if s.stopping then { s with pc := .over }
    else if u ≤ s.sys.r.now then { s with pc := .asking s.sys.r.now } else s
  | .asking t => if a = .ok then { s with pc := .reading t 0 } else rest interval s
  | .reading t i =>
    match s.tasks[i]? with
    | none => rest interval s
    | some (_, f) =>
      match f.auto with
      | none => { s with pc := .reading t (i + 1) }
      | some _ =>
        if a = .ok then
          if s.sys.r.knownOf f.name then { s with pc := .reading t (i + 1) } else { s with pc := .looking t i }
        else rest interval s
  | .looking t i =>
    match s.tasks[i]? with
    | none => rest interval s
    | some (_, f) =>
      if a = .ok then
        if s.sys.r.stateOf f.name = some .running then { s with pc := .reading t (i + 1) } else { s with pc := .adding t i }
      else rest interval s
  | .adding t i =>
    match s.tasks[i]? with
    | none => rest interval s
    | some (_, f) =>
      match f.auto with
      | none => { s with pc := .reading t (i + 1) }
      | some when_ =>
        -- `docket.add` registers the function (docket.py:385) before it talks to Redis
        let s' := { s with tasks := s.tasks.set f.name f }
        if a = .ok then
          let s'' := if stricken f then s' else
            { s' with sys := Docket.step cfg s'.sys (.add f.name (request f when_) s'.sys.r.now) }
          -- the iterator complains if the dict has grown
          if s''.tasks.length = s.tasks.length then { s'' with pc := .reading t (i + 1) } else rest interval s''
        else rest interval s'
  | .over => s

def step (cfg : Cfg) (interval : Nat) (stricken : Fn → Bool) (s : State) : Ev → State
  | .op o => { s with sys := Docket.step cfg s.sys o }
  | .go a => go cfg interval stricken s a
  | .stop => { s with stopping := true }

def runFrom (cfg : Cfg) (interval : Nat) (stricken : Fn → Bool) (s : State) (es : List Ev) : State :=
  es.foldl (step cfg interval stricken) s

/-- The loop begins on a docket with a history, worker.py:766-769, 936-942. -/
def start (cfg : Cfg) (interval : Nat) (t : Tasks) (hist : List Op) : State :=
  { sys := Docket.run cfg hist, tasks := t, pc := .sleeping ((Docket.run cfg hist).r.now + interval) }

def run (cfg : Cfg) (interval : Nat) (stricken : Fn → Bool) (t : Tasks) (hist : List Op) (es : List Ev) : State :=
  runFrom cfg interval stricken (start cfg interval t hist) es

end Docket.Reseed
