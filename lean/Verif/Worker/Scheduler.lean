import Verif.Core.System

/-
The scheduler loop of a worker, worker.py:848-885, on the core model: it calls the script that
moves due tasks from the schedule to the stream, again and again.
-/
namespace Docket.Scheduler

/-- Where the loop is. -/
inductive Pc
  /-- at the head of the loop since this time, worker.py:854 -/
  | top (since : Nat)
  /-- the clock was read at this time and the script is on its way, worker.py:858-864 -/
  | calling (at_ : Nat)
  /-- `_wait_for_event(session.stopping, scheduling_resolution)`, worker.py:882-885: until this time -/
  | waiting (until_ : Nat)
  | over
  deriving DecidableEq, Repr

structure State where
  sys : Sys
  pc : Pc
  stopping : Bool := false
  /-- how many calls in a row have failed -/
  fails : Nat := 0

inductive Ev
  /-- anything else on the docket: clients, executions, other workers, and the passing of time -/
  | op (o : Op)
  /-- the loop goes on; `ok` is whether Redis answers -/
  | go (ok : Bool)
  /-- the worker is told to stop -/
  | stop
  deriving DecidableEq, Repr

/-- One step of the loop, worker.py:854-885: an exception of the call is logged and the loop goes
on (worker.py:875-880). -/
def go (cfg : Cfg) (resolution : Nat) (s : State) (ok : Bool) : State :=
  let now := s.sys.r.now
  match s.pc with
  | .top _ => if s.stopping then { s with pc := .over } else { s with pc := .calling now }
  | .calling t =>
    if ok then
      { s with sys := Docket.step cfg s.sys (.schedule t), pc := .waiting (now + resolution), fails := 0 }
    else { s with pc := .waiting (now + resolution), fails := s.fails + 1 }
  | .waiting u =>
    if s.stopping then { s with pc := .over }
    else if u ≤ now then { s with pc := .top now } else s
  | .over => s

def step (cfg : Cfg) (resolution : Nat) (s : State) : Ev → State
  | .op o => { s with sys := Docket.step cfg s.sys o }
  | .go ok => go cfg resolution s ok
  | .stop => { s with stopping := true }

def runFrom (cfg : Cfg) (resolution : Nat) (s : State) (es : List Ev) : State :=
  es.foldl (step cfg resolution) s

/-- The loop begins on a docket with a history, worker.py:848-853. -/
def start (cfg : Cfg) (hist : List Op) : State :=
  { sys := Docket.run cfg hist, pc := .top (Docket.run cfg hist).r.now }

def run (cfg : Cfg) (resolution : Nat) (hist : List Op) (es : List Ev) : State :=
  runFrom cfg resolution (start cfg hist) es

end Docket.Scheduler
