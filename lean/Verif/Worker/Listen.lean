import Verif.Core.Redis

/-!
# The worker's ear for cancellations

Models `Worker._cancellation_listener` and `_handle_cancellation` (worker.py:1338-1389), the wait
for it before the first task is taken (worker.py:750-763), and the signal that `Docket.cancel`
publishes (docket.py:610-611) as it comes to this worker: Redis keeps no published message for
whoever is not subscribed, and the unread ones of a connection are lost with it.

Simplifications: channel and pattern always match (that is `C65`); the worker has at most one task
of a key (two are the subject of `C55`); subscribing is one step; a cancelled asyncio task stays
until it ends.
-/
namespace Docket.Listen

/-- Where the listener is. -/
inductive Pc
  /-- at the head of the loop, opening a connection since this time, worker.py:1345-1347 -/
  | connecting (since : Nat)
  /-- `psubscribe`, in the attempt begun at this time, worker.py:1348 -/
  | subscribing (since : Nat)
  /-- subscribed, with the signals that have arrived and are unread, worker.py:1350-1355 -/
  | listening (unread : List Key)
  /-- waiting until this time after an error, worker.py:1364-1365, 1374-1375 -/
  | pausing (until_ : Nat)
  | over
  deriving DecidableEq, Repr

/-- How a call of the listener ends. -/
inductive Answer
  | ok
  /-- `ConnectionError`, worker.py:1356 -/
  | lost
  /-- any other exception, worker.py:1366 -/
  | error
  deriving DecidableEq, Repr

structure State where
  now : Nat := 0
  pc : Pc := .connecting 0
  /-- `session.cancellation_ready` -/
  ready : Bool := false
  /-- `session.stopping` -/
  stopping : Bool := false
  /-- `_tasks_by_key`, with a number for each task -/
  running : List (Key × Nat) := []
  next : Nat := 0
  /-- the tasks whose asyncio task was cancelled, the last first -/
  interrupted : List Nat := []

inductive Ev
  | tick (d : Nat)
  /-- the main loop takes a task -/
  | start (k : Key)
  /-- a task ends -/
  | finish (uid : Nat)
  /-- someone calls `Docket.cancel(k)` -/
  | cancel (k : Key)
  /-- the listener goes on -/
  | go (a : Answer)
  /-- the worker is told to stop -/
  | stop
  deriving DecidableEq, Repr

/-- `_handle_cancellation`, worker.py:1377-1389. -/
def handle (s : State) (k : Key) : State :=
  match s.running.find? (fun e => e.1 = k) with
  | some (_, uid) => { s with interrupted := uid :: s.interrupted }
  | none => s

/-- The `except` clauses, worker.py:1356-1375. -/
def fail (pause : Nat) (s : State) : State :=
  if s.stopping then { s with pc := .over } else { s with pc := .pausing (s.now + pause) }

/-- One step of the listener, worker.py:1345-1375. -/
def go (pause : Nat) (s : State) (a : Answer) : State :=
  match s.pc with
  | .connecting t =>
    if s.stopping then { s with pc := .over }
    else if a = .ok then { s with pc := .subscribing t } else fail pause s
  | .subscribing _ =>
    if a = .ok then { s with pc := .listening [], ready := true } else fail pause s
  | .listening unread =>
    if s.stopping then { s with pc := .over }
    else if a = .ok then
      match unread with
      | [] => s
      | k :: unread => handle { s with pc := .listening unread } k
    else fail pause s
  | .pausing u =>
    if s.stopping then { s with pc := .over }
    else if u ≤ s.now then { s with pc := .connecting s.now } else s
  | .over => s

/-- `publish`, docket.py:610-611: to those who are subscribed. -/
def publish (s : State) (k : Key) : State :=
  match s.pc with
  | .listening unread => { s with pc := .listening (unread ++ [k]) }
  | _ => s

/-- The main loop takes a task, worker.py:686-690, once the listener is ready (756-763). -/
def start (s : State) (k : Key) : State :=
  if s.ready ∧ ¬ s.stopping ∧ ∀ e ∈ s.running, e.1 ≠ k then
    { s with running := (k, s.next) :: s.running, next := s.next + 1 }
  else s

def step (pause : Nat) (s : State) : Ev → State
  | .tick d => { s with now := s.now + d }
  | .start k => start s k
  | .finish uid => { s with running := s.running.filter (fun e => e.2 ≠ uid) }
  | .cancel k => publish s k
  | .go a => go pause s a
  | .stop => { s with stopping := true }

def runFrom (pause : Nat) (s : State) (es : List Ev) : State := es.foldl (step pause) s

def run (pause : Nat) (es : List Ev) : State := runFrom pause {} es

end Docket.Listen
