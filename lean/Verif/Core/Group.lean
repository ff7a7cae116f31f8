import Verif.Core.Log
import Verif.Core.Spec

/-
The consumer group of a docket's stream, which nobody sets up in advance: the first process
that reads finds it missing and creates it (docket.py:721-738, worker.py:630-667,
_docket_snapshot.py:143-156).  The core model has the group from the beginning; here it is
created on the way, by any number of processes at once.
-/
namespace Docket.Group

/-- What a process reads from the group. -/
inductive Ask
  /-- `get_new_deliveries`, worker.py:651-667 -/
  | new (w : WorkerName) (n : Nat)
  /-- `get_redeliveries`, worker.py:630-649; `ids` is what XAUTOCLAIM goes through -/
  | old (w : WorkerName) (ids : List MsgId)
  /-- the XPENDING of `snapshot`, _docket_snapshot.py:119-156, which changes nothing -/
  | look
  deriving DecidableEq, Repr

/-- The same in the core model, where the group is always there. -/
def Ask.ops : Ask → List Op
  | .new w n => [.poll w n]
  | .old w ids => ids.map (.redeliver w)
  | .look => []

/-- Where a process is: the command it sends next. -/
inductive Pc
  | idle
  | asking (a : Ask)
  /-- after a NOGROUP error: `_ensure_stream_and_group` -/
  | creating (a : Ask)
  /-- an error nobody handles ended it -/
  | failed
  deriving DecidableEq, Repr

/-- The server's consumer group. -/
structure Grp where
  lastDelivered : MsgId
  pending : List Pend
  deriving DecidableEq, Repr

structure State where
  /-- everything but the group; what it says about pending messages does not count -/
  sys : Sys := {}
  /-- whether the stream's key exists -/
  stream : Bool := false
  group : Option Grp := none
  pcs : Nat → Pc := fun _ => .idle

/-- The state in the core model. -/
def State.core (s : State) : Sys :=
  { s.sys with r := { s.sys.r with
      lastDelivered := (s.group.map (·.lastDelivered)).getD 0
      pending := (s.group.map (·.pending)).getD [] } }

/-- Run commands that use the group if it is there (XACK and XCLAIM without a group do
nothing to it); XADD creates the stream. -/
def exec (cfg : Cfg) (s : State) (ops : List Op) : State :=
  let c := Docket.runFrom cfg s.core ops
  { s with
    sys := c
    stream := s.stream || !c.r.stream.isEmpty
    group := s.group.map (fun _ => ⟨c.r.lastDelivered, c.r.pending⟩) }

/-- `XGROUP CREATE ... 0-0 MKSTREAM`, docket.py:729-735: BUSYGROUP if there is one; the group
starts before the first message. -/
def create (s : State) : State × Bool :=
  match s.group with
  | some _ => (s, false)
  | none => ({ s with group := some ⟨0, []⟩, stream := true }, true)

def State.goto (s : State) (i : Nat) (pc : Pc) : State :=
  { s with pcs := fun j => if j = i then pc else s.pcs j }

/-- The next command of a process.  A read without a group (or without a stream) fails with
NOGROUP, worker.py:645 and 663, _docket_snapshot.py:153; then the group is created, where BUSYGROUP
is ignored (docket.py:736-738), and the read is tried again. -/
def go (cfg : Cfg) (s : State) (i : Nat) : State :=
  match s.pcs i with
  | .idle => s
  | .failed => s
  | .asking a =>
    if s.group.isNone || !s.stream then s.goto i (.creating a)
    else (exec cfg s a.ops).goto i .idle
  | .creating a => (create s).1.goto i (.asking a)

/-- Commands only a reader sends. -/
def Reads : Op → Bool
  | .poll .. | .redeliver .. => true
  | _ => false

inductive Ev
  /-- anything else on the docket: calls of clients, schedulers, executions -/
  | op (o : Op)
  /-- process `i` starts to read -/
  | ask (i : Nat) (a : Ask)
  | go (i : Nat)
  deriving DecidableEq, Repr

def step (cfg : Cfg) (s : State) : Ev → State
  | .op o => if Reads o then s else exec cfg s [o]
  | .ask i a => if s.pcs i = .idle then s.goto i (.asking a) else s
  | .go i => go cfg s i

def runFrom (cfg : Cfg) (s : State) (es : List Ev) : State := es.foldl (step cfg) s

def run (cfg : Cfg) (es : List Ev) : State := runFrom cfg {} es

end Docket.Group
