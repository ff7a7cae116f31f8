import Verif.Core.System

/-
The calls `Docket.add`, `replace`, `schedule` and `cancel` as their caller sees them: what the
returned execution says and what is added to the docket's counters
(docket.py:355-613, instrumentation.py:11-33).
-/
namespace Docket.Calls

/-- `Disposition` of an execution handed to the caller, execution.py:424-447. -/
inductive Verdict
  | scheduled
  | alreadyScheduled
  | struck
  deriving DecidableEq, Repr

/-- What the caller reads off the execution it gets back, execution.py:480-513, 736-756. -/
structure Handle where
  key : Key
  req : Request
  state : RunState
  verdict : Verdict
  deriving DecidableEq, Repr

/-- The counters of the docket, instrumentation.py:11-33 and 47-51. -/
structure Counters where
  added : Nat := 0
  replaced : Nat := 0
  cancelled : Nat := 0
  scheduled : Nat := 0
  stricken : Nat := 0
  deriving DecidableEq, Repr

structure State where
  sys : Sys := {}
  counters : Counters := {}

/-- The end of `Execution.schedule`, execution.py:736-756: the local state is left alone
(`SCHEDULED`, execution.py:497) if the key was taken. -/
def handleOf (k : Key) (q : Request) (decidedAt : Time) : Disposition → Handle
  | .alreadyScheduled => ⟨k, q, .scheduled, .alreadyScheduled⟩
  | .scheduled => ⟨k, q, if q.when_ ≤ decidedAt then .queued else .scheduled, .scheduled⟩

/-- The stricken branch, docket.py:414-432, 528-546, 566-584. -/
def struckCall (s : State) (k : Key) (q : Request) : State × Handle :=
  ({ s with counters := { s.counters with stricken := s.counters.stricken + 1 } },
    ⟨k, q, .scheduled, .struck⟩)

/-- `Docket.add`, docket.py:392-444.  `struck` is what `strike_list.is_stricken` says. -/
def add (s : State) (struck : Bool) (k : Key) (q : Request) (t : Time) : State × Handle :=
  if struck then struckCall s k q
  else
    let out := doAdd s.sys k q t
    let c := { s.counters with added := s.counters.added + 1 }
    let c := if out.2 = .scheduled then { c with scheduled := c.scheduled + 1 } else c
    (⟨out.1, c⟩, handleOf k q t out.2)

/-- `Docket.replace`, docket.py:506-554. -/
def replace (s : State) (struck : Bool) (k : Key) (q : Request) (t : Time) : State × Handle :=
  if struck then struckCall s k q
  else
    let out := doReplace s.sys k q t
    let c := { s.counters with replaced := s.counters.replaced + 1 }
    let c := { c with cancelled := c.cancelled + 1 }
    let c := { c with scheduled := c.scheduled + 1 }
    (⟨out.1, c⟩, handleOf k q t out.2)

/-- `Docket.schedule(execution)`, docket.py:556-590. -/
def schedule (s : State) (struck : Bool) (k : Key) (q : Request) (t : Time) : State × Handle :=
  if struck then struckCall s k q
  else
    let out := doAdd s.sys k q t
    let c := if out.2 = .scheduled then { s.counters with scheduled := s.counters.scheduled + 1 }
      else s.counters
    (⟨out.1, c⟩, handleOf k q t out.2)

/-- `Docket.cancel`, docket.py:592-613 with `_cancel` 753-777.  The cancellation signal
(C55) is left out. -/
def cancel (cfg : Cfg) (s : State) (k : Key) : State :=
  { s with
    sys := doCancelTtl cfg (doCancel s.sys k) k
    counters := { s.counters with cancelled := s.counters.cancelled + 1 } }

/-- A call on the docket, or a step of some other process; the latter can also be a call that
is interrupted after its script has run. -/
inductive Call
  | add (struck : Bool) (k : Key) (q : Request) (t : Time)
  | replace (struck : Bool) (k : Key) (q : Request) (t : Time)
  | schedule (struck : Bool) (k : Key) (q : Request) (t : Time)
  | cancel (k : Key)
  | other (op : Op)
  deriving DecidableEq, Repr

/-- Clock readings later than `now` are impossible and do nothing (as in `Docket.step`). -/
def step (cfg : Cfg) (s : State) : Call → State
  | .add b k q t => if t ≤ s.sys.r.now then (add s b k q t).1 else s
  | .replace b k q t => if t ≤ s.sys.r.now then (replace s b k q t).1 else s
  | .schedule b k q t => if t ≤ s.sys.r.now then (schedule s b k q t).1 else s
  | .cancel k => cancel cfg s k
  | .other op => { s with sys := Docket.step cfg s.sys op }

def run (cfg : Cfg) (cs : List Call) : State := cs.foldl (step cfg) {}

end Docket.Calls
