import Verif.Props.C19_C23
/-
Following an execution from outside: `Execution.subscribe` (execution.py:1097-1162) and the
waiting half of `Execution.get_result` (execution.py:932-1030), which is built on it.

A follower takes part in the run of the system at a few moments only, so a call is described by
the states of the system at these moments: `s1` when `subscribe` reads the record, `s2` when
its SUBSCRIBE is acknowledged (`ready.set()`), `s3` when we look at what it has been given.
Between these moments anything may happen.
-/
namespace Docket.Views
open Docket

/-- `self.state` after `sync`, execution.py:1032-1068: the recorded state, and SCHEDULED if
there is no record.  Simplified: a record without a state field would leave the old attribute
in place. -/
def syncedState (s : Sys) (k : Key) : RunState := (s.r.stateOf k).getD .scheduled

/-- The state events that `subscribe` yields, oldest first, execution.py:1121-1162: the state
read at `s1`, then every message published for the key from `s2` on (pub/sub delivers them
in order, and nothing that was published before the SUBSCRIBE).  Progress events are left
out. -/
def statesSeen (k : Key) (s1 s2 s3 : Sys) : List RunState :=
  syncedState s1 k :: (((newAnnounced s2 s3).reverse.filter (fun x => x.key = k)).map (·.state))

/-- What `get_result` does with the attributes it holds, execution.py:1003-1030: `h` is the
record it synced last, `s4` the system at the moment the result storage is read.  Without a
record the attributes are SCHEDULED and no result key (1061-1068), and any state other than
CANCELLED and FAILED is taken for success (1020-1030). -/
def answer (h : Option Run) (s4 : Sys) : Outcome :=
  match h with
  | none => .none_
  | some h =>
    match h.state with
    | some .cancelled => .cancelled
    | some .failed =>
      match storedResult s4 h with
      | some d => .raised d
      | none => .error (h.error.getD "Task execution failed")
    | _ =>
      match storedResult s4 h with
      | some d => .value d
      | none => .none_

/-- A call of `get_result` on an execution not known to have ended, execution.py:969-1030: it
subscribes (`s1`, `s2`), returns to the record when a terminal state is among the events it has
been given by `s3` (983-989), and looks up the result at `s4`.  `none` if it still waits at
`s3`.  Time limits are not modelled, nor are executions whose attributes already show a
terminal state (970). -/
def getResultCall (k : Key) (s1 s2 s3 s4 : Sys) : Option Outcome :=
  if (statesSeen k s1 s2 s3).any RunState.terminal then some (answer (s3.r.runs k) s4) else none

end Docket.Views
