import Verif.Text
/-
How long a worker waits before it looks around again: the waits of the loop of
`Worker._worker_loop`.  Times are in microseconds.
-/
namespace Docket.Poll

/-- One round of the loop: whether all slots are taken, and when the next message for the
worker is there, if one ever is. -/
structure Round where
  full : Bool
  arrival : Option Nat

/-- `block=int(self.minimum_check_interval.total_seconds() * 1000)`, worker.py:659, in
milliseconds.  Simplified: exact instead of floating-point arithmetic. -/
def block (interval : Nat) : Nat := interval / 1000

/-- When `XREADGROUP ... BLOCK ms` answers, worker.py:651-667; none: never.  `BLOCK 0` has no
limit. -/
def readAnswers (ms now : Nat) (arrival : Option Nat) : Option Nat :=
  if ms = 0 then arrival.map (fun a => max now a)
  else match arrival with
    | some a => some (min (now + ms * 1000) (max now a))
    | none => some (now + ms * 1000)

/-- From one look at `stopping`, at finished tasks and at free slots to the next,
worker.py:783-805.  Simplified: only waiting takes time. -/
def next (interval now : Nat) (r : Round) : Option Nat :=
  if r.full then some (now + interval)
  else readAnswers (block interval) now r.arrival

/-- When the worker looks around after these rounds. -/
def after (interval : Nat) : Nat → List Round → Option Nat
  | now, [] => some now
  | now, r :: rs =>
    match next interval now r with
    | some t => after interval t rs
    | none => none

/-- `run_until_finished` with nothing to do, worker.py:783-808: when it has found out that
there is no work. -/
def findsNothing (interval now : Nat) : Option Nat := after interval now [⟨false, none⟩]

end Docket.Poll
