import Verif.Worker.Execute
/-
What a perpetual task asks of its next run, and what becomes of it when the task ends:
`Perpetual` (_perpetual.py) inside `Worker._execute`.
-/
namespace Docket.Execute

/-- The time asked for: none, or one that was given with or without a time zone. -/
inductive NextTime
  | byInterval
  | aware
  | naive
  deriving DecidableEq

/-- A `Perpetual` when the task ends: whether the task has cancelled it, what it asked for by
`after`, `at` (_perpetual.py:93-99) and `perpetuate` (_perpetual.py:89-91), whether the
arguments can be pickled, and whether the interval `every` leads to a date of the calendar. -/
structure Asked where
  cancelled : Bool := false
  next : NextTime := .byInterval
  picklable : Bool := true
  everyFits : Bool := true

/-- `Perpetual.after`, _perpetual.py:93-95: the clock is read with a time zone. -/
def Asked.after (a : Asked) : Asked := { a with next := .aware }

/-- `Perpetual.at`, _perpetual.py:97-99: the time is kept as it was given. -/
def Asked.at_ (a : Asked) (aware : Bool) : Asked := { a with next := if aware then .aware else .naive }

/-- `Perpetual.cancel`, _perpetual.py:86-87. -/
def Asked.cancel (a : Asked) : Asked := { a with cancelled := true }

/-- `Perpetual.perpetuate`, _perpetual.py:89-91. -/
def Asked.perpetuate (a : Asked) (picklable : Bool) : Asked := { a with picklable := picklable }

/-- `Perpetual.on_complete`, _perpetual.py:101-156.  `docket.replace` makes a message of the
arguments first (execution.py:689) and then compares the time with the clock
(execution.py:695), which raises for a time without a zone.  Adding an interval to the clock
that leads out of the calendar raises before that (_perpetual.py:132-133).  Simplified: Redis errors
are left out. -/
def Asked.onComplete (a : Asked) (superseded : Bool) : HandlerOut :=
  if a.cancelled then .notHandled
  else if superseded then .handled
  else if a.next = .byInterval && !a.everyFits then .raised (.other "OverflowError")
  else if !a.picklable then .raised (.other "PicklingError")
  else match a.next with
    | .naive => .raised (.other "TypeError")
    | .aware => .handled
    | .byInterval => .handled

/-- An execution whose `Perpetual` was asked this by the time its function ended. -/
def perpetual (w : World) (a : Asked) (superseded : Bool) : World :=
  { w with onSuccess := fun _ => a.onComplete superseded, onFailure := fun _ => a.onComplete superseded }

end Docket.Execute
