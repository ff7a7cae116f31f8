import Verif.Worker.Execute
/-
The retry that a task asks for or was set up with, and what becomes of it when the task has
failed: `Retry` (_retry.py) inside `Worker._execute`.  Times and delays are in microseconds.
-/
namespace Docket.Execute

/-- `datetime.min` and `datetime.max` in UTC, since 1970. -/
def firstDate : Int := -62135596800000000
def lastDate : Int := 253402300799999999

/-- The `Retry` of one run: `Retry.__aenter__` and `ExponentialRetry.__aenter__`,
_retry.py:77-81 and 196-215.  How an exponential delay is computed is in Retry/Model. -/
structure RetryFor where
  attempts : Option Nat
  attempt : Nat
  delay : Int
  deriving DecidableEq

/-- `Retry.after`, _retry.py:83-86, up to the `ForcedRetry` that it raises in the task. -/
def RetryFor.after (r : RetryFor) (delay : Int) : RetryFor := { r with delay := delay }

/-- `Retry.at`, _retry.py:88-93, called at the time `now`, for a time with a time zone. -/
def RetryFor.at_ (r : RetryFor) (when_ now : Int) : RetryFor :=
  r.after (if when_ - now ≥ 0 then when_ - now else 0)

/-- `Retry.handle_failure`, _retry.py:99-129, called at the time `now`: its answer, and the time
for which the next run is scheduled.  `datetime + timedelta` raises outside the calendar.
Simplified: Redis errors are left out. -/
def RetryFor.handleFailure (r : RetryFor) (now : Int) : HandlerOut × Option Int :=
  if r.attempts.any (fun n => r.attempt ≥ n) then (.notHandled, none)
  else if now + r.delay < firstDate ∨ lastDate < now + r.delay then (.raised (.other "OverflowError"), none)
  else (.handled, some (now + r.delay))

/-- An execution whose `Retry` is in this state when it fails at the time `now`. -/
def withRetry (w : World) (r : RetryFor) (now : Int) : World :=
  { w with handleFailure := fun _ _ => (r.handleFailure now).1 }

end Docket.Execute
