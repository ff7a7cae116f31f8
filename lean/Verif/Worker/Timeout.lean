/-
The loop of `Timeout.run`, _timeout.py:65-103.  Times are points of the monotonic clock
(integers, in any unit; the code uses floats).
-/
namespace Docket.Timeouts

/-- What the task does while it runs: when it finishes, if it does, and the calls of
`Timeout.extend` it makes, each with its time and duration (`extend()` without argument
passes the base, _timeout.py:61-63). -/
structure Body where
  doneAt : Option Int
  grants : List (Int × Int)
  deriving DecidableEq

/-- `task.done()` at time `t`. -/
def Body.done (b : Body) (t : Int) : Bool :=
  match b.doneAt with
  | some d => decide (d ≤ t)
  | none => false

def sum : List Int → Int
  | [] => 0
  | x :: l => x + sum l

/-- All the time granted up to `t`. -/
def Body.granted (b : Body) (t : Int) : Int := sum ((b.grants.filter (fun g => g.1 ≤ t)).map (·.2))

/-- `Timeout._deadline` at time `t`: set by `start` (_timeout.py:44-45) and moved by
`extend` (54-63). -/
def deadline (start base : Int) (b : Body) (t : Int) : Int := start + base + b.granted t

/-- `Timeout.expired`, _timeout.py:47-48. -/
def expired (start base : Int) (b : Body) (t : Int) : Bool := decide (t ≥ deadline start base b t)

/-- How one `await asyncio.wait_for(asyncio.shield(task), timeout=...)` ends
(_timeout.py:88-93): the task finished and its outcome is passed on, the timer
fired (`TimeoutError`, even if the task has finished meanwhile: Python 3.12 and later
raise it when both happen before the waiting coroutine is resumed), or the whole
execution was cancelled. -/
inductive Wake
  | result (t : Int)
  | timer (t : Int)
  | cancelled (t : Int)
  deriving DecidableEq

def Wake.time : Wake → Int
  | .result t | .timer t | .cancelled t => t

/-- How `Timeout.run` ends. -/
inductive Report
  /-- still waiting -/
  | waiting
  /-- the outcome of the task, returned or raised -/
  | outcome (t : Int)
  /-- `asyncio.TimeoutError`, after cancelling the task -/
  | timedOut (t : Int)
  /-- the loop was left because the task was found done: returns `None` -/
  | nothing (t : Int)
  | cancelled (t : Int)
  deriving DecidableEq

/-- The loop of `Timeout.run`, _timeout.py:81-103, at time `now`. -/
def loop (start base : Int) (b : Body) (now : Int) : List Wake → Report
  | [] =>
    if b.done now then .nothing now
    else if expired start base b now then .timedOut now
    else .waiting
  | w :: rest =>
    if b.done now then .nothing now
    else if expired start base b now then .timedOut now
    else match w with
      | .result t => .outcome t
      | .cancelled t => .cancelled t
      | .timer t => loop start base b t rest

/-- `Timeout.run`. -/
def run (start base : Int) (b : Body) (wakes : List Wake) : Report := loop start base b start wakes

end Docket.Timeouts
