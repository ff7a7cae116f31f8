import Verif.Core.Redis

/-!
# Who takes cancelled tasks out of the line

A task that waits for a concurrency slot stands in a line.  `Docket.cancel` marks it as cancelled and
publishes its key; `ConcurrencyLimit._cancel_subscriber`, which a worker starts when it enters its
loop, hears that and takes the task out of the line.

Models `ConcurrencyLimit.worker_lifecycle`, `_cancel_subscriber` and `_cleanup_cancelled_waiter`
(_concurrency.py:649-758) and the signal of `Docket.cancel` (docket.py:607-611) for one worker and
one line.  Redis keeps no published message for whoever is not subscribed.

Simplifications: a key stands in the line once at most and its record says where (what happens when
it is added again while the signal is under way is the subject of `C32` and `C109`); the pattern always
matches (`C65`); the steps of one clean-up are one, which is done or raises; what the slots do is
not modelled, tasks come and go.
-/
namespace Docket.Tidy

/-- What is published: the key of a task, or of the backstop `__safeguard__:key` of a task
(_concurrency.py:758), for which no place in the line is recorded. -/
inductive Signal
  | task (k : Key)
  | backstop (k : Key)
  deriving DecidableEq, Repr

/-- Where the subscriber is. -/
inductive Pc
  /-- the worker is not in its loop -/
  | off
  /-- on its way to `psubscribe`, _concurrency.py:694-698 -/
  | subscribing
  /-- waiting for a message, with those that have arrived, _concurrency.py:699 -/
  | listening (unread : List Signal)
  /-- in `_cleanup_cancelled_waiter`, _concurrency.py:711 -/
  | cleaning (x : Signal) (unread : List Signal)
  /-- ended by an exception: nothing but `CancelledError` is caught (_concurrency.py:712), and
  nobody starts it again (664-673) -/
  | dead
  deriving DecidableEq, Repr

structure State where
  pc : Pc := .off
  /-- the tasks in the line, the first in front -/
  line : List Key := []
  /-- the tasks with a backstop -/
  backstops : List Key := []
  /-- history: the tasks taken out of the line by the subscriber, the last first -/
  tidied : List Key := []

inductive Ev
  /-- the worker enters its loop, worker.py:744-748 -/
  | enter
  /-- the worker leaves its loop, worker.py:738; it may enter it again, worker.py:550-566 -/
  | leave
  /-- a task finds no slot and stands in line, with a backstop, _concurrency.py:568-640 -/
  | park (k : Key)
  /-- a task leaves the line because a slot is free -/
  | wake (k : Key)
  /-- someone calls `Docket.cancel(k)` -/
  | cancel (k : Key)
  /-- the subscriber goes on; what it waits for comes, or raises -/
  | go (ok : Bool)
  deriving DecidableEq, Repr

/-- `publish`, docket.py:611: to whoever is subscribed. -/
def publish (s : State) (x : Signal) : State :=
  match s.pc with
  | .listening u => { s with pc := .listening (u ++ [x]) }
  | .cleaning y u => { s with pc := .cleaning y (u ++ [x]) }
  | _ => s

/-- `_cleanup_cancelled_waiter`, _concurrency.py:724-758, and back to the loop: with a place on
record, take the task out of the line and cancel its backstop, which is published too. -/
def clean (s : State) (x : Signal) (u : List Signal) : State :=
  match x with
  | .backstop _ => { s with pc := .listening u }
  | .task k =>
    if k ∈ s.line then
      publish { s with
        pc := .listening u
        line := s.line.filter (· ≠ k)
        backstops := s.backstops.filter (· ≠ k)
        tidied := k :: s.tidied } (.backstop k)
    else { s with pc := .listening u }

/-- One step of `_cancel_subscriber`, _concurrency.py:694-722.  `able`: the client that
`docket.redis()` gives can subscribe; that of a cluster cannot (_redis.py:903-905), which is why
everybody else takes `docket._pubsub()`. -/
def go (able : Bool) (s : State) (ok : Bool) : State :=
  match s.pc with
  | .off | .dead => s
  | .subscribing => if ok && able then { s with pc := .listening [] } else { s with pc := .dead }
  | .listening u =>
    if ok then
      match u with
      | [] => s
      | x :: u => { s with pc := .cleaning x u }
    else { s with pc := .dead }
  | .cleaning x u => if ok then clean s x u else { s with pc := .dead }

/-- What happens. -/
def step (able : Bool) (s : State) : Ev → State
  | .enter => if s.pc = .off then { s with pc := .subscribing } else s
  | .leave => { s with pc := .off }
  | .park k =>
    if k ∈ s.line then s else { s with line := s.line ++ [k], backstops := k :: s.backstops }
  | .wake k => { s with line := s.line.filter (· ≠ k), backstops := s.backstops.filter (· ≠ k) }
  | .cancel k => publish s (.task k)
  | .go ok => go able s ok

def runFrom (able : Bool) (s : State) (es : List Ev) : State := es.foldl (step able) s

def run (able : Bool) (es : List Ev) : State := runFrom able {} es

end Docket.Tidy
