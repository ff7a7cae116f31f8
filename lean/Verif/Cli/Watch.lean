import Verif.Core.Redis
/-
`docket watch`: `iterate_with_timeout` (cli/_support.py:21-48) and the loop of `watch`
(cli/__init__.py:660-877) over `Execution.subscribe` (execution.py:1097-1162).

Left out: what is drawn apart from the state.  Times are in milliseconds.
-/
namespace Docket.Watch

/-- An event as `subscribe` yields it; a progress event changes nothing but the bar. -/
inductive Ev
  | state (s : RunState)
  | progress
  deriving DecidableEq, Repr

/-- What the task does while it is watched: the messages published on its two channels, in
order, with their times, and the state its record shows at any time. -/
structure World where
  pubs : List (Nat × Ev)
  stateAt : Nat → RunState

/-- An asynchronous generator, as far as Python lets one use it: once an exception (here the
cancellation by `wait_for`) has left it, it is finished. -/
inductive Generator
  /-- waiting for the next message -/
  | listening (pubs : List (Nat × Ev))
  | finished
  deriving DecidableEq, Repr

/-- What `await asyncio.wait_for(iterator.__anext__(), timeout)` comes to. -/
inductive Next
  | item (e : Ev)
  /-- `asyncio.TimeoutError` -/
  | timeout
  /-- `StopAsyncIteration` -/
  | stop
  deriving DecidableEq, Repr

/-- `wait_for` on the generator at time `now`, cli/_support.py:41: the outcome, the time at
which it is there, and what becomes of the generator.  A timeout cancels the pending
`__anext__`, and the cancellation leaves the generator through `pubsub.listen()`,
execution.py:1155. -/
def next (timeout now : Nat) : Generator → Next × Nat × Generator
  | .finished => (.stop, now, .finished)
  | .listening [] => (.timeout, now + timeout, .finished)
  | .listening ((t, e) :: ps) =>
    if t < now + timeout then (.item e, max t now, .listening ps)
    else (.timeout, now + timeout, .finished)

/-- The states at which `watch` stops, cli/__init__.py:766 and 834-838. -/
def stops : RunState → Bool
  | .completed | .failed => true
  | _ => false

/-- How `watch` ended: when, and the state it showed last. -/
structure Outcome where
  at_ : Nat
  shown : RunState
  deriving DecidableEq, Repr

/-- The loop, cli/__init__.py:789-875: `current` is the state shown.  On a timeout the state
is polled (791-812); a state that stops ends the loop (834-838), and so does the end of the
iteration.  `fuel` bounds the number of rounds. -/
def loop (w : World) (timeout : Nat) : Nat → Nat → RunState → Generator → Option Outcome
  | 0, _, _, _ => none
  | fuel + 1, now, current, g =>
    match next timeout now g with
    | (.stop, now, _) => some ⟨now, current⟩
    | (.timeout, now, g) =>
      let polled := w.stateAt now
      if polled ≠ current then
        if stops polled then some ⟨now, polled⟩ else loop w timeout fuel now polled g
      else loop w timeout fuel now current g
    | (.item (.state s), now, g) =>
      if stops s then some ⟨now, s⟩ else loop w timeout fuel now s g
    | (.item .progress, now, g) => loop w timeout fuel now current g

/-- `watch`, cli/__init__.py:660-877, started at `now`: the state is read and shown; if it is
one that stops, that is all (765-768).  Otherwise `subscribe` reads the state once more, at
`reread`, and yields it, then a progress event, and then listens (execution.py:1118-1157);
what was published before it had subscribed, at `subscribed`, is missed. -/
def watch (w : World) (timeout now reread subscribed : Nat) : Option Outcome :=
  let first := w.stateAt now
  if stops first then some ⟨now, first⟩
  else
    let again := w.stateAt reread
    if stops again then some ⟨reread, again⟩
    else
      let heard := w.pubs.filter (fun p => subscribed ≤ p.1)
      loop w timeout (heard.length + 2) subscribed again (.listening heard)

end Docket.Watch
