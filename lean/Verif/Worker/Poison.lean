import Verif.Codec.Message
import Verif.Worker.CallRepr
import Verif.Worker.Execute
/-
What one message can do to the worker that takes it, and to those that come after it.

Models the worker's main loop (worker.py:608-846) as far as errors go: which messages it
takes, which of them it starts, how the tasks end, and when an error ends the loop.
Decoding is `Message.fromMessage` (C46), the log line is `CallRepr.callRepr` (C51), the
execution is `Execute.settle` (C42, C60).
-/
namespace Docket.Poison

open Message

/-- What a worker process brings along: its pickles, its registered tasks and fallback, and,
for every execution, what the log line and the execution depend on. -/
structure Env (A K F : Type) where
  pa : Pickle A
  pk : Pickle K
  tasks : Text → Option F
  fallback : Option F
  /-- the signature of a function -/
  sig : F → CallRepr.Sig
  /-- the call as `call_repr` sees it -/
  call : Execution A K F → CallRepr.Call
  /-- everything the execution depends on -/
  world : Execution A K F → Execute.World

variable {A K F : Type}

/-- `start_task`, worker.py:669-680: the execution, or `none` if decoding raises. -/
def startTask (env : Env A K F) (m : Msg) : Option (Execution A K F) :=
  (fromMessage env.pa env.pk env.tasks env.fallback m).toOption

/-- `_execute` (worker.py:1011-1235) and the handling of its end (worker.py:693-740): the
effects, and whether an exception goes on to the worker's loop.  The log line is made first
(worker.py:1015). -/
def runTask (env : Env A K F) (e : Execution A K F) : List Execute.Eff × Bool :=
  match CallRepr.callRepr (env.sig e.function) (env.call e) with
  | none => ([], true)
  | some _ => Execute.settle (env.world e)

/-- The message can be decoded. -/
def starts (env : Env A K F) (m : Msg) : Bool := (startTask env m).isSome

/-- Its execution, once started, raises into the worker's loop. -/
def raises (env : Env A K F) (m : Msg) : Bool :=
  match startTask env m with
  | some e => (runTask env e).2
  | none => false

/-- What one worker did: the messages it dealt with (their executions ended without an
error in the loop), what is left (in stream order), and whether an error ended it. -/
structure Life where
  done : List Msg := []
  left : List Msg := []
  died : Bool := false

/-- One round of the main loop, worker.py:779-813: the worker takes up to `c` messages, the
redeliveries first and then new ones, which is stream order (the leases of a dead worker
are assumed to have lapsed), and starts them one by one.  A message that cannot be decoded
raises there and then: those after it are not started.  Those that were started end (in the
next round, or in the `finally`, worker.py:836-841); one that raises ends the loop and keeps
its message pending.
Simplified: all tasks of a round end before the next round, and a refused admission is
settled also when the loop ends. -/
def round (env : Env A K F) (c : Nat) (q : List Msg) : Life :=
  let batch := q.take c
  let started := batch.takeWhile (starts env)
  let rest := batch.dropWhile (starts env)
  { done := started.filter (fun m => !raises env m)
    left := started.filter (raises env) ++ rest ++ q.drop c
    died := !rest.isEmpty || started.any (raises env) }

/-- A worker with `concurrency` `c + 1` goes on until nothing is left or an error ends it. -/
def life (env : Env A K F) (c : Nat) (q : List Msg) : Life :=
  match q with
  | [] => {}
  | m :: ms =>
    let r := round env (c + 1) (m :: ms)
    if r.died then r
    else
      let l := life env c ((m :: ms).drop (c + 1))
      { l with done := r.done ++ l.done }
termination_by q.length
decreasing_by simp only [List.length_drop, List.length_cons]; omega

/-- `n` workers, one after the other. -/
def fleet (env : Env A K F) (c : Nat) : Nat → List Msg → Life
  | 0, q => { left := q }
  | n + 1, q =>
    let l := life env c q
    let f := fleet env c n l.left
    { f with done := l.done ++ f.done }

end Docket.Poison
