import Verif.Core.System
/-
How a worker ends: `Worker.run_forever` and `run_until_finished` (worker.py:490-501, 544-568)
from connecting to returning, with the requests to stop it that may come at any moment:
leaving the worker's context (worker.py:327-345) and the cancellation of the asyncio task in
which it runs (worker.py:453-467, for SIGTERM and SIGINT), next to everything else that happens
on the docket.

The state is the whole system of Verif/Core/System.lean together with the memory of one worker.
-/
namespace Docket.Stop
open Docket Redis

/-- How the asyncio task of an execution, `_execute` (worker.py:1011-1235), ended. -/
inductive Ending
  /-- it returned; whether it has acknowledged its message is another matter -/
  | returned
  /-- `AdmissionBlocked` that the gate has dealt with, acknowledgement included,
  worker.py:702-706 -/
  | handled
  /-- any other `AdmissionBlocked`: to be scheduled again, or to be dropped, worker.py:707-722 -/
  | refused (again : Bool)
  /-- it raised something else; `lost`: a `ConnectionError` -/
  | raised (lost : Bool)
  /-- `CancelledError` left it -/
  | cancelled
  deriving DecidableEq, Repr

/-- An entry of `active_tasks` and `task_executions`, worker.py:615-616. -/
structure Task where
  pid : Nat
  id : MsgId
  ending : Option Ending := none
  deriving DecidableEq, Repr

/-- Where the run is. -/
inductive PC
  /-- `_run`: opening the connection or waiting to do so again; `_worker_loop` up to the
  `while`, worker.py:550-567, 736-782 -/
  | connecting
  /-- at the condition of the `while`, worker.py:783-785 -/
  | top
  /-- in `process_completed_tasks`, with these tasks still to do, worker.py:693-734 -/
  | completing (rest : List Nat)
  /-- asking for redeliveries, worker.py:794-795 -/
  | askOld
  /-- asking for new messages, worker.py:794-795 -/
  | askNew
  /-- starting the messages of an answer, worker.py:796-806 -/
  | starting (old : Bool) (rest : List (Nat × MsgId))
  /-- the `while` has ended: waiting for the background tasks of the worker,
  worker.py:745-822 -/
  | leaving
  /-- in the `finally`, taking the heartbeat back, worker.py:836-841 -/
  | cleanup
  /-- in the `finally`, waiting for the active tasks, worker.py:842-843 -/
  | gathering
  /-- in the `finally`, putting these tasks away, worker.py:844 -/
  | settling (rest : List Nat)
  /-- the run has ended, `_worker_done` is set, worker.py:567-568 -/
  | over
  deriving DecidableEq, Repr

structure St where
  sys : Sys := {}
  pc : PC := .connecting
  active : List Task := []
  /-- `_worker_stopping` -/
  stopping : Bool := false
  /-- `disconnect is not None`: a `ConnectionError` will leave `_worker_loop` -/
  disconnected : Bool := false
  /-- another exception will leave `_worker_loop` -/
  failing : Bool := false
  /-- the `gather` of the active tasks was cancelled -/
  gatherCancelled : Bool := false
  /-- history: the tasks begun, with their messages, newest first -/
  begun : List (Nat × MsgId) := []
  /-- history: the tasks that have ended -/
  ended : List Nat := []
  /-- history: the tasks that a user's cancellation was sent to -/
  signalled : List Nat := []
  /-- history: the tasks that the end of the run has called `cancel()` on -/
  interrupted : List Nat := []

structure Cfg where
  core : Docket.Cfg
  worker : WorkerName
  concurrency : Nat
  /-- `run_forever`, or `run_until_finished` -/
  forever : Bool := true

inductive Ev
  /-- somebody else, or a task of this worker, does something -/
  | op (o : Docket.Op)
  /-- a cancellation signal of a user arrives at a task, worker.py:1374-1388 -/
  | signal (pid : Nat)
  /-- the asyncio task of an execution ends -/
  | ends (pid : Nat) (e : Ending)
  /-- the run goes on to its next `await`.  `lapsed`: what XAUTOCLAIM finds, if it is asked;
  `more`: `has_work`; `delay`: how long a refused task is put off -/
  | go (lapsed : List MsgId) (more : Bool) (delay : Nat)
  /-- what the run waits for raises an exception; `lost`: a `ConnectionError` -/
  | exception (lost : Bool)
  /-- the context of the worker is left: `_worker_stopping.set()`, worker.py:334 -/
  | stop
  /-- the asyncio task of the run is cancelled, as on SIGTERM, worker.py:453-458 -/
  | cancel
  deriving DecidableEq, Repr

/-- The task has been started and its asyncio task has not ended. -/
def running (s : St) (pid : Nat) : Bool := s.active.any (fun t => t.pid = pid && t.ending.isNone)

/-- The execution a step is about. -/
def subject : Docket.Op → Option Nat
  | .abandon pid | .strikeOut pid | .claim pid | .store pid _ | .finish pid _ _ _
  | .reschedule pid _ _ _ => some pid
  | _ => none

/-- A task that has been claimed is marked as cancelled from inside only if it was interrupted,
worker.py:1166-1170. -/
def cancelsItself (p : Proc) : Docket.Op → Bool
  | .finish _ .cancelled _ _ => p.phase = .running
  | _ => false

/-- The steps that others, and the tasks of this worker, may take: only the run itself asks
Redis for messages under the worker's name, and only a task that is running does something
with its execution. -/
def may (cfg : Cfg) (s : St) (op : Docket.Op) : Bool :=
  match op with
  | .poll w _ | .redeliver w _ | .crash w => w ≠ cfg.worker
  | _ => match subject op with
    | none => true
    | some pid => match s.sys.proc? pid with
      | none => true
      | some p =>
        if p.worker = cfg.worker then
          running s pid && op ≠ .abandon pid &&
            (!cancelsItself p op || pid ∈ s.signalled || pid ∈ s.interrupted)
        else true

/-- How a task can end: `_execute` returns, or is refused, only after the claim, or when the
message is acknowledged (worker.py:1017-1030); a gate that says it has handled the task has
acknowledged it (_concurrency.py:282-300); `CancelledError` has been sent by somebody. -/
def canEnd (s : St) (pid : Nat) : Ending → Bool
  | .returned | .refused _ => match s.sys.proc? pid with
    | none => true
    | some p => p.phase = .running
  | .handled => (s.sys.proc? pid).isNone
  | .raised _ => true
  | .cancelled => pid ∈ s.signalled || pid ∈ s.interrupted

/-- The asyncio task is done. -/
def markEnded (s : St) (pid : Nat) (e : Ending) : St :=
  { s with
    active := s.active.map (fun t => if t.pid = pid then { t with ending := some e } else t)
    ended := pid :: s.ended }

/-- `active_tasks.pop(task)`, worker.py:696-698. -/
def popped (s : St) (pid : Nat) : St := { s with active := s.active.filter (fun t => t.pid ≠ pid) }

/-- What `process_completed_tasks` does for a task: schedule it again, drop it, or, if nothing
has acknowledged it, mark it as failed, worker.py:699-734. -/
def settleOps (s : St) (t : Task) (delay : Nat) : List Docket.Op :=
  match t.ending, s.sys.proc? t.pid with
  | some .returned, some _ => [.finish t.pid .failed none false]
  | some (.refused true), some p =>
    [.reschedule t.pid (s.sys.r.now + delay) p.msg.req.attempt s.sys.r.now]
  | some (.refused false), some _ => [.finish t.pid .cancelled none false]
  | _, _ => []

/-- The end of `_worker_loop` in `_run`, worker.py:551-567: a lost connection is opened again,
unless the worker is to stop; the tasks of the old session are forgotten. -/
def leave (s : St) : St :=
  if s.disconnected && !s.failing && !s.stopping then
    { s with pc := .connecting, active := [], disconnected := false }
  else { s with pc := .over }

/-- A `ConnectionError` in the last `process_completed_tasks` takes the place of whatever was
under way, worker.py:844. -/
def leaveLost (s : St) : St := leave { s with failing := false, disconnected := true }

/-- One task of `process_completed_tasks` in the main loop, worker.py:693-734: what a task has
raised leaves the task group as an exception group, `CancelledError` is caught at
worker.py:829. -/
def complete (cfg : Cfg) (s : St) (pid : Nat) (rest : List Nat) (delay : Nat) : St :=
  match s.active.find? (fun t => t.pid = pid) with
  | none => { s with pc := .completing rest }
  | some t =>
    let s := { popped s pid with sys := Docket.runFrom cfg.core s.sys (settleOps s t delay) }
    match t.ending with
    | some (.raised _) => { s with pc := .cleanup, failing := true }
    | some .cancelled => { s with pc := .cleanup }
    | _ => { s with pc := .completing rest }

/-- The same in the `finally`, worker.py:844. -/
def settle (cfg : Cfg) (s : St) (pid : Nat) (rest : List Nat) (delay : Nat) : St :=
  match s.active.find? (fun t => t.pid = pid) with
  | none => { s with pc := .settling rest }
  | some t =>
    let s := { popped s pid with sys := Docket.runFrom cfg.core s.sys (settleOps s t delay) }
    match t.ending with
    | some (.raised true) => leaveLost s
    | some (.raised false) | some .cancelled => { s with pc := .over, failing := true }
    | _ => { s with pc := .settling rest }

/-- The messages a worker was handed by an answer of Redis. -/
def handedSince (before after : Sys) : List (Nat × MsgId) :=
  (after.procs.filter (fun p => before.nextPid ≤ p.pid)).map (fun p => (p.pid, p.id))

/-- `available_slots`, worker.py:787, 691. -/
def slots (cfg : Cfg) (s : St) : Nat := cfg.concurrency - s.active.length

/-- `start_task`, worker.py:669-691. -/
def begin_ (s : St) (e : Nat × MsgId) : St :=
  { s with active := s.active ++ [⟨e.1, e.2, none⟩], begun := e :: s.begun }

/-- The run goes on to its next `await`. -/
def go (cfg : Cfg) (s : St) (lapsed : List MsgId) (more : Bool) (delay : Nat) : St :=
  match s.pc with
  | .connecting => if s.stopping then { s with pc := .over } else { s with pc := .top }
  | .top =>
    if (cfg.forever || more || s.active ≠ []) && !s.stopping then
      { s with pc := .completing ((s.active.filter (fun t => t.ending.isSome)).map (·.pid)) }
    else { s with pc := .leaving }
  | .completing (u :: rest) => complete cfg s u rest delay
  | .completing [] => if slots cfg s = 0 then { s with pc := .top } else { s with pc := .askOld }
  | .askOld =>
    let sys := Docket.runFrom cfg.core s.sys
      ((lapsed.take (slots cfg s)).map (fun id => .redeliver cfg.worker id))
    { s with sys := sys, pc := .starting true (handedSince s.sys sys) }
  | .askNew =>
    let sys := Docket.step cfg.core s.sys (.poll cfg.worker (slots cfg s))
    { s with sys := sys, pc := .starting false (handedSince s.sys sys) }
  | .starting old (e :: rest) => { begin_ s e with pc := .starting old rest }
  | .starting true [] => if slots cfg s = 0 then { s with pc := .top } else { s with pc := .askNew }
  | .starting false [] => { s with pc := .top }
  | .leaving => { s with pc := .cleanup }
  | .cleanup => if s.active = [] then leave s else { s with pc := .gathering }
  | .gathering =>
    if s.active.all (fun t => t.ending.isSome) then
      if s.gatherCancelled then { s with pc := .over, failing := true }
      else { s with pc := .settling (s.active.map (·.pid)) }
    else s
  | .settling (u :: rest) => settle cfg s u rest delay
  | .settling [] => leave s
  | .over => s

/-- The run gets an exception instead of an answer.  While it reads, a lost connection is noted
(worker.py:810-820); anything else leaves the task group and goes on to the `finally`.  Taking
the heartbeat back raises nothing (worker.py:1252-1265), nor does the `gather`. -/
def exception (s : St) (lost : Bool) : St :=
  match s.pc with
  | .connecting =>
    if lost then (if s.stopping then { s with pc := .over } else s)
    else { s with pc := .over, failing := true }
  | .top => s
  | .completing (u :: _) => { popped s u with pc := .cleanup, failing := true }
  | .askOld | .askNew | .starting _ _ =>
    if lost then { s with pc := .leaving, disconnected := true }
    else { s with pc := .cleanup, failing := true }
  | .completing [] | .leaving => { s with pc := .cleanup, failing := true }
  | .cleanup | .gathering => s
  | .settling (u :: _) =>
    if lost then leaveLost (popped s u) else { popped s u with pc := .over, failing := true }
  | .settling [] | .over => s

/-- `CancelledError` is raised where the run waits.  In the loop it is caught and the `finally`
follows (worker.py:829-836); in the `finally` it ends the run at once, except that a cancelled
`gather` first cancels the tasks it waits for and goes on waiting for them. -/
def cancelled (s : St) : St :=
  match s.pc with
  | .connecting => { s with pc := .over, failing := true }
  | .completing (u :: _) => { popped s u with pc := .cleanup }
  | .top | .completing [] | .askOld | .askNew | .starting _ _ => { s with pc := .cleanup }
  | .leaving => { s with pc := .cleanup, disconnected := false }
  | .cleanup => { s with pc := .over, failing := true }
  | .gathering =>
    { s with
      gatherCancelled := true
      interrupted := (s.active.filter (fun t => t.ending.isNone)).map (·.pid) ++ s.interrupted }
  | .settling (u :: _) => { popped s u with pc := .over, failing := true }
  | .settling [] => { s with pc := .over, failing := true }
  | .over => s

def step (cfg : Cfg) (s : St) : Ev → St
  | .op o => if may cfg s o then { s with sys := Docket.step cfg.core s.sys o } else s
  | .signal pid => if running s pid then { s with signalled := pid :: s.signalled } else s
  | .ends pid e => if running s pid && canEnd s pid e then markEnded s pid e else s
  | .go lapsed more delay => go cfg s lapsed more delay
  | .exception lost => exception s lost
  | .stop => { s with stopping := true }
  | .cancel => cancelled s

def runFrom (cfg : Cfg) (s : St) (es : List Ev) : St := es.foldl (step cfg) s

/-- The worker starts on a docket that was used before by `past`. -/
def start (cfg : Cfg) (past : List Docket.Op) : St := { sys := Docket.run cfg.core past }

def run (cfg : Cfg) (past : List Docket.Op) (es : List Ev) : St := runFrom cfg (start cfg past) es

end Docket.Stop
