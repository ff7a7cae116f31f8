import Verif.Core.System
/-
`Worker.run_until_finished` (worker.py:490-498): the main loop with its decision to end,
together with Redis and everybody else who uses the docket.

The state is the whole system of Verif/Core/System.lean together with the memory of the loop
of one worker.  The steps of all other processes, and of the tasks this worker runs, are
steps of that system; they may happen between any two steps of the loop.
-/
namespace Docket.Finish
open Docket Redis

/-- Where the loop is. -/
inductive PC
  /-- at the condition of the `while`, worker.py:783-785 -/
  | top
  /-- in `process_completed_tasks`, with these tasks still to do, worker.py:693-734 -/
  | completing (rest : List Nat)
  /-- about to ask for redeliveries, worker.py:794-795 -/
  | askOld
  /-- about to ask for new messages, worker.py:794-795 -/
  | askNew
  /-- about to look whether there is work, worker.py:808-809 -/
  | look
  /-- the connection was lost: waiting for the active tasks, worker.py:842-844 -/
  | drain
  /-- the loop ended because there is nothing to do: `run_until_finished` returns -/
  | finished
  /-- the loop was told to stop, or an exception left it -/
  | stopped
  deriving DecidableEq

structure St where
  sys : Sys := {}
  pc : PC := .top
  /-- `active_tasks`: the executions this worker has started and not yet put away -/
  active : List Nat := []
  /-- those of them whose asyncio task is done -/
  done : List Nat := []
  hasWork : Bool := true

structure Cfg where
  core : Docket.Cfg
  worker : WorkerName
  concurrency : Nat

inductive Op
  /-- a step of anybody else, or of a task this worker runs -/
  | other (op : Docket.Op)
  /-- the asyncio task of an execution ends -/
  | done (pid : Nat)
  /-- the loop goes on to its next `await`.  `lapsed`: what XAUTOCLAIM finds, if it is asked;
  `ack`: what `process_completed_tasks` does with a task that has not been acknowledged -/
  | loop (lapsed : List MsgId) (ack : Option Docket.Op)
  /-- a read of the loop lost its connection, worker.py:810-820 -/
  | disconnect
  /-- the worker is told to stop, or cancelled -/
  | stop
  deriving DecidableEq

/-- Steps of other processes and tasks: not those only the loop takes. -/
def isOther (cfg : Cfg) (s : St) : Docket.Op → Bool
  | .poll w _ | .redeliver w _ | .crash w => decide (w ≠ cfg.worker)
  | .abandon pid => decide (pid ∉ s.active)
  | _ => true

/-- What `process_completed_tasks` may do with a task that has ended without an
acknowledgement, worker.py:701-734: schedule it again, or mark it cancelled or failed. -/
def acks (pid : Nat) : Docket.Op → Bool
  | .reschedule p _ _ _ => decide (p = pid)
  | .finish p st _ _ => decide (p = pid) && (decide (st = .cancelled) || decide (st = .failed))
  | _ => false

def Holds (s : Sys) (pid : Nat) : Bool := s.procs.any (fun p => p.pid = pid)

/-- What is done to the docket when a task is put away. -/
def putAwayOps (s : St) (pid : Nat) (ack : Option Docket.Op) : List Docket.Op :=
  if Holds s.sys pid then
    match ack with
    | some op => if acks pid op then [op] else []
    | none => []
  else []

/-- One task of `process_completed_tasks`, worker.py:694-734.  If its message cannot be
acknowledged, that is an exception, which ends the loop. -/
def putAway (cfg : Cfg) (s : St) (pid : Nat) (ack : Option Docket.Op) (next : PC) : St :=
  let sys := Docket.runFrom cfg.core s.sys (putAwayOps s pid ack)
  { s with
    sys := sys
    active := s.active.filter (fun x => x ≠ pid)
    done := s.done.filter (fun x => x ≠ pid)
    pc := if Holds sys pid then .stopped else next }

/-- The executions started by an answer of Redis: `start_task`, worker.py:669-691 (the
messages of one answer are started in one step here). -/
def newPids (before after : Sys) : List Nat := (List.range (after.nextPid - before.nextPid)).map (fun i => before.nextPid + i)

/-- The main loop, worker.py:783-820, up to the next `await`. -/
def loopStep (cfg : Cfg) (s : St) (lapsed : List MsgId) (ack : Option Docket.Op) : St :=
  match s.pc with
  | .top =>
    if s.hasWork ∨ s.active ≠ [] then { s with pc := .completing (s.active.filter (fun p => p ∈ s.done)) }
    else { s with pc := .finished }
  | .completing (u :: rest) => putAway cfg s u ack (.completing rest)
  | .completing [] =>
    if cfg.concurrency - s.active.length = 0 then { s with pc := .top } else { s with pc := .askOld }
  | .askOld =>
    let sys := Docket.runFrom cfg.core s.sys
      ((lapsed.take (cfg.concurrency - s.active.length)).map (fun id => .redeliver cfg.worker id))
    let active := s.active ++ newPids s.sys sys
    { s with sys := sys, active := active,
             pc := if cfg.concurrency - active.length = 0 then .look else .askNew }
  | .askNew =>
    let sys := Docket.step cfg.core s.sys (.poll cfg.worker (cfg.concurrency - s.active.length))
    { s with sys := sys, active := s.active ++ newPids s.sys sys, pc := .look }
  | .look =>
    -- `check_for_work`, worker.py:620-628: XLEN and ZCARD in one transaction
    { s with
      pc := .top
      hasWork := if s.active = [] then decide (s.sys.r.stream.length > 0 ∨ s.sys.r.queue.length > 0) else s.hasWork }
  | .drain =>
    -- the `finally`, worker.py:842-844; `_run` then starts a new loop, worker.py:550-567
    match s.active with
    | [] => { s with pc := .top, hasWork := true }
    | u :: _ => if u ∈ s.done then putAway cfg s u ack .drain else s
  | .finished => s
  | .stopped => s

/-- The steps of the system that are part of a step. -/
def coreOps (cfg : Cfg) (s : St) : Op → List Docket.Op
  | .other op => if isOther cfg s op then [op] else []
  | .loop lapsed ack => match s.pc with
    | .completing (u :: _) => putAwayOps s u ack
    | .askOld => (lapsed.take (cfg.concurrency - s.active.length)).map (fun id => .redeliver cfg.worker id)
    | .askNew => [.poll cfg.worker (cfg.concurrency - s.active.length)]
    | .drain => match s.active with
      | [] => []
      | u :: _ => if u ∈ s.done then putAwayOps s u ack else []
    | _ => []
  | _ => []

def step (cfg : Cfg) (s : St) : Op → St
  | .other op => if isOther cfg s op then { s with sys := Docket.step cfg.core s.sys op } else s
  | .done pid => if pid ∈ s.active then { s with done := pid :: s.done } else s
  | .loop lapsed ack => loopStep cfg s lapsed ack
  | .disconnect => match s.pc with
    | .askOld | .askNew | .look => { s with pc := .drain }
    | _ => s
  | .stop => match s.pc with
    | .finished => s
    | _ => { s with pc := .stopped }

def runFrom (cfg : Cfg) (s : St) (ops : List Op) : St := ops.foldl (step cfg) s

/-- The worker starts on a docket that was used before by `past`. -/
def start (cfg : Cfg) (past : List Docket.Op) : St := { sys := Docket.run cfg.core past }

/-- All that happened to the docket. -/
def trace (cfg : Cfg) : St → List Op → List Docket.Op
  | _, [] => []
  | s, op :: ops => coreOps cfg s op ++ trace cfg (step cfg s op) ops

def run (cfg : Cfg) (past : List Docket.Op) (ops : List Op) : St := runFrom cfg (start cfg past) ops

end Docket.Finish

