import Verif.Core.Scripts
/-
The whole system: Redis, the executions workers hold in memory, the unfinished
calls of clients, and a history of what happened.  One operation is one atomic
step: a Lua script, a Redis command, a pipeline (MULTI/EXEC), the passing of time
or the death of a worker.  Any process may take any step at any moment, so a
list of operations is an arbitrary interleaving with arbitrary crashes.
-/
namespace Docket
open Redis

/-- `Disposition`, execution.py:424-447 (LOADED and STRUCK arise elsewhere). -/
inductive Disposition | scheduled | alreadyScheduled
  deriving DecidableEq, Repr

/-- How far a worker has got with a message it was handed (`Worker._execute`,
worker.py:1011-1235). -/
inductive Phase
  /-- handed out, nothing done yet -/
  | handed
  /-- found stricken, `known` dropped (worker.py:1017-1019), not yet marked cancelled -/
  | stricken
  /-- claimed (worker.py:1027): the task function is running -/
  | running
  deriving DecidableEq, Repr

/-- An execution in a worker's memory: `start_task`, worker.py:669-691. -/
structure Proc where
  pid : Nat
  worker : WorkerName
  id : MsgId
  msg : Msg
  redelivered : Bool
  phase : Phase
  deriving DecidableEq, Repr

/-- What `Docket.clear` has read before it writes, docket.py:852-871. -/
structure ClearJob where
  streamCount : Nat
  queueCount : Nat
  scheduledKeys : List Key
  streamKeys : List Key
  deriving DecidableEq, Repr

/-- A stored result or exception (`result_storage.put`, worker.py:1145, 1225). -/
structure Stored where
  data : String
  expireAt : Time
  deriving DecidableEq, Repr

/-- The history, for stating properties.  It is written, never read, by the model. -/
inductive Event
  /-- a scheduling (add, replace or reschedule) was accepted and created this message -/
  | accepted (m : Msg)
  /-- `cancel(k)` ran -/
  | cancelled (k : Key)
  /-- `clear()` carried out its writes -/
  | cleared
  /-- a message was handed to a worker -/
  | handed (pid : Nat) (id : MsgId) (w : WorkerName) (redelivery : Bool) (t : Time) (m : Msg)
  /-- a lease was renewed -/
  | renewed (id : MsgId) (t : Time)
  /-- a worker claimed the message and started the task function -/
  | started (pid : Nat) (id : MsgId) (m : Msg) (t : Time)
  /-- a worker found the message stricken -/
  | struck (pid : Nat) (m : Msg)
  /-- a worker marked its execution terminal -/
  | finished (pid : Nat) (id : MsgId) (m : Msg) (st : RunState) (current : Bool)
  deriving DecidableEq, Repr

/-- Settings: `execution_ttl` (docket.py:149-191) and `redelivery_timeout`
(worker.py:260). -/
structure Cfg where
  ttl : Nat
  redelivery : Nat

structure Sys where
  r : Redis := {}
  procs : List Proc := []
  nextPid : Nat := 0
  /-- `Docket._cancel` calls that ran the script but not yet EXPIRE/DEL -/
  ttlJobs : List Key := []
  /-- `Docket.clear` calls that have read but not yet written -/
  clearJobs : List ClearJob := []
  /-- the result store -/
  results : Key → Option Stored := fun _ => none
  /-- newest first -/
  log : List Event := []

/-- The message with the generation the script just assigned. -/
def newMsg (r' : Redis) (k : Key) (q : Request) : Msg := ⟨k, q, (r'.genOf k).getD 0⟩

/-- `Execution.schedule` as used by `Docket.add`/`Docket.replace`,
execution.py:656-756 and docket.py:355-554.  `decidedAt` is the clock reading that
decides `is_immediate` (execution.py:695); the script runs at `now`, later.
The per-key lock (execution.py:718) is not modelled: the script is atomic anyway. -/
def doSchedule (s : Sys) (k : Key) (q : Request) (decidedAt : Time) (replace : Bool) :
    Sys × Disposition :=
  match luaSchedule s.r k q (decide (q.when_ ≤ decidedAt)) replace none with
  | (_, .exists_) => (s, .alreadyScheduled)
  | (r', .ok) => ({ s with r := r', log := .accepted (newMsg r' k q) :: s.log }, .scheduled)

/-- `Docket.add`. -/
def doAdd (s : Sys) (k : Key) (q : Request) (decidedAt : Time) : Sys × Disposition :=
  doSchedule s k q decidedAt false

/-- `Docket.replace`. -/
def doReplace (s : Sys) (k : Key) (q : Request) (decidedAt : Time) : Sys × Disposition :=
  doSchedule s k q decidedAt true

/-- First half of `Docket._cancel`: the script, docket.py:753-769. -/
def doCancel (s : Sys) (k : Key) : Sys :=
  { s with r := luaCancel s.r k, ttlJobs := k :: s.ttlJobs, log := .cancelled k :: s.log }

/-- Second half of `Docket._cancel`: EXPIRE or DEL, docket.py:771-777. -/
def doCancelTtl (cfg : Cfg) (s : Sys) (k : Key) : Sys :=
  if k ∈ s.ttlJobs then
    { s with r := expireRun cfg.ttl s.r k, ttlJobs := s.ttlJobs.erase k }
  else s

/-- The reads of `Docket.clear`, docket.py:852-871 (one step; the code takes two). -/
def clearRead (r : Redis) : ClearJob :=
  { streamCount := r.stream.length, queueCount := r.queue.length
    scheduledKeys := r.queue.map (·.1), streamKeys := r.stream.map (·.2.key) }

/-- The final pipeline of `Docket.clear`, docket.py:873-904. -/
def clearWrite (ttl : Nat) (r : Redis) (j : ClearJob) : Redis :=
  let r := if j.streamCount > 0 then { r with stream := [] } else r
  let r := { r with queue := [] }
  let r := j.scheduledKeys.foldl (fun r k => expireRun ttl (r.unpark k) k) r
  j.streamKeys.foldl (fun r k => expireRun ttl r k) r

/-- `Docket.clear` without interruption, docket.py:837-907; returns the count. -/
def doClear (cfg : Cfg) (s : Sys) : Sys × Nat :=
  let j := clearRead s.r
  ({ s with r := clearWrite cfg.ttl s.r j, log := .cleared :: s.log },
    j.streamCount + j.queueCount)

/-- Hand messages to a worker: `start_task`, worker.py:669-691. -/
def handOut (s : Sys) (w : WorkerName) (redelivery : Bool) (ms : List (MsgId × Msg)) : Sys :=
  ms.foldl (fun s e =>
    { s with
      procs := s.procs ++ [⟨s.nextPid, w, e.1, e.2, redelivery, .handed⟩]
      nextPid := s.nextPid + 1
      log := .handed s.nextPid e.1 w redelivery s.r.now e.2 :: s.log }) s

/-- `get_new_deliveries`, worker.py:651-667. -/
def doPoll (s : Sys) (w : WorkerName) (n : Nat) : Sys :=
  let p := s.r.xreadgroup w n
  handOut { s with r := p.1 } w false p.2

/-- One message returned by XAUTOCLAIM in `get_redeliveries`, worker.py:630-649:
it must be pending, idle for at least `redelivery_timeout`, and still exist.
A batch is a sequence of these steps. -/
def doRedeliver (cfg : Cfg) (s : Sys) (w : WorkerName) (id : MsgId) : Sys :=
  match s.r.pending.find? (fun p => p.id = id), s.r.stream.find? (fun e => e.1 = id) with
  | some p, some e =>
    if p.since + cfg.redelivery ≤ s.r.now then
      handOut { s with r := s.r.reassign id w } w true [e]
    else s
  | _, _ => s

/-- XAUTOCLAIM/XCLAIM drop pending ids whose entry was deleted. -/
def doForget (s : Sys) (id : MsgId) : Sys :=
  if s.r.stream.any (fun e => e.1 = id) then s else { s with r := s.r.xack id }

/-- `_renew_leases` for one message, worker.py:912-921 (XCLAIM, idle 0). -/
def doRenew (s : Sys) (w : WorkerName) (id : MsgId) : Sys :=
  if s.r.stream.any (fun e => e.1 = id) ∧ s.r.pending.any (fun p => p.id = id) then
    { s with r := s.r.reassign id w, log := .renewed id s.r.now :: s.log }
  else s

def Sys.proc? (s : Sys) (pid : Nat) : Option Proc := s.procs.find? (fun p => p.pid = pid)

/-- Remove a finished execution from the worker's memory. -/
def Sys.dropProc (s : Sys) (pid : Nat) : Sys :=
  { s with procs := s.procs.filter (fun p => p.pid ≠ pid) }

def Sys.setPhase (s : Sys) (pid : Nat) (ph : Phase) : Sys :=
  { s with procs := s.procs.map (fun p => if p.pid = pid then { p with phase := ph } else p) }

/-- The stricken branch of `_execute`, worker.py:1017-1019 (`_delete_known_task`). -/
def doStrikeOut (s : Sys) (pid : Nat) : Sys :=
  match s.proc? pid with
  | some p =>
    if p.phase = .handed then
      { s.setPhase pid .stricken with
        r := s.r.hmodRun p.msg.key (fun h => { h with known := none, streamId := none })
        log := .struck pid p.msg :: s.log }
    else s
  | none => s

/-- `Execution.claim`, execution.py:758-821, from worker.py:1027-1030. -/
def doClaim (s : Sys) (pid : Nat) : Sys :=
  match s.proc? pid with
  | some p =>
    if p.phase = .handed then
      match luaClaim s.r p.msg.key p.msg.gen p.id p.worker with
      | (r', .superseded) => { s.dropProc pid with r := r' }
      | (r', .ok) => { s.setPhase pid .running with
                        r := r', log := .started pid p.id p.msg s.r.now :: s.log }
    else s
  | none => s

/-- Store a result or exception, worker.py:1136-1147 and 1216-1227. -/
def doStore (cfg : Cfg) (s : Sys) (pid : Nat) (data : String) : Sys :=
  match s.proc? pid with
  | some p =>
    if p.phase = .running ∧ cfg.ttl > 0 then
      { s with results := upd s.results p.msg.key (some ⟨data, s.r.now + cfg.ttl⟩) }
    else s
  | none => s

/-- `mark_as_completed`/`mark_as_failed`/`mark_as_cancelled`,
execution.py:823-930.  A stricken execution can only be cancelled
(worker.py:1021).  `withResult` says whether a result key is passed. -/
def doFinish (cfg : Cfg) (s : Sys) (pid : Nat) (st : RunState) (error : Option String)
    (withResult : Bool) : Sys :=
  match s.proc? pid with
  | some p =>
    if (p.phase = .running ∧ st.terminal) ∨ (p.phase = .stricken ∧ st = .cancelled) then
      let out := luaTerminal cfg.ttl s.r p.msg.key p.msg.gen p.id st error
        (if withResult then some p.msg.key else none)
      { s.dropProc pid with
        r := out.1, log := .finished pid p.id p.msg st (out.2 = .ok) :: s.log }
    else s
  | none => s

/-- A running execution reschedules itself: `Retry.handle_failure`
(_retry.py:99-130) or an admission block (worker.py:707-715), both through
`Execution.schedule(reschedule_message=...)`. -/
def doReschedule (s : Sys) (pid : Nat) (when_ : Time) (attempt : Nat) (decidedAt : Time) : Sys :=
  match s.proc? pid with
  | some p =>
    if p.phase = .running then
      let q := { p.msg.req with when_ := when_, attempt := attempt }
      let r' := (luaSchedule s.r p.msg.key q (decide (when_ ≤ decidedAt)) true (some p.id)).1
      { s.dropProc pid with r := r', log := .accepted (newMsg r' p.msg.key q) :: s.log }
    else s
  | none => s

/-- `ExecutionProgress.increment`, _execution_progress.py:154-174; `false` is the
ValueError. -/
def doIncrement (s : Sys) (k : Key) (amount : Int) : Sys × Bool :=
  if amount < 1 then (s, false)
  else ({ s with r := s.r.hsetProg k (fun p => { p with
            current := some (p.current.getD 0 + amount.toNat), updatedAt := some s.r.now }) }, true)

/-- `ExecutionProgress.set_total`, _execution_progress.py:124-152. -/
def doSetTotal (s : Sys) (k : Key) (total : Int) : Sys × Bool :=
  if total < 1 then (s, false)
  else ({ s with r := s.r.hsetProg k (fun p => { p with
            total := some total.toNat, updatedAt := some s.r.now }) }, true)

/-- `ExecutionProgress.set_message`, _execution_progress.py:176-205. -/
def doSetMessage (s : Sys) (k : Key) (msg : Option String) : Sys :=
  { s with r := s.r.hsetProg k (fun p => { p with message := msg, updatedAt := some s.r.now }) }

/-- One atomic step of some process. -/
inductive Op
  | tick (d : Nat)
  | add (k : Key) (q : Request) (decidedAt : Time)
  | replace (k : Key) (q : Request) (decidedAt : Time)
  | cancel (k : Key)
  | cancelTtl (k : Key)
  | clear
  | clearRead
  | clearWrite
  | schedule (t : Time)
  | poll (w : WorkerName) (n : Nat)
  | redeliver (w : WorkerName) (id : MsgId)
  | forget (id : MsgId)
  | renew (w : WorkerName) (id : MsgId)
  | crash (w : WorkerName)
  | abandon (pid : Nat)
  | strikeOut (pid : Nat)
  | claim (pid : Nat)
  | store (pid : Nat) (data : String)
  | finish (pid : Nat) (st : RunState) (error : Option String) (withResult : Bool)
  | reschedule (pid : Nat) (when_ : Time) (attempt : Nat) (decidedAt : Time)
  | increment (k : Key) (amount : Int)
  | setTotal (k : Key) (total : Int)
  | setMessage (k : Key) (msg : Option String)
  deriving DecidableEq, Repr

/-- Effect of one step.  Clock readings later than `now` are impossible and do
nothing. -/
def step (cfg : Cfg) (s : Sys) : Op → Sys
  | .tick d => { s with
      r := s.r.advance d
      results := fun k => (s.results k).filter (fun v => s.r.now + d < v.expireAt) }
  | .add k q t => if t ≤ s.r.now then (doAdd s k q t).1 else s
  | .replace k q t => if t ≤ s.r.now then (doReplace s k q t).1 else s
  | .cancel k => doCancel s k
  | .cancelTtl k => doCancelTtl cfg s k
  | .clear => (doClear cfg s).1
  | .clearRead => { s with clearJobs := s.clearJobs ++ [Docket.clearRead s.r] }
  | .clearWrite => match s.clearJobs with
    | [] => s
    | j :: js => { s with
        r := Docket.clearWrite cfg.ttl s.r j, clearJobs := js, log := .cleared :: s.log }
  | .schedule t => if t ≤ s.r.now then { s with r := (luaStreamDue s.r t).1 } else s
  | .poll w n => doPoll s w n
  | .redeliver w id => doRedeliver cfg s w id
  | .forget id => doForget s id
  | .renew w id => doRenew s w id
  | .crash w => { s with procs := s.procs.filter (fun p => p.worker ≠ w) }
  | .abandon pid => s.dropProc pid
  | .strikeOut pid => doStrikeOut s pid
  | .claim pid => doClaim s pid
  | .store pid data => doStore cfg s pid data
  | .finish pid st e w => doFinish cfg s pid st e w
  | .reschedule pid t a d => if d ≤ s.r.now then doReschedule s pid t a d else s
  | .increment k n => (doIncrement s k n).1
  | .setTotal k n => (doSetTotal s k n).1
  | .setMessage k m => doSetMessage s k m

/-- Run a history from a state. -/
def runFrom (cfg : Cfg) (s : Sys) (ops : List Op) : Sys := ops.foldl (step cfg) s

/-- Run a history from an empty docket. -/
def run (cfg : Cfg) (ops : List Op) : Sys := runFrom cfg {} ops

@[simp] theorem runFrom_nil (cfg : Cfg) (s : Sys) : runFrom cfg s [] = s := rfl
@[simp] theorem runFrom_cons (cfg : Cfg) (s : Sys) (o : Op) (ops : List Op) :
    runFrom cfg s (o :: ops) = runFrom cfg (step cfg s o) ops := rfl
theorem runFrom_append (cfg : Cfg) (s : Sys) (a b : List Op) :
    runFrom cfg s (a ++ b) = runFrom cfg (runFrom cfg s a) b := by
  simp [runFrom]

end Docket
