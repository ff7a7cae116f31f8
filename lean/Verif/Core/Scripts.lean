import Verif.Core.Redis
/-
The Lua scripts of docket, command by command.

Left out throughout: the legacy `known:{key}` and `stream-id:{key}` keys.  The
scripts delete and read them, but nothing at this commit writes them, so on a
docket only ever used by this version they are absent.
-/
namespace Docket
open Redis

/-- Replies of `_schedule`: 'OK' and 'EXISTS'. -/
inductive SchedReply | ok | exists_
  deriving DecidableEq, Repr

/-- Replies of `_claim` and `_terminal`: 'OK' and 'SUPERSEDED'. -/
inductive Reply | ok | superseded
  deriving DecidableEq, Repr

/-- The HSET of the immediate branches of `_schedule`, execution.py:127-135 and
210-218: the record describes a queued task whose message is `id`. -/
def Run.asQueued (h : Run) (q : Request) (id : MsgId) : Run :=
  { h with state := some .queued, when_ := some q.when_, known := some q.when_,
           streamId := some id, fn := some q.fn, args := some q.args, kwargs := some q.kwargs }

/-- The HSET of the parking branches of `_schedule`, execution.py:140-147 and
227-234. `stream_id` is not written. -/
def Run.asScheduled (h : Run) (q : Request) : Run :=
  { h with state := some .scheduled, when_ := some q.when_, known := some q.when_,
           fn := some q.fn, args := some q.args, kwargs := some q.kwargs }

/-- HINCRBY generation, execution.py:119 and 200. -/
def bumpGen (r : Redis) (k : Key) : Redis :=
  r.hsetRun k (fun h => { h with gen := some (h.gen.getD 0 + 1) })

/-- `_schedule`, reschedule branch, execution.py:113-158. -/
def scheduleReschedule (r : Redis) (k : Key) (q : Request) (immediate : Bool) (id : MsgId) : Redis :=
  let r := (r.xack id).xdel id
  let r := bumpGen r k
  let m : Msg := ⟨k, q, (r.genOf k).getD 0⟩
  let r :=
    if immediate then
      (r.xadd m).hsetRun k (·.asQueued q r.nextId)
    else
      (((r.park k m).zadd k q.when_).hsetRun k (·.asScheduled q)).hmodRun k
        (fun h => { h with streamId := none })
  let r := r.hmodRun k (fun h => { h with worker := none, startedAt := none })
  r.publish k (if immediate then .queued else .scheduled)

/-- `_schedule`, replace clean-up, execution.py:162-181. XDEL without XACK. -/
def scheduleReplaceCleanup (r : Redis) (k : Key) : Redis :=
  let r := match r.streamIdOf k with
    | some id => r.xdel id
    | none => r
  (r.zrem k).unpark k

/-- `_schedule`, duplicate check, execution.py:183-196. -/
def scheduleExists (r : Redis) (k : Key) : Bool :=
  r.knownOf k || (r.stateOf k == some .running)

/-- `_schedule`, common tail, execution.py:199-239. -/
def schedulePlace (r : Redis) (k : Key) (q : Request) (immediate : Bool) : Redis :=
  let r := bumpGen r k
  let m : Msg := ⟨k, q, (r.genOf k).getD 0⟩
  let r :=
    if immediate then
      (r.xadd m).hsetRun k (·.asQueued q r.nextId)
    else
      ((r.park k m).zadd k q.when_).hsetRun k (·.asScheduled q)
  r.publish k (if immediate then .queued else .scheduled)

/-- `_schedule`, execution.py:57-241.  `resched` is `reschedule_message_id`
(`none` for the empty string). -/
def luaSchedule (r : Redis) (k : Key) (q : Request) (immediate replace : Bool)
    (resched : Option MsgId) : Redis × SchedReply :=
  match resched with
  | some id => (scheduleReschedule r k q immediate id, .ok)
  | none =>
    if replace then
      (schedulePlace (scheduleReplaceCleanup r k) k q immediate, .ok)
    else if scheduleExists r k then
      (r, .exists_)
    else
      (schedulePlace r k q immediate, .ok)

/-- The supersession test shared by `_claim` (execution.py:268-286) and
`_terminal` (execution.py:349-351). -/
def isSuperseded (r : Redis) (k : Key) (gen : Gen) : Bool :=
  gen > 0 && (match r.genOf k with
    | none => true
    | some g => g > gen)

/-- `_claim`, execution.py:244-318.  The message id is always present for a
worker's execution (worker.py:674-680). -/
def luaClaim (r : Redis) (k : Key) (gen : Gen) (id : MsgId) (w : WorkerName) : Redis × Reply :=
  if isSuperseded r k gen then
    ((r.xack id).xdel id, .superseded)
  else
    let r := r.hsetRun k (fun h => { h with state := some .running, worker := some w, startedAt := some r.now })
    let r := r.hsetProg k (fun p => { p with current := some 0, total := some 100, gen := some gen,
                                             message := none, updatedAt := none })
    let r := r.hmodRun k (fun h => { h with known := none, streamId := none })
    (r.publish k .running, .ok)

/-- `_terminal`, execution.py:321-393, called from `_mark_as_terminal`,
execution.py:823-905.  `error`/`resultKey` are the optional extra fields
(848-852: an empty error counts as none). -/
def luaTerminal (ttl : Nat) (r : Redis) (k : Key) (gen : Gen) (id : MsgId) (st : RunState)
    (error : Option String) (resultKey : Option Key) : Redis × Reply :=
  if isSuperseded r k gen then
    let r := r.publish k st
    let r := match (r.progress k).bind (·.gen) with
      | some pg => if pg ≤ gen then r.delProg k else r
      | none => r.delProg k
    ((r.xack id).xdel id, .superseded)
  else
    let r := r.hsetRun k (fun h => { h with
      state := some st, completedAt := some r.now
      error := error.or h.error, resultKey := resultKey.or h.resultKey })
    let r := if ttl > 0 then r.hmodRun k (fun h => { h with expireAt := some (r.now + ttl) })
             else r.delRun k
    let r := (r.publish k st).delProg k
    ((r.xack id).xdel id, .ok)

/-- `_cancel_task`, docket.py:66-118. XDEL without XACK, generation untouched. -/
def luaCancel (r : Redis) (k : Key) : Redis :=
  let r := match r.streamIdOf k with
    | some id => r.xdel id
    | none => r
  let r := ((r.unpark k).zrem k).delProg k
  let r := r.hmodRun k (fun h => { h with known := none, streamId := none })
  match r.stateOf k with
  | some .completed | some .failed | some .cancelled => r
  | _ => r.hsetRun k (fun h => { h with state := some .cancelled, completedAt := some r.now })

/-- EXPIRE with the execution ttl, or DEL when it is zero: `Docket._cancel`,
docket.py:771-777, and the per-key part of `Docket.clear`, docket.py:887-902. -/
def expireRun (ttl : Nat) (r : Redis) (k : Key) : Redis :=
  if ttl > 0 then r.hmodRun k (fun h => { h with expireAt := some (r.now + ttl) })
  else r.delRun k

/-- Body of the loop of `_stream_due_tasks`, worker.py:185-217: move one task.
Counts moved tasks in the second component. -/
def streamOne (acc : Redis × Nat) (k : Key) : Redis × Nat :=
  match acc.1.parked k with
  | none => acc
  | some m =>
    let r := (acc.1.xadd m).unpark k
    let r := r.hsetRun m.key (fun h => { h with state := some .queued })
    (r.publish m.key .queued, acc.2 + 1)

/-- `_stream_due_tasks`, worker.py:155-226.  Returns `{total_work, due_work}`.
(The `total_work > 0` guard only skips an empty loop.) -/
def luaStreamDue (r : Redis) (t : Time) : Redis × (Nat × Nat) :=
  let total := r.queue.length
  let due := (r.queue.filter (fun e => e.2 ≤ t)).map (·.1)
  let acc := due.foldl streamOne (r, 0)
  let r := if acc.2 > 0 then { acc.1 with queue := acc.1.queue.filter (fun e => ¬ e.2 ≤ t) }
           else acc.1
  (r, (total, acc.2))

end Docket
