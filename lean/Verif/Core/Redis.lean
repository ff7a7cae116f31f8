/-
The Redis data a docket keeps, and the Redis commands its scripts use.

Modelled by reading the Redis command reference: docket itself only issues the
commands.  One docket is modelled, so the key prefix (docket.py:208-217) is left
out and each family of keys is a field of its own; `Verif/Keys` treats the key
names themselves.
-/
namespace Docket

/-- Task keys (`Execution.key`, execution.py:532-535). -/
abbrev Key := String
/-- Points in time and durations, in one arbitrary fixed unit.  Python uses
`datetime`/`timestamp()` (execution.py:695, 729); Redis scores are floats.  The
model uses exact natural numbers. -/
macro "Time" : term => `(Nat)
/-- Stream entry ids.  Redis uses `ms-seq`; only their strict growth matters. -/
macro "MsgId" : term => `(Nat)
/-- Generation counters (`generation` field, execution.py:119, 200). -/
macro "Gen" : term => `(Nat)
/-- Worker names (worker.py:270). -/
abbrev WorkerName := String

/-- `ExecutionState`, execution.py:402-421. -/
inductive RunState
  | scheduled | queued | running | completed | failed | cancelled
  deriving DecidableEq, Repr

/-- The terminal states, execution.py:966-970, docket.py:112. -/
def RunState.terminal : RunState → Bool
  | .completed | .failed | .cancelled => true
  | _ => false

/-- What a caller asks for: function name, serialised positional and keyword
arguments, the time, and the attempt number.  `Execution.__init__`,
execution.py:457-509. Arguments are opaque bytes (cloudpickle is not modelled). -/
structure Request where
  fn : String
  args : String
  kwargs : String
  when_ : Time
  attempt : Nat
  deriving DecidableEq, Repr

/-- The message a task travels as: `Execution.as_message`, execution.py:567-576.
Trace propagation headers (execution.py:690) are left out. -/
structure Msg where
  key : Key
  req : Request
  gen : Gen
  deriving DecidableEq, Repr

/-- The `runs:{key}` hash.  A field is `none` when absent from the hash.
`expireAt` is the Redis key's expiry.  Fields: execution.py:127-154, 210-234,
289-309, 370-382; docket.py:108-113. -/
structure Run where
  state : Option RunState := none
  when_ : Option Time := none
  known : Option Time := none
  streamId : Option MsgId := none
  fn : Option String := none
  args : Option String := none
  kwargs : Option String := none
  gen : Option Gen := none
  worker : Option WorkerName := none
  startedAt : Option Time := none
  completedAt : Option Time := none
  error : Option String := none
  resultKey : Option Key := none
  /-- `waiter_entry_id`, written by the concurrency limit (_concurrency.py:131-138);
  `waiter_stream` is left out: the model has one limit. -/
  waiter : Option MsgId := none
  expireAt : Option Time := none
  deriving DecidableEq, Repr

/-- The `progress:{key}` hash, `_execution_progress.py:71-96` and
execution.py:301-306. -/
structure Prog where
  current : Option Nat := none
  total : Option Nat := none
  message : Option String := none
  updatedAt : Option Time := none
  gen : Option Gen := none
  deriving DecidableEq, Repr

/-- One entry of the consumer group's pending list. -/
structure Pend where
  id : MsgId
  worker : WorkerName
  /-- time of the last delivery or renewal; idle time is `now - since` -/
  since : Time
  deriving DecidableEq, Repr

/-- A state event published on `state:{key}`. -/
structure Published where
  key : Key
  state : RunState
  deriving DecidableEq, Repr

/-- Everything one docket keeps in Redis, plus the clock. -/
structure Redis where
  /-- current time -/
  now : Time := 0
  /-- the id the next XADD will use; ids start at 1 -/
  nextId : MsgId := 1
  /-- the work stream, oldest first -/
  stream : List (MsgId × Msg) := []
  /-- the consumer group's last delivered id (created at 0-0, docket.py:730-735) -/
  lastDelivered : MsgId := 0
  /-- the consumer group's pending entries -/
  pending : List Pend := []
  /-- the `queue` sorted set, in rank order -/
  queue : List (Key × Time) := []
  /-- parked messages, one hash per task key -/
  parked : Key → Option Msg := fun _ => none
  /-- `runs:{key}` hashes -/
  runs : Key → Option Run := fun _ => none
  /-- `progress:{key}` hashes -/
  progress : Key → Option Prog := fun _ => none
  /-- state events published so far, newest first -/
  published : List Published := []

/-- Update a function at one key. -/
def upd {α : Type} (f : Key → α) (k : Key) (v : α) : Key → α :=
  fun k' => if k' = k then v else f k'

@[simp] theorem upd_same {α : Type} (f : Key → α) (k : Key) (v : α) : upd f k v k = v := by
  simp [upd]

theorem upd_other {α : Type} (f : Key → α) (k k' : Key) (v : α) (h : k' ≠ k) :
    upd f k v k' = f k' := by
  simp [upd, h]

/-- Insert into a sorted set's rank order (score, then member). -/
def zinsert (k : Key) (t : Time) : List (Key × Time) → List (Key × Time)
  | [] => [(k, t)]
  | e :: es => if t < e.2 ∨ (t = e.2 ∧ k < e.1) then (k, t) :: e :: es else e :: zinsert k t es

namespace Redis

/-- XADD: append a message under a fresh id. -/
def xadd (r : Redis) (m : Msg) : Redis :=
  { r with stream := r.stream ++ [(r.nextId, m)], nextId := r.nextId + 1 }

/-- XDEL: remove an entry from the stream (the pending list is not touched). -/
def xdel (r : Redis) (id : MsgId) : Redis :=
  { r with stream := r.stream.filter (fun e => e.1 ≠ id) }

/-- XACK: remove an id from the pending list. -/
def xack (r : Redis) (id : MsgId) : Redis :=
  { r with pending := r.pending.filter (fun p => p.id ≠ id) }

/-- XREADGROUP with `>`: hand out the next undelivered entries, at most `count`. -/
def xreadgroup (r : Redis) (w : WorkerName) (count : Nat) : Redis × List (MsgId × Msg) :=
  let new := (r.stream.filter (fun e => r.lastDelivered < e.1)).take count
  ({ r with
      pending := r.pending ++ new.map (fun e => ⟨e.1, w, r.now⟩)
      lastDelivered := (new.getLast?.map (·.1)).getD r.lastDelivered }, new)

/-- Give a pending entry to a worker and reset its idle time (the effect of
XCLAIM/XAUTOCLAIM on one id that is pending). -/
def reassign (r : Redis) (id : MsgId) (w : WorkerName) : Redis :=
  { r with pending := r.pending.map (fun p => if p.id = id then ⟨id, w, r.now⟩ else p) }

/-- HSET (and HINCRBY) on `runs:{k}`: creates the hash when missing. -/
def hsetRun (r : Redis) (k : Key) (f : Run → Run) : Redis :=
  { r with runs := upd r.runs k (some (f ((r.runs k).getD {}))) }

/-- HDEL or EXPIRE on `runs:{k}`: no effect when the hash is missing. -/
def hmodRun (r : Redis) (k : Key) (f : Run → Run) : Redis :=
  { r with runs := upd r.runs k ((r.runs k).map f) }

/-- DEL `runs:{k}`. -/
def delRun (r : Redis) (k : Key) : Redis :=
  { r with runs := upd r.runs k none }

/-- HGET `runs:{k}` generation. -/
def genOf (r : Redis) (k : Key) : Option Gen := (r.runs k).bind (·.gen)

/-- HGET `runs:{k}` state. -/
def stateOf (r : Redis) (k : Key) : Option RunState := (r.runs k).bind (·.state)

/-- HGET `runs:{k}` stream_id. -/
def streamIdOf (r : Redis) (k : Key) : Option MsgId := (r.runs k).bind (·.streamId)

/-- HEXISTS `runs:{k}` known. -/
def knownOf (r : Redis) (k : Key) : Bool := ((r.runs k).bind (·.known)).isSome

/-- ZADD queue. -/
def zadd (r : Redis) (k : Key) (t : Time) : Redis :=
  { r with queue := zinsert k t (r.queue.filter (fun e => e.1 ≠ k)) }

/-- ZREM queue. -/
def zrem (r : Redis) (k : Key) : Redis :=
  { r with queue := r.queue.filter (fun e => e.1 ≠ k) }

/-- HSET of a whole message on the parked hash of `k` (every message carries all
fields, so the hash becomes exactly the message). -/
def park (r : Redis) (k : Key) (m : Msg) : Redis :=
  { r with parked := upd r.parked k (some m) }

/-- DEL of the parked hash of `k`. -/
def unpark (r : Redis) (k : Key) : Redis :=
  { r with parked := upd r.parked k none }

/-- HSET (creating) on `progress:{k}`. -/
def hsetProg (r : Redis) (k : Key) (f : Prog → Prog) : Redis :=
  { r with progress := upd r.progress k (some (f ((r.progress k).getD {}))) }

/-- DEL `progress:{k}`. -/
def delProg (r : Redis) (k : Key) : Redis :=
  { r with progress := upd r.progress k none }

/-- PUBLISH on `state:{k}`. -/
def publish (r : Redis) (k : Key) (st : RunState) : Redis :=
  { r with published := ⟨k, st⟩ :: r.published }

/-- Time passes: keys whose expiry has come disappear. -/
def advance (r : Redis) (d : Nat) : Redis :=
  { r with
    now := r.now + d
    runs := fun k => (r.runs k).filter (fun h => match h.expireAt with
      | none => true
      | some e => r.now + d < e) }

end Redis
end Docket
