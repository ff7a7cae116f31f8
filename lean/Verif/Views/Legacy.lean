/-!
# Tasks that an earlier version left on the docket

Models what this version does with the keys in which earlier versions kept what is known of a
task: `known:{key}` and `stream-id:{key}`, next to the record `runs:{key}` of this version.  One
task key; the scripts of scheduling, claiming, ending, cancelling, moving due tasks and clearing,
as far as they touch these keys, the record, the queue, the parked message or the stream.  Not
modelled: progress, results, publications, acknowledgements, retries and other task keys.
-/

namespace Docket.Legacy

/-- The field `state` of the record, execution.py:402-420. -/
inductive RunState
  | scheduled
  | queued
  | running
  | ended
  | cancelled
  deriving DecidableEq, Repr

/-- A message: whether an earlier version wrote it, and its field `generation`, 0 if it has none
(execution.py:606). -/
structure Msg where
  old : Bool
  generation : Nat
  deriving DecidableEq, Repr

/-- What Redis and the workers have of the task. -/
structure St where
  /-- The entries of the stream. -/
  stream : List (Nat × Msg) := []
  /-- Entries that were handed to workers and are not claimed yet. -/
  held : List (Nat × Msg) := []
  /-- Entries that workers run. -/
  running : List (Nat × Msg) := []
  /-- The parked message. -/
  parked : Option Msg := none
  /-- The key is in the queue of scheduled tasks. -/
  inQueue : Bool := false
  /-- `runs:{key}` has the field `known`. -/
  known : Bool := false
  /-- `runs:{key}`, field `stream_id`. -/
  streamId : Option Nat := none
  /-- `runs:{key}`, field `state`. -/
  state : Option RunState := none
  /-- `runs:{key}`, field `generation`. -/
  generation : Option Nat := none
  /-- `known:{key}` exists. -/
  oldKnown : Bool := false
  /-- `stream-id:{key}`. -/
  oldStreamId : Option Nat := none
  /-- The id of the next entry. -/
  next : Nat := 0
  /-- The messages whose task was started. -/
  started : List Msg := []
  deriving DecidableEq, Repr

/-- XDEL. -/
def xdel (i : Option Nat) (l : List (Nat × Msg)) : List (Nat × Msg) :=
  match i with
  | some i => l.filter (fun e => e.1 ≠ i)
  | none => l

/-- `_schedule`, execution.py:199-239: the part after the checks. -/
def put (immediate : Bool) (s : St) : St :=
  let g := s.generation.getD 0 + 1
  if immediate then
    { s with
      generation := some g, stream := s.stream ++ [(s.next, ⟨false, g⟩)], next := s.next + 1,
      state := some .queued, known := true, streamId := some s.next }
  else
    { s with
      generation := some g, parked := some ⟨false, g⟩, inQueue := true,
      state := some .scheduled, known := true }

/-- `_schedule` for `add`, execution.py:182-239; the answer is false for `EXISTS`. -/
def add (immediate : Bool) (s : St) : St × Bool :=
  if s.known then (s, false)
  else if s.state = some .running then (s, false)
  else if s.oldKnown then (s, false)
  else (put immediate s, true)

/-- Where the message is recorded to be: execution.py:162-169 and docket.py:84-90. -/
def existing (s : St) : Option Nat :=
  match s.streamId with
  | some i => some i
  | none => s.oldStreamId

/-- `_schedule` for `replace`, execution.py:161-181 and 199-239. -/
def replace (immediate : Bool) (s : St) : St :=
  put immediate
    { s with
      stream := xdel (existing s) s.stream, inQueue := false, parked := none,
      oldKnown := false, oldStreamId := none }

/-- `_cancel_task`, docket.py:81-116. -/
def cancel (s : St) : St :=
  { s with
    stream := xdel (existing s) s.stream, inQueue := false, parked := none,
    oldKnown := false, oldStreamId := none, known := false, streamId := none,
    state := if s.state = some .ended ∨ s.state = some .cancelled then s.state
      else some .cancelled }

/-- `_stream_due_tasks`, worker.py:179-224, when the task is due.  A key without parked message is
left in the queue. -/
def tick (s : St) : St :=
  if s.inQueue then
    match s.parked with
    | some m =>
      { s with
        stream := s.stream ++ [(s.next, m)], next := s.next + 1, parked := none,
        inQueue := false, state := some .queued }
    | none => s
  else s

/-- An entry is handed to a worker, worker.py:634-665: for the first time or again. -/
def deliver (i : Nat) (s : St) : St :=
  match s.stream.find? (fun e => e.1 = i) with
  | some e => { s with held := s.held ++ [e] }
  | none => s

/-- Whether a message is out of date, given the generation in the record: execution.py:268-286 and
349-351. -/
def superseded (current : Option Nat) (m : Msg) : Bool :=
  0 < m.generation &&
    match current with
    | none => true
    | some g => m.generation < g

/-- `_claim`, execution.py:262-316, for an entry that a worker holds. -/
def claim (i : Nat) (s : St) : St :=
  match s.held.find? (fun e => e.1 = i) with
  | none => s
  | some e =>
    let s := { s with held := s.held.erase e }
    if superseded s.generation e.2 then { s with stream := xdel (some i) s.stream }
    else
      { s with
        state := some .running, known := false, streamId := none,
        oldKnown := false, oldStreamId := none,
        running := s.running ++ [e], started := s.started ++ [e.2] }

/-- `_terminal`, execution.py:349-391, for an entry that a worker runs; `remove` for an
`execution_ttl` of zero. -/
def finish (i : Nat) (remove : Bool) (s : St) : St :=
  match s.running.find? (fun e => e.1 = i) with
  | none => s
  | some e =>
    let s := { s with running := s.running.erase e, stream := xdel (some i) s.stream }
    if superseded s.generation e.2 then s
    else if remove then
      { s with known := false, streamId := none, state := none, generation := none }
    else { s with state := some .ended }

/-- The record expires. -/
def expire (s : St) : St :=
  { s with known := false, streamId := none, state := none, generation := none }

/-- `Docket.clear`, docket.py:847-907; `remove` for an `execution_ttl` of zero, otherwise the
record is given a time to live (see `expire`).  The keys of earlier versions are deleted for the
tasks in the queue only. -/
def clear (remove : Bool) (s : St) : St :=
  let touched := s.inQueue || !s.stream.isEmpty
  let s :=
    if s.inQueue then { s with parked := none, oldKnown := false, oldStreamId := none } else s
  let s := { s with stream := [], inQueue := false }
  if touched && remove then expire s else s

/-- What can happen. -/
inductive Op
  | add (immediate : Bool)
  | replace (immediate : Bool)
  | cancel
  | clear (remove : Bool)
  | tick
  | deliver (id : Nat)
  | claim (id : Nat)
  | finish (id : Nat) (remove : Bool)
  | expire
  deriving DecidableEq, Repr

/-- One step. -/
def step (s : St) : Op → St
  | .add b => (add b s).1
  | .replace b => replace b s
  | .cancel => cancel s
  | .clear r => clear r s
  | .tick => tick s
  | .deliver i => deliver i s
  | .claim i => claim i s
  | .finish i r => finish i r s
  | .expire => expire s

/-- A history. -/
def run (s : St) (ops : List Op) : St := ops.foldl step s

end Docket.Legacy
