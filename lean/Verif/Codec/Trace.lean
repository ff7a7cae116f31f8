import Verif.Codec.Message
/-
How the trace in which a task was added reaches the worker that runs it: what is put into the
message (`propagate.inject` with `message_setter`, execution.py:690, _concurrency.py:558), what
the scripts do with the fields of a message on its way to a worker's stream (`_schedule`,
`_stream_due_tasks`, `_acquire_or_park`, `_release_and_wake`, `_scavenge_and_wake`), and what the
worker takes out of it (`propagate.extract` with `message_getter`, execution.py:603;
`incoming_span_links`, execution.py:651-654).

OpenTelemetry's propagator is not part of docket: it is any pair of functions that sets and gets
named texts, of which the theorems assume what its documentation says (`Propagator.Lawful`).
-/
namespace Docket.Trace

open Message Decimal

/-- The names of the fields a message has, execution.py:567-576. -/
def names : List Text :=
  [t!"key", t!"when", t!"function", t!"args", t!"kwargs", t!"attempt", t!"generation"]

/-- A propagator of OpenTelemetry: the names of the fields it may set, the calls of the setter it
makes for a span, and the span it finds, if any, by calling the getter. -/
structure Propagator (Span : Type) where
  fields : List Text
  inject : Span → List (Text × Text)
  extract : (Text → Option (List Text)) → Option Span

/-- `carrier[key] = value` of a `dict`: the value is overwritten or the entry added at the end.
Also what Redis does to a hash for each pair given to HSET. -/
def put (m : Msg) (k : Text) (v : ByteArray) : Msg :=
  if (m.field k).isSome then m.map (fun e => if e.1 = k then (k, v) else e) else m ++ [(k, v)]

/-- `MessageSetter.set`, instrumentation.py:149-156. -/
def setter (m : Msg) (k v : Text) : Msg := put m k (encode v)

/-- `MessageGetter.get`, instrumentation.py:138-143.  Simplified: a value that is not UTF-8,
on which `decode` raises, counts as absent; docket itself writes none. -/
def getter (m : Msg) (k : Text) : Option (List Text) :=
  match m.field k with
  | none => none
  | some v => (decode v).map (fun t => [t])

/-- `propagate.inject(message, setter=message_setter)`: without a current span nothing is set.
execution.py:690, _concurrency.py:558. -/
def injected {Span : Type} (p : Propagator Span) (current : Option Span) (m : Msg) : Msg :=
  match current with
  | none => m
  | some c => (p.inject c).foldl (fun m e => setter m e.1 e.2) m

/-- The pairs given to HSET on a key that does not exist, and the `dict` the client makes of the
pairs of a stream entry. -/
def toDict (pairs : Msg) : Msg := pairs.foldl (fun m e => put m e.1 e.2) []

/-- `_stream_due_tasks` for a task that is due, worker.py:187-205: the fields of the hash go into a
table, and the stream entry is made of seven of them, with a default for the generation.  `none`:
there is no hash, or a field is nil and XADD refuses it. -/
def dueEntry (hash : Msg) : Option Msg :=
  if hash.isEmpty then none
  else
    match hash.field t!"key", hash.field t!"when", hash.field t!"function", hash.field t!"args",
      hash.field t!"kwargs", hash.field t!"attempt" with
    | some k, some w, some f, some a, some kw, some n =>
      some [(t!"key", k), (t!"when", w), (t!"function", f), (t!"args", a), (t!"kwargs", kw),
        (t!"attempt", n), (t!"generation", (hash.field t!"generation").getD (encode t!"0"))]
    | _, _, _, _, _, _ => none

/-- The ways from the call to a worker: put on the stream at once (execution.py:111-125, 193-215);
parked in a hash until due (execution.py:127-140, 216-235, worker.py:187-205); put in line for a
slot (_concurrency.py:104-127) and woken (_concurrency.py:230-240, 338-348).  The numbers are the
generations the scripts write into the message. -/
inductive Way
  | queued (g : Nat)
  | due (g : Nat)
  | woken (parked g : Nat)

/-- The generation written last. -/
def Way.generation : Way → Nat
  | .queued g => g
  | .due g => g
  | .woken _ g => g

/-- The message as the worker's client hands it over (a `dict` of the pairs of the stream's entry)
and `Execution.from_message` gets it, worker.py:674. -/
def arrives (m : Msg) : Way → Option Msg
  | .queued g => some (toDict (stamp g m))
  | .due g => (dueEntry (toDict (stamp g m))).map toDict
  | .woken parked g => some (toDict (stamp g (stamp parked m)))

/-- `incoming_span_links` of an execution made from a message, execution.py:603, 651-654. -/
def links {Span : Type} (p : Propagator Span) (m : Msg) : List Span :=
  match p.extract (getter m) with
  | some c => [c]
  | none => []

end Docket.Trace
