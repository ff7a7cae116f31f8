import Verif.Core.System
/-
`DocketSnapshotMixin.snapshot`, _docket_snapshot.py:105-196, over the Redis contents of
`Verif.Core.Redis`.  Worker listings are in `Verif.Views.Workers`.
-/
namespace Docket.Snap
open Docket

/-- The replies of the first pipeline (one transaction), _docket_snapshot.py:117-145. -/
structure Reading where
  streamCount : Nat
  scheduleCount : Nat
  pending : List Pend
  messages : List (MsgId × Msg)
  keys : List Key

/-- XPENDING in the order of ids, at most `n` entries. -/
def xpending (r : Redis) (n : Nat) : List Pend := (r.pending.mergeSort (fun a b => a.id ≤ b.id)).take n

/-- XLEN, ZCARD, XPENDING and XRANGE with `count=1000`, ZRANGE. -/
def firstRead (r : Redis) : Reading :=
  { streamCount := r.stream.length
    scheduleCount := r.queue.length
    pending := xpending r 1000
    messages := r.stream.take 1000
    keys := r.queue.map (·.1) }

/-- The second pipeline: HGETALL of the parked hashes, empty ones dropped,
_docket_snapshot.py:156-164. -/
def secondRead (a : Reading) (r : Redis) : List Msg := a.keys.filterMap r.parked

structure Snapshot where
  total : Nat
  future : List Msg
  /-- a message and the worker that has it -/
  running : List (Msg × WorkerName)
  deriving DecidableEq

/-- The worker a message is pending with, _docket_snapshot.py:168-170. -/
def holder (a : Reading) (id : MsgId) : Option WorkerName := (a.pending.find? (fun p => p.id = id)).map (·.worker)

/-- A message that nobody has (the `else` branch of _docket_snapshot.py:172-180). -/
def unheld {β γ : Type} (h : Option β) (m : γ) : Option γ := match h with | some _ => none | none => some m

/-- The rest of `snapshot`, _docket_snapshot.py:166-196, without the list of workers.  The
messages are decoded without a fallback task, so `none` is the `ValueError` for a function
that this process has not registered (execution.py:588-592). -/
def assemble (knows : String → Bool) (a : Reading) (queued : List Msg) : Option Snapshot :=
  if (a.messages.map (·.2) ++ queued).all (fun m => knows m.req.fn) then
    some
      { total := a.streamCount + a.scheduleCount
        future := a.messages.filterMap (fun e => unheld (holder a e.1) e.2) ++ queued
        running := a.messages.filterMap (fun e => (holder a e.1).map (fun w => (e.2, w))) }
  else none

/-- A snapshot whose two reads see the contents `r1` and `r2`. -/
def snapshot (knows : String → Bool) (r1 r2 : Redis) : Option Snapshot :=
  assemble knows (firstRead r1) (secondRead (firstRead r1) r2)

end Docket.Snap
