import Verif.Core.System

/-
The two depth gauges that a worker's heartbeat sets (worker.py:1303-1315,
instrumentation.py:119-128).
-/
namespace Docket
open Redis

/-- ZCOUNT with inclusive bounds; `none` is `+inf`.  worker.py:1305-1306. -/
def zcount (q : List (Key × Time)) (lo : Time) (hi : Option Time) : Nat :=
  (q.filter (fun e => decide (lo ≤ e.2) && (match hi with
    | some h => decide (e.2 ≤ h)
    | none => true))).length

/-- What a heartbeat reports. -/
structure Depths where
  queue : Nat
  schedule : Nat
  deriving DecidableEq, Repr

/-- `_heartbeat`, worker.py:1303-1315: `t` is the clock reading from the beginning of the
heartbeat (worker.py:1274), so not later than the moment of the pipeline, `r.now`; the three
commands are one transaction.  Simplified: due times are not before the epoch. -/
def depths (r : Redis) (t : Time) : Depths :=
  let stream_depth := r.stream.length
  let overdue_depth := zcount r.queue 0 (some t)
  let schedule_depth := zcount r.queue t none
  { queue := stream_depth + overdue_depth, schedule := schedule_depth }

end Docket
