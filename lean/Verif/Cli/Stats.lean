import Verif.Text

/-!
# Task statistics

Models `TaskStats` and `get_task_stats` (cli/_support.py:196-249).  A task of the snapshot is its
function name and the time the statistics look at: `started` for running tasks, `when` for future
ones.  The dictionary is a list of pairs in the order of insertion.
-/

namespace Docket.Stats

/-- `TaskStats`, cli/_support.py:196-206. -/
structure TaskStats where
  running : Nat := 0
  queued : Nat := 0
  total : Nat := 0
  oldestQueued : Option Int := none
  latestQueued : Option Int := none
  oldestStarted : Option Int := none
  latestStarted : Option Int := none
  deriving DecidableEq

abbrev Dict := List (Text × TaskStats)

/-- `stats.get(name)`. -/
def Dict.get? : Dict → Text → Option TaskStats
  | [], _ => none
  | (n, t) :: d, name => if n = name then some t else Dict.get? d name

/-- Changes the entry of `name`, first adding an empty one if there is none
(cli/_support.py:216-218, 236-238). -/
def Dict.change (f : TaskStats → TaskStats) : Dict → Text → Dict
  | [], name => [(name, f {})]
  | (n, t) :: d, name => if n = name then (n, f t) :: d else (n, t) :: Dict.change f d name

/-- `if oldest is None or t < oldest`. -/
def older (o : Option Int) (t : Int) : Option Int :=
  match o with
  | none => some t
  | some x => if t < x then some t else some x

/-- `if latest is None or t > latest`. -/
def later (o : Option Int) (t : Int) : Option Int :=
  match o with
  | none => some t
  | some x => if x < t then some t else some x

/-- The body of the first loop, cli/_support.py:219-230. -/
def countRunning (started : Int) (s : TaskStats) : TaskStats :=
  { s with
    running := s.running + 1
    total := s.total + 1
    oldestStarted := older s.oldestStarted started
    latestStarted := later s.latestStarted started }

/-- The body of the second loop, cli/_support.py:239-247. -/
def countFuture (when_ : Int) (s : TaskStats) : TaskStats :=
  { s with
    queued := s.queued + 1
    total := s.total + 1
    oldestQueued := older s.oldestQueued when_
    latestQueued := later s.latestQueued when_ }

/-- `get_task_stats`, cli/_support.py:209-249. -/
def getTaskStats (running future : List (Text × Int)) : Dict :=
  future.foldl (fun d e => d.change (countFuture e.2) e.1)
    (running.foldl (fun d e => d.change (countRunning e.2) e.1) [])

end Docket.Stats
