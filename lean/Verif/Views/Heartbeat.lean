/-!
# Heartbeats and worker listings

Models `Worker._heartbeat` (the pipeline with the worker sets), `Worker._remove_heartbeat` and
`workers`/`task_workers` of a docket.

Simplifications: times are whole microseconds of one shared clock instead of floating point
seconds; each pipeline and each listing is one step (a listing really reads the set and then,
worker by worker, the names); the order of a listing is not modelled; failed pipelines are
steps that do not happen.
-/

namespace Docket.Beat

/-- Every operation carries the time it reads; those that use it also
`heartbeat_interval * missed_heartbeats` as set in the process that performs it. -/
inductive Op where
  /-- `w` sends a heartbeat while its docket has the tasks `tasks` registered -/
  | beat (w : String) (tasks : List String) (now age : Nat)
  /-- `w` stops, removing its heartbeat -/
  | leave (w : String) (tasks : List String) (now : Nat)
  /-- someone calls `workers()` -/
  | list (now age : Nat)
  /-- someone calls `task_workers(task)` -/
  | listTask (task : String) (now age : Nat)
  deriving DecidableEq

def Op.now : Op → Nat
  | .beat _ _ now _ | .leave _ _ now | .list now _ | .listTask _ now _ => now

/-- The Redis keys used: `workers_set`, `task_workers_set(...)` (sorted sets: member and
score) and `worker_tasks_set(...)` (a set with the time it expires), docket.py. -/
structure S where
  workers : List (String × Nat)
  taskWorkers : String → List (String × Nat)
  names : String → Option (List String × Nat)

def S.init : S := ⟨[], fun _ => [], fun _ => none⟩

/-- ZREMRANGEBYSCORE key 0 oldest. -/
def zrem0 (oldest : Int) (l : List (String × Nat)) : List (String × Nat) :=
  l.filter (fun e => ! (decide (0 ≤ (e.2 : Int)) && decide ((e.2 : Int) ≤ oldest)))

/-- ZADD key {w: now}. -/
def zadd (w : String) (now : Nat) (l : List (String × Nat)) : List (String × Nat) :=
  l.filter (fun e => e.1 ≠ w) ++ [(w, now)]

/-- ZREM key w. -/
def zrem (w : String) (l : List (String × Nat)) : List (String × Nat) := l.filter (fun e => e.1 ≠ w)

def second : Nat := 1000000

/-- The time to live of `worker_tasks_set`, worker.py:1294-1299: at least `MINIMUM_TTL_SECONDS`
(worker.py:107); redis-py sends EXPIRE with the whole seconds of a timedelta. -/
def ttl (age : Nat) : Nat := (max age second) / second * second

/-- The members of `worker_tasks_set(w)`, worker.py/Redis: an expired set is empty. -/
def namesAt (s : S) (w : String) (now : Nat) : List String :=
  match s.names w with
  | some (l, deadline) => if now ≤ deadline then l else []
  | none => []

/-- SADD to a set that may have expired. -/
def sadd (s : S) (w : String) (now : Nat) (tasks : List String) : List String :=
  namesAt s w now ++ tasks.filter (fun t => t ∉ namesAt s w now)

/-- The worker pipeline of `_heartbeat`, worker.py:1272-1301.  It is a transaction: SADD
without members is an error that discards all of it. -/
def heartbeat (s : S) (w : String) (tasks : List String) (now age : Nat) : S :=
  if tasks = [] then s
  else
    { workers := zadd w now (zrem0 ((now : Int) - age) s.workers)
      taskWorkers := fun k =>
        if k ∈ tasks then zadd w now (zrem0 ((now : Int) - age) (s.taskWorkers k)) else s.taskWorkers k
      names := fun v => if v = w then some (sadd s w now tasks, now + ttl age) else s.names v }

/-- `_remove_heartbeat`, worker.py:1252-1259. -/
def removeHeartbeat (s : S) (w : String) (tasks : List String) : S :=
  { workers := zrem w s.workers
    taskWorkers := fun k => if k ∈ tasks then zrem w (s.taskWorkers k) else s.taskWorkers k
    names := fun v => if v = w then none else s.names v }

/-- `WorkerInfo` -/
structure Info where
  name : String
  lastSeen : Nat
  tasks : List String
  deriving DecidableEq

/-- `workers()`, _docket_snapshot.py:198-231: the state after it and the listing. -/
def workers (s : S) (now age : Nat) : S × List Info :=
  let l := zrem0 ((now : Int) - age) s.workers
  ({ s with workers := l }, l.map (fun e => ⟨e.1, e.2, namesAt s e.1 now⟩))

/-- `task_workers(task)`, _docket_snapshot.py:233-268. -/
def taskWorkers (s : S) (task : String) (now age : Nat) : S × List Info :=
  let l := zrem0 ((now : Int) - age) (s.taskWorkers task)
  ({ s with taskWorkers := fun k => if k = task then l else s.taskWorkers k },
    l.map (fun e => ⟨e.1, e.2, namesAt s e.1 now⟩))

def step (s : S) : Op → S
  | .beat w tasks now age => heartbeat s w tasks now age
  | .leave w tasks _ => removeHeartbeat s w tasks
  | .list now age => (workers s now age).1
  | .listTask task now age => (taskWorkers s task now age).1

def run (ops : List Op) : S := ops.foldl step S.init

end Docket.Beat
