import Verif.Core.System
/-
The `Progress` dependency (dependencies/_progress.py) and the objects behind it
(_execution_progress.py), next to everything else that happens on the docket.

A `Progress()` in the signature of a task function is one Python object, made when the function
is defined; entering it for an execution stores that execution's `ExecutionProgress` in the object
and hands out the object itself (_progress.py:33-38).
-/
namespace Docket.Progress
open Docket

/-- Assignment to one attribute among those of numbered objects. -/
def put (f : Nat → Option α) (i : Nat) (v : Option α) : Nat → Option α :=
  fun j => if j = i then v else f j

/-- `ExecutionProgress`, _execution_progress.py:85-96: the key it writes to and what it remembers
(`updated_at` is left out). -/
structure Tracker where
  key : Key
  current : Option Nat := none
  total : Nat := 1
  message : Option String := none
  deriving DecidableEq, Repr

/-- A progress event, _execution_progress.py:54-60 (`updated_at` is left out), with the execution
whose tracker published it (only for stating theorems). -/
structure Told where
  source : Nat
  key : Key
  current : Nat
  total : Nat
  message : Option String
  deriving DecidableEq, Repr

/-- A call of `increment()` whose pipeline has been executed and whose answer has not come back
yet, _execution_progress.py:166-170: the call, the execution whose body made it, the execution
whose tracker it is a method of, and the answer. -/
structure Call where
  no : Nat
  body : Nat
  target : Nat
  value : Nat
  deriving DecidableEq, Repr

/-- The docket, the trackers of the executions, what each `Progress` object holds
(_progress.py:33), the executions that have entered their `Progress`, the calls under way and
the progress events published, newest first. -/
structure St where
  sys : Sys := {}
  tracker : Nat → Option Tracker := fun _ => none
  slot : Nat → Option Nat := fun _ => none
  entered : List Nat := []
  calls : List Call := []
  nextCall : Nat := 0
  told : List Told := []

/-- What a task body can report, _progress.py:58-71. -/
inductive Report
  | total (n : Int)
  | message (m : Option String)
  | count (n : Int)
  deriving DecidableEq, Repr

/-- What can happen. -/
inductive Ev
  /-- a client or a worker does something -/
  | op (o : Op)
  /-- the `Progress` dependency of an execution is entered -/
  | enter (pid : Nat)
  /-- the body of an execution calls a method of its `Progress` -/
  | report (pid : Nat) (r : Report)
  /-- the answer to an increment comes back -/
  | answer (no : Nat)
  deriving DecidableEq, Repr

/-- The `Progress` object that function `fn` has in its signature in the process of worker `w`. -/
abbrev Objects := WorkerName → String → Nat

/-- The object an execution enters. -/
def objOf (obj : Objects) (p : Proc) : Nat := obj p.worker p.msg.req.fn

/-- `Execution.claim`, execution.py:818-819: a successful claim sets the tracker of the
execution to 0 of 100.  The tracker was made with the execution (execution.py:506). -/
def claimed (st : St) (s' : Sys) (pid : Nat) : Nat → Option Tracker :=
  match st.sys.proc? pid, s'.proc? pid with
  | some p, some p' =>
    if p.phase = .handed ∧ p'.phase = .running then
      put st.tracker pid (some { key := p.msg.key, current := some 0, total := 100 })
    else st.tracker
  | _, _ => st.tracker

/-- A call of a method of tracker `t` of execution `target`, made by the body of `body`:
`set_total` (_execution_progress.py:124-152), `set_message` (176-205), both with one script that
writes and publishes, and the first half of `increment` (154-170).  A number below 1 raises
before anything is done. -/
def callOn (st : St) (body target : Nat) (t : Tracker) : Report → St
  | .total n =>
    if n < 1 then st
    else { st with
      sys := (doSetTotal st.sys t.key n).1
      tracker := put st.tracker target (some { t with total := n.toNat })
      told := ⟨target, t.key, t.current.getD 0, n.toNat, t.message⟩ :: st.told }
  | .message m => { st with
      sys := doSetMessage st.sys t.key m
      tracker := put st.tracker target (some { t with message := m })
      told := ⟨target, t.key, t.current.getD 0, t.total, m⟩ :: st.told }
  | .count n =>
    if n < 1 then st
    else { st with
      sys := (doIncrement st.sys t.key n).1
      calls := st.calls ++ [⟨st.nextCall, body, target,
        (((doIncrement st.sys t.key n).1.r.progress t.key).bind (·.current)).getD 0⟩]
      nextCall := st.nextCall + 1 }

/-- The second half of `increment`, _execution_progress.py:171-174 and `_publish`, 233-248. -/
def answered (st : St) (c : Call) (t : Tracker) : St :=
  { st with
    tracker := put st.tracker c.target (some { t with current := some c.value })
    told := ⟨c.target, t.key, c.value, t.total, t.message⟩ :: st.told
    calls := st.calls.filter (fun x => x.no ≠ c.no) }

/-- One event.  Only a running execution enters its `Progress`, and only one that has entered
it has a body that runs; the body uses what the object holds then (_progress.py:58-71). -/
def St.step (cfg : Cfg) (obj : Objects) (st : St) : Ev → St
  | .op o =>
    { st with
      sys := Docket.step cfg st.sys o
      tracker := match o with
        | .claim pid => claimed st (Docket.step cfg st.sys o) pid
        | _ => st.tracker }
  | .enter pid =>
    match st.sys.proc? pid with
    | some p =>
      if p.phase = .running ∧ pid ∉ st.entered then
        { st with slot := put st.slot (objOf obj p) (some pid), entered := pid :: st.entered }
      else st
    | none => st
  | .report pid r =>
    match st.sys.proc? pid with
    | some p =>
      if p.phase = .running ∧ pid ∈ st.entered then
        match st.slot (objOf obj p) with
        | some target =>
          match st.tracker target with
          | some t => callOn st pid target t r
          | none => st
        | none => st
      else st
    | none => st
  | .answer no =>
    match st.calls.find? (fun c => c.no = no) with
    | some c =>
      match st.tracker c.target with
      | some t => answered st c t
      | none => st
    | none => st

/-- All events in order. -/
def St.run (cfg : Cfg) (obj : Objects) (st : St) : List Ev → St
  | [] => st
  | e :: es => (st.step cfg obj e).run cfg obj es

/-- What a reader of the record sees, `ExecutionProgress.sync`, _execution_progress.py:206-231:
current, total and message. -/
def seen (r : Option Prog) : Option Nat × Nat × Option String :=
  match r with
  | some q => (some (q.current.getD 0), q.total.getD 100, q.message)
  | none => (none, 100, none)

/-- What the body of an execution reads from its `Progress`: `current`, `total` and `message`,
_progress.py:40-56. -/
def readsBack (obj : Objects) (st : St) (p : Proc) : Option (Option Nat × Nat × Option String) :=
  ((st.slot (objOf obj p)).bind st.tracker).map (fun t => (t.current, t.total, t.message))

end Docket.Progress
