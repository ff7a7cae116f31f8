import Verif.Core.System
import Verif.Worker.Seed
import Verif.Retry.Perpetual
/-
The `Cron` dependency (dependencies/_cron.py) of one automatic task function, next to everything
else that happens on the docket.

`Cron(...)` in the signature of a function is an object made when the module is imported; it holds
an iterator over the times that match the expression, begun at that moment (_cron.py:92).  Seeding
takes `initial_when` from this object, which advances its iterator (_cron.py:101-108).  A run of
the task gets an object of its own, with an iterator begun at that moment (_cron.py:94-99).
-/
namespace Docket.Cron
open Docket Docket.Perpetuals

/-- What `CronSim(expression, moment)` (a third-party package) does: `hits t` says whether `t`
matches the expression, `next t` is the first match after `t`. -/
structure Schedule where
  hits : Nat → Prop
  next : Nat → Nat
  after : ∀ t, t < next t
  isHit : ∀ t, hits (next t)
  isFirst : ∀ t u, t < u → u < next t → ¬ hits u

/-- The docket and what processes remember.  Processes are numbered, workers of one process share
its objects. -/
structure St where
  sys : Sys := {}
  /-- where the iterator of a process's `Cron` object has got to; `none`: not imported -/
  pos : Nat → Option Nat := fun _ => none
  /-- the `initial_when` a process has read for the `add` it is about to make -/
  chosen : Nat → Option Nat := fun _ => none
  /-- where the iterator of an execution's own `Cron` object begins -/
  entered : Nat → Option Nat := fun _ => none
  /-- executions whose completion handler has run -/
  over : List Nat := []

/-- Assignment to one of the numbered things. -/
def put (f : Nat → Option α) (i : Nat) (v : Option α) : Nat → Option α :=
  fun j => if j = i then v else f j

inductive Ev
  /-- any operation of the docket, by anybody -/
  | op (o : Op)
  /-- process `h` imports the module with the task function -/
  | start (h : Nat)
  /-- a worker of process `h` seeds automatic tasks and gets to this one; `lock`: it got the lock -/
  | look (h : Nat) (lock : Bool)
  /-- it goes on to `docket.add`; `stricken`: the task is stricken there -/
  | sow (h : Nat) (stricken : Bool)
  /-- the dependencies of an execution are entered -/
  | enter (pid : Nat)
  /-- an execution ends and its completion handler runs; `i` is what its body made of the object;
  `stricken`: the task is stricken there -/
  | again (pid : Nat) (i : Inst) (stricken : Bool)

/-- `Cron.__init__` at import, _cron.py:68-92. -/
def start (st : St) (h : Nat) : St :=
  { st with pos := put st.pos h (some st.sys.r.now), chosen := put st.chosen h none }

/-- The first half of the loop body of `_schedule_all_automatic_perpetual_tasks`,
worker.py:963-984: unless the task is live, `initial_when` is read, which takes the next time from
the iterator (_cron.py:101-108).  The two reads of `_automatic_perpetual_is_live` are one step. -/
def look (S : Schedule) (f : String) (st : St) (h : Nat) (lock : Bool) : St :=
  match st.pos h with
  | none => st
  | some t =>
    if lock && !Seed.isLive st.sys f then
      { st with pos := put st.pos h (some (S.next t)), chosen := put st.chosen h (some (S.next t)) }
    else st

/-- The second half, worker.py:983-985: `docket.add`, which does nothing when the task is
stricken (docket.py:413-424). -/
def sow (cfg : Cfg) (f : String) (st : St) (h : Nat) (stricken : Bool) : St :=
  match st.chosen h with
  | none => st
  | some w =>
    { st with
      sys := if stricken then st.sys
        else step cfg st.sys (.add f ⟨f, "", "", w, 1⟩ st.sys.r.now)
      chosen := put st.chosen h none }

/-- `Cron.__aenter__` for an execution of the function, _cron.py:94-99. -/
def enter (f : String) (st : St) (pid : Nat) : St :=
  match st.sys.proc? pid with
  | none => st
  | some p =>
    if p.phase = .running ∧ p.msg.req.fn = f ∧ st.entered pid = none then
      { st with entered := put st.entered pid (some st.sys.r.now) }
    else st

/-- What `on_complete` does once it has decided: `docket.replace` does nothing when the task is
stricken (docket.py:523-534). -/
def doings (s : Sys) (m : Msg) (i : Inst) (stricken : Bool) : Decision → List Op
  | .again w => if stricken then [] else actions s m i (.again w)
  | d => actions s m i d

/-- `Cron.on_complete`, _cron.py:110-117, and `Perpetual.on_complete`, _perpetual.py:101-141, from
worker.py:1119-1133 and 1197-1204.  The check whether the execution is superseded and what follows
are one step.  Marking the execution as ended is an operation of the docket. -/
def again (cfg : Cfg) (S : Schedule) (st : St) (pid : Nat) (i : Inst) (stricken : Bool) : St :=
  match st.sys.proc? pid, st.entered pid with
  | some p, some b =>
    if p.phase = .running ∧ pid ∉ st.over then
      { st with
        sys := runFrom cfg st.sys 
          (doings st.sys p.msg i stricken (cronComplete st.sys p.msg i (S.next b) 0))
        over := pid :: st.over }
    else st
  | _, _ => st

def St.step (cfg : Cfg) (S : Schedule) (f : String) (st : St) : Ev → St
  | .op o => { st with sys := Docket.step cfg st.sys o }
  | .start h => start st h
  | .look h lock => look S f st h lock
  | .sow h stricken => sow cfg f st h stricken
  | .enter pid => enter f st pid
  | .again pid i stricken => again cfg S st pid i stricken

def St.run (cfg : Cfg) (S : Schedule) (f : String) (st : St) (es : List Ev) : St :=
  es.foldl (St.step cfg S f) st

end Docket.Cron
