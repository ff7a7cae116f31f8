import Verif.Core.Known
/-
What a worker does when a run of a perpetual task ends: `Perpetual.on_complete` and
`Cron.on_complete`, on top of the core model.
-/
namespace Docket.Perpetuals
open Docket

/-- The `Perpetual` instance of one run, _perpetual.py:43-100: `cancelled` is set by
`cancel()`, the arguments by `perpetuate()`, `nextWhen` by `after()` and `at()`. -/
structure Inst where
  every : Nat
  cancelled : Bool := false
  nextWhen : Option Time := none
  args : String
  kwargs : String
  deriving DecidableEq

/-- The instance a run starts with, _perpetual.py:71-76: the arguments of the run. -/
def Inst.fresh (every : Nat) (m : Msg) : Inst :=
  { every, args := m.req.args, kwargs := m.req.kwargs }

/-- `Perpetual.after`, _perpetual.py:92-94. -/
def Inst.after (i : Inst) (now delay : Nat) : Inst := { i with nextWhen := some (now + delay) }
/-- `Perpetual.at`, _perpetual.py:96-98. -/
def Inst.at_ (i : Inst) (t : Time) : Inst := { i with nextWhen := some t }

/-- The time of the next run, _perpetual.py:132-136.  Subtraction stops at zero, below
which the result is cut off by `max` anyway. -/
def nextTime (i : Inst) (now duration : Nat) : Time :=
  match i.nextWhen with
  | some t => t
  | none => max now (now + i.every - duration)

/-- `Execution.is_superseded`, execution.py:1077-1095: unlike the scripts, a missing
record counts as not superseded. -/
def supersededNow (s : Sys) (m : Msg) : Bool :=
  if m.gen = 0 then false else decide ((s.r.genOf m.key).getD 0 > m.gen)

/-- What `on_complete` decides, _perpetual.py:101-136. -/
inductive Decision
  | cancel
  | superseded
  | again (when_ : Time)
  deriving DecidableEq

def onComplete (s : Sys) (m : Msg) (i : Inst) (duration : Nat) : Decision :=
  if i.cancelled then .cancel
  else if supersededNow s m then .superseded
  else .again (nextTime i s.r.now duration)

/-- `Cron.on_complete`, _cron.py:110-117: `next_` is the first matching time after the
run began (the iterator is created on entry, _cron.py:90-98). -/
def cronComplete (s : Sys) (m : Msg) (i : Inst) (next_ : Time) (duration : Nat) : Decision :=
  onComplete s m (i.at_ next_) duration

/-- The call `docket.replace(function, when, key)(*args, **kwargs)` of _perpetual.py:138-141. -/
def againRequest (m : Msg) (i : Inst) (when_ : Time) : Request :=
  ⟨m.req.fn, i.args, i.kwargs, when_, 1⟩

/-- The operations the decision leads to: `_cancel` (_perpetual.py:103-107), nothing, or
`replace`. -/
def actions (s : Sys) (m : Msg) (i : Inst) : Decision → List Op
  | .cancel => [.cancel m.key, .cancelTtl m.key]
  | .superseded => []
  | .again when_ => [.replace m.key (againRequest m i when_) s.r.now]

/-- The end of a run: the actions of `on_complete`, then `mark_as_completed` or
`mark_as_failed` (worker.py:1119-1133, 1198-1230). -/
def complete (cfg : Cfg) (s : Sys) (p : Proc) (i : Inst) (duration : Nat) (st : RunState) : Sys :=
  runFrom cfg s (actions s p.msg i (onComplete s p.msg i duration) ++ [.finish p.pid st none false])

end Docket.Perpetuals
