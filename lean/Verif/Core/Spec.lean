import Verif.Core.System
/-
The vocabulary the property theorems are stated in.  Everything here reads only
the history (`Sys.log`, the list of operations) or looks whether a message is
somewhere; none of it is used by the model.
-/
namespace Docket

/-- The task a caller may still expect to run under `k`, read off the history
alone (newest event first): the most recently accepted request, unless the key
was cancelled, an execution of it finished as the current one, or the docket was
cleared since. -/
def outstanding : List Event → Key → Option Msg
  | [], _ => none
  | .accepted m :: l, k => if m.key = k then some m else outstanding l k
  | .cancelled k' :: l, k => if k' = k then none else outstanding l k
  | .finished _ _ m _ true :: l, k => if m.key = k then none else outstanding l k
  | .cleared :: _, _ => none
  | _ :: l, k => outstanding l k

/-- The message is in the work stream. -/
def InStream (s : Sys) (m : Msg) : Prop := ∃ id, (id, m) ∈ s.r.stream

/-- The message is parked with its payload and has its entry in the schedule. -/
def InSchedule (s : Sys) (m : Msg) : Prop :=
  s.r.parked m.key = some m ∧ (m.key, m.req.when_) ∈ s.r.queue

/-- A worker holds the message. -/
def HeldByWorker (s : Sys) (m : Msg) : Prop := ∃ p ∈ s.procs, p.msg = m

/-- The message exists somewhere. -/
def Exists (s : Sys) (m : Msg) : Prop :=
  InStream s m ∨ s.r.parked m.key = some m ∨ HeldByWorker s m

/-- The execution record of `k` (with its generation counter) exists. -/
def HasRecord (s : Sys) (k : Key) : Prop := (s.r.genOf k).isSome

/-- The key's record exists and no scheduling newer than `m` is recorded under it. -/
def NothingNewer (s : Sys) (m : Msg) : Prop := ∃ g ∈ s.r.genOf m.key, g ≤ m.gen

/-- Some message of `k` is in the stream, parked or held by a worker. -/
def SomeMessage (s : Sys) (k : Key) : Prop :=
  (∃ e ∈ s.r.stream, e.2.key = k) ∨ (s.r.parked k).isSome ∨ ∃ p ∈ s.procs, p.msg.key = k

/-- The record of `k` is gone (deleted or expired) although a message of `k` still
exists somewhere. -/
def Orphaned (s : Sys) (k : Key) : Prop := ¬ HasRecord s k ∧ SomeMessage s k

instance (s : Sys) (k : Key) : Decidable (HasRecord s k) := by unfold HasRecord; infer_instance
instance (s : Sys) (m : Msg) : Decidable (NothingNewer s m) := by unfold NothingNewer; infer_instance
instance (s : Sys) (k : Key) : Decidable (SomeMessage s k) := by unfold SomeMessage; infer_instance
instance (s : Sys) (k : Key) : Decidable (Orphaned s k) := by unfold Orphaned; infer_instance

/-- Every state on the way satisfies `P` (including the first and the last). -/
def Throughout (cfg : Cfg) (P : Sys → Prop) : Sys → List Op → Prop
  | s, [] => P s
  | s, op :: ops => P s ∧ Throughout cfg P (step cfg s op) ops

instance decThroughout (cfg : Cfg) (P : Sys → Prop) [DecidablePred P] : ∀ s ops, Decidable (Throughout cfg P s ops)
  | s, [] => by unfold Throughout; infer_instance
  | s, op :: ops =>
    have := decThroughout cfg P (step cfg s op) ops
    by unfold Throughout; infer_instance

/-- Every step on the way satisfies `P` in the state it is taken in. -/
def EachStep (cfg : Cfg) (P : Sys → Op → Prop) : Sys → List Op → Prop
  | _, [] => True
  | s, op :: ops => P s op ∧ EachStep cfg P (step cfg s op) ops

instance decEachStep (cfg : Cfg) (P : Sys → Op → Prop) [∀ s op, Decidable (P s op)] :
    ∀ s ops, Decidable (EachStep cfg P s ops)
  | s, [] => by unfold EachStep; infer_instance
  | s, op :: ops =>
    have := decEachStep cfg P (step cfg s op) ops
    by unfold EachStep; infer_instance

/-- The steps a healthy worker `w` takes on its own: waiting, running the
scheduler, polling, taking over lapsed messages and starting what it was handed. -/
def WorkerStep (w : WorkerName) : Op → Prop
  | .tick _ | .schedule _ | .claim _ => True
  | .poll w' _ | .redeliver w' _ => w' = w
  | _ => False

/-- The events a continuation added to the history. -/
def newEvents (s s' : Sys) : List Event := s'.log.take (s'.log.length - s.log.length)

/-- When the message was last delivered or renewed. -/
def lastTouch : List Event → MsgId → Option Time
  | [], _ => none
  | .handed _ id _ _ t _ :: l, i => if id = i then some t else lastTouch l i
  | .renewed id t :: l, i => if id = i then some t else lastTouch l i
  | _ :: l, i => lastTouch l i

end Docket
