import Verif.Retry.Solo
/-
What a worker does with a failed run: `Retry.handle_failure`, on top of the core model.
-/
namespace Docket.Retrying
open Docket

/-- The largest `timedelta`, in microseconds (999999999 days and almost another one);
multiplying beyond it raises `OverflowError`. -/
def maxDelta : Nat := 86399999999999999999

/-- The delay settings: `Retry` (_retry.py:51-63) and `ExponentialRetry`
(_retry.py:152-168), in microseconds.  Negative delays are left out. -/
inductive Backoff
  | linear (delay : Nat)
  | exponential (minimum maximum : Nat)
  deriving DecidableEq

/-- The retry settings of a task function (`attempts=None` retries for ever).  A
function without `Retry` behaves as `attempts=1`. -/
structure Settings where
  attempts : Option Nat
  backoff : Backoff
  deriving DecidableEq

abbrev Policy := String → Settings

/-- `Retry.__aenter__`, _retry.py:77-81, and `ExponentialRetry.__aenter__`, 196-215: the
delay of the instance a run gets; `none` when computing it raises. -/
def enter (b : Backoff) (attempt : Nat) : Option Nat :=
  match b with
  | .linear d => some d
  | .exponential minimum maximum =>
    if attempt > 1 then
      let calculated := minimum * 2 ^ (attempt - 1)
      if calculated > maxDelta then none
      else if calculated > maximum then some maximum
      else some calculated
    else some minimum

/-- `Retry.handle_failure`, _retry.py:99-110: the time and attempt number of the next
run, or `none` when the attempts are used up.  `delay` is whatever the instance holds:
the delay from `enter`, or the one given to `Retry.after`. -/
def handleFailure (attempts : Option Nat) (attempt : Nat) (now delay : Nat) : Option (Nat × Nat) :=
  match attempts with
  | some n => if attempt ≥ n then none else some (now + delay, attempt + 1)
  | none => some (now + delay, attempt + 1)

/-- The failure branch of `Worker._execute`, worker.py:1179-1230.  If entering the `Retry`
dependency raised, the task body was not called, the resolved dependencies hold no
failure handler (worker.py:1193, _resolution.py:92-99, 216-221), and the task is marked
failed. -/
def onFail (c : Settings) (attempt now : Nat) (after : Option Nat) : Option (Nat × Nat) :=
  match enter c.backoff attempt with
  | none => none
  | some d => handleFailure c.attempts attempt now (after.getD d)

/-- One step of the system as seen with retries. -/
inductive HOp
  /-- any other step of the core model -/
  | other (op : Op)
  /-- `Docket.add`, docket.py:355-444: the attempt number is 1 (line 401) -/
  | add (k : Key) (q : Request) (t : Time)
  /-- `Docket.replace`, docket.py:476-554: the attempt number is 1 (line 511) -/
  | replace (k : Key) (q : Request) (t : Time)
  /-- the running task function returned or was cancelled, worker.py:1113-1178 -/
  | finish (pid : Nat) (st : RunState) (withResult : Bool)
  /-- the running task function raised, worker.py:1179-1230; `after` is the delay it
  asked for through `Retry.after` or `Retry.at`, if it did -/
  | fail (pid : Nat) (after : Option Nat) (error : Option String) (withResult : Bool)
  /-- admission control refused the task before it ran, worker.py:705-715 -/
  | blocked (pid : Nat) (delay : Nat)
  deriving DecidableEq

/-- How a started run ended. -/
inductive Ending | failed | ended | blocked
  deriving DecidableEq

structure Hist where
  s : Sys
  /-- the runs that ended, newest first; written, never read, by the model -/
  ends : List (Ending × Msg) := []

/-- The step of the core model an operation amounts to. -/
def toOp (pol : Policy) (s : Sys) : HOp → Option Op
  | .other op => match op with
    | .add .. | .replace .. | .reschedule .. | .finish .. => none
    | op => some op
  | .add k q t => some (.add k { q with attempt := 1 } t)
  | .replace k q t => some (.replace k { q with attempt := 1 } t)
  | .finish pid st w => if st = .completed ∨ st = .cancelled then some (.finish pid st none w) else none
  | .fail pid after e w => (s.proc? pid).map (fun p =>
      match onFail (pol p.msg.req.fn) p.msg.req.attempt s.r.now after with
      | some (when_, attempt) => .reschedule pid when_ attempt s.r.now
      | none => .finish pid .failed e w)
  | .blocked pid delay => (s.proc? pid).map (fun p =>
      .reschedule pid (s.r.now + delay) p.msg.req.attempt s.r.now)

/-- The run an operation ends, if it ends one. -/
def ending (s : Sys) : HOp → Option (Ending × Msg)
  | .finish pid st _ => (s.proc? pid).bind (fun p =>
      if p.phase = .running ∧ (st = .completed ∨ st = .cancelled) then some (.ended, p.msg) else none)
  | .fail pid _ _ _ => (s.proc? pid).bind (fun p =>
      if p.phase = .running then some (.failed, p.msg) else none)
  | .blocked pid _ => (s.proc? pid).bind (fun p =>
      if p.phase = .running then some (.blocked, p.msg) else none)
  | _ => none

def hstep (cfg : Cfg) (pol : Policy) (h : Hist) (op : HOp) : Hist :=
  match toOp pol h.s op with
  | none => h
  | some o => ⟨step cfg h.s o, (ending h.s op).toList ++ h.ends⟩

def hrun (cfg : Cfg) (pol : Policy) (h : Hist) (ops : List HOp) : Hist := ops.foldl (hstep cfg pol) h

theorem hrun_cons (cfg : Cfg) (pol : Policy) (h : Hist) (o : HOp) (ops : List HOp) :
    hrun cfg pol h (o :: ops) = hrun cfg pol (hstep cfg pol h o) ops := rfl

theorem hrun_append (cfg : Cfg) (pol : Policy) (h : Hist) (a b : List HOp) :
    hrun cfg pol h (a ++ b) = hrun cfg pol (hrun cfg pol h a) b := by
  simp [hrun]

/-- How many runs of `k` ended in a given way. -/
def count (x : Ending) (l : List (Ending × Msg)) (k : Key) : Nat :=
  l.countP (fun e => e.1 = x ∧ e.2.key = k)

/-- Every step on the way leaves `k` alone (`Undisturbed`). -/
def Alone (cfg : Cfg) (pol : Policy) (k : Key) : Hist → List HOp → Prop
  | _, [] => True
  | h, op :: ops => (match toOp pol h.s op with
      | none => True
      | some o => Undisturbed k h.s o) ∧ Alone cfg pol k (hstep cfg pol h op) ops

instance decAlone (cfg : Cfg) (pol : Policy) (k : Key) : ∀ h ops, Decidable (Alone cfg pol k h ops)
  | h, [] => by unfold Alone; infer_instance
  | h, op :: ops =>
    have := decAlone cfg pol k (hstep cfg pol h op) ops
    by
      unfold Alone
      cases toOp pol h.s op <;> infer_instance

/-- Nothing of `k` exists or is about to happen, and it was never run. -/
structure Unused (s : Sys) (k : Key) : Prop where
  record : s.r.runs k = none
  message : ¬ SomeMessage s k
  ttl : k ∉ s.ttlJobs
  jobs : s.clearJobs = []
  starts : starts s.log k = 0
  redeliveries : redeliveries s.log k = 0

/-- The attempts are not used up after `f` failures. -/
def Left (attempts : Option Nat) (f : Nat) : Prop := ∀ n, attempts = some n → f < max 1 n

/-- Entering the `Retry` dependency works for every attempt that can come. -/
def Sound (c : Settings) : Prop := ∀ f, Left c.attempts f → (enter c.backoff (f + 1)).isSome

/-- Same function and arguments. -/
def SameCall (a b : Request) : Prop := a.fn = b.fn ∧ a.args = b.args ∧ a.kwargs = b.kwargs

/-- What is true of an undisturbed key `k` scheduled once for `q`. -/
def RInv (pol : Policy) (h : Hist) (k : Key) (q : Request) : Prop :=
  WF h.s ∧
  let f := count .failed h.ends k
  let e := count .ended h.ends k
  let b := count .blocked h.ends k
  ((∃ m, Solo h.s k m (f + e + b) ∧ SameCall m.req q ∧ m.req.attempt = f + 1 ∧
      Left (pol q.fn).attempts f ∧ e = 0) ∨
   (Over h.s k (f + e + b) ∧ ((e = 1 ∧ Left (pol q.fn).attempts f) ∨
      (e = 0 ∧ ∃ n, (pol q.fn).attempts = some n ∧ f = max 1 n))))

theorem Over.step {cfg : Cfg} {s : Sys} {k : Key} {c : Nat} (hw : WF s) (h : Over s k c) (op : Op)
    (hu : Undisturbed k s op) : Over (step cfg s op) k c := by
  obtain ⟨l, hl⟩ := step_log cfg hw op
  have h0 : l.countP (isStart k) = 0 := by
    rw [List.countP_eq_zero]
    intro ev hev
    cases ev with
    | started pid id m t =>
      obtain ⟨p, hp, _, _, _, hm, _⟩ := started_step cfg hw op hl hev
      simp only [isStart, decide_eq_true_eq]
      intro hk
      exact h.none (Or.inr (Or.inr ⟨p, hp, hm ▸ hk⟩))
    | _ => simp [isStart]
  refine ⟨NoMsg.step hw h.none op ?_, ?_, ?_⟩
  · intro hs
    cases op <;> first | exact hs.elim | exact hu hs
  · rw [hl, starts, List.countP_append, h0, Nat.zero_add]; exact h.low
  · have := h.high
    simp only [starts, redeliveries] at this ⊢
    rw [hl, List.countP_append, List.countP_append, h0]
    omega

theorem ending_none_of_no_proc {s : Sys} {k : Key} (h : ∀ p ∈ s.procs, p.msg.key ≠ k) {op : HOp}
    {x : Ending × Msg} (hx : ending s op = some x) : x.2.key ≠ k := by
  have aux : ∀ {pid : Nat} {f : Proc → Option (Ending × Msg)},
      (∀ p y, f p = some y → y.2 = p.msg) → (s.proc? pid).bind f = some x → x.2.key ≠ k := by
    intro pid f hf hb
    obtain ⟨p, h1, h2⟩ := Option.bind_eq_some_iff.1 hb
    rw [hf p x h2]
    exact h p (find_pid h1).1
  cases op with
  | other op => simp [ending] at hx
  | add k q t => simp [ending] at hx
  | replace k q t => simp [ending] at hx
  | finish pid st w =>
    refine aux ?_ hx
    intro p y hy
    split at hy
    · cases hy; rfl
    · cases hy
  | fail pid d e w =>
    refine aux ?_ hx
    intro p y hy
    split at hy
    · cases hy; rfl
    · cases hy
  | blocked pid d =>
    refine aux ?_ hx
    intro p y hy
    split at hy
    · cases hy; rfl
    · cases hy

theorem count_other {x : Ending} {e : Option (Ending × Msg)} {l : List (Ending × Msg)} {k : Key}
    (h : ∀ y, e = some y → y.2.key ≠ k) : count x (e.toList ++ l) k = count x l k := by
  cases e with
  | none => rfl
  | some y => simp [count, h y rfl]

theorem count_cons {x : Ending} {y : Ending × Msg} {l : List (Ending × Msg)} {k : Key}
    (h : y.2.key = k) : count x (y :: l) k = count x l k + if y.1 = x then 1 else 0 := by
  simp [count, List.countP_cons, h]

end Docket.Retrying
