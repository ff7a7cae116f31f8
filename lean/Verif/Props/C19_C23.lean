import Verif.Core.Frame
import Verif.Core.Lease
/-
C19 get_result() returns the outcome of the latest run.
C20 A waiter is always told about completion.
C21 execution_ttl=0 leaves no trace.
C22 Progress counts every increment of the current run and is isolated between runs.
C23 Operations on one key do not affect another.
-/
namespace Docket
open Redis

/-! ### C23 -/

/-- C23.  In every reachable state, an operation about one task key leaves everything
that belongs to any other key exactly as it was: record, parked payload, schedule entry,
stream messages, leases, progress, stored result, executions held by workers and
announced state changes. -/
theorem C23_keys_are_isolated (cfg : Cfg) (ops : List Op) (op : Op) (k k' : Key)
    (hk : keyOf (run cfg ops) op = some k) (hne : k' ≠ k) :
    viewOf (step cfg (run cfg ops) op) k' = viewOf (run cfg ops) k' :=
  view_frame cfg (WF.run cfg ops) op hk hne

/-- Finishing one of two running tasks: the operation is about "a", and "b" has a
record, an execution, progress and a lease. -/
example : let s := run ⟨10, 3⟩ [.add "a" ⟨"f", "", "", 0, 1⟩ 0, .add "b" ⟨"f", "", "", 0, 1⟩ 0,
      .poll "w" 2, .claim 0, .claim 1]
    keyOf s (.finish 0 .completed none false) = some "a" ∧
    (viewOf s "b").executions.length = 1 ∧ (viewOf s "b").leases.length = 1 ∧
    (viewOf s "b").messages.length = 1 ∧ (viewOf s "b").progress.isSome ∧
    viewOf (step ⟨10, 3⟩ s (.finish 0 .completed none false)) "a" ≠ viewOf s "a" := by decide

/-! ### C19 -/

/-- What `get_result` gives. -/
inductive Outcome
  /-- not finished: the caller waits -/
  | pending
  /-- the stored value -/
  | value (data : String)
  /-- `None` -/
  | none_
  /-- raises the stored exception -/
  | raised (data : String)
  /-- raises a generic exception with this message -/
  | error (msg : String)
  /-- raises ExecutionCancelled -/
  | cancelled
  deriving DecidableEq, Repr

/-- What the result key of a record leads to: `if self.result_key:` (an empty key counts
as none) and `result_storage.get`, execution.py:1002-1009, 1018-1024. -/
def storedResult (s : Sys) (h : Run) : Option String :=
  match h.resultKey with
  | some rk => if rk = "" then none else (s.results rk).map (·.data)
  | none => none

/-- `Execution.get_result` after its `sync`, execution.py:932-1030 and 1032-1075.  A
missing record reads as SCHEDULED (1061-1068).  Timeouts are not modelled. -/
def getResult (s : Sys) (k : Key) : Outcome :=
  match s.r.runs k with
  | none => .pending
  | some h =>
    match h.state with
    | some .cancelled => .cancelled
    | some .failed =>
      match storedResult s h with
      | some d => .raised d
      | none => .error (h.error.getD "Task execution failed")
    | some .completed =>
      match storedResult s h with
      | some d => .value d
      | none => .none_
    | _ => .pending

/-- The execution `p` is running and is the current one for its key. -/
def Current (s : Sys) (p : Proc) : Prop :=
  p ∈ s.procs ∧ p.phase = .running ∧ NothingNewer s p.msg

instance (s : Sys) (p : Proc) : Decidable (Current s p) := by unfold Current; infer_instance

theorem NothingNewer.notSuperseded {s : Sys} {m : Msg} (h : NothingNewer s m) :
    isSuperseded s.r m.key m.gen = false := by
  obtain ⟨g, hg, h⟩ := h
  have : s.r.genOf m.key = some g := hg
  simp [isSuperseded, this, h]

theorem finish_current (cfg : Cfg) {s : Sys} (hw : WF s) {p : Proc} (hp : Current s p)
    (httl : 0 < cfg.ttl) (st : RunState) (hst : st.terminal = true) (e : Option String) (w : Bool) :
    let s' := step cfg s (.finish p.pid st e w)
    s'.r.runs p.msg.key = some (terminalRun cfg.ttl s.r p.msg.key st e
      (if w then some p.msg.key else none)) ∧ s'.results = s.results := by
  obtain ⟨h1, h2, h3⟩ := hp
  simp only [step, doFinish, proc?_of_mem hw h1, h2, hst]
  rw [luaTerminal_ok _ _ _ _ _ _ _ _ h3.notSuperseded]
  simp [httl, Sys.dropProc]

/-- C19.  In every reachable state with a positive `execution_ttl`, when the current
execution `p` of a key (not the empty string) ends:
* with a value that it has stored, `get_result` gives that value;
* with an exception that it has stored, `get_result` raises it;
* cancelled, `get_result` raises ExecutionCancelled;
* with `None`, and no earlier run under the key recorded a result, `get_result` gives
  `None`.
Partial: `None` after an earlier result, and a superseded run overwriting the stored
value, are `C19_violated_*`. -/
theorem C19_outcome_partial (cfg : Cfg) (ops : List Op) (p : Proc) (hp : Current (run cfg ops) p)
    (httl : 0 < cfg.ttl) (hkey : p.msg.key ≠ "") :
    let s := run cfg ops
    let k := p.msg.key
    (∀ v, s.results k = some v →
      getResult (step cfg s (.finish p.pid .completed none true)) k = .value v.data) ∧
    (∀ v e, s.results k = some v →
      getResult (step cfg s (.finish p.pid .failed (some e) true)) k = .raised v.data) ∧
    getResult (step cfg s (.finish p.pid .cancelled none false)) k = .cancelled ∧
    ((s.r.run k).resultKey = none →
      getResult (step cfg s (.finish p.pid .completed none false)) k = .none_) := by
  intro s k
  have hw : WF s := WF.run cfg ops
  refine ⟨?_, ?_, ?_, ?_⟩
  · intro v hv
    obtain ⟨h1, h2⟩ := finish_current cfg hw hp httl .completed rfl none true
    have h2' : (step cfg s (.finish p.pid .completed none true)).results k = some v := by
      rw [h2]; exact hv
    have h1' : (step cfg s (.finish p.pid .completed none true)).r.runs k = _ := h1
    simp only [getResult, h1', terminalRun, storedResult, if_true, Option.some_or]
    rw [if_neg hkey]
    have h3 : (step cfg s (.finish p.pid .completed none true)).results p.msg.key = some v := h2'
    rw [h3]; rfl
  · intro v e hv
    obtain ⟨h1, h2⟩ := finish_current cfg hw hp httl .failed rfl (some e) true
    have h1' : (step cfg s (.finish p.pid .failed (some e) true)).r.runs k = _ := h1
    have h3 : (step cfg s (.finish p.pid .failed (some e) true)).results p.msg.key = some v := by
      rw [h2]; exact hv
    simp only [getResult, h1', terminalRun, storedResult, if_true, Option.some_or]
    rw [if_neg hkey, h3]; rfl
  · obtain ⟨h1, h2⟩ := finish_current cfg hw hp httl .cancelled rfl none false
    have h1' : (step cfg s (.finish p.pid .cancelled none false)).r.runs k = _ := h1
    simp only [getResult, h1', terminalRun]
  · intro hrk
    obtain ⟨h1, h2⟩ := finish_current cfg hw hp httl .completed rfl none false
    have h1' : (step cfg s (.finish p.pid .completed none false)).r.runs k = _ := h1
    have hrk' : (s.r.run p.msg.key).resultKey = none := hrk
    simp [getResult, h1', terminalRun, storedResult, hrk']

/-- C19, from storing to reading: the value or exception a current run stores right
before it ends is the one `get_result` gives or raises. -/
theorem C19_stored_outcome (cfg : Cfg) (ops : List Op) (p : Proc) (hp : Current (run cfg ops) p)
    (httl : 0 < cfg.ttl) (hkey : p.msg.key ≠ "") (d : String) :
    getResult (runFrom cfg (run cfg ops) [.store p.pid d, .finish p.pid .completed none true])
      p.msg.key = .value d ∧
    ∀ e, getResult (runFrom cfg (run cfg ops) [.store p.pid d, .finish p.pid .failed (some e) true])
      p.msg.key = .raised d := by
  have hw := WF.run cfg ops
  have hst : step cfg (run cfg ops) (.store p.pid d) = { run cfg ops with
      results := upd (run cfg ops).results p.msg.key (some ⟨d, (run cfg ops).r.now + cfg.ttl⟩) } := by
    simp [step, doStore, proc?_of_mem hw hp.1, hp.2.1, httl]
  have hr : run cfg (ops ++ [.store p.pid d]) = step cfg (run cfg ops) (.store p.pid d) := by
    simp [run, runFrom_append]
  have hc : Current (run cfg (ops ++ [.store p.pid d])) p := by
    rw [hr, hst]; exact hp
  have hv : (run cfg (ops ++ [.store p.pid d])).results p.msg.key =
      some ⟨d, (run cfg ops).r.now + cfg.ttl⟩ := by
    rw [hr, hst]; simp
  obtain ⟨h1, h2, _⟩ := C19_outcome_partial cfg (ops ++ [.store p.pid d]) p hc httl hkey
  refine ⟨?_, fun e => ?_⟩
  · have := h1 _ hv
    rw [hr] at this; exact this
  · have := h2 _ e hv
    rw [hr] at this; exact this

/-- A current run that has stored its value. -/
example : let s := run ⟨10, 3⟩ [.add "k" ⟨"f", "a", "b", 0, 1⟩ 0, .poll "w" 1, .claim 0, .store 0 "42"]
    Current s ⟨0, "w", 1, ⟨"k", ⟨"f", "a", "b", 0, 1⟩, 1⟩, false, .running⟩ ∧
    s.results "k" = some ⟨"42", 10⟩ ∧ (s.r.run "k").resultKey = none := by decide

/-- The step is about another key, or is the clock, the scheduler (with nothing of `k`
in the schedule), or a worker taking or losing messages. -/
def LeavesAlone (k : Key) (s : Sys) (op : Op) : Prop :=
  (∃ k', keyOf s op = some k' ∧ k' ≠ k) ∨
  match op with
  | .tick _ | .poll _ _ | .redeliver _ _ | .forget _ | .renew _ _ | .crash _ | .clearRead => True
  | .schedule _ => ∀ t, (k, t) ∉ s.r.queue
  | _ => False

theorem leavesAlone_step (cfg : Cfg) {s : Sys} (hw : WF s) {k : Key} {op : Op}
    (h : LeavesAlone k s op) {T : Time} (hT : (step cfg s op).r.now < T) {v : Run} {d : Option Stored}
    (hv : s.r.runs k = some v) (hve : ∀ t, v.expireAt = some t → T ≤ t)
    (hd : s.results k = d) (hde : ∀ x, d = some x → T ≤ x.expireAt) :
    (step cfg s op).r.runs k = some v ∧ (step cfg s op).results k = d := by
  rcases h with ⟨k', hk', hne⟩ | h
  · have := view_frame cfg hw op hk' (Ne.symm hne)
    have h1 : (step cfg s op).r.runs k = s.r.runs k := congrArg View.record this
    have h2 : (step cfg s op).results k = s.results k := congrArg View.result this
    exact ⟨h1.trans hv, h2.trans hd⟩
  · cases op with
    | tick n =>
      simp only [step, advance] at hT ⊢
      constructor
      · rw [hv]
        rcases Option.eq_none_or_eq_some v.expireAt with hx | ⟨t, hx⟩
        · simp [Option.filter, hx]
        · have := hve t hx
          have h2 : s.r.now + n < t := by omega
          simp [Option.filter, hx, h2]
      · rw [hd]
        cases d with
        | none => rfl
        | some x =>
          have := hde x rfl
          simp only [Option.filter, decide_eq_true_eq]
          rw [if_pos (by omega)]
    | schedule t =>
      have he := step_eff cfg s hw.queue (.schedule t)
      generalize step cfg s (.schedule t) = s' at he
      cases he with
      | nop => exact ⟨hv, hd⟩
      | schedule _ _ =>
        refine ⟨?_, hd⟩
        have : k ∉ dueKeys s.r t := by
          simp only [dueKeys, List.mem_map, List.mem_filter]
          rintro ⟨⟨a, b⟩, ⟨h1, _⟩, rfl⟩
          exact h b h1
        simp only [if_neg this]
        exact hv
      | clear _ _ _ h => rcases h with ⟨h, _⟩ | ⟨h, _⟩ <;> cases h
      | prog _ _ _ h => rcases h with ⟨_, h, _⟩ | ⟨_, h, _⟩ | ⟨_, h, _⟩ <;> cases h
    | poll w n =>
      simp only [step, doPoll, handOut_eq]
      exact ⟨hv, hd⟩
    | redeliver w id =>
      have he := step_eff cfg s hw.queue (.redeliver w id)
      generalize step cfg s (.redeliver w id) = s' at he
      cases he with
      | clear _ _ _ h => rcases h with ⟨h, _⟩ | ⟨h, _⟩ <;> cases h
      | prog _ _ _ h => rcases h with ⟨_, h, _⟩ | ⟨_, h, _⟩ | ⟨_, h, _⟩ <;> cases h
      | _ => exact ⟨hv, hd⟩
    | forget id =>
      simp only [step, doForget]
      split <;> exact ⟨hv, hd⟩
    | renew w id =>
      simp only [step, doRenew]
      split <;> exact ⟨hv, hd⟩
    | crash w => exact ⟨hv, hd⟩
    | clearRead => exact ⟨hv, hd⟩
    | _ => exact absurd h id

theorem now_mono (cfg : Cfg) {s : Sys} (hw : WF s) (op : Op) : s.r.now ≤ (step cfg s op).r.now := by
  have he := step_eff cfg s hw.queue op
  generalize step cfg s op = s' at he
  cases he <;> simp [advance]

theorem now_runFrom (cfg : Cfg) (ops : List Op) : ∀ {s : Sys}, WF s →
    s.r.now ≤ (runFrom cfg s ops).r.now := by
  induction ops with
  | nil => intro s _; exact Nat.le_refl _
  | cons o ops ih =>
    intro s hw
    exact Nat.le_trans (now_mono cfg hw o) (ih (hw.step o))

/-- C19, lasting: along every continuation that leaves `k` alone, and until the record
and the stored result expire, `get_result` keeps giving the same answer. -/
theorem C19_outcome_lasts (cfg : Cfg) (ops cont : List Op) (k : Key) (v : Run)
    (hv : (run cfg ops).r.runs k = some v) (hrk : v.resultKey = none ∨ v.resultKey = some k)
    (hcont : EachStep cfg (LeavesAlone k) (run cfg ops) cont)
    (hve : ∀ t, v.expireAt = some t → (runFrom cfg (run cfg ops) cont).r.now < t)
    (hde : ∀ x, (run cfg ops).results k = some x →
      (runFrom cfg (run cfg ops) cont).r.now < x.expireAt) :
    getResult (runFrom cfg (run cfg ops) cont) k = getResult (run cfg ops) k := by
  have hw := WF.run cfg ops
  generalize hs : run cfg ops = s at *
  have main : ∀ (cont : List Op) (s1 : Sys), WF s1 → s1.r.runs k = some v →
      s1.results k = s.results k → EachStep cfg (LeavesAlone k) s1 cont →
      (∀ t, v.expireAt = some t → (runFrom cfg s1 cont).r.now < t) →
      (∀ x, s.results k = some x → (runFrom cfg s1 cont).r.now < x.expireAt) →
      (runFrom cfg s1 cont).r.runs k = some v ∧ (runFrom cfg s1 cont).results k = s.results k := by
    intro cont
    induction cont with
    | nil => intro s1 _ h1 h2 _ _ _; exact ⟨h1, h2⟩
    | cons o cont ih =>
      intro s1 hw1 h1 h2 hc h3 h4
      have hmono := now_runFrom cfg cont (hw1.step (cfg := cfg) o)
      obtain ⟨h5, h6⟩ := leavesAlone_step cfg hw1 hc.1
        (T := (runFrom cfg s1 (o :: cont)).r.now + 1) (by simp only [runFrom_cons]; omega) h1
        (fun t ht => h3 t ht) h2 (fun x hx => h4 x hx)
      exact ih _ (hw1.step o) h5 h6 hc.2 h3 h4
  obtain ⟨h1, h2⟩ := main cont s hw hv rfl hcont hve hde
  simp only [getResult, h1, hv]
  have : storedResult (runFrom cfg s cont) v = storedResult s v := by
    simp only [storedResult]
    rcases hrk with h | h
    · simp [h]
    · simp only [h, h2]
  rw [this]

/-- The answer of C19 survives other tasks being scheduled, run and retried. -/
example : EachStep ⟨10, 3⟩ (LeavesAlone "k")
    (run ⟨10, 3⟩ [.add "k" ⟨"f", "a", "b", 0, 1⟩ 0, .poll "w" 1, .claim 0, .store 0 "42",
      .finish 0 .completed none true])
    [.add "j" ⟨"f", "", "", 2, 1⟩ 0, .tick 9, .schedule 9, .poll "w" 1, .claim 1,
     .finish 1 .failed none false] := by
  refine ⟨?_, ?_, ?_, ?_, ?_, ?_, trivial⟩
  · exact Or.inl ⟨"j", rfl, by decide⟩
  · exact Or.inr trivial
  · exact Or.inr (by
      have : (runFrom ⟨10, 3⟩ (run ⟨10, 3⟩ [.add "k" ⟨"f", "a", "b", 0, 1⟩ 0, .poll "w" 1, .claim 0,
          .store 0 "42", .finish 0 .completed none true])
          [.add "j" ⟨"f", "", "", 2, 1⟩ 0, .tick 9]).r.queue = [("j", 2)] := by decide
      intro t ht
      simp only [runFrom_cons, runFrom_nil] at this
      rw [this] at ht
      simp at ht)
  · exact Or.inr trivial
  · exact Or.inl ⟨"j", by decide, by decide⟩
  · exact Or.inl ⟨"j", by decide, by decide⟩

/-- The claim about `None`, in full. -/
def C19_none_statement : Prop := ∀ (cfg : Cfg) (ops : List Op) (p : Proc),
  Current (run cfg ops) p → 0 < cfg.ttl →
    getResult (step cfg (run cfg ops) (.finish p.pid .completed none false)) p.msg.key = .none_

/-- The code violates it: `_terminal` does not clear a `result_key` left by an earlier
run (execution.py:369-375, 848-852), so a run that returns `None` within the ttl
of an earlier run that returned a value appears to have returned that old value. -/
theorem C19_violated_stale_value : ¬ C19_none_statement := by
  intro h
  have := h ⟨10, 3⟩ [.add "k" ⟨"f", "a", "b", 0, 1⟩ 0, .poll "w" 1, .claim 0, .store 0 "old",
    .finish 0 .completed none true, .add "k" ⟨"f", "a", "b", 0, 1⟩ 0, .poll "w" 1, .claim 1]
    ⟨1, "w", 2, ⟨"k", ⟨"f", "a", "b", 0, 1⟩, 2⟩, false, .running⟩ (by decide) (by decide)
  revert this
  decide

/-- The claim about values, in full: the value the current run stored is what
`get_result` gives after that run completes, whatever other executions do in between. -/
def C19_value_statement : Prop := ∀ (cfg : Cfg) (ops between : List Op) (p : Proc) (d : String),
  let s := runFrom cfg (run cfg ops) (.store p.pid d :: between)
  Current (run cfg ops) p → Current s p → 0 < cfg.ttl →
  (∀ op ∈ between, ∀ n, op ≠ .tick n) → (∀ op ∈ between, ∀ d', op ≠ .store p.pid d') →
    getResult (step cfg s (.finish p.pid .completed none true)) p.msg.key = .value d

/-- The code violates it: a superseded run stores its result under the same key before
it learns that it was superseded (worker.py:1136-1148). -/
theorem C19_violated_overwritten : ¬ C19_value_statement := by
  intro h
  have := h ⟨10, 3⟩ [.add "k" ⟨"f", "a", "b", 0, 1⟩ 0, .poll "w" 1, .claim 0,
    .replace "k" ⟨"f", "c", "b", 0, 1⟩ 0, .poll "w" 1, .claim 1] [.store 0 "old"]
    ⟨1, "w", 2, ⟨"k", ⟨"f", "c", "b", 0, 1⟩, 2⟩, false, .running⟩ "new"
    (by decide) (by decide) (by decide) (by simp) (by simp)
  revert this
  decide

/-! ### C20 -/

/-- State changes announced between two states. -/
def newAnnounced (s s' : Sys) : List Published :=
  s'.r.published.take (s'.r.published.length - s.r.published.length)

def isTerminal : Option RunState → Bool
  | some st => st.terminal
  | none => false

/-- `subscribe`/`get_result`, execution.py:1097-1161, 986-995: the waiter reads the record
in `s1`; its subscription becomes live in `s2`; it then sees everything announced for its
key until `s3`.  It is told if one of these shows a terminal state. -/
def told (k : Key) (s1 s2 s3 : Sys) : Bool :=
  isTerminal (s1.r.stateOf k) ||
    (newAnnounced s2 s3).any (fun x => x.key = k ∧ x.state.terminal)

theorem announced_step (cfg : Cfg) {s : Sys} (hw : WF s) (op : Op) :
    ∃ l, (step cfg s op).r.published = l ++ s.r.published ∧
      ∀ pid id m st c, Event.finished pid id m st c ∈ newEvents s (step cfg s op) →
        (⟨m.key, st⟩ : Published) ∈ l ∧ st.terminal = true := by
  have he := step_eff cfg s hw.queue op
  have hspec := newEvents_spec cfg hw [op]
  simp only [runFrom_cons, runFrom_nil] at hspec
  generalize step cfg s op = s' at he hspec
  have hone : ∀ {ev : Event}, ev :: s.log = newEvents s s' ++ s.log → newEvents s s' = [ev] :=
    fun h => (List.append_cancel_right (as := [_]) (by simpa using h)).symm
  have hnone : s.log = newEvents s s' ++ s.log → newEvents s s' = [] := by
    intro h
    simpa using congrArg List.length h
  cases he with
  | finish p st e w hp hph hs | finishSuperseded p st e w hp hph hs =>
    refine ⟨[⟨p.msg.key, st⟩], rfl, ?_⟩
    intro pid id m st' c hm
    rw [hone hspec, List.mem_singleton] at hm
    simp only [Event.finished.injEq] at hm
    obtain ⟨_, _, rfl, rfl, _⟩ := hm
    refine ⟨by simp, ?_⟩
    rcases hph with ⟨_, h⟩ | ⟨_, rfl⟩
    · exact h
    · rfl
  | poll w n new hnew =>
    refine ⟨[], rfl, ?_⟩
    intro pid id m st' c hm
    have h1 := List.append_cancel_right hspec
    rw [← h1, List.mem_reverse] at hm
    obtain ⟨_, _, h4, _⟩ := mem_newHanded hm
    cases h4
  | _ => first
    | (refine ⟨[], rfl, ?_⟩
       intro pid id m st' c hm
       first
         | (rw [hnone hspec] at hm; cases hm; done)
         | (rw [hone hspec, List.mem_singleton] at hm; cases hm; done))
    | (refine ⟨[_], rfl, ?_⟩
       intro pid id m st' c hm
       first
         | (rw [hnone hspec] at hm; cases hm; done)
         | (rw [hone hspec, List.mem_singleton] at hm; cases hm; done))
    | (refine ⟨_, rfl, ?_⟩
       intro pid id m st' c hm
       first
         | (rw [hnone hspec] at hm; cases hm; done)
         | (rw [hone hspec, List.mem_singleton] at hm; cases hm; done))

theorem announced_runFrom (cfg : Cfg) (ops : List Op) : ∀ {s : Sys}, WF s →
    ∃ l, (runFrom cfg s ops).r.published = l ++ s.r.published ∧
      ∀ pid id m st c, Event.finished pid id m st c ∈ newEvents s (runFrom cfg s ops) →
        (⟨m.key, st⟩ : Published) ∈ l ∧ st.terminal = true := by
  induction ops with
  | nil => intro s _; exact ⟨[], rfl, by simp [newEvents]⟩
  | cons o ops ih =>
    intro s hw
    obtain ⟨l1, h1, h2⟩ := announced_step cfg hw o
    obtain ⟨l2, h3, h4⟩ := ih (hw.step (cfg := cfg) o)
    refine ⟨l2 ++ l1, by rw [runFrom_cons, h3, h1, List.append_assoc], ?_⟩
    intro pid id m st c hm
    have hsplit := newEvents_append cfg hw [o] ops
    rw [List.singleton_append] at hsplit
    rw [hsplit, List.mem_append] at hm
    rcases hm with hm | hm
    · obtain ⟨h5, h6⟩ := h4 pid id m st c hm
      exact ⟨List.mem_append.2 (Or.inl h5), h6⟩
    · obtain ⟨h5, h6⟩ := h2 pid id m st c hm
      exact ⟨List.mem_append.2 (Or.inr h5), h6⟩

/-- C20.  In every history: a waiter that reads the record when it is already terminal is
told, and so is a waiter whose subscription is live before the execution ends, however
the execution ends and whether or not it was superseded.  Partial: see the three
`C20_violated_*`. -/
theorem C20_told_partial (cfg : Cfg) (ops gap after : List Op) (k : Key) :
    let s1 := run cfg ops
    let s2 := runFrom cfg s1 gap
    let s3 := runFrom cfg s2 after
    (isTerminal (s1.r.stateOf k) ∨
      ∃ pid id m st c, Event.finished pid id m st c ∈ newEvents s2 s3 ∧ m.key = k) →
    told k s1 s2 s3 = true := by
  intro s1 s2 s3 h
  simp only [told, Bool.or_eq_true]
  rcases h with h | ⟨pid, id, m, st, c, h, rfl⟩
  · exact Or.inl h
  · right
    have hw2 : WF s2 := (WF.run cfg ops).runFrom gap
    obtain ⟨l, h1, h2⟩ := announced_runFrom cfg after hw2
    obtain ⟨h3, h4⟩ := h2 pid id m st c h
    have hl : newAnnounced s2 s3 = l := by
      simp only [newAnnounced, s3, h1]
      simp
    rw [hl, List.any_eq_true]
    exact ⟨_, h3, by simp [h4]⟩

/-- Both ways of being told occur. -/
example : told "k" (run ⟨10, 3⟩ [.add "k" ⟨"f", "a", "b", 0, 1⟩ 0, .poll "w" 1, .claim 0])
      (run ⟨10, 3⟩ [.add "k" ⟨"f", "a", "b", 0, 1⟩ 0, .poll "w" 1, .claim 0])
      (run ⟨10, 3⟩ [.add "k" ⟨"f", "a", "b", 0, 1⟩ 0, .poll "w" 1, .claim 0,
        .finish 0 .failed none false]) = true := by decide

/-- The full claim: once the key's task has ended or been cancelled (at any time after
it was accepted), the waiter is told. -/
def C20_statement : Prop := ∀ (cfg : Cfg) (ops gap after : List Op) (k : Key),
  let s1 := run cfg ops
  let s2 := runFrom cfg s1 gap
  let s3 := runFrom cfg s2 after
  ((∃ pid id m st, Event.finished pid id m st true ∈ s3.log ∧ m.key = k) ∨
    Event.cancelled k ∈ s3.log) →
  (∃ m, m.key = k ∧ Event.accepted m ∈ s1.log) → told k s1 s2 s3 = true

/-- The code violates it when the task ends between the waiter's read and its
subscription: nothing is read again after subscribing. -/
theorem C20_violated_gap : ¬ C20_statement := by
  intro h
  have := h ⟨10, 3⟩ [.add "k" ⟨"f", "a", "b", 0, 1⟩ 0, .poll "w" 1, .claim 0]
    [.finish 0 .completed none false] [.tick 5] "k"
    (Or.inl ⟨0, 1, ⟨"k", ⟨"f", "a", "b", 0, 1⟩, 1⟩, .completed, by decide, rfl⟩)
    ⟨⟨"k", ⟨"f", "a", "b", 0, 1⟩, 1⟩, rfl, by decide⟩
  revert this
  decide

/-- The code violates it when a waiting task is cancelled: `_cancel_task` announces
nothing (docket.py:66-118). -/
theorem C20_violated_cancel : ¬ C20_statement := by
  intro h
  have := h ⟨10, 3⟩ [.add "k" ⟨"f", "a", "b", 7, 1⟩ 0] [] [.cancel "k", .cancelTtl "k"] "k"
    (Or.inr (by decide)) ⟨⟨"k", ⟨"f", "a", "b", 7, 1⟩, 1⟩, rfl, by decide⟩
  revert this
  decide

/-- The code violates it with `execution_ttl=0`: the record is gone, which reads as
scheduled (execution.py:1061-1068). -/
theorem C20_violated_ttl_zero : ¬ C20_statement := by
  intro h
  have := h ⟨0, 3⟩ [.add "k" ⟨"f", "a", "b", 0, 1⟩ 0, .poll "w" 1, .claim 0,
    .finish 0 .completed none false] [] [] "k"
    (Or.inl ⟨0, 1, ⟨"k", ⟨"f", "a", "b", 0, 1⟩, 1⟩, .completed, by decide, rfl⟩)
    ⟨⟨"k", ⟨"f", "a", "b", 0, 1⟩, 1⟩, rfl, by decide⟩
  revert this
  decide

/-! ### C21 -/

theorem no_results (cfg : Cfg) (h0 : cfg.ttl = 0) (ops : List Op) : ∀ {s : Sys}, WF s →
    (∀ k, s.results k = none) → ∀ k, (runFrom cfg s ops).results k = none := by
  induction ops with
  | nil => intro s _ h; exact h
  | cons o ops ih =>
    intro s hw h
    refine ih (hw.step o) ?_
    have he := step_eff cfg s hw.queue o
    generalize step cfg s o = s' at he
    intro k
    cases he with
    | tick d => simp [h k]
    | store p data hp hph httl => omega
    | _ => exact h k

/-- C21, completion.  With `execution_ttl=0`, in every reachable state: when the current
execution `p` ends (completed, failed or cancelled), no record and no progress of its key
remain, its message is neither in the stream nor pending, and no result is stored, not
even if the task tried to store one. -/
theorem C21_no_trace_after_end (cfg : Cfg) (ops : List Op) (p : Proc) (st : RunState)
    (e : Option String) (w : Bool) (h0 : cfg.ttl = 0) (hp : Current (run cfg ops) p)
    (hst : st.terminal = true) :
    let s' := step cfg (run cfg ops) (.finish p.pid st e w)
    s'.r.runs p.msg.key = none ∧ s'.r.progress p.msg.key = none ∧
    (∀ x ∈ s'.r.stream, x.1 ≠ p.id) ∧ (∀ x ∈ s'.r.pending, x.id ≠ p.id) ∧
    s'.results p.msg.key = none := by
  intro s'
  have hw := WF.run cfg ops
  have hres := no_results cfg h0 ops WF.init (fun _ => rfl) p.msg.key
  obtain ⟨h1, h2, h3⟩ := hp
  simp only [s', step, doFinish, proc?_of_mem hw h1, h2, hst]
  rw [luaTerminal_ok _ _ _ _ _ _ _ _ h3.notSuperseded]
  refine ⟨by simp [h0], by simp, ?_, ?_, hres⟩
  · intro x hx
    simpa using (List.mem_filter.1 hx).2
  · intro x hx
    simpa using (List.mem_filter.1 hx).2

/-- C21, cancellation.  With `execution_ttl=0`, in every reachable state: after
`cancel(k)` and its second round trip, no record, no progress, no schedule entry and no
stored result of `k` remain, and the stream keeps no message of `k` that the record
named.  Partial: a message the scheduler moved to the stream stays
(`C21_violated_cancel`). -/
theorem C21_no_trace_after_cancel_partial (cfg : Cfg) (ops : List Op) (k : Key) (h0 : cfg.ttl = 0) :
    let s := run cfg ops
    let s' := runFrom cfg s [.cancel k, .cancelTtl k]
    s'.r.runs k = none ∧ s'.r.progress k = none ∧ s'.r.parked k = none ∧
    (∀ t, (k, t) ∉ s'.r.queue) ∧ s'.results k = none ∧
    (∀ id, s.r.streamIdOf k = some id → ∀ x ∈ s'.r.stream, x.1 ≠ id) := by
  intro s s'
  have hres : s.results k = none := no_results cfg h0 ops WF.init (fun _ => rfl) k
  have hs' : s' = { s with
      r := expireRun cfg.ttl (luaCancel s.r k) k
      ttlJobs := (k :: s.ttlJobs).erase k
      log := .cancelled k :: s.log } := by
    simp only [s', runFrom_cons, runFrom_nil, step, doCancel, doCancelTtl]
    rw [if_pos (by simp)]
  rw [hs', expireRun_eq, luaCancel_eq]
  refine ⟨by simp [expiredRun, h0], by simp, by simp, ?_, hres, ?_⟩
  · intro t ht
    have := (List.mem_filter.1 ht).2
    simp at this
  · intro id hid x hx
    simp only [dropOwn, hid, List.mem_filter, decide_eq_true_eq] at hx
    exact hx.2

/-- The full claim for cancellation. -/
def C21_cancel_statement : Prop := ∀ (cfg : Cfg) (ops : List Op) (k : Key), cfg.ttl = 0 →
  (∀ p ∈ (run cfg ops).procs, p.msg.key ≠ k) →
  ∀ x ∈ (runFrom cfg (run cfg ops) [.cancel k, .cancelTtl k]).r.stream, x.2.key ≠ k

/-- The code violates it for a task that the scheduler has moved to the stream. -/
theorem C21_violated_cancel : ¬ C21_cancel_statement := by
  intro h
  exact h ⟨0, 3⟩ [.add "k" ⟨"f", "a", "b", 5, 1⟩ 0, .tick 5, .schedule 5] "k" rfl (by decide)
    (1, ⟨"k", ⟨"f", "a", "b", 5, 1⟩, 1⟩) (by decide) rfl

/-- A current execution on a docket with `execution_ttl=0`, with progress. -/
example : let s := run ⟨0, 3⟩ [.add "k" ⟨"f", "a", "b", 0, 1⟩ 0, .poll "w" 1, .claim 0, .store 0 "42",
      .increment "k" 3]
    Current s ⟨0, "w", 1, ⟨"k", ⟨"f", "a", "b", 0, 1⟩, 1⟩, false, .running⟩ ∧
    (s.r.runs "k").isSome ∧ (s.r.progress "k").isSome := by decide

/-! ### C22 -/

/-- The sum of the accepted increments of `k` among the operations. -/
def increments (k : Key) : List Op → Nat
  | [] => 0
  | .increment k' n :: ops => (if k' = k ∧ 1 ≤ n then n.toNat else 0) + increments k ops
  | _ :: ops => increments k ops

/-- The event ends the life of the progress that a run of `k` with generation `g`
reports: a run of `k` starts, `k` is cancelled, the current execution of `k` ends, or a
superseded one that is not older than `g` ends. -/
def EndsProgress (k : Key) (g : Gen) : Event → Prop
  | .started _ _ m _ => m.key = k
  | .cancelled k' => k' = k
  | .finished _ _ m _ current => m.key = k ∧ (current = true ∨ g ≤ m.gen)
  | _ => False

instance (k : Key) (g : Gen) (e : Event) : Decidable (EndsProgress k g e) := by
  cases e <;> simp only [EndsProgress] <;> infer_instance

theorem progress_step (cfg : Cfg) {s : Sys} (hw : WF s)
    (op : Op) {k : Key} {g : Gen} {q : Prog} {c : Nat}
    (hq : s.r.progress k = some q) (hg : q.gen = some g) (hc : q.current = some c)
    (hno : ∀ e ∈ newEvents s (step cfg s op), ¬ EndsProgress k g e) :
    ∃ q', (step cfg s op).r.progress k = some q' ∧ q'.gen = some g ∧
      q'.current = some (c + increments k [op]) := by
  by_cases hop : ∃ k' n, op = .increment k' n
  · obtain ⟨k', n, rfl⟩ := hop
    simp only [step, doIncrement, increments]
    by_cases hn : n < 1
    · have : ¬ (1 ≤ n) := by omega
      simp only [hn, this, if_true, and_false, if_false]
      exact ⟨q, hq, hg, hc⟩
    · have hn' : 1 ≤ n := by omega
      simp only [hn, hn', if_false, and_true, hsetProg]
      by_cases hk : k' = k
      · subst hk
        refine ⟨_, upd_same _ _ _, ?_, ?_⟩
        · simp [hq, hg]
        · simp [hq, hc]
      · refine ⟨q, (upd_other _ _ _ _ (Ne.symm hk)).trans hq, hg, ?_⟩
        simp [hk, hc]
  · have hinc : increments k [op] = 0 := by
      cases op <;> first | rfl | exact absurd ⟨_, _, rfl⟩ hop
    rw [hinc, Nat.add_zero]
    have he := step_eff cfg s hw.queue op
    have hspec := newEvents_spec cfg hw [op]
    simp only [runFrom_cons, runFrom_nil] at hspec
    generalize step cfg s op = s' at he hspec hno
    have hone : ∀ {ev : Event}, ev :: s.log = newEvents s s' ++ s.log → newEvents s s' = [ev] :=
      fun h => (List.append_cancel_right (as := [_]) (by simpa using h)).symm
    cases he with
    | cancel k' =>
      by_cases hk : k' = k
      · exact absurd hk (hno (.cancelled k') (by rw [hone hspec]; simp))
      · exact ⟨q, (upd_other _ _ _ _ (Ne.symm hk)).trans hq, hg, hc⟩
    | claim p hp hph hs =>
      by_cases hk : p.msg.key = k
      · exact absurd hk (hno (.started p.pid p.id p.msg s.r.now) (by rw [hone hspec]; simp))
      · exact ⟨q, (upd_other _ _ _ _ (Ne.symm hk)).trans hq, hg, hc⟩
    | finish p st e w hp hph hs =>
      by_cases hk : p.msg.key = k
      · exact absurd ⟨hk, Or.inl rfl⟩
          (hno (.finished p.pid p.id p.msg st true) (by rw [hone hspec]; simp))
      · exact ⟨q, (upd_other _ _ _ _ (Ne.symm hk)).trans hq, hg, hc⟩
    | finishSuperseded p st e w hp hph hs =>
      refine ⟨q, ?_, hg, hc⟩
      by_cases hk : p.msg.key = k
      · have hlt : ¬ g ≤ p.msg.gen := fun hle => hno (.finished p.pid p.id p.msg st false)
          (by rw [hone hspec]; simp) ⟨hk, Or.inr hle⟩
        subst hk
        simp [supersededProgress, hq, hg, hlt]
      · simp only [supersededProgress]
        have := (upd_other s.r.progress p.msg.key k none (Ne.symm hk)).trans hq
        cases (s.r.progress p.msg.key).bind (·.gen) with
        | none => exact this
        | some pg => by_cases hle : pg ≤ p.msg.gen <;> simp [hle, this, hq]
    | prog op k' f h =>
      by_cases hk : k' = k
      · subst hk
        refine ⟨_, upd_same _ _ _, ?_⟩
        rcases h with ⟨n, h, h'⟩ | ⟨n, h, h'⟩ | ⟨n, h, h'⟩
        · exact absurd ⟨_, _, h⟩ hop
        · rw [h'.2]; simp [hq, hg, hc]
        · rw [h']; simp [hq, hg, hc]
      · exact ⟨q, (upd_other _ _ _ _ (Ne.symm hk)).trans hq, hg, hc⟩
    | _ => exact ⟨q, hq, hg, hc⟩

theorem increments_append (k : Key) (a b : List Op) :
    increments k (a ++ b) = increments k a + increments k b := by
  induction a with
  | nil => simp [increments]
  | cons o a ih => cases o <;> simp [increments, ih, Nat.add_assoc]

/-- C22.  In every reachable state, when the execution `p` starts, the progress of its
key is 0 of 100; and after every continuation in which that run's progress is not ended
(no other run of the key starts, no cancel, and only superseded older runs of the key
end), it is exactly the sum of the increments since it started, whoever made them and
whatever else was done meanwhile. -/
theorem C22_progress_counts (cfg : Cfg) (ops cont : List Op) (p : Proc)
    (hp : p ∈ (run cfg ops).procs) (hph : p.phase = .handed)
    (hnew : NothingNewer (run cfg ops) p.msg) :
    let s := step cfg (run cfg ops) (.claim p.pid)
    (s.r.progress p.msg.key).map (fun q => (q.current, q.total)) = some (some 0, some 100) ∧
    ((∀ e ∈ newEvents s (runFrom cfg s cont), ¬ EndsProgress p.msg.key p.msg.gen e) →
      ((runFrom cfg s cont).r.progress p.msg.key).bind (·.current) =
        some (increments p.msg.key cont)) := by
  intro s
  have hw := WF.run cfg ops
  have hs := hnew.notSuperseded
  have h0 : s.r.progress p.msg.key =
      some { current := some 0, total := some 100, gen := some p.msg.gen } := by
    simp only [s, step, doClaim, proc?_of_mem hw hp, hph]
    rw [luaClaim_ok _ _ _ _ _ hs]
    simp
  refine ⟨by rw [h0]; rfl, ?_⟩
  have main : ∀ (cont : List Op) (s1 : Sys) (q : Prog) (c : Nat), WF s1 →
      s1.r.progress p.msg.key = some q → q.gen = some p.msg.gen → q.current = some c →
      (∀ e ∈ newEvents s1 (runFrom cfg s1 cont), ¬ EndsProgress p.msg.key p.msg.gen e) →
      ((runFrom cfg s1 cont).r.progress p.msg.key).bind (·.current) =
        some (c + increments p.msg.key cont) := by
    intro cont
    induction cont with
    | nil => intro s1 q c _ h1 _ h3 _; simp [h1, h3, increments]
    | cons o cont ih =>
      intro s1 q c hw1 h1 h2 h3 h4
      have hsplit := newEvents_append cfg hw1 [o] cont
      rw [List.singleton_append] at hsplit
      obtain ⟨q', h5, h6, h7⟩ := progress_step cfg hw1 o h1 h2 h3
        (fun e he => h4 e (by rw [hsplit]; exact List.mem_append.2 (Or.inr he)))
      have := ih (step cfg s1 o) q' _ (hw1.step o) h5 h6 h7
        (fun e he => h4 e (by rw [hsplit]; exact List.mem_append.2 (Or.inl he)))
      rw [runFrom_cons, this, show o :: cont = [o] ++ cont from rfl, increments_append,
        Nat.add_assoc]
  intro hno
  have := main cont s _ 0 (hw.step _) h0 rfl rfl hno
  rw [this, Nat.zero_add]

/-- C22, refusal: a non-positive increment or total is refused and changes nothing, and
a positive one is accepted. -/
theorem C22_non_positive_refused (s : Sys) (k : Key) (n : Int) :
    (n ≤ 0 → doIncrement s k n = (s, false) ∧ doSetTotal s k n = (s, false)) ∧
    (1 ≤ n → (doIncrement s k n).2 = true ∧ (doSetTotal s k n).2 = true ∧
      ((doSetTotal s k n).1.r.progress k).bind (·.total) = some n.toNat) := by
  refine ⟨fun hn => ?_, fun hn => ?_⟩
  · have : n < 1 := by omega
    simp [doIncrement, doSetTotal, this]
  · have : ¬ n < 1 := by omega
    simp [doIncrement, doSetTotal, this, hsetProg]

theorem finish_cases (cfg : Cfg) {s : Sys} (hw : WF s) {p : Proc} (hp : p ∈ s.procs) (st : RunState)
    (e : Option String) (w : Bool) :
    (step cfg s (.finish p.pid st e w)).r.progress p.msg.key = s.r.progress p.msg.key ∧
      (p.phase = .running → st.terminal = true → False) ∨
    (isSuperseded s.r p.msg.key p.msg.gen = false ∧
      (step cfg s (.finish p.pid st e w)).r.progress p.msg.key = none) ∨
    (isSuperseded s.r p.msg.key p.msg.gen = true ∧
      (step cfg s (.finish p.pid st e w)).r.progress p.msg.key =
        match (s.r.progress p.msg.key).bind (·.gen) with
        | some pg => if pg ≤ p.msg.gen then none else s.r.progress p.msg.key
        | none => none) := by
  simp only [step, doFinish, proc?_of_mem hw hp]
  split
  · cases hs : isSuperseded s.r p.msg.key p.msg.gen with
    | false => right; left; simp [luaTerminal, hs, xack, xdel, delProg]
    | true =>
      right; right
      refine ⟨rfl, ?_⟩
      simp only [luaTerminal, hs, if_true, xack, xdel, delProg, publish]
      cases (s.r.progress p.msg.key).bind (·.gen) with
      | none => simp
      | some pg => by_cases hpg : pg ≤ p.msg.gen <;> simp [hpg]
  · rename_i h
    exact Or.inl ⟨rfl, fun h1 h2 => h (Or.inl ⟨h1, h2⟩)⟩

/-- C22, isolation: in every reachable state, a superseded run (a newer scheduling of its
key is recorded, or the record is gone) that ends does not remove the progress that a
newer run has reported. -/
theorem C22_superseded_end_keeps_newer_progress (cfg : Cfg) (ops : List Op) (p : Proc) (st : RunState)
    (e : Option String) (w : Bool) (q : Prog) (g : Gen)
    (hq : (run cfg ops).r.progress p.msg.key = some q) (hg : q.gen = some g)
    (hlt : p.msg.gen < g) (hp : p ∈ (run cfg ops).procs)
    (hs : ¬ NothingNewer (run cfg ops) p.msg) :
    (step cfg (run cfg ops) (.finish p.pid st e w)).r.progress p.msg.key = some q := by
  have hw := WF.run cfg ops
  rcases finish_cases cfg hw hp st e w with ⟨h, _⟩ | ⟨h, _⟩ | ⟨_, h⟩
  · rw [h, hq]
  · exfalso
    apply hs
    have hor := OriginInv.run cfg ops
    have hpos := hor.pos _ (hor.procs p hp)
    simp only [isSuperseded, Bool.and_eq_false_iff, decide_eq_false_iff_not] at h
    rcases h with h | h
    · exact absurd hpos h
    · cases hgen : (run cfg ops).r.genOf p.msg.key with
      | none => rw [hgen] at h; cases h
      | some g' => rw [hgen] at h; exact ⟨g', hgen, by simpa using h⟩
  · rw [h, hq]
    have : ¬ g ≤ p.msg.gen := by omega
    simp [hg, this]

/-- C22, end: in every reachable state, when a run ends (completed, failed or cancelled,
current or superseded), the progress of its key is gone, unless a newer run has
reported it. -/
theorem C22_end_removes_progress (cfg : Cfg) (ops : List Op) (p : Proc) (st : RunState)
    (e : Option String) (w : Bool) (hp : p ∈ (run cfg ops).procs) (hph : p.phase = .running)
    (hst : st = .completed ∨ st = .failed ∨ st = .cancelled)
    (hown : ∀ q g, (run cfg ops).r.progress p.msg.key = some q → q.gen = some g → g ≤ p.msg.gen) :
    (step cfg (run cfg ops) (.finish p.pid st e w)).r.progress p.msg.key = none := by
  have hw := WF.run cfg ops
  rcases finish_cases cfg hw hp st e w with ⟨_, h⟩ | ⟨_, h⟩ | ⟨_, h⟩
  · exact (h hph (by rcases hst with rfl | rfl | rfl <;> rfl)).elim
  · exact h
  · rw [h]
    cases hq : (run cfg ops).r.progress p.msg.key with
    | none => rfl
    | some q =>
      cases hg : q.gen with
      | none => simp [hg]
      | some g => simp [hg, hown q g hq hg]

/-- A superseded run that reported progress ends: nothing of it is left. -/
example : let s := run ⟨10, 3⟩ [.add "k" ⟨"f", "a", "b", 0, 1⟩ 0, .poll "w" 1, .claim 0,
      .increment "k" 5, .replace "k" ⟨"f", "c", "b", 9, 1⟩ 0]
    (s.r.progress "k").map (fun q => (q.gen, q.current)) = some (some 1, some 5) ∧
    s.procs = [⟨0, "w", 1, ⟨"k", ⟨"f", "a", "b", 0, 1⟩, 1⟩, false, .running⟩] ∧
    ¬ NothingNewer s ⟨"k", ⟨"f", "a", "b", 0, 1⟩, 1⟩ ∧
    (step ⟨10, 3⟩ s (.finish 0 .completed none false)).r.progress "k" = none := by decide

/-- An old run and its replacement both hold the key; the replacement starts and both
increment; the old one ends. -/
example : let s := run ⟨10, 3⟩ [.add "k" ⟨"f", "a", "b", 0, 1⟩ 0, .poll "w" 1, .claim 0,
      .increment "k" 5, .replace "k" ⟨"f", "c", "b", 0, 1⟩ 0, .poll "w" 1]
    let p : Proc := ⟨1, "w", 2, ⟨"k", ⟨"f", "c", "b", 0, 1⟩, 2⟩, false, .handed⟩
    let cont : List Op := [.increment "k" 2, .increment "k" 0, .setTotal "k" 9,
      .finish 0 .completed none false, .increment "k" 1]
    p ∈ s.procs ∧ NothingNewer s p.msg ∧ increments "k" cont = 3 ∧
    (newEvents (step ⟨10, 3⟩ s (.claim 1)) (runFrom ⟨10, 3⟩ (step ⟨10, 3⟩ s (.claim 1)) cont)).length = 1 ∧
    ∀ e ∈ newEvents (step ⟨10, 3⟩ s (.claim 1)) (runFrom ⟨10, 3⟩ (step ⟨10, 3⟩ s (.claim 1)) cont),
      ¬ EndsProgress "k" 2 e := by decide

end Docket
