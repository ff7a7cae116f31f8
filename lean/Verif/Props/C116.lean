import Verif.Worker.Ttl
import Verif.Props.C42_C60
/-
C116: whatever `execution_ttl` a docket was given, tasks end as they should.
-/
namespace Docket.Execute

/-! Specification -/

/-- Nothing else goes wrong: results and exceptions can be serialised, handlers do not raise. -/
structure Healthy (w : World) : Prop where
  store : w.storeFails = none
  storeError : w.storeErrorFails = none
  success : ∀ v e, w.onSuccess v ≠ .raised e
  failure : ∀ v e, w.onFailure v ≠ .raised e
  retry : ∀ v e e', w.handleFailure v e ≠ .raised e'

/-- The function of the task is called, and returns (`None` or something else); leaving its
dependencies raises nothing. -/
structure Returns (w : World) (isNone : Bool) : Prop where
  stricken : w.stricken = false
  claimed : w.claimed = true
  resolved : (resolve w).aborted = false ∧ (resolve w).args.filterMap (fun e => e.2.err?) = []
  accepted : clash w (finalKwargs w (resolve w).args) = false
  body : w.body (finalKwargs w (resolve w).args) = .returned isNone
  exits : ∀ r o, w.exit r o = .pass

/-- The full statement: for every `execution_ttl`, no task makes an exception go on to the loop
of the worker, and a task whose function returned is completed and not handed to its retries. -/
def C116_statement : Prop := ∀ ttl w, Healthy w →
  (settle (onDocket ttl w)).2 = false ∧
  ∀ isNone, Returns w isNone → (∃ b, Eff.completed b ∈ (settle (onDocket ttl w)).1) ∧
    ∀ v, Eff.failureHandler v ∉ (settle (onDocket ttl w)).1

/-! Lemmas -/

theorem storing_ok {ttl : Nat} (h : 1000000 ≤ ttl) : storing ttl = none := by
  have : ∃ n, 1000 * ttlSeconds ttl / 1000 = n + 1 := ⟨ttlSeconds ttl - 1, by simp only [ttlSeconds]; omega⟩
  obtain ⟨n, hn⟩ := this
  simp only [storing, Results.put, Option.map_some, hn, Results.setEx, if_true]

theorem storing_fails {ttl : Nat} (h : ttl < 1000000) : storing ttl = some (.other "ResponseError") := by
  have : 1000 * ttlSeconds ttl / 1000 = 0 := by simp only [ttlSeconds]; omega
  simp [storing, Results.put, this, Results.setEx]

/-- A docket whose `execution_ttl` is zero or at least a second. -/
theorem fits {ttl : Nat} {w : World} (ht : ttl = 0 ∨ 1000000 ≤ ttl) (h : Healthy w) :
    (onDocket ttl w).storeFails = none ∧ (onDocket ttl w).storeErrorFails = none := by
  simp only [onDocket, h.store, h.storeError]
  rcases ht with ht | ht
  · simp [ht]
  · simp [storing_ok ht]

theorem recordFailure_ends {w : World} (h : w.storeErrorFails = none) : (recordFailure w).2 = .finished := by
  simp only [recordFailure, h]; split <;> rfl

theorem outer_ends {w : World} (h : w.storeErrorFails = none) (hf : ∀ v e, w.onFailure v ≠ .raised e)
    (hr : ∀ v e e', w.handleFailure v e ≠ .raised e') (args : List (String × Slot)) (o : Out) :
    ∀ e, (outer w args o).2 ≠ .propagated e := by
  intro e
  have hn : (notRetried w args).2 = .finished := by
    simp only [notRetried]
    split
    · exact recordFailure_ends h
    · split
      · rename_i hh; exact absurd hh (hf _ _)
      · exact recordFailure_ends h
  cases o with
  | done => simp [outer]
  | cancelled => simp [outer]
  | raised x =>
    cases x with
    | blocked a b => simp [outer]
    | other x =>
      simp only [outer, onError]
      split
      · rw [hn]; simp
      · split
        · simp
        · rename_i hh; exact absurd hh (hr _ _ _)
        · simp only [hn]; simp

theorem settle_ends {w : World} (h : w.storeErrorFails = none) (hf : ∀ v e, w.onFailure v ≠ .raised e)
    (hr : ∀ v e e', w.handleFailure v e ≠ .raised e') : (settle w).2 = false := by
  have hx : ∀ e, (execute w).2 ≠ .propagated e := by
    intro e
    simp only [execute]
    split
    · simp
    · split
      · simp
      · exact outer_ends h hf hr _ _ e
  simp only [settle]
  split <;> first | rfl | (rename_i hh; exact absurd hh (hx _))

theorem Returns.block {w : World} {isNone : Bool} (h : Returns w isNone) (ttl : Nat) :
    Execute.block (onDocket ttl w) (resolve w).args =
      (.called (finalKwargs w (resolve w).args) :: (finish (onDocket ttl w) (resolve w).args isNone).1,
        (finish (onDocket ttl w) (resolve w).args isNone).2) := by
  have hk : finalKwargs (onDocket ttl w) (resolve w).args = finalKwargs w (resolve w).args := rfl
  have hc : clash (onDocket ttl w) (finalKwargs w (resolve w).args) = clash w (finalKwargs w (resolve w).args) := rfl
  have hb : (onDocket ttl w).body = w.body := rfl
  simp only [Execute.block, h.resolved.2, List.find?_nil, ne_eq, not_true_eq_false, if_false, hk, hc, h.accepted, hb, h.body]
  rfl

theorem Returns.execute {w : World} {isNone : Bool} (h : Returns w isNone) (ttl : Nat) :
    Execute.execute (onDocket ttl w) =
      ((resolve w).opened.map .opened ++ (.called (finalKwargs w (resolve w).args) ::
        (finish (onDocket ttl w) (resolve w).args isNone).1) ++ (resolve w).opened.reverse.map .closed ++
        (outer (onDocket ttl w) (resolve w).args (finish (onDocket ttl w) (resolve w).args isNone).2).1,
       (outer (onDocket ttl w) (resolve w).args (finish (onDocket ttl w) (resolve w).args isNone).2).2) := by
  have hr : resolve (onDocket ttl w) = resolve w := rfl
  have hi : inner (onDocket ttl w) = Execute.block (onDocket ttl w) (resolve w).args := by
    simp only [inner, hr, h.resolved.1]; rfl
  rw [execute_claimed (w := onDocket ttl w) h.stricken h.claimed]
  simp only [tailEffs, after, hi, hr, h.resolved.1, h.block ttl]
  rw [unwind_pass (exit := (onDocket ttl w).exit) h.exits]
  rfl

/-! Theorems -/

/-- **C116, partial**: with an `execution_ttl` of zero, or of a second or more, no task makes
an exception go on to the loop of its worker.  Missing: times between
(`C116_violated_worker`). -/
theorem C116_worker_partial (ttl : Nat) (ht : ttl = 0 ∨ 1000000 ≤ ttl) (w : World) (h : Healthy w) :
    (settle (onDocket ttl w)).2 = false :=
  settle_ends (fits ht h).2 h.failure h.retry

/-- **C116, partial**: and a task whose function returned is completed, and is not handed to
its retries.  Missing: times between (`C116_violated_success`, `C116_violated_retried`). -/
theorem C116_completed_partial (ttl : Nat) (ht : ttl = 0 ∨ 1000000 ≤ ttl) (w : World) (h : Healthy w) (isNone : Bool)
    (hb : Returns w isNone) :
    (∃ b, Eff.completed b ∈ (settle (onDocket ttl w)).1) ∧
    (∀ v, Eff.failureHandler v ∉ (settle (onDocket ttl w)).1) ∧ Eff.failed ∉ (settle (onDocket ttl w)).1 ∧
    (isNone = false → ttl ≠ 0 → role Val.completion (resolve w).args = none → Eff.stored ∈ (settle (onDocket ttl w)).1) := by
  have hs := (fits ht h).1
  have hf : (finish (onDocket ttl w) (resolve w).args isNone).2 = .done ∧
      (∃ b, Eff.completed b ∈ (finish (onDocket ttl w) (resolve w).args isNone).1) ∧
      (∀ v, Eff.failureHandler v ∉ (finish (onDocket ttl w) (resolve w).args isNone).1) ∧
      Eff.failed ∉ (finish (onDocket ttl w) (resolve w).args isNone).1 ∧
      (isNone = false → ttl ≠ 0 → role Val.completion (resolve w).args = none →
        Eff.stored ∈ (finish (onDocket ttl w) (resolve w).args isNone).1) := by
    have hc : (complete (onDocket ttl w) isNone).2 = .done ∧
        (∃ b, Eff.completed b ∈ (complete (onDocket ttl w) isNone).1) ∧
        (∀ v, Eff.failureHandler v ∉ (complete (onDocket ttl w) isNone).1) ∧
        Eff.failed ∉ (complete (onDocket ttl w) isNone).1 ∧
        (isNone = false → ttl ≠ 0 → Eff.stored ∈ (complete (onDocket ttl w) isNone).1) := by
      simp only [complete, hs]
      split
      · rename_i hn
        refine ⟨rfl, ⟨false, by simp⟩, by simp, by simp, fun h1 h2 => ?_⟩
        simp [onDocket, h1, h2] at hn
      · exact ⟨rfl, ⟨true, by simp⟩, by simp, by simp, fun _ _ => by simp⟩
    simp only [finish]
    split
    · exact ⟨hc.1, hc.2.1, hc.2.2.1, hc.2.2.2.1, fun h1 h2 _ => hc.2.2.2.2 h1 h2⟩
    · rename_i v hv
      split
      · exact ⟨rfl, ⟨false, by simp⟩, by simp, by simp, fun _ _ h3 => by rw [hv] at h3; cases h3⟩
      · refine ⟨hc.1, ?_, ?_, ?_, fun _ _ h3 => by rw [hv] at h3; cases h3⟩
        · obtain ⟨b, hb⟩ := hc.2.1
          exact ⟨b, List.mem_cons_of_mem _ hb⟩
        · intro v' hm
          rcases List.mem_cons.1 hm with e | hm
          · cases e
          · exact hc.2.2.1 v' hm
        · intro hm
          rcases List.mem_cons.1 hm with e | hm
          · cases e
          · exact hc.2.2.2.1 hm
      · rename_i hh; exact absurd hh (h.success _ _)
  have he := hb.execute ttl
  rw [hf.1] at he
  simp only [outer, List.append_nil] at he
  obtain ⟨b, hbm⟩ := hf.2.1
  have hin : Eff.completed b ∈ (Execute.execute (onDocket ttl w)).1 := by
    rw [he]; simp [hbm]
  have hset : (settle (onDocket ttl w)).1 = (Execute.execute (onDocket ttl w)).1 := by
    have h2 : (Execute.execute (onDocket ttl w)).2 = .finished := by rw [he]
    simp only [settle, h2, safetyNet]
    rw [if_pos]
    simp only [Bool.or_eq_true, List.any_eq_true]
    exact Or.inl ⟨_, hin, rfl⟩
  rw [hset]
  refine ⟨⟨b, hin⟩, fun v hm => ?_, fun hm => ?_, fun h1 h2 h3 => ?_⟩
  · rw [he] at hm
    simp only [List.mem_append, List.mem_map, List.mem_cons, reduceCtorEq, and_false, exists_false, false_or, or_false] at hm
    exact hf.2.2.1 v hm
  · rw [he] at hm
    simp only [List.mem_append, List.mem_map, List.mem_cons, reduceCtorEq, and_false, exists_false, false_or, or_false] at hm
    exact hf.2.2.2.1 hm
  · rw [he]
    have := hf.2.2.2.2 h1 h2 h3
    simp [this]

/-- A task without dependencies. -/
def bare (body : BodyOut) : World := { func := ⟨[], [], []⟩, body := fun _ => body }

theorem bare_healthy (b : BodyOut) : Healthy (bare b) :=
  ⟨rfl, rfl, fun _ _ => by simp [bare], fun _ _ => by simp [bare], fun _ _ _ => by simp [bare]⟩

theorem bare_returns (isNone : Bool) : Returns (bare (.returned isNone)) isNone :=
  ⟨rfl, rfl, ⟨rfl, rfl⟩, rfl, rfl, fun _ _ => rfl⟩

theorem between {ttl : Nat} (h0 : 0 < ttl) (h1 : ttl < 1000000) (w : World) (h : Healthy w) :
    onDocket ttl w = { w with ttl := true, storeFails := some (.other "ResponseError"),
                              storeErrorFails := some (.other "ResponseError") } := by
  have h2 : ttl ≠ 0 := by omega
  simp [onDocket, h.store, h.storeError, h2, storing_fails h1]

/-- **C116, violated**: on a docket with an `execution_ttl` of less than a second, a task that
fails leaves no record, is not acknowledged, and ends the run of its worker; the next worker
that it is given to meets the same. -/
theorem C116_violated_worker : ¬ C116_statement ∧
    ∀ ttl, 0 < ttl → ttl < 1000000 → ∀ what, settle (onDocket ttl (bare (.raised (.other what)))) = ([.called []], true) := by
  have key : ∀ ttl, 0 < ttl → ttl < 1000000 → ∀ what,
      settle (onDocket ttl (bare (.raised (.other what)))) = ([.called []], true) := by
    intro ttl h0 h1 what
    rw [between h0 h1 _ (bare_healthy _)]; rfl
  refine ⟨fun h => ?_, key⟩
  have := (h 500000 (bare (.raised (.other "boom"))) (bare_healthy _)).1
  rw [key 500000 (by omega) (by omega)] at this
  cases this

/-- **C116, violated**: and so does a task that succeeds, unless it returns `None`: the function
has run, but the task counts as failed, and is given to another worker. -/
theorem C116_violated_success (ttl : Nat) (h0 : 0 < ttl) (h1 : ttl < 1000000) :
    settle (onDocket ttl (bare (.returned false))) = ([.called []], true) ∧
    settle (onDocket ttl (bare (.returned true))) = ([.called [], .completed false], false) := by
  constructor <;> (rw [between h0 h1 _ (bare_healthy _)]; rfl)

/-- A task with retries left. -/
def retrying : World :=
  { func := ⟨[], [("retry", .dep ⟨[], .value ⟨"retry", false, true, false⟩⟩)], []⟩
    body := fun _ => .returned false
    handleFailure := fun _ _ => .handled }

/-- **C116, violated**: with retries left the function of a task that succeeded is run again. -/
theorem C116_violated_retried (ttl : Nat) (h0 : 0 < ttl) (h1 : ttl < 1000000) :
    Returns retrying false ∧
    ∃ kw, settle (onDocket ttl retrying) = ([.called kw, .failureHandler ⟨"retry", false, true, false⟩, .rescheduled], false) := by
  refine ⟨⟨rfl, rfl, ⟨rfl, rfl⟩, rfl, rfl, fun _ _ => rfl⟩, [("retry", ⟨"retry", false, true, false⟩)], ?_⟩
  rw [between h0 h1 _ ⟨rfl, rfl, fun _ _ => by simp [retrying], fun _ _ => by simp [retrying], fun _ _ _ => by simp [retrying]⟩]
  rfl

/-- The hypotheses are met: with the default of 15 minutes a task that returns something is
completed with its result stored. -/
example : Healthy (bare (.returned false)) ∧ Returns (bare (.returned false)) false ∧
    settle (onDocket 900000000 (bare (.returned false))) = ([.called [], .stored, .completed true], false) := by
  refine ⟨bare_healthy _, bare_returns _, ?_⟩
  have h : onDocket 900000000 (bare (.returned false)) = { (bare (.returned false)) with ttl := true } := by
    simp [onDocket, bare, storing_ok (show 1000000 ≤ 900000000 by omega)]
  rw [h]; rfl

end Docket.Execute
