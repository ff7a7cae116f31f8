import Verif.Worker.Policy
import Verif.Props.C42_C60
/-
C102: a policy that is declared is in force.
-/
namespace Docket.Execute

/-! ### The specification -/

/-- The value reaches the task as a dependency of the worker or of a parameter of its function; a
parameter that the caller has passed is what the caller has passed. -/
def Offers (w : World) (v : Val) : Prop :=
  (∃ n d, (n, d) ∈ w.workerDeps ∧ d.entered = .value v) ∨
  ∃ n p, (n, p) ∈ w.func.params ∧
    (lookup w.kwargs n = some v ∨ lookup w.kwargs n = none ∧ ∃ d, p = .dep d ∧ d.entered = .value v)

/-- The value is that of a dependency in an annotation. -/
def Annotates (w : World) (v : Val) : Prop :=
  ∃ n ds, (n, ds) ∈ w.func.annotations ∧ ∃ d ∈ ds, ∀ value, (d value).entered = .value v

/-- The full claim: if a task's function is called and fails, and a retry policy is declared
somewhere, a declared retry policy decides; if it returns, the same goes for a perpetual policy. -/
def C102_statement : Prop :=
  ∀ (w : World) (kw : List (String × Val)) (v : Val), NamesOK w → (∀ r o, w.exit r o = .pass) →
    Eff.called kw ∈ (execute w).1 → Offers w v ∨ Annotates w v →
    (v.failure = true → ∀ x, w.body kw = .raised (.other x) →
      ∃ u, (Offers w u ∨ Annotates w u) ∧ u.failure = true ∧ .failureHandler u ∈ (execute w).1) ∧
    (v.completion = true → ∀ b, w.body kw = .returned b →
      ∃ u, (Offers w u ∨ Annotates w u) ∧ u.completion = true ∧ .completionHandler u ∈ (execute w).1) ∧
    (v.runtime = true → ∃ u, (Offers w u ∨ Annotates w u) ∧ u.runtime = true ∧ runner w = some u)

/-! ### Lemmas -/

/-- All values among the arguments are offered. -/
def AllOffered (w : World) (args : List (String × Slot)) : Prop :=
  ∀ k v, (k, Slot.value v) ∈ args → Offers w v

theorem AllOffered.put {w : World} {args : List (String × Slot)} (h : AllOffered w args) {k : String} {s : Slot}
    (hs : ∀ v, s = .value v → Offers w v) : AllOffered w (put args k s) := by
  intro k' v hm
  rcases mem_put hm with e | hm
  · cases e; exact hs v rfl
  · exact h k' v hm

theorem AllOffered.enterInto {w : World} {r : R} (h : AllOffered w r.args) {slot name : String} {keep : Bool}
    {d : Dep} (hd : keep = true → ∀ v, d.entered = .value v → Offers w v) :
    AllOffered w (enterInto slot name keep d r).args := by
  unfold Execute.enterInto
  split
  · exact h
  · split
    · next v hv =>
      cases keep with
      | true => exact h.put (fun u hu => by cases hu; exact hd rfl v hv)
      | false => exact h
    · exact h.put (fun u hu => nomatch hu)
    · exact h

theorem allOffered (w : World) : AllOffered w (resolve w).args := by
  have h1 : AllOffered w (resolveWorker w.workerDeps {}).args := by
    have : ∀ (l : List (String × Dep)) (r : R), (∀ e ∈ l, e ∈ w.workerDeps) → AllOffered w r.args →
        AllOffered w (resolveWorker l r).args := by
      intro l
      induction l with
      | nil => exact fun _ _ h => h
      | cons e l ih =>
        intro r hl hr
        exact ih _ (fun x hx => hl x (List.mem_cons_of_mem _ hx))
          (hr.enterInto (fun _ v hv => .inl ⟨e.1, e.2, hl e (List.mem_cons_self ..), hv⟩))
    exact this _ _ (fun _ h => h) (fun _ _ h => nomatch h)
  have h2 : AllOffered w (resolveParams w.kwargs w.func.params (resolveWorker w.workerDeps {})).args := by
    have : ∀ (l : List (String × Param)) (r : R), (∀ e ∈ l, e ∈ w.func.params) → AllOffered w r.args →
        AllOffered w (resolveParams w.kwargs l r).args := by
      intro l
      induction l with
      | nil => exact fun _ _ h => h
      | cons e l ih =>
        intro r hl hr
        refine ih _ (fun x hx => hl x (List.mem_cons_of_mem _ hx)) ?_
        have hm := hl e (List.mem_cons_self ..)
        obtain ⟨n, p⟩ := e
        simp only
        split
        · exact hr
        · split
          · next v hv => exact hr.put (fun u hu => by cases hu; exact .inr ⟨n, p, hm, .inl hv⟩)
          · next hv =>
            cases p with
            | bareArgument => exact hr.put (fun u hu => nomatch hu)
            | dep d => exact hr.enterInto (fun _ v hd => .inr ⟨n, _, hm, .inr ⟨hv, d, rfl, hd⟩⟩)
    exact this _ _ (fun _ h => h) h1
  have h3 : AllOffered w (resolveAnnotations w.kwargs w.func.annotations
      (resolveParams w.kwargs w.func.params (resolveWorker w.workerDeps {}))).args := by
    have hin : ∀ (ds : List (Option Val → Dep)) (n : String) (value : Option Val) (r : R), AllOffered w r.args →
        AllOffered w (ds.foldl (fun r d => enterInto n n false (d value) r) r).args := by
      intro ds n value
      induction ds with
      | nil => exact fun _ h => h
      | cons d ds ih => exact fun r hr => ih _ (hr.enterInto (fun h => nomatch h))
    have : ∀ (l : List (String × List (Option Val → Dep))) (r : R), AllOffered w r.args →
        AllOffered w (resolveAnnotations w.kwargs l r).args := by
      intro l
      induction l with
      | nil => exact fun _ h => h
      | cons e l ih => exact fun r hr => ih _ (hin e.2 e.1 _ r hr)
    exact this _ _ h2
  unfold resolve addConflicts
  split
  · exact h3
  · have : ∀ (cs : List String) (a : List (String × Slot)), AllOffered w a →
        AllOffered w (union a (cs.map (fun c => (c, .failed c (.other "conflict"))))) := by
      intro cs
      induction cs with
      | nil => exact fun _ h => h
      | cons c cs ih => exact fun a ha => ih _ (ha.put (fun u hu => nomatch hu))
    exact this _ _ h3

/-- The policy a role is filled by, if any, is offered. -/
theorem role_offered {w : World} {p : Val → Bool} {v : Val} (h : role p (resolve w).args = some v) :
    Offers w v ∧ p v = true := by
  unfold role at h
  refine ⟨?_, List.find?_some h⟩
  obtain ⟨e, he, hv⟩ := List.mem_filterMap.1 (List.mem_of_find?_eq_some h)
  obtain ⟨k, s⟩ := e
  cases s with
  | value u => cases hv; exact allOffered w k _ he
  | failed => cases hv

/-- A value among the arguments that can fill a role sees to it that it is filled. -/
theorem role_filled {p : Val → Bool} {args : List (String × Slot)} {k : String} {v : Val}
    (h : lookup args k = some (.value v)) (hp : p v = true) : ∃ u, role p args = some u := by
  cases hr : role p args with
  | some u => exact ⟨u, rfl⟩
  | none =>
    unfold role at hr
    rw [List.find?_eq_none] at hr
    exact absurd hp (hr v (List.mem_filterMap.2 ⟨_, lookup_mem h, rfl⟩))

/-- Whatever is offered is among the arguments, if no dependency failed. -/
theorem offered_resolved {w : World} (hn : NamesOK w) (ha : (resolve w).aborted = false)
    (hf : ∀ e ∈ (resolve w).args, e.2.err? = none) {v : Val} (ho : Offers w v) :
    ∃ k, lookup (resolve w).args k = some (.value v) := by
  have hr := resolved w hn ha
  rcases ho with ⟨n, d, hm, hv⟩ | ⟨n, p, hm, hv⟩
  · refine ⟨"__worker_dep__" ++ n, ?_⟩
    have := ((hr.worker n d hm).2.2).resolve_right (not_failed_of hf)
    rw [this, hv]; rfl
  · refine ⟨n, ?_⟩
    have := ((hr.params n p hm).2.1).resolve_right (not_failed_of hf)
    rw [this]
    rcases hv with hv | ⟨hv, d, rfl, hd⟩
    · simp [paramSlot, hv]
    · simp [paramSlot, hv, slotOf, hd]

/-- What is known once the function is called: everything was resolved, and what the block comes
to. -/
theorem called_block {w : World} {kw : List (String × Val)} (h : Eff.called kw ∈ (execute w).1) :
    w.stricken = false ∧ w.claimed = true ∧ (resolve w).aborted = false ∧
      (∀ e ∈ (resolve w).args, e.2.err? = none) ∧
      block w (resolve w).args = match w.body kw with
        | .cancelled => ([.called kw], .cancelled)
        | .raised e => ([.called kw], .raised e)
        | .returned b => (.called kw :: (finish w (resolve w).args b).1, (finish w (resolve w).args b).2) := by
  obtain ⟨h1, h2, h3, h4⟩ := called_inner h
  obtain ⟨h5, h6, h7⟩ := block_called h4
  refine ⟨h1, h2, h3, h5, ?_⟩
  have hnil : (resolve w).args.filterMap (fun e => e.2.err?) = [] := by
    rw [List.filterMap_eq_nil_iff]; exact h5
  subst h6
  simp only [block, hnil, List.find?_nil, ne_eq, not_true_eq_false, if_false, h7, Bool.false_eq_true]
  cases w.body (finalKwargs w (resolve w).args) <;> rfl

theorem execute_block {w : World} (h1 : w.stricken = false) (h2 : w.claimed = true)
    (h3 : (resolve w).aborted = false) (hp : ∀ r o, w.exit r o = .pass) :
    ∃ pre mid, (execute w).1 = pre ++ (block w (resolve w).args).1 ++ mid
      ++ (outer w (resolve w).args (block w (resolve w).args).2).1 := by
  simp only [execute, h1, h2, h3, Bool.false_eq_true, if_false, Bool.not_true, unwind_pass hp]
  exact ⟨_, _, rfl⟩

/-! ### The property -/

/-- **Disagreement.** A retry policy in an annotation (`customer_id: Annotated[int,
Retry(attempts=3)]`) is accepted, checked for conflicts and entered, and then not asked when the
task fails: the worker looks for policies among the resolved arguments only, in which annotations
leave nothing (_resolution.py:208-221, worker.py:1187). -/
theorem C102_violated_annotation : ¬ C102_statement := by
  intro h
  have := (h { func := { positional := [], params := [],
                         annotations := [("customer_id", [fun _ => ⟨[1], .value ⟨"retry", false, true, false⟩⟩])] }
               body := fun _ => .raised (.other "no connection") } [] ⟨"retry", false, true, false⟩
    ⟨List.nodup_nil, List.nodup_nil, by simp [Dict], List.nodup_nil, (fun _ h => nomatch h),
      (by intro e he; rw [List.mem_singleton.1 he]; decide +kernel), (fun _ h => nomatch h)⟩
    (fun _ _ => rfl) (by decide +kernel)
    (.inr ⟨_, _, List.mem_singleton.2 rfl, _, List.mem_singleton.2 rfl, fun _ => rfl⟩)).1 rfl _ rfl
  obtain ⟨u, _, _, hu⟩ := this
  have h2 : ∀ u, Eff.failureHandler u ∉ (execute
      { func := { positional := [], params := [],
                  annotations := [("customer_id", [fun _ => ⟨[1], .value ⟨"retry", false, true, false⟩⟩])] }
        body := fun _ => .raised (.other "no connection") }).1 := by
    intro u hu
    have e : (execute
      { func := { positional := [], params := [],
                  annotations := [("customer_id", [fun _ => ⟨[1], .value ⟨"retry", false, true, false⟩⟩])] }
        body := fun _ => .raised (.other "no connection") }).1
      = [.opened 1, .called [], .closed 1, .stored, .failed] := by decide +kernel
    rw [e] at hu
    simp at hu
  exact h2 u hu

/-- **Disagreement.** An automatic perpetual task whose `Perpetual` is in an annotation is found by
the workers when they start, and scheduled, but does not go on after its first run: of the two
ways to look for a policy one looks at annotations and the other does not. -/
theorem C102_violated_automatic :
    ∃ (w : World) (v : Val), v.completion = true ∧ declaredIn Val.completion w.func = some v ∧
      Eff.called [] ∈ (execute w).1 ∧ ∀ u, Eff.completionHandler u ∉ (execute w).1 := by
  refine ⟨{ func := { positional := [], params := [],
                      annotations := [("n", [fun _ => ⟨[1], .value ⟨"perpetual", false, false, true⟩⟩])] }
            body := fun _ => .returned true }, ⟨"perpetual", false, false, true⟩, rfl, rfl, by decide +kernel, ?_⟩
  intro u hu
  have e : (execute
      { func := { positional := [], params := [],
                  annotations := [("n", [fun _ => ⟨[1], .value ⟨"perpetual", false, false, true⟩⟩])] }
        body := fun _ => .returned true }).1
    = [.opened 1, .called [], .completed false, .closed 1] := by decide +kernel
  rw [e] at hu
  simp at hu

/-- A retry policy of the worker or of a parameter decides when the task fails. -/
theorem C102_retry_partial {w : World} (hn : NamesOK w) (hp : ∀ r o, w.exit r o = .pass)
    {kw : List (String × Val)} (h : Eff.called kw ∈ (execute w).1) {v : Val} (ho : Offers w v)
    (hv : v.failure = true) {x : String} (hb : w.body kw = .raised (.other x)) :
    ∃ u, Offers w u ∧ u.failure = true ∧ .failureHandler u ∈ (execute w).1 := by
  obtain ⟨h1, h2, h3, h4, h5⟩ := called_block h
  obtain ⟨k, hk⟩ := offered_resolved hn h3 h4 ho
  obtain ⟨u, hu⟩ := role_filled (p := Val.failure) hk hv
  obtain ⟨pre, mid, he⟩ := execute_block h1 h2 h3 hp
  refine ⟨u, (role_offered hu).1, (role_offered hu).2, ?_⟩
  rw [he, h5, hb]
  refine List.mem_append_right _ ?_
  simp only [outer, onError, hu]
  cases w.handleFailure u (.other x) <;> simp

/-- A perpetual policy of the worker or of a parameter decides when the task returns. -/
theorem C102_perpetual_partial {w : World} (hn : NamesOK w) (hp : ∀ r o, w.exit r o = .pass)
    {kw : List (String × Val)} (h : Eff.called kw ∈ (execute w).1) {v : Val} (ho : Offers w v)
    (hv : v.completion = true) {b : Bool} (hb : w.body kw = .returned b) :
    ∃ u, Offers w u ∧ u.completion = true ∧ .completionHandler u ∈ (execute w).1 := by
  obtain ⟨h1, h2, h3, h4, h5⟩ := called_block h
  obtain ⟨k, hk⟩ := offered_resolved hn h3 h4 ho
  obtain ⟨u, hu⟩ := role_filled (p := Val.completion) hk hv
  obtain ⟨pre, mid, he⟩ := execute_block h1 h2 h3 hp
  refine ⟨u, (role_offered hu).1, (role_offered hu).2, ?_⟩
  rw [he, h5, hb]
  refine List.mem_append_left _ (List.mem_append_left _ (List.mem_append_right _ ?_))
  simp only [finish, hu]
  cases w.onSuccess u <;> simp

/-- And when the task fails and no retry policy handles it. -/
theorem C102_perpetual_after_failure_partial {w : World} (hn : NamesOK w) (hp : ∀ r o, w.exit r o = .pass)
    {kw : List (String × Val)} (h : Eff.called kw ∈ (execute w).1) {v : Val} (ho : Offers w v)
    (hv : v.completion = true) {x : String} (hb : w.body kw = .raised (.other x))
    (hr : ∀ u, Offers w u → u.failure = true → w.handleFailure u (.other x) = .notHandled) :
    ∃ u, Offers w u ∧ u.completion = true ∧ .completionHandler u ∈ (execute w).1 := by
  obtain ⟨h1, h2, h3, h4, h5⟩ := called_block h
  obtain ⟨k, hk⟩ := offered_resolved hn h3 h4 ho
  obtain ⟨u, hu⟩ := role_filled (p := Val.completion) hk hv
  obtain ⟨pre, mid, he⟩ := execute_block h1 h2 h3 hp
  refine ⟨u, (role_offered hu).1, (role_offered hu).2, ?_⟩
  rw [he, h5, hb]
  refine List.mem_append_right _ ?_
  have hnr : Eff.completionHandler u ∈ (notRetried w (resolve w).args).1 := by
    simp only [notRetried, hu]
    cases w.onFailure u <;> simp
  simp only [outer, onError]
  cases hf : role Val.failure (resolve w).args with
  | none => exact hnr
  | some f =>
    simp only [hr f (role_offered hf).1 (role_offered hf).2]
    exact List.mem_cons_of_mem _ hnr

/-- A timeout of the worker or of a parameter runs the function. -/
theorem C102_timeout_partial {w : World} (hn : NamesOK w) {kw : List (String × Val)}
    (h : Eff.called kw ∈ (execute w).1) {v : Val} (ho : Offers w v) (hv : v.runtime = true) :
    ∃ u, Offers w u ∧ u.runtime = true ∧ runner w = some u := by
  obtain ⟨_, _, h3, h4, _⟩ := called_block h
  obtain ⟨k, hk⟩ := offered_resolved hn h3 h4 ho
  obtain ⟨u, hu⟩ := role_filled (p := Val.runtime) hk hv
  exact ⟨u, (role_offered hu).1, (role_offered hu).2, hu⟩

/-- So if only one is offered, it is that one. -/
theorem C102_the_one_partial {w : World} (hn : NamesOK w) (hp : ∀ r o, w.exit r o = .pass)
    {kw : List (String × Val)} (h : Eff.called kw ∈ (execute w).1) {v : Val} (ho : Offers w v) :
    (v.failure = true → (∀ u, Offers w u → u.failure = true → u = v) →
      ∀ x, w.body kw = .raised (.other x) → .failureHandler v ∈ (execute w).1) ∧
    (v.completion = true → (∀ u, Offers w u → u.completion = true → u = v) →
      ∀ b, w.body kw = .returned b → .completionHandler v ∈ (execute w).1) ∧
    (v.runtime = true → (∀ u, Offers w u → u.runtime = true → u = v) → runner w = some v) := by
  refine ⟨fun hv h1 x hb => ?_, fun hv h1 b hb => ?_, fun hv h1 => ?_⟩
  · obtain ⟨u, a, b, c⟩ := C102_retry_partial hn hp h ho hv hb
    exact h1 u a b ▸ c
  · obtain ⟨u, a, b, c⟩ := C102_perpetual_partial hn hp h ho hv hb
    exact h1 u a b ▸ c
  · obtain ⟨u, a, b, c⟩ := C102_timeout_partial hn h ho hv
    exact h1 u a b ▸ c

theorem not_aborted_enterInto {slot name : String} {keep : Bool} {d : Dep} {r : R} (h : d.entered ≠ .cancelled) :
    (enterInto slot name keep d r).aborted = r.aborted := by
  unfold enterInto
  split
  · rfl
  · split
    · rfl
    · rfl
    · next e => exact absurd e h

theorem early_not_aborted {w : World} (hw : ∀ e ∈ w.workerDeps, e.2.entered ≠ .cancelled)
    (hq : ∀ n d, (n, Param.dep d) ∈ w.func.params → d.entered ≠ .cancelled) : (early w).aborted = false := by
  have h1 : ∀ (l : List (String × Dep)) (r : R), (∀ e ∈ l, e.2.entered ≠ .cancelled) →
      (resolveWorker l r).aborted = r.aborted := by
    intro l
    induction l with
    | nil => exact fun _ _ => rfl
    | cons e l ih =>
      intro r hl
      exact (ih _ (fun x hx => hl x (List.mem_cons_of_mem _ hx))).trans
        (not_aborted_enterInto (hl e (List.mem_cons_self ..)))
  have h2 : ∀ (l : List (String × Param)) (r : R), (∀ n d, (n, Param.dep d) ∈ l → d.entered ≠ .cancelled) →
      (resolveParams w.kwargs l r).aborted = r.aborted := by
    intro l
    induction l with
    | nil => exact fun _ _ => rfl
    | cons e l ih =>
      intro r hl
      refine (ih _ (fun n d hx => hl n d (List.mem_cons_of_mem _ hx))).trans ?_
      obtain ⟨n, p⟩ := e
      simp only
      split
      · rfl
      · split
        · rfl
        · cases p with
          | bareArgument => rfl
          | dep d => exact not_aborted_enterInto (hl n d (List.mem_cons_self ..))
  unfold early
  rw [h2 _ _ hq, h1 _ _ hw]

/-- No dependency has refused admission. -/
def NoRefusal (args : List (String × Slot)) : Prop := ∀ e ∈ args, ∀ x, e.2.err? = some x → x.isBlocked = false

theorem NoRefusal.put {args : List (String × Slot)} (h : NoRefusal args) {k : String} {s : Slot}
    (hs : ∀ x, s.err? = some x → x.isBlocked = false) : NoRefusal (put args k s) := by
  intro e hm x hx
  rcases mem_put hm with rfl | hm
  · exact hs x hx
  · exact h e hm x hx

theorem NoRefusal.enterInto {r : R} (h : NoRefusal r.args) {slot name : String} {keep : Bool} {d : Dep}
    (hd : ∀ a b, d.entered ≠ .error (.blocked a b)) : NoRefusal (enterInto slot name keep d r).args := by
  unfold Execute.enterInto
  split
  · exact h
  · split
    · cases keep with
      | true => exact h.put (fun x hx => nomatch hx)
      | false => exact h
    · next e he =>
      refine h.put (fun x hx => ?_)
      cases hx
      cases e with
      | other => rfl
      | blocked a b => exact absurd he (hd a b)
    · exact h

theorem early_noRefusal {w : World} (hw : ∀ e ∈ w.workerDeps, ∀ a b, e.2.entered ≠ .error (.blocked a b))
    (hq : ∀ n d, (n, Param.dep d) ∈ w.func.params → ∀ a b, d.entered ≠ .error (.blocked a b)) :
    NoRefusal (early w).args := by
  have h1 : ∀ (l : List (String × Dep)) (r : R), (∀ e ∈ l, ∀ a b, e.2.entered ≠ .error (.blocked a b)) →
      NoRefusal r.args → NoRefusal (resolveWorker l r).args := by
    intro l
    induction l with
    | nil => exact fun _ _ h => h
    | cons e l ih =>
      intro r hl hr
      exact ih _ (fun x hx => hl x (List.mem_cons_of_mem _ hx)) (hr.enterInto (hl e (List.mem_cons_self ..)))
  have h2 : ∀ (l : List (String × Param)) (r : R),
      (∀ n d, (n, Param.dep d) ∈ l → ∀ a b, d.entered ≠ .error (.blocked a b)) →
      NoRefusal r.args → NoRefusal (resolveParams w.kwargs l r).args := by
    intro l
    induction l with
    | nil => exact fun _ _ h => h
    | cons e l ih =>
      intro r hl hr
      refine ih _ (fun n d hx => hl n d (List.mem_cons_of_mem _ hx)) ?_
      obtain ⟨n, p⟩ := e
      simp only
      split
      · exact hr
      · split
        · exact hr.put (fun x hx => nomatch hx)
        · cases p with
          | bareArgument => exact hr.put (fun x hx => by cases hx; rfl)
          | dep d => exact hr.enterInto (hl n d (List.mem_cons_self ..))
  exact h2 _ _ hq (h1 _ _ hw (fun _ h => nomatch h))

/-- A retry policy also decides when the function is not called because another dependency fails
(and none refuses admission).  Missing: functions with annotations, whose failures can take the
place of a policy that is declared on the same parameter. -/
theorem C102_dependency_failure_partial {w : World} (hn : NamesOK w) (h1 : w.stricken = false)
    (h2 : w.claimed = true) (hp : ∀ r o, w.exit r o = .pass) (hc : ∀ args, w.conflicts args = [])
    (hk : w.func.annotations = [])
    (hw : ∀ e ∈ w.workerDeps, e.2.entered ≠ .cancelled ∧ ∀ a b, e.2.entered ≠ .error (.blocked a b))
    (hq : ∀ n d, (n, Param.dep d) ∈ w.func.params →
      d.entered ≠ .cancelled ∧ ∀ a b, d.entered ≠ .error (.blocked a b))
    {v : Val} (ho : Offers w v) (hv : v.failure = true)
    (hf : (∃ n d x, (n, d) ∈ w.workerDeps ∧ d.entered = .error (.other x)) ∨
      (∃ n d x, (n, Param.dep d) ∈ w.func.params ∧ lookup w.kwargs n = none ∧ d.entered = .error (.other x)) ∨
      (∃ n, (n, Param.bareArgument) ∈ w.func.params ∧ lookup w.kwargs n = none)) :
    (∀ kw, Eff.called kw ∉ (execute w).1) ∧
      ∃ u, Offers w u ∧ u.failure = true ∧ .failureHandler u ∈ (execute w).1 := by
  have hab : (early w).aborted = false :=
    early_not_aborted (fun e he => (hw e he).1) (fun n d hm => (hq n d hm).1)
  have hre : resolve w = early w := by
    show addConflicts w.conflicts (resolveAnnotations w.kwargs w.func.annotations (early w)) = _
    rw [hk]
    show addConflicts w.conflicts (early w) = _
    rw [addConflicts, if_neg (by simp [hab]), hc]
    rfl
  have hnr := early_noRefusal (fun e he => (hw e he).2) (fun n d hm => (hq n d hm).2)
  obtain ⟨p1, _, _, p4, p5⟩ := resolveParams_spec w.kwargs w.func.params hn.params (resolveWorker w.workerDeps {}) hab
  obtain ⟨_, _, _, _, _, w6⟩ := resolveWorker_spec w.workerDeps hn.worker _ p1
  have hwk : ∀ n d, (n, d) ∈ w.workerDeps →
      lookup (resolve w).args ("__worker_dep__" ++ n) = slotOf n d.entered := by
    intro n d hm
    rw [hre, ← (w6 n d hm).2.2]
    refine p4 _ (fun p hm' => ?_)
    have := hn.plain _ hm'
    rw [isWorkerSlot_append] at this
    cases this
  have hpm : ∀ n p, (n, p) ∈ w.func.params → lookup (resolve w).args n = paramSlot w.kwargs n p := by
    intro n p hm
    rw [hre]
    exact (p5 n p hm).2.1
  have hfail : ∃ k p x, lookup (resolve w).args k = some (.failed p (.other x)) := by
    rcases hf with ⟨n, d, x, hm, he⟩ | ⟨n, d, x, hm, hl, he⟩ | ⟨n, hm, hl⟩
    · exact ⟨_, n, x, by rw [hwk n d hm, he]; rfl⟩
    · exact ⟨n, n, x, by rw [hpm n _ hm]; simp [paramSlot, hl, slotOf, he]⟩
    · exact ⟨n, n, "No parameter name specified", by rw [hpm n _ hm]; simp [paramSlot, hl]⟩
  obtain ⟨k, p, x, hfail⟩ := hfail
  have hblock : block w (resolve w).args = ([], .raised (.other "ExceptionGroup")) := by
    have hnone : ((resolve w).args.filterMap (fun e => e.2.err?)).find? Err.isBlocked = none := by
      rw [List.find?_eq_none]
      intro y hy
      obtain ⟨e, he, hy⟩ := List.mem_filterMap.1 hy
      rw [hre] at he
      rw [hnr e he y hy]
      exact Bool.false_ne_true
    have hne : (resolve w).args.filterMap (fun e => e.2.err?) ≠ [] := by
      intro hnil
      have : Err.other x ∈ (resolve w).args.filterMap (fun e => e.2.err?) :=
        List.mem_filterMap.2 ⟨_, lookup_mem hfail, rfl⟩
      rw [hnil] at this
      cases this
    simp only [block, hnone, if_pos hne]
  have hoff : ∃ k, lookup (resolve w).args k = some (.value v) := by
    rcases ho with ⟨n, d, hm, he⟩ | ⟨n, q, hm, he⟩
    · exact ⟨_, by rw [hwk n d hm, he]; rfl⟩
    · refine ⟨n, ?_⟩
      rw [hpm n q hm]
      rcases he with he | ⟨he, d, rfl, hd⟩
      · simp [paramSlot, he]
      · simp [paramSlot, he, slotOf, hd]
  obtain ⟨k', hoff⟩ := hoff
  obtain ⟨u, hu⟩ := role_filled (p := Val.failure) hoff hv
  refine ⟨fun kw hcall => ?_, u, (role_offered hu).1, (role_offered hu).2, ?_⟩
  · have := (called_inner hcall).2.2.2
    rw [hblock] at this
    cases this
  · obtain ⟨pre, mid, he⟩ := execute_block h1 h2 (hre ▸ hab) hp
    rw [he, hblock]
    refine List.mem_append_right _ ?_
    simp only [outer, onError, hu]
    cases w.handleFailure u (.other "ExceptionGroup") <;> simp

/-- Handlers only come up as what fills the role. -/
def Handles (args : List (String × Slot)) (l : List Eff) : Prop :=
  ∀ v, (.failureHandler v ∈ l → role Val.failure args = some v) ∧
    (.completionHandler v ∈ l → role Val.completion args = some v)

theorem Handles.nil (args : List (String × Slot)) : Handles args [] :=
  fun _ => ⟨(fun h => nomatch h), (fun h => nomatch h)⟩

theorem Handles.append {args : List (String × Slot)} {a b : List Eff} (ha : Handles args a) (hb : Handles args b) :
    Handles args (a ++ b) :=
  fun v => ⟨fun h => (List.mem_append.1 h).elim (ha v).1 (hb v).1,
    fun h => (List.mem_append.1 h).elim (ha v).2 (hb v).2⟩

theorem Handles.plain {args : List (String × Slot)} {a : List Eff}
    (h : ∀ v, .failureHandler v ∉ a ∧ .completionHandler v ∉ a) : Handles args a :=
  fun v => ⟨fun hm => absurd hm (h v).1, fun hm => absurd hm (h v).2⟩

theorem Handles.cons {args : List (String × Slot)} {e : Eff} {b : List Eff} (ha : Handles args [e])
    (hb : Handles args b) : Handles args (e :: b) := ha.append hb

theorem handles_complete (w : World) (args : List (String × Slot)) (b : Bool) : Handles args (complete w b).1 := by
  refine Handles.plain (fun v => ?_)
  unfold complete
  split
  · simp
  · split <;> simp

theorem handles_recordFailure (w : World) (args : List (String × Slot)) : Handles args (recordFailure w).1 := by
  refine Handles.plain (fun v => ?_)
  unfold recordFailure
  split
  · simp
  · split <;> simp

theorem handles_completion {args : List (String × Slot)} {u : Val} (h : role Val.completion args = some u) :
    Handles args [.completionHandler u] :=
  fun v => ⟨fun hm => by simp at hm, fun hm => by simp at hm; rw [h, hm]⟩

theorem handles_failure {args : List (String × Slot)} {u : Val} (h : role Val.failure args = some u) :
    Handles args [.failureHandler u] :=
  fun v => ⟨fun hm => by simp at hm; rw [h, hm], fun hm => by simp at hm⟩

theorem handles_finish (w : World) (args : List (String × Slot)) (b : Bool) : Handles args (finish w args b).1 := by
  unfold finish
  split
  · exact handles_complete w args b
  · next u hu =>
    split
    · exact (handles_completion hu).cons (Handles.plain (by simp))
    · exact (handles_completion hu).cons (handles_complete w args b)
    · exact handles_completion hu

theorem handles_notRetried (w : World) (args : List (String × Slot)) : Handles args (notRetried w args).1 := by
  unfold notRetried
  split
  · exact handles_recordFailure w args
  · next u hu =>
    split
    · exact handles_completion hu
    · exact (handles_completion hu).cons (handles_recordFailure w args)

theorem handles_block (w : World) (args : List (String × Slot)) : Handles args (block w args).1 := by
  unfold block
  simp only
  split
  · exact Handles.nil _
  · split
    · exact Handles.nil _
    · split
      · exact Handles.nil _
      · split
        · exact Handles.plain (by simp)
        · exact Handles.plain (by simp)
        · exact Handles.cons (Handles.plain (by simp)) (handles_finish w args _)

theorem handles_outer (w : World) (args : List (String × Slot)) (o : Out) : Handles args (outer w args o).1 := by
  cases o with
  | done => exact Handles.nil _
  | cancelled => exact Handles.plain (by simp [outer])
  | raised e =>
    cases e with
    | blocked => exact Handles.nil _
    | other x =>
      simp only [outer, onError]
      split
      · exact handles_notRetried w args
      · next u hu =>
        split
        · exact (handles_failure hu).append (Handles.plain (by intro v; split <;> simp))
        · exact handles_failure hu
        · exact (handles_failure hu).cons (handles_notRetried w args)

/-- A policy that nobody offers does not decide anything. -/
theorem C102_only_offered (w : World) (v : Val) :
    (.failureHandler v ∈ (execute w).1 → Offers w v ∧ v.failure = true) ∧
    (.completionHandler v ∈ (execute w).1 → Offers w v ∧ v.completion = true) ∧
    (runner w = some v → Offers w v ∧ v.runtime = true) := by
  have h : Handles (resolve w).args (execute w).1 := by
    cases hs : w.stricken with
    | true => exact Handles.plain (by simp [execute, hs])
    | false =>
      cases hc : w.claimed with
      | false => exact Handles.plain (by simp [execute, hs, hc])
      | true =>
        rw [execute_claimed hs hc]
        refine ((Handles.append (Handles.plain (by simp)) ?_).append (Handles.plain (by simp))).append ?_
        · unfold inner
          split
          · exact Handles.nil _
          · exact handles_block w _
        · unfold tailEffs
          split
          · intro u
            have := handles_outer w [] (after w) u
            exact ⟨(fun hm => by have h := this.1 hm; cases h), (fun hm => by have h := this.2 hm; cases h)⟩
          · exact handles_outer w _ _
  exact ⟨fun hm => role_offered ((h v).1 hm), fun hm => role_offered ((h v).2 hm), fun hr => role_offered hr⟩

/-! ### The hypotheses can be met -/

/-- A worker with a retry policy for all tasks, a task with a perpetual policy and a timeout of its
own, which fails. -/
def busy : World :=
  { func := { positional := ["x"]
              params := [("again", .dep ⟨[2], .value ⟨"perpetual", false, false, true⟩⟩),
                         ("limit", .dep ⟨[3], .value ⟨"timeout", true, false, false⟩⟩)]
              annotations := [("x", [fun _ => ⟨[4], .value ⟨"cooldown", false, false, false⟩⟩])] }
    args := [⟨"1", false, false, false⟩]
    workerDeps := [("retries", ⟨[1], .value ⟨"retry", false, true, false⟩⟩)]
    body := fun _ => .raised (.other "no connection") }

example : NamesOK busy :=
  ⟨by simp [Dict, busy], by simp [Dict, busy], by simp [Dict, busy], List.nodup_nil,
    by decide +kernel, (by intro e he; rw [List.mem_singleton.1 he]; decide +kernel), (fun _ h => nomatch h)⟩

example : Eff.called [("again", ⟨"perpetual", false, false, true⟩), ("limit", ⟨"timeout", true, false, false⟩)]
    ∈ (execute busy).1 := by decide +kernel

example : Offers busy ⟨"retry", false, true, false⟩ := .inl ⟨_, _, List.mem_singleton.2 rfl, rfl⟩
example : Offers busy ⟨"perpetual", false, false, true⟩ :=
  .inr ⟨_, _, List.mem_cons_self .., .inr ⟨rfl, _, rfl, rfl⟩⟩
example : runner busy = some ⟨"timeout", true, false, false⟩ := by decide +kernel
example : .failureHandler ⟨"retry", false, true, false⟩ ∈ (execute busy).1
    ∧ .completionHandler ⟨"perpetual", false, false, true⟩ ∈ (execute busy).1 := by decide +kernel

/-- For `C102_dependency_failure_partial`: the task's database is out of reach, and it is retried. -/
example : (execute { func := { positional := []
                               params := [("db", .dep ⟨[], .error (.other "unreachable")⟩),
                                          ("retry", .dep ⟨[1], .value ⟨"retry", false, true, false⟩⟩)]
                               annotations := [] }
                     body := fun _ => .returned true
                     handleFailure := fun _ _ => .handled }).1
    = [.opened 1, .closed 1, .failureHandler ⟨"retry", false, true, false⟩, .rescheduled] := by decide +kernel

end Docket.Execute
