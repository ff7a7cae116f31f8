import Verif.Worker.ResolveLemmas
/-
C42 The task body runs only with all dependencies resolved, and every opened dependency is
closed in reverse order.
C60 Every execution is settled exactly once.
-/
namespace Docket.Execute

theorem block_effs (w : World) (args : List (String × Slot)) :
    ∀ e ∈ (block w args).1, (∀ r, e ≠ .opened r) ∧ (∀ r, e ≠ .closed r) := by
  intro e he
  simp only [block] at he
  split at he
  · cases he
  · split at he
    · cases he
    · split at he
      · cases he
      · split at he
        · simp at he; subst he; simp
        · simp at he; subst he; simp
        · rcases List.mem_cons.1 he with rfl | he
          · simp
          · exact (finish_effs _ _ _ e he).2

/-- What happens inside the `async with` block. -/
def inner (w : World) : List Eff × Out :=
  if (resolve w).aborted then ([], Out.cancelled) else block w (resolve w).args

def after (w : World) : Out := (unwind w.exit (resolve w).opened.reverse (inner w).2).2

def tailEffs (w : World) : List Eff × Final :=
  outer w (if (resolve w).aborted then [] else (resolve w).args) (after w)

theorem execute_claimed {w : World} (hs : w.stricken = false) (hc : w.claimed = true) :
    execute w = ((resolve w).opened.map .opened ++ (inner w).1 ++ (resolve w).opened.reverse.map .closed ++
      (tailEffs w).1, (tailEffs w).2) := by
  unfold execute
  rw [if_neg (by simp [hs]), if_neg (by simp [hc])]
  simp only [tailEffs, after, inner, unwind_no_called]

theorem called_inner {w : World} {kw : List (String × Val)} (h : Eff.called kw ∈ (execute w).1) :
    w.stricken = false ∧ w.claimed = true ∧ (resolve w).aborted = false ∧
      Eff.called kw ∈ (block w (resolve w).args).1 := by
  cases hs : w.stricken with
  | true => simp [execute, hs] at h
  | false =>
    cases hc : w.claimed with
    | false => simp [execute, hs, hc] at h
    | true =>
      rw [execute_claimed hs hc] at h
      simp only [List.mem_append, List.mem_map, reduceCtorEq, and_false, exists_false, false_or,
        or_false] at h
      rcases h with h | h
      · simp only [inner] at h
        cases ha : (resolve w).aborted with
        | true => simp [ha] at h
        | false => exact ⟨rfl, rfl, rfl, by simpa [ha] using h⟩
      · exact absurd rfl ((outer_effs _ _ _ _ h).1 kw)

/-- The value a keyword parameter is called with. -/
theorem finalKwargs_lookup (w : World) {args : List (String × Slot)} (hd : Dict args) {k : String}
    (hk : isWorkerSlot k = false) :
    lookup (finalKwargs w args) k = match (lookup args k).bind Slot.val? with
      | some v => some v
      | none => lookup w.kwargs k := by
  have hsub : Dict ((args.filter (fun e => !e.1.startsWith "__worker_dep__")).filterMap
      (fun e => e.2.val?.map (fun v => (e.1, v)))) := by
    have hgen : ∀ l : List (String × Slot), Dict l →
        Dict (l.filterMap (fun e => e.2.val?.map (fun v => (e.1, v)))) ∧
        ∀ x ∈ (l.filterMap (fun e => e.2.val?.map (fun v => (e.1, v)))).map (·.1), x ∈ l.map (·.1) := by
      intro l
      induction l with
      | nil => intro _; exact ⟨by simp [Dict], by simp⟩
      | cons e l ih =>
        intro hl
        simp only [Dict, List.map_cons, List.nodup_cons] at hl
        obtain ⟨i1, i2⟩ := ih hl.2
        cases hv : e.2.val? with
        | none =>
          rw [List.filterMap_cons_none (by simp [hv])]
          exact ⟨i1, fun x hx => List.mem_cons_of_mem _ (i2 x hx)⟩
        | some v =>
          rw [List.filterMap_cons_some (b := (e.1, v)) (by simp [hv])]
          refine ⟨?_, ?_⟩
          · simp only [Dict, List.map_cons, List.nodup_cons]
            exact ⟨fun hc => hl.1 (i2 _ hc), i1⟩
          · intro x hx
            simp only [List.map_cons, List.mem_cons] at hx ⊢
            rcases hx with hx | hx
            · exact Or.inl hx
            · exact Or.inr (i2 x hx)
    refine (hgen _ ?_).1
    exact List.Nodup.sublist (List.Sublist.map _ List.filter_sublist) hd
  unfold finalKwargs
  cases hv : (lookup args k).bind Slot.val? with
  | some v =>
    simp only [Option.bind_eq_some_iff] at hv
    obtain ⟨sl, h1, h2⟩ := hv
    refine lookup_union_mem _ hsub ?_
    refine List.mem_filterMap.2 ⟨(k, sl), List.mem_filter.2 ⟨lookup_mem h1, ?_⟩, ?_⟩
    · simpa [isWorkerSlot] using hk
    · simp [h2]
  | none =>
    refine lookup_union_other _ _ _ ?_
    intro v hm
    obtain ⟨e, h1, h2⟩ := List.mem_filterMap.1 hm
    simp only [Option.map_eq_some_iff, Prod.mk.injEq] at h2
    obtain ⟨v', h3, h4, rfl⟩ := h2
    have h5 := hd.lookup_of_mem (k := k) (v := e.2) (by rw [← h4]; exact (List.mem_filter.1 h1).1)
    rw [h5] at hv
    simp [h3] at hv

/-! ### C42 -/

/-- **C42**: the task is called only when it is neither stricken nor superseded, every
dependency of the worker was entered, every dependency parameter was passed explicitly or
entered, every dependency in an annotation — bound to the value the task is called with —
was entered, and no conflicts were found. -/
theorem C42_called_only_if_resolved (w : World) (hn : NamesOK w) (kw : List (String × Val))
    (h : Eff.called kw ∈ (execute w).1) :
    w.stricken = false ∧ w.claimed = true ∧
    (∀ n d, (n, d) ∈ w.workerDeps → ∃ v, d.entered = .value v) ∧
    (∀ n p, (n, p) ∈ w.func.params → (∃ v, lookup w.kwargs n = some v ∧ lookup kw n = some v) ∨
      ∃ d v, p = .dep d ∧ d.entered = .value v ∧ lookup kw n = some v) ∧
    (∀ n ds, (n, ds) ∈ w.func.annotations → ∀ d ∈ ds, ∃ v, (d (lookup kw n)).entered = .value v) ∧
    w.conflicts (resolve w).args = [] := by
  obtain ⟨hs, hc, ha, hb⟩ := called_inner h
  have hr := resolved w hn ha
  obtain ⟨hno, rfl, _⟩ := block_called hb
  refine ⟨hs, hc, ?_, ?_, ?_, hr.conflicts hno⟩
  · intro n d hm
    obtain ⟨_, h1, h2⟩ := hr.worker n d hm
    have h2 := h2.resolve_right (not_failed_of hno)
    cases hd : d.entered with
    | value v => exact ⟨v, rfl⟩
    | error e =>
      rw [hd] at h2
      exact absurd ⟨_, _, h2⟩ (not_failed_of hno)
    | cancelled => rw [hd] at h1; cases h1
  · intro n p hm
    obtain ⟨h1, h2, _⟩ := hr.params n p hm
    have h2 := h2.resolve_right (not_failed_of hno)
    have hl := finalKwargs_lookup w hr.dict (hn.plain _ hm)
    rw [h2] at hl
    simp only [paramSlot] at h1 h2 hl
    cases hk : lookup w.kwargs n with
    | some v =>
      left
      rw [hk] at hl
      exact ⟨v, rfl, hl⟩
    | none =>
      right
      rw [hk] at h1 h2 hl
      cases p with
      | bareArgument => exact absurd ⟨_, _, h2⟩ (not_failed_of hno)
      | dep d =>
        cases hd : d.entered with
        | value v =>
          refine ⟨d, v, rfl, hd, ?_⟩
          simpa [hd, slotOf, Slot.val?] using hl
        | error e =>
          simp only [hd, slotOf] at h2
          exact absurd ⟨_, _, h2⟩ (not_failed_of hno)
        | cancelled => simp [hd, slotOf] at h1
  · intro n ds hm d hd
    obtain ⟨value, _, h2⟩ := hr.annotations n ds hm
    obtain ⟨hv, h2⟩ := h2.resolve_left (not_failed_of hno)
    have hl := finalKwargs_lookup w hr.dict (hn.plainAnn _ hm)
    have hval : value = lookup (finalKwargs w (resolve w).args) n := by
      rw [hv, hl]
      simp only [annotated]
      cases hk : lookup w.kwargs n with
      | none =>
        cases (lookup (resolve w).args n).bind Slot.val? <;> rfl
      | some v =>
        by_cases hp : ∃ p, (n, p) ∈ w.func.params
        · obtain ⟨p, hp⟩ := hp
          have h3 := (hr.params n p hp).2.1.resolve_right (not_failed_of hno)
          simp only [paramSlot, hk] at h3
          rw [h3]; rfl
        · have h3 := (hr.others n (hn.plainAnn _ hm) (fun p hp' => hp ⟨p, hp'⟩)).resolve_right (not_failed_of hno)
          rw [h3]; rfl
    rw [← hval]
    exact h2 d hd

/-- **C42**: an explicitly passed keyword argument is what the task is called with; the
only other keyword arguments are dependency parameters. -/
theorem C42_explicit_wins (w : World) (hn : NamesOK w) (kw : List (String × Val))
    (h : Eff.called kw ∈ (execute w).1) :
    (∀ k v, lookup w.kwargs k = some v → lookup kw k = some v) ∧
    ∀ k, isWorkerSlot k = false → (∀ p, (k, p) ∉ w.func.params) → lookup kw k = lookup w.kwargs k := by
  obtain ⟨_, _, _, hp, _, _⟩ := C42_called_only_if_resolved w hn kw h
  obtain ⟨hs, hc, ha, hb⟩ := called_inner h
  have hr := resolved w hn ha
  obtain ⟨hno, rfl, _⟩ := block_called hb
  have h2 : ∀ k, isWorkerSlot k = false → (∀ p, (k, p) ∉ w.func.params) →
      lookup (finalKwargs w (resolve w).args) k = lookup w.kwargs k := by
    intro k hk hnp
    rw [finalKwargs_lookup w hr.dict hk,
      (hr.others k hk hnp).resolve_right (not_failed_of hno)]
    rfl
  refine ⟨fun k v hv => ?_, h2⟩
  by_cases hpk : ∃ p, (k, p) ∈ w.func.params
  · obtain ⟨p, hpk⟩ := hpk
    obtain ⟨h1, h3, _⟩ := hr.params k p hpk
    have h3 := h3.resolve_right (not_failed_of hno)
    rw [finalKwargs_lookup w hr.dict (hn.plain _ hpk), h3]
    simp [paramSlot, hv, Slot.val?]
  · rw [h2 k (hn.plainKw _ (lookup_mem hv)) (fun p hp' => hpk ⟨p, hp'⟩), hv]

/-- **C42**: the task is called at most once. -/
theorem C42_called_once (w : World) :
    ((execute w).1.filter (fun e => match e with | .called _ => true | _ => false)).length ≤ 1 := by
  cases hs : w.stricken with
  | true => simp [execute, hs]
  | false =>
    cases hc : w.claimed with
    | false => simp [execute, hs, hc]
    | true =>
      rw [execute_claimed hs hc]
      have hz : ∀ l : List Eff, (∀ e ∈ l, ∀ kw, e ≠ .called kw) →
          l.filter (fun e => match e with | .called _ => true | _ => false) = [] := by
        intro l hl
        rw [List.filter_eq_nil_iff]
        intro e he
        cases e with
        | called kw => exact absurd rfl (hl _ he kw)
        | _ => simp
      have h1 := hz ((resolve w).opened.map .opened) (by simp)
      have h2 := hz ((resolve w).opened.reverse.map .closed) (by simp)
      have h3 := hz (tailEffs w).1 (fun e he => (outer_effs _ _ _ e he).1)
      rw [List.filter_append, List.filter_append, List.filter_append, h1, h2, h3]
      simp only [List.nil_append, List.append_nil]
      simp only [inner]
      split
      · simp
      · simp only [block]
        split
        · simp
        · split
          · simp
          · split
            · simp
            · split
              · simp
              · simp
              · rename_i b _
                have := hz (finish w (resolve w).args b).1 (fun e he => (finish_effs _ _ _ e he).1)
                rw [List.filter_cons_of_pos (by rfl), this]
                simp

/-- **C42**: whatever happens, everything put on the exit stack while resolving is exited
exactly once, in the reverse order, after the task ended and before the outcome of a
failure is recorded; and nothing else is. -/
theorem C42_closed_in_reverse (w : World) :
    ∃ (opened : List Res) (mid post : List Eff),
      (execute w).1 = opened.map .opened ++ mid ++ opened.reverse.map .closed ++ post ∧
      (∀ e ∈ mid ++ post, (∀ r, e ≠ .opened r) ∧ ∀ r, e ≠ .closed r) ∧
      (∀ e ∈ post, ∀ kw, e ≠ .called kw) ∧
      (w.stricken = false → w.claimed = true → opened = (resolve w).opened) := by
  cases hs : w.stricken with
  | true => exact ⟨[], [], [.cancelled], by simp [execute, hs], by simp, by simp, by simp⟩
  | false =>
    cases hc : w.claimed with
    | false => exact ⟨[], [], [], by simp [execute, hs, hc], by simp, by simp, by simp⟩
    | true =>
      refine ⟨(resolve w).opened, (inner w).1, (tailEffs w).1, ?_, ?_, ?_, by simp⟩
      · rw [execute_claimed hs hc]
      · intro e he
        rcases List.mem_append.1 he with he | he
        · simp only [inner] at he
          split at he
          · cases he
          · exact block_effs _ _ e he
        · exact (outer_effs _ _ _ e he).2
      · exact fun e he => (outer_effs _ _ _ e he).1

/-- **C42**: and what is on the exit stack is what the dependencies opened, unless a
cancellation cut resolving short: every dependency of the worker, every dependency parameter
that was not passed explicitly and every dependency in an annotation, entered or failed. -/
theorem C42_opened (w : World) (hn : NamesOK w) (ha : (resolve w).aborted = false) :
    (∀ n d, (n, d) ∈ w.workerDeps → ∀ x ∈ d.opens, x ∈ (resolve w).opened) ∧
    (∀ n d, (n, Param.dep d) ∈ w.func.params → lookup w.kwargs n = none → ∀ x ∈ d.opens, x ∈ (resolve w).opened) ∧
    (∀ n ds, (n, ds) ∈ w.func.annotations → ∃ value, ∀ d ∈ ds, ∀ x ∈ (d value).opens, x ∈ (resolve w).opened) := by
  have hr := resolved w hn ha
  refine ⟨fun n d hm => (hr.worker n d hm).1, fun n d hm hk => (hr.params n _ hm).2.2 d rfl hk, ?_⟩
  intro n ds hm
  obtain ⟨value, h1, _⟩ := hr.annotations n ds hm
  exact ⟨value, h1⟩

/-- A dependency refused admission. -/
def Dep.refuses (d : Dep) : Prop := ∃ h r, d.entered = .error (.blocked h r)

/-- An entry that says admission was refused. -/
def IsRefused (o : Option Slot) : Prop := ∃ p h r, o = some (.failed p (.blocked h r))

/-- No dependency in an annotation of this parameter fails other than by refusing admission. -/
def OnlyRefusals (w : World) (n : String) : Prop :=
  ∀ ds, (n, ds) ∈ w.func.annotations → ∀ d ∈ ds, ∀ value x, (d value).entered ≠ .error (.other x)

theorem annFold_refused (name : String) (value : Option Val) (ds : List (Option Val → Dep)) (r : R)
    (h : (ds.foldl (fun r d => enterInto name name false (d value) r) r).aborted = false)
    (hds : ∀ d ∈ ds, ∀ x, (d value).entered ≠ .error (.other x))
    (hr : IsRefused (lookup r.args name) ∨ ∃ d ∈ ds, (d value).refuses) :
    IsRefused (lookup (ds.foldl (fun r d => enterInto name name false (d value) r) r).args name) := by
  induction ds generalizing r with
  | nil =>
    rcases hr with hr | ⟨d, hd, _⟩
    · exact hr
    · cases hd
  | cons d ds ih =>
    simp only [List.foldl_cons] at h ⊢
    obtain ⟨i1, _⟩ := annFold_spec _ _ _ _ h
    obtain ⟨_, _, _, _, e5⟩ := enterInto_spec _ _ _ _ _ i1
    refine ih _ h (fun d' hd' => hds d' (by simp [hd'])) ?_
    rcases e5 with ⟨v, hv, hl⟩ | ⟨e, he, hl⟩
    · rcases hr with hr | ⟨d', hd', hdr⟩
      · left; rw [hl]; exact hr
      · rcases List.mem_cons.1 hd' with rfl | hd'
        · obtain ⟨_, _, hdr⟩ := hdr
          rw [hv] at hdr; cases hdr
        · exact Or.inr ⟨d', hd', hdr⟩
    · left
      rw [hl]
      cases e with
      | blocked a b => exact ⟨_, _, _, rfl⟩
      | other x => exact absurd he (hds d (by simp) x)

theorem annotations_refused (kwargs : List (String × Val))
    (anns : List (String × List (Option Val → Dep))) (hd : Dict anns) (r : R)
    (h : (resolveAnnotations kwargs anns r).aborted = false) (n : String)
    (hds : ∀ ds, (n, ds) ∈ anns → ∀ d ∈ ds, ∀ value x, (d value).entered ≠ .error (.other x))
    (hr : IsRefused (lookup r.args n) ∨ ∃ ds, (n, ds) ∈ anns ∧ ∃ d ∈ ds, (d (annotated kwargs r.args n)).refuses) :
    IsRefused (lookup (resolveAnnotations kwargs anns r).args n) := by
  induction anns generalizing r with
  | nil =>
    rcases hr with hr | ⟨ds, hds, _⟩
    · exact hr
    · cases hds
  | cons e anns ih =>
    obtain ⟨n0, ds0⟩ := e
    simp only [Dict, List.map_cons, List.nodup_cons] at hd
    have heq : resolveAnnotations kwargs ((n0, ds0) :: anns) r = resolveAnnotations kwargs anns
        (ds0.foldl (fun r' d => enterInto n0 n0 false (d (annotated kwargs r.args n0)) r') r) := rfl
    rw [heq] at h ⊢
    obtain ⟨i1, _⟩ := resolveAnnotations_spec kwargs anns hd.2 _ h
    obtain ⟨_, _, _, e4, _⟩ := annFold_spec n0 (annotated kwargs r.args n0) ds0 r i1
    refine ih hd.2 _ h (fun ds hm => hds ds (by simp [hm])) ?_
    by_cases hn : n = n0
    · subst hn
      left
      refine annFold_refused _ _ _ _ i1 (fun d hd' x => hds ds0 (by simp) d hd' _ x) ?_
      rcases hr with hr | ⟨ds, hm, d, hd', hdr⟩
      · exact Or.inl hr
      · rcases List.mem_cons.1 hm with hm' | hm'
        · cases hm'; exact Or.inr ⟨d, hd', hdr⟩
        · exact absurd (List.mem_map_of_mem (f := (·.1)) hm') hd.1
    · rcases hr with hr | ⟨ds, hm, d, hd', hdr⟩
      · left; rw [e4 n hn]; exact hr
      · rcases List.mem_cons.1 hm with hm' | hm'
        · cases hm'; exact absurd rfl hn
        · right
          refine ⟨ds, hm', d, hd', ?_⟩
          have hsame := e4 n hn
          generalize ds0.foldl (fun r' d => enterInto n0 n0 false (d (annotated kwargs r.args n0)) r') r = r1 at hsame ⊢
          have : annotated kwargs r1.args n = annotated kwargs r.args n := by simp only [annotated, hsame]
          rw [this]
          exact hdr

theorem lookup_union_notin (a : List (String × Slot)) (cs : List String) (k : String) (hk : k ∉ cs) :
    lookup (union a (cs.map (fun c => (c, .failed c (.other "conflict"))))) k = lookup a k := by
  refine lookup_union_other _ _ _ ?_
  intro v hv
  obtain ⟨c, hc, he⟩ := List.mem_map.1 hv
  cases he
  exact hk hc

theorem unwind_pass {exit : Res → Out → ExitOut} (hp : ∀ r o, exit r o = .pass) (rs : List Res) (out : Out) :
    (unwind exit rs out).2 = out := by
  induction rs generalizing out with
  | nil => rfl
  | cons r rs ih => simp only [unwind, hp, ih]

theorem block_refused {w : World} {args : List (String × Slot)} {k : String}
    (h : IsRefused (lookup args k)) : ∃ a b, block w args = ([], .raised (.blocked a b)) := by
  obtain ⟨p, a, b, h⟩ := h
  have hm : Err.blocked a b ∈ args.filterMap (fun e => e.2.err?) :=
    List.mem_filterMap.2 ⟨_, lookup_mem h, rfl⟩
  cases hf : (args.filterMap (fun e => e.2.err?)).find? Err.isBlocked with
  | none =>
    rw [List.find?_eq_none] at hf
    exact absurd rfl (hf _ hm)
  | some e =>
    have := List.find?_some hf
    cases e with
    | other x => cases this
    | blocked a' b' => exact ⟨a', b', by simp only [block, hf]⟩

/-- **C42, partial**: an admission refusal by a dependency of the worker, a dependency
parameter or a dependency in an annotation takes precedence: the task is not called and the
execution ends as refused, whatever other dependencies fail with.  What is missing: a
refusal can be overwritten by a later failure in an annotation of the same parameter
(`C42_violated_precedence`), by the conflicts found for the same name, and by an exit that
raises or swallows. -/
theorem C42_refusal_first_partial (w : World) (hn : NamesOK w) (hs : w.stricken = false)
    (hc : w.claimed = true) (ha : (resolve w).aborted = false) (hp : ∀ r o, w.exit r o = .pass)
    (hcf : ∀ args, w.conflicts args = []) (n : String) (ho : OnlyRefusals w n)
    (h : (∃ d, (n, d) ∈ w.workerDeps ∧ d.refuses) ∨
      (∃ d, (n, Param.dep d) ∈ w.func.params ∧ lookup w.kwargs n = none ∧ d.refuses) ∨
      (∃ ds, (n, ds) ∈ w.func.annotations ∧ ∃ d ∈ ds, ∀ value, (d value).refuses)) :
    (∃ a b, (execute w).2 = .blocked a b) ∧ ∀ kw, Eff.called kw ∉ (execute w).1 := by
  have hres : resolve w = resolveAnnotations w.kwargs w.func.annotations (early w) := by
    show addConflicts w.conflicts (resolveAnnotations w.kwargs w.func.annotations (early w)) = _
    rw [addConflicts]
    split
    · rfl
    · rw [hcf]; rfl
  rw [hres] at ha
  obtain ⟨a1, a2, a3, a4, a5⟩ := resolveAnnotations_spec w.kwargs w.func.annotations hn.annotations _ ha
  obtain ⟨p1, p2, p3, p4, p5⟩ := resolveParams_spec w.kwargs w.func.params hn.params _ a1
  obtain ⟨_, _, w3, w4, w5, w6⟩ := resolveWorker_spec w.workerDeps hn.worker _ p1
  have hk : ∃ k, IsRefused (lookup (resolve w).args k) := by
    rw [hres]
    rcases h with ⟨d, hm, a, b, hd⟩ | ⟨d, hm, hkw, a, b, hd⟩ | ⟨ds, hm, d, hd, hdr⟩
    · refine ⟨"__worker_dep__" ++ n, n, a, b, ?_⟩
      obtain ⟨_, _, h3⟩ := w6 n d hm
      rw [a4 _ ?_]
      · refine (p4 _ ?_).trans ?_
        · intro p hp'
          have := hn.plain _ hp'
          rw [isWorkerSlot_append] at this
          cases this
        · rw [h3, hd]; rfl
      · intro ds hds
        have := hn.plainAnn _ hds
        rw [isWorkerSlot_append] at this
        cases this
    · refine ⟨n, annotations_refused _ _ hn.annotations _ ha n ho (Or.inl ⟨n, a, b, ?_⟩)⟩
      obtain ⟨_, h2, _⟩ := p5 n _ hm
      refine h2.trans ?_
      simp [paramSlot, hkw, hd, slotOf]
    · exact ⟨n, annotations_refused _ _ hn.annotations _ ha n ho (Or.inr ⟨ds, hm, d, hd, hdr _⟩)⟩
  obtain ⟨k, hk⟩ := hk
  obtain ⟨a, b, hb⟩ := block_refused (w := w) hk
  rw [← hres] at ha
  constructor
  · rw [execute_claimed hs hc]
    refine ⟨a, b, ?_⟩
    simp only [tailEffs, after, unwind_pass hp, inner, ha, hb]
    rfl
  · intro kw hkw
    obtain ⟨_, _, _, h4⟩ := called_inner hkw
    rw [hb] at h4
    cases h4

/-- A world with one positional parameter `x`, one dependency parameter `dep` and one
annotated parameter. -/
def sample : World where
  args := [⟨"1", false, false, false⟩]
  kwargs := [("y", ⟨"2", false, false, false⟩)]
  func := {
    positional := ["x", "dep"]
    params := [("dep", .dep ⟨[1, 2], .value ⟨"d", false, false, false⟩⟩)]
    annotations := [("y", [fun v => ⟨[3], match v with | some v => .value v | none => .error (.other "")⟩])] }
  workerDeps := [("w", ⟨[0], .value ⟨"w", false, false, false⟩⟩)]
  body := fun _ => .returned false

theorem sample_ok : NamesOK sample :=
  ⟨by decide +kernel, by decide +kernel, by simp [Dict, sample], by decide +kernel,
   by decide +kernel, by
    intro e he
    simp only [sample, List.mem_singleton] at he
    subst he
    decide +kernel, by decide +kernel⟩

/-- The hypotheses are met: the sample is called, with the explicit argument and the
dependency; and everything is closed in reverse. -/
example : (execute sample).1 = [.opened 0, .opened 1, .opened 2, .opened 3,
    .called [("y", ⟨"2", false, false, false⟩), ("dep", ⟨"d", false, false, false⟩)], .stored, .completed true,
    .closed 3, .closed 2, .closed 1, .closed 0] ∧ (execute sample).2 = .finished := by
  decide +kernel

/-- A refusal among other failures. -/
def refused : World where
  func := {
    positional := []
    params := [("a", .dep ⟨[], .error (.other "boom")⟩), ("b", .dep ⟨[], .error (.blocked true false)⟩)]
    annotations := [] }
  body := fun _ => .returned false

example : (execute refused).2 = .blocked true false := by decide +kernel
example : NamesOK refused :=
  ⟨by decide +kernel, by decide +kernel, by simp [Dict, refused], by decide +kernel,
   by decide +kernel, by simp [refused], by decide +kernel⟩
example : OnlyRefusals refused "b" ∧ (resolve refused).aborted = false ∧
    ∃ d, ("b", Param.dep d) ∈ refused.func.params ∧ lookup refused.kwargs "b" = none ∧ d.refuses :=
  ⟨by intro ds h; simp [refused] at h, by decide +kernel,
   ⟨[], .error (.blocked true false)⟩, by decide +kernel, by decide +kernel, true, false, rfl⟩

/-- The full statement: a refusal by any dependency takes precedence. -/
def C42_refusal_first : Prop :=
  ∀ (w : World) (n : String) (ds : List (Option Val → Dep)) (d : Option Val → Dep),
    NamesOK w → w.stricken = false → w.claimed = true → (resolve w).aborted = false →
    (∀ r o, w.exit r o = .pass) → (∀ args, w.conflicts args = []) →
    (n, ds) ∈ w.func.annotations → d ∈ ds → (∀ value, (d value).refuses) →
    ∃ a b, (execute w).2 = .blocked a b

def overwritten : World where
  kwargs := [("y", ⟨"2", false, false, false⟩)]
  func := {
    positional := ["y"]
    params := []
    annotations := [("y", [fun _ => ⟨[], .error (.blocked true false)⟩, fun _ => ⟨[], .error (.other "boom")⟩])] }
  body := fun _ => .returned false

/-- **C42, violated**: two dependencies annotate one parameter; the first refuses admission
— say, a concurrency limit that parked the task — and the second fails.  The second failure
overwrites the first (_resolution.py:216-221), so the execution is recorded as failed although
it is parked and will run later. -/
theorem C42_violated_precedence : ¬ C42_refusal_first := by
  intro h
  obtain ⟨a, b, hb⟩ := h overwritten "y" _ (fun _ => ⟨[], .error (.blocked true false)⟩)
    ⟨by decide +kernel, by decide +kernel, by simp [Dict, overwritten], by decide +kernel,
     by decide +kernel, by
      intro e he
      simp only [overwritten, List.mem_singleton] at he
      subst he
      decide +kernel, by decide +kernel⟩
    rfl rfl (by decide +kernel) (fun _ _ => rfl) (fun _ => rfl) (List.mem_singleton.2 rfl)
    (by simp) (fun _ => ⟨true, false, rfl⟩)
  have hf : (execute overwritten).2 = .finished := by decide +kernel
  rw [hf] at hb
  cases hb

/-- The full statement: explicitly passed arguments win over declared dependencies.  The
task's dependencies all resolve, yet it can be called. -/
def C42_explicit_positional : Prop :=
  ∀ (w : World), NamesOK w → w.stricken = false → w.claimed = true →
    (∀ n p, (n, p) ∈ w.func.params → ∃ d v, p = .dep d ∧ d.entered = .value v) →
    w.workerDeps = [] → w.func.annotations = [] → w.kwargs = [] → (∀ args, w.conflicts args = []) →
    w.args.length ≤ w.func.positional.length →
    ∃ kw, Eff.called kw ∈ (execute w).1

/-- **C42, violated**: an explicit value for a dependency parameter passed by position does
not win: the dependency is resolved anyway and passed by keyword, and the call is refused
with "got multiple values for argument" (_resolution.py:184-187 looks only at keyword
arguments). -/
theorem C42_violated_positional : ¬ C42_explicit_positional := by
  intro h
  have := h { args := [⟨"1", false, false, false⟩]
              func := { positional := ["dep"]
                        params := [("dep", .dep ⟨[], .value ⟨"d", false, false, false⟩⟩)]
                        annotations := [] }
              body := fun _ => .returned true }
    ⟨by decide +kernel, by decide +kernel, by simp [Dict], by decide +kernel,
     by decide +kernel, by simp, by decide +kernel⟩ rfl rfl
    (by intro n p hm; simp only [List.mem_singleton, Prod.mk.injEq] at hm
        exact ⟨_, _, hm.2, rfl⟩) rfl rfl rfl (fun _ => rfl) (by decide +kernel)
  obtain ⟨kw, hkw⟩ := this
  obtain ⟨_, _, _, h4⟩ := called_inner hkw
  obtain ⟨_, rfl, h5⟩ := block_called h4
  revert h5
  decide +kernel

/-! ### C60 -/

/-- How often the message is acknowledged and the outcome recorded. -/
def settled (l : List Eff) : Nat := (l.filter Eff.settles).length

theorem settled_append (a b : List Eff) : settled (a ++ b) = settled a + settled b := by
  simp [settled, List.filter_append]

theorem settled_zero {l : List Eff} (h : ∀ e ∈ l, e.settles = false) : settled l = 0 := by
  simp only [settled, List.length_eq_zero_iff, List.filter_eq_nil_iff]
  intro e he
  simp [h e he]

theorem settled_pos {l : List Eff} : l.any Eff.settles = true ↔ settled l ≠ 0 := by
  simp [settled, List.filter_eq_nil_iff]

theorem settled_cons (e : Eff) (l : List Eff) : settled (e :: l) = (if e.settles then 1 else 0) + settled l := by
  simp only [settled, List.filter_cons]
  split
  · simp; omega
  · simp

theorem settled_rescheduled : settled [.rescheduled] = 1 := rfl
theorem settled_cancelled : settled [.cancelled] = 1 := rfl
theorem settled_failed : settled [.failed] = 1 := rfl

theorem complete_settled (w : World) (b : Bool) :
    ((complete w b).2 = .done ∧ settled (complete w b).1 = 1) ∨
    ((complete w b).2 ≠ .done ∧ settled (complete w b).1 = 0) := by
  simp only [complete]
  split
  · left; exact ⟨rfl, rfl⟩
  · split
    · right; exact ⟨by simp, rfl⟩
    · left; exact ⟨rfl, rfl⟩

theorem finish_settled (w : World) (args : List (String × Slot)) (b : Bool) :
    ((finish w args b).2 = .done ∧ settled (finish w args b).1 = 1) ∨
    ((finish w args b).2 ≠ .done ∧ settled (finish w args b).1 = 0) := by
  simp only [finish]
  split
  · exact complete_settled w b
  · split
    · left; exact ⟨rfl, rfl⟩
    · rw [settled_cons]; simpa [Eff.settles] using complete_settled w b
    · right; exact ⟨by simp, rfl⟩

theorem block_settled (w : World) (args : List (String × Slot)) :
    ((block w args).2 = .done ∧ settled (block w args).1 = 1) ∨
    ((block w args).2 ≠ .done ∧ settled (block w args).1 = 0) := by
  simp only [block]
  split
  · right; exact ⟨by simp, rfl⟩
  · split
    · right; exact ⟨by simp, rfl⟩
    · split
      · right; exact ⟨by simp, rfl⟩
      · cases w.body (finalKwargs w args) with
        | cancelled => right; exact ⟨by simp, rfl⟩
        | raised e => right; exact ⟨by simp, rfl⟩
        | returned b =>
          dsimp only
          rw [settled_cons]
          simpa [Eff.settles] using finish_settled w args b

theorem inner_settled (w : World) :
    ((inner w).2 = .done ∧ settled (inner w).1 = 1) ∨ ((inner w).2 ≠ .done ∧ settled (inner w).1 = 0) := by
  simp only [inner]
  split
  · right; exact ⟨by simp, rfl⟩
  · exact block_settled _ _

theorem unwind_no_raise {exit : Res → Out → ExitOut} (hx : ∀ r o e, exit r o ≠ .raises e)
    (rs : List Res) (out : Out) : (unwind exit rs out).2 = out ∨ (unwind exit rs out).2 = .done := by
  induction rs generalizing out with
  | nil => exact Or.inl rfl
  | cons r rs ih =>
    simp only [unwind]
    cases he : exit r out with
    | pass => exact ih out
    | suppress => rcases ih .done with h | h <;> exact Or.inr h
    | raises e => exact absurd he (hx _ _ _)

theorem recordFailure_settled (w : World) :
    settled (recordFailure w).1 ≤ 1 ∧ ∀ a b, (recordFailure w).2 ≠ .blocked a b := by
  simp only [recordFailure]
  split
  · exact ⟨Nat.le_refl _, by simp⟩
  · split
    · exact ⟨Nat.zero_le _, by simp⟩
    · exact ⟨Nat.le_refl _, by simp⟩

theorem notRetried_settled (w : World) (args : List (String × Slot)) :
    settled (notRetried w args).1 ≤ 1 ∧ ∀ a b, (notRetried w args).2 ≠ .blocked a b := by
  simp only [notRetried]
  split
  · exact recordFailure_settled w
  · split
    · exact ⟨Nat.zero_le _, by simp⟩
    · rw [settled_cons]; simpa [Eff.settles] using recordFailure_settled w

theorem onError_settled (w : World) (args : List (String × Slot)) (e : Err) :
    settled (onError w args e).1 ≤ 1 ∧ ∀ a b, (onError w args e).2 ≠ .blocked a b := by
  simp only [onError]
  split
  · exact notRetried_settled w args
  · split
    · split
      · exact ⟨Nat.le_refl 1, by simp⟩
      · exact ⟨Nat.zero_le _, by simp⟩
    · exact ⟨Nat.zero_le _, by simp⟩
    · rw [settled_cons]; simpa [Eff.settles] using notRetried_settled w args

theorem outer_settled (w : World) (args : List (String × Slot)) (out : Out) :
    settled (outer w args out).1 ≤ 1 := by
  cases out with
  | done => exact Nat.zero_le _
  | cancelled => exact Nat.le_refl _
  | raised e =>
    cases e with
    | blocked a b => exact Nat.zero_le _
    | other x => exact (onError_settled w args _).1

theorem opened_settled (l : List Res) : settled (l.map Eff.opened) = 0 := by
  refine settled_zero ?_
  intro e he
  obtain ⟨r, _, rfl⟩ := List.mem_map.1 he
  rfl

theorem closed_settled (l : List Res) : settled (l.map Eff.closed) = 0 := by
  refine settled_zero ?_
  intro e he
  obtain ⟨r, _, rfl⟩ := List.mem_map.1 he
  rfl

/-- Refused by a gate that took care of the task itself. -/
def HandledByGate (w : World) : Prop := ∃ r, (execute w).2 = .blocked true r

/-- **C60**: no execution is forgotten.  Whatever the dependencies, the task, the handlers
and the exits do, unless an error goes on to the worker's loop (which leaves the message
pending, to be redelivered), or the task was superseded (the claim acknowledges it), or the
gate that refused it took care of it, the message is acknowledged. -/
theorem C60_never_forgotten (w : World) (hp : (settle w).2 = false)
    (hc : w.stricken = true ∨ w.claimed = true) (hg : ¬ HandledByGate w) : settled (settle w).1 ≥ 1 := by
  cases hs : w.stricken with
  | true =>
    have : (execute w) = ([.cancelled], .finished) := by simp [execute, hs]
    simp only [settle, this]
    exact Nat.le_refl 1
  | false =>
    have hc : w.claimed = true := by simpa [hs] using hc
    have hnet : ∀ l : List Eff, settled (safetyNet w l) ≥ 1 := by
      intro l
      unfold safetyNet
      by_cases hl : l.any Eff.settles = true
      · rw [if_pos (by simp [hl])]
        have := settled_pos.1 hl
        omega
      · rw [if_neg (by simp [hc]; simpa using hl), settled_append, settled_failed]
        omega
    simp only [settle] at hp ⊢
    cases hf : (execute w).2 with
    | finished => simpa only [hf] using hnet _
    | propagated e => simp only [hf] at hp; cases hp
    | blocked a b =>
      cases a with
      | true => exact absurd ⟨b, hf⟩ hg
      | false =>
        cases b with
        | true => simpa only [hf] using hnet _
        | false => simpa only [hf] using hnet _

/-- **C60, partial**: if no exit of a dependency raises, the outcome is recorded, and the
message acknowledged, at most once; so exactly once in the cases of `C60_never_forgotten`.
What is missing is an exit that raises: `C60_violated_completed_then_failed`. -/
theorem C60_settled_once_partial (w : World) (hx : ∀ r o e, w.exit r o ≠ .raises e) :
    settled (settle w).1 ≤ 1 := by
  have hnet : ∀ l : List Eff, settled l ≤ 1 →
      settled (safetyNet w l) ≤ 1 := by
    intro l hl
    unfold safetyNet
    by_cases h : (l.any Eff.settles || !w.claimed) = true
    · rw [if_pos h]; exact hl
    · rw [if_neg h, settled_append]
      have h0 : settled l = 0 := by
        by_cases h' : settled l = 0
        · exact h'
        · exact absurd (by simp only [settled_pos.2 h', Bool.true_or]) h
      rw [h0, settled_failed]
      omega
  have hex : settled (execute w).1 ≤ 1 ∧ ((∃ a b, (execute w).2 = .blocked a b) → settled (execute w).1 = 0) := by
    cases hs : w.stricken with
    | true =>
      have : (execute w) = ([.cancelled], .finished) := by simp [execute, hs]
      rw [this]
      exact ⟨Nat.le_refl _, by rintro ⟨a, b, h⟩; cases h⟩
    | false =>
      cases hc : w.claimed with
      | false => simp [execute, hs, hc, settled]
      | true =>
        rw [execute_claimed hs hc]
        simp only [settled_append, opened_settled, closed_settled, Nat.zero_add, Nat.add_zero]
        have hu := unwind_no_raise hx (resolve w).opened.reverse (inner w).2
        have hdone : after w = .done → (tailEffs w).1 = [] ∧ (tailEffs w).2 = .finished := by
          intro h; simp only [tailEffs, h]; exact ⟨rfl, rfl⟩
        rcases inner_settled w with ⟨h1, h2⟩ | ⟨h1, h2⟩
        · have ha : after w = .done := by
            rcases hu with h | h
            · exact h.trans h1
            · exact h
          obtain ⟨ht, hf⟩ := hdone ha
          rw [h2, ht, hf]
          exact ⟨Nat.le_refl _, by rintro ⟨a, b, h⟩; cases h⟩
        · rw [h2, Nat.zero_add]
          refine ⟨outer_settled _ _ _, ?_⟩
          rintro ⟨a, b, hb⟩
          cases ha : after w with
          | done => rw [(hdone ha).2] at hb; cases hb
          | cancelled => simp only [tailEffs, ha, outer] at hb; cases hb
          | raised e =>
            cases e with
            | blocked a' b' => simp only [tailEffs, ha, outer]; rfl
            | other x =>
              simp only [tailEffs, ha, outer] at hb
              exact absurd hb ((onError_settled w _ _).2 a b)
  simp only [settle]
  cases hf : (execute w).2 with
  | finished => simpa only [hf] using hnet _ hex.1
  | propagated e => simpa only [hf] using hex.1
  | blocked a b =>
    have h0 := hex.2 ⟨a, b, hf⟩
    cases a with
    | true => simpa only [hf] using hex.1
    | false =>
      cases b with
      | true =>
        refine hnet _ ?_
        rw [settled_append, h0, settled_rescheduled]
        omega
      | false =>
        refine hnet _ ?_
        rw [settled_append, h0, settled_cancelled]
        omega

/-- The hypotheses are met by a task that fails, whose handler claims to have handled the
failure but did nothing: the safety net settles it. -/
example :
    let w : World := {
      func := ⟨[], [("retry", .dep ⟨[7], .value ⟨"r", false, true, false⟩⟩)], []⟩
      body := fun _ => .raised (.other "boom")
      handleFailure := fun _ _ => .handled
      acks := fun _ => false }
    (settle w).1 = [.opened 7, .called [("retry", ⟨"r", false, true, false⟩)], .closed 7,
      .failureHandler ⟨"r", false, true, false⟩, .failed] ∧ (settle w).2 = false := by
  decide +kernel

/-! ### Results -/

theorem complete_kept (w : World) (b : Bool) (h : Eff.completed true ∈ (complete w b).1) :
    b = false ∧ w.ttl = true ∧ (complete w b).1 = [.stored, .completed true] := by
  simp only [complete] at h ⊢
  split at h
  · simp at h
  · next hc =>
    rw [if_neg hc]
    simp only [Bool.or_eq_true, Bool.not_eq_true', not_or, Bool.not_eq_true, Bool.not_eq_false] at hc
    split at h
    · simp at h
    · next hs => exact ⟨hc.1, hc.2, rfl⟩

theorem block_kept (w : World) (args : List (String × Slot)) (h : Eff.completed true ∈ (block w args).1) :
    w.ttl = true ∧ ∃ kw mid, w.body kw = .returned false ∧
      (block w args).1 = .called kw :: (mid ++ [.stored, .completed true]) := by
  simp only [block] at h ⊢
  split at h
  · simp at h
  · split at h
    · simp at h
    · next hf =>
      rw [if_neg hf]
      split at h
      · simp at h
      · next hcl =>
        rw [if_neg hcl]
        cases hb : w.body (finalKwargs w args) with
        | cancelled => rw [hb] at h; simp at h
        | raised e => rw [hb] at h; simp at h
        | returned b =>
          rw [hb] at h
          simp only [List.mem_cons, reduceCtorEq, false_or] at h ⊢
          simp only [finish] at h ⊢
          split at h
          · obtain ⟨h1, h2, h3⟩ := complete_kept w b h
            exact ⟨h2, _, [], by rw [hb, h1], by rw [h3]; rfl⟩
          · next v hv =>
            split at h
            · simp at h
            · next hn =>
              simp only [List.mem_cons, reduceCtorEq, false_or] at h
              obtain ⟨h1, h2, h3⟩ := complete_kept w b h
              refine ⟨h2, _, [.completionHandler v], by rw [hb, h1], ?_⟩
              simp [h3]
            · simp at h

theorem outer_kept (w : World) (args : List (String × Slot)) (out : Out) : Eff.completed true ∉ (outer w args out).1 := by
  have hr : Eff.completed true ∉ (recordFailure w).1 := by
    simp only [recordFailure]
    split
    · simp
    · split <;> simp
  have hn : Eff.completed true ∉ (notRetried w args).1 := by
    simp only [notRetried]
    split
    · exact hr
    · split
      · simp
      · simpa using hr
  cases out with
  | done => simp [outer]
  | cancelled => simp [outer]
  | raised e =>
    cases e with
    | blocked a b => simp [outer]
    | other x =>
      simp only [outer, onError]
      split
      · exact hn
      · split
        · split <;> simp
        · simp
        · simpa using hn

theorem settle_extends (w : World) : ∃ post, (settle w).1 = (execute w).1 ++ post ∧ Eff.completed true ∉ post ∧ ∀ kw, Eff.called kw ∉ post := by
  have hnet : ∀ l, ∃ post, safetyNet w l = l ++ post ∧ Eff.completed true ∉ post ∧ ∀ kw, Eff.called kw ∉ post := by
    intro l
    unfold safetyNet
    split
    · exact ⟨[], by simp⟩
    · exact ⟨[.failed], by simp⟩
  simp only [settle]
  cases (execute w).2 with
  | finished => exact hnet _
  | propagated e => exact ⟨[], by simp⟩
  | blocked a b =>
    cases a with
    | true => exact ⟨[], by simp⟩
    | false =>
      cases b with
      | true =>
        obtain ⟨p, h1, h2, h3⟩ := hnet ((execute w).1 ++ [.rescheduled])
        exact ⟨.rescheduled :: p, by simpa using h1, by simpa using h2, by simpa using h3⟩
      | false =>
        obtain ⟨p, h1, h2, h3⟩ := hnet ((execute w).1 ++ [.cancelled])
        exact ⟨.cancelled :: p, by simpa using h1, by simpa using h2, by simpa using h3⟩

/-- **C60**: an execution is recorded as completed with a result only right after the result of
the task was stored: the task was called, it returned something other than None, and results
are kept. -/
theorem C60_result_stored_first (w : World) (h : Eff.completed true ∈ (settle w).1) :
    w.ttl = true ∧ ∃ kw pre mid post, w.body kw = .returned false ∧
      (settle w).1 = pre ++ .called kw :: (mid ++ [.stored, .completed true]) ++ post := by
  obtain ⟨post, h1, h2, _⟩ := settle_extends w
  rw [h1] at h ⊢
  have h : Eff.completed true ∈ (execute w).1 := (List.mem_append.1 h).resolve_right h2
  cases hs : w.stricken with
  | true => simp [execute, hs] at h
  | false =>
    cases hc : w.claimed with
    | false => simp [execute, hs, hc] at h
    | true =>
      rw [execute_claimed hs hc] at h ⊢
      simp only [List.mem_append, List.mem_map, reduceCtorEq, and_false, exists_false, false_or, or_false] at h
      have h := h.resolve_right (outer_kept _ _ _)
      unfold inner at h ⊢
      cases ha : (resolve w).aborted with
      | true => simp [ha] at h
      | false =>
        simp only [ha, Bool.false_eq_true, if_false] at h ⊢
        obtain ⟨h3, kw, mid, h4, h5⟩ := block_kept w _ h
        refine ⟨h3, kw, (resolve w).opened.map .opened, mid, (resolve w).opened.reverse.map .closed ++ (tailEffs w).1 ++ post, h4, ?_⟩
        rw [h5]
        simp

/-- **C60**: and if the task was called and returned something other than None, results are
kept, the store works and no dependency takes over the completion, then it is. -/
theorem C60_result_kept (w : World) (kw : List (String × Val)) (h : Eff.called kw ∈ (settle w).1)
    (hb : w.body kw = .returned false) (ht : w.ttl = true) (hs : w.storeFails = none) (ho : ∀ v, w.onSuccess v = .notHandled) :
    Eff.completed true ∈ (settle w).1 := by
  obtain ⟨post, h1, _, h2⟩ := settle_extends w
  rw [h1] at h ⊢
  have h : Eff.called kw ∈ (execute w).1 := (List.mem_append.1 h).resolve_right (h2 kw)
  obtain ⟨c1, c2, c3, c4⟩ := called_inner h
  rw [execute_claimed c1 c2]
  simp only [List.mem_append]
  refine Or.inl (Or.inl (Or.inl (Or.inr ?_)))
  unfold inner
  simp only [c3, Bool.false_eq_true, if_false]
  have hcomp : (complete w false).1 = [.stored, .completed true] := by simp [complete, ht, hs]
  have hfin : Eff.completed true ∈ (finish w (resolve w).args false).1 := by
    simp only [finish]
    split
    · simp [hcomp]
    · rw [ho]; simp [hcomp]
  simp only [block] at c4 ⊢
  split at c4
  · simp at c4
  · split at c4
    · simp at c4
    · next hf =>
      rw [if_neg hf]
      split at c4
      · simp at c4
      · next hcl =>
        rw [if_neg hcl]
        have hkw : finalKwargs w (resolve w).args = kw := by
          cases hbb : w.body (finalKwargs w (resolve w).args) with
          | cancelled => rw [hbb] at c4; simp at c4; exact c4.symm
          | raised e => rw [hbb] at c4; simp at c4; exact c4.symm
          | returned b =>
            rw [hbb] at c4
            simp only [List.mem_cons, Eff.called.injEq] at c4
            rcases c4 with c4 | c4
            · exact c4.symm
            · exact absurd rfl ((finish_effs _ _ _ _ c4).1 kw)
        rw [hkw, hb]
        simp [hfin]

example : (settle { func := ⟨[], [], []⟩, body := fun _ => .returned false }).1 = [.called [], .stored, .completed true] := by
  decide +kernel

/-- The full statement of C60. -/
def C60_settled_once : Prop := ∀ w : World, settled (settle w).1 ≤ 1

/-- **C60, violated**: a dependency whose exit raises after the task returned makes the
execution be recorded twice: it is marked completed inside the `async with`, then the
exception reaches the `except Exception` clause and it is marked failed
(worker.py:1130-1156, 1179-1230). -/
theorem C60_violated_completed_then_failed : ¬ C60_settled_once := by
  intro h
  have := h { func := ⟨[], [("db", .dep ⟨[1], .value ⟨"db", false, false, false⟩⟩)], []⟩
              body := fun _ => .returned true
              exit := fun _ _ => .raises (.other "commit failed") }
  revert this
  decide +kernel

/-- **C60, violated**: with a `Retry`, a task that returned and was marked completed is run
again, because an exit raised. -/
theorem C60_violated_completed_then_retried :
    (settle { func := ⟨[], [("retry", .dep ⟨[], .value ⟨"r", false, true, false⟩⟩),
                            ("db", .dep ⟨[1], .value ⟨"db", false, false, false⟩⟩)], []⟩
              body := fun _ => .returned true
              exit := fun _ _ => .raises (.other "commit failed")
              handleFailure := fun _ _ => .handled }).1 =
    [.opened 1, .called [("retry", ⟨"r", false, true, false⟩), ("db", ⟨"db", false, false, false⟩)],
     .completed false, .closed 1, .failureHandler ⟨"r", false, true, false⟩, .rescheduled] := by
  decide +kernel

theorem mem_put {α : Type} {d : List (String × α)} {k : String} {v : α} {e : String × α}
    (h : e ∈ put d k v) : e = (k, v) ∨ e ∈ d := by
  induction d with
  | nil => exact .inl (List.mem_singleton.1 h)
  | cons a d ih =>
    unfold put at h
    split at h
    · rcases List.mem_cons.1 h with h | h
      · exact .inl h
      · exact .inr (List.mem_cons_of_mem _ h)
    · rcases List.mem_cons.1 h with h | h
      · exact .inr (h ▸ List.mem_cons_self ..)
      · rcases ih h with h | h
        · exact .inl h
        · exact .inr (List.mem_cons_of_mem _ h)

/-- Everything so far was entered. -/
def Entirely (w : World) (r : R) : Prop :=
  r.aborted = false ∧ ∀ e ∈ r.args, e.2.err? = none ∧ (isWorkerSlot e.1 = true ∨ ∃ p, (e.1, p) ∈ w.func.params)

theorem Entirely.enterInto {w : World} {r : R} (h : Entirely w r) {slot name : String} {keep : Bool} {d : Dep}
    {v : Val} (hd : d.entered = .value v)
    (hk : keep = true → isWorkerSlot slot = true ∨ ∃ p, (slot, p) ∈ w.func.params) :
    Entirely w (enterInto slot name keep d r) := by
  unfold Execute.enterInto
  rw [if_neg (by simp [h.1]), hd]
  refine ⟨h.1, ?_⟩
  cases keep with
  | false => exact h.2
  | true =>
    intro e hm
    rcases mem_put hm with rfl | hm
    · exact ⟨rfl, hk rfl⟩
    · exact h.2 e hm

theorem union_mem {α : Type} (a b : List (String × α)) {e : String × α} (h : e ∈ union a b) :
    e ∈ a ∨ e ∈ b := by
  induction b generalizing a with
  | nil => exact Or.inl h
  | cons x b ih =>
    rcases ih (put a x.1 x.2) h with h | h
    · rcases mem_put h with rfl | h
      · exact Or.inr (List.mem_cons_self ..)
      · exact Or.inl h
    · exact Or.inr (List.mem_cons_of_mem _ h)

/-- **C42**: and the task is called, whenever it is neither stricken nor superseded, every
dependency of the worker, of a parameter that is not passed explicitly, and of an annotation is
entered, there is no conflict, and no parameter is given twice: by position and by keyword or as
a dependency. -/
theorem C42_called_if_resolved (w : World) (hs : w.stricken = false) (hc : w.claimed = true)
    (hcf : ∀ args, w.conflicts args = [])
    (hw : ∀ n d, (n, d) ∈ w.workerDeps → ∃ v, d.entered = .value v)
    (hp : ∀ n p, (n, p) ∈ w.func.params → (∃ v, lookup w.kwargs n = some v) ∨ ∃ d v, p = .dep d ∧ d.entered = .value v)
    (ha : ∀ n ds, (n, ds) ∈ w.func.annotations → ∀ d ∈ ds, ∀ x, ∃ v, (d x).entered = .value v)
    (hpos : ∀ n ∈ w.func.positional.take w.args.length, isWorkerSlot n = false ∧ (∀ v, (n, v) ∉ w.kwargs) ∧
      ∀ p, (n, p) ∉ w.func.params) :
    ∃ kw, Eff.called kw ∈ (execute w).1 := by
  have h1 : ∀ (l : List (String × Dep)) (r : R), (∀ n d, (n, d) ∈ l → ∃ v, d.entered = .value v) →
      Entirely w r → Entirely w (resolveWorker l r) := by
    intro l
    induction l with
    | nil => exact fun _ _ h => h
    | cons e l ih =>
      intro r hl hr
      obtain ⟨v, hv⟩ := hl e.1 e.2 (List.mem_cons_self ..)
      exact ih _ (fun n d hm => hl n d (List.mem_cons_of_mem _ hm))
        (hr.enterInto hv (fun _ => Or.inl (isWorkerSlot_append _)))
  have h2 : ∀ (l : List (String × Param)) (r : R), (∀ e ∈ l, e ∈ w.func.params) →
      Entirely w r → Entirely w (resolveParams w.kwargs l r) := by
    intro l
    induction l with
    | nil => exact fun _ _ h => h
    | cons e l ih =>
      intro r hl hr
      refine ih _ (fun x hx => hl x (List.mem_cons_of_mem _ hx)) ?_
      obtain ⟨n, p⟩ := e
      have hm := hl (n, p) (List.mem_cons_self ..)
      simp only
      rw [if_neg (by simp [hr.1])]
      cases hk : lookup w.kwargs n with
      | some v =>
        refine ⟨hr.1, fun e he => ?_⟩
        rcases mem_put he with rfl | he
        · exact ⟨rfl, Or.inr ⟨p, hm⟩⟩
        · exact hr.2 e he
      | none =>
        rcases hp n p hm with ⟨v, hv⟩ | ⟨d, v, rfl, hv⟩
        · rw [hk] at hv; cases hv
        · exact hr.enterInto hv (fun _ => Or.inr ⟨_, hm⟩)
  have h3 : ∀ (n : String) (x : Option Val) (ds : List (Option Val → Dep)) (r : R),
      (∀ d ∈ ds, ∀ x, ∃ v, (d x).entered = .value v) → Entirely w r →
      Entirely w (ds.foldl (fun r d => enterInto n n false (d x) r) r) := by
    intro n x ds
    induction ds with
    | nil => exact fun _ _ h => h
    | cons d ds ih =>
      intro r hl hr
      obtain ⟨v, hv⟩ := hl d (List.mem_cons_self ..) x
      exact ih _ (fun d hd => hl d (List.mem_cons_of_mem _ hd)) (hr.enterInto hv (fun h => nomatch h))
  have h4 : ∀ (l : List (String × List (Option Val → Dep))) (r : R),
      (∀ n ds, (n, ds) ∈ l → ∀ d ∈ ds, ∀ x, ∃ v, (d x).entered = .value v) → Entirely w r →
      Entirely w (resolveAnnotations w.kwargs l r) := by
    intro l
    induction l with
    | nil => exact fun _ _ h => h
    | cons e l ih =>
      intro r hl hr
      exact ih _ (fun n d hm => hl n d (List.mem_cons_of_mem _ hm))
        (h3 e.1 _ e.2 r (hl e.1 e.2 (List.mem_cons_self ..)) hr)
  have hr := h4 _ _ ha (h2 w.func.params _ (fun _ h => h) (h1 _ {} hw ⟨rfl, fun _ h => nomatch h⟩))
  have hres : Entirely w (resolve w) := by
    unfold resolve addConflicts
    rw [if_neg (by simp [hr.1]), hcf]
    exact hr
  refine ⟨finalKwargs w (resolve w).args, ?_⟩
  rw [execute_claimed hs hc]
  simp only [List.mem_append]
  refine Or.inl (Or.inl (Or.inr ?_))
  simp only [inner, hres.1, Bool.false_eq_true, if_false]
  have hnil : (resolve w).args.filterMap (fun e => e.2.err?) = [] := by
    rw [List.filterMap_eq_nil_iff]
    exact fun e he => (hres.2 e he).1
  have hcl : clash w (finalKwargs w (resolve w).args) = false := by
    rw [← Bool.not_eq_true]
    intro hcl
    unfold clash at hcl
    obtain ⟨n, hn, hany⟩ := List.any_eq_true.1 hcl
    obtain ⟨e, he, heq⟩ := List.any_eq_true.1 hany
    have heq : e.1 = n := of_decide_eq_true heq
    obtain ⟨q1, q2, q3⟩ := hpos n hn
    rcases union_mem _ _ he with he | he
    · exact q2 e.2 (by rw [← heq]; exact he)
    · obtain ⟨y, hy, hye⟩ := List.mem_filterMap.1 he
      obtain ⟨v, _, hv⟩ := Option.map_eq_some_iff.1 hye
      have hyn : y.1 = n := by rw [← heq, ← hv]
      obtain ⟨hy1, hy2⟩ := List.mem_filter.1 hy
      rcases (hres.2 y hy1).2 with hslot | ⟨p, hp⟩
      · rw [hyn] at hslot; rw [q1] at hslot; cases hslot
      · exact q3 p (by rw [← hyn]; exact hp)
  unfold block
  simp only [hnil, List.find?_nil, ne_eq, not_true_eq_false, if_false, hcl, Bool.false_eq_true]
  split
  · exact List.mem_cons_self ..
  · exact List.mem_cons_self ..
  · exact List.mem_cons_self ..

example : (∀ n ∈ sample.func.positional.take sample.args.length, isWorkerSlot n = false ∧ (∀ v, (n, v) ∉ sample.kwargs) ∧
      ∀ p, (n, p) ∉ sample.func.params) ∧ sample.args.length = 1 := by
  refine ⟨?_, by decide⟩
  intro n hn
  have : n = "x" := by simpa [sample] using hn
  subst this
  refine ⟨by decide +kernel, by simp [sample], by simp [sample]⟩

end Docket.Execute
