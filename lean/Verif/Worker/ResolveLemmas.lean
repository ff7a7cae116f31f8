import Verif.Worker.Execute
/-
Lemmas about the model in Verif/Worker/Execute.lean: what resolving leaves behind.
-/
namespace Docket.Execute

/-! ### Dict lemmas -/

theorem lookup_put {α : Type} (d : List (String × α)) (k k' : String) (v : α) :
    lookup (put d k v) k' = if k = k' then some v else lookup d k' := by
  induction d with
  | nil => by_cases h : k = k' <;> simp [put, lookup, h]
  | cons e d ih =>
    obtain ⟨k0, v0⟩ := e
    by_cases h : k0 = k
    · subst h
      by_cases h' : k0 = k' <;> simp [put, lookup, h']
    · simp only [put, if_neg h]
      by_cases h' : k0 = k'
      · subst h'
        simp [lookup, Ne.symm h]
      · have : ∀ (x : α) (l : List (String × α)), lookup ((k0, x) :: l) k' = lookup l k' := by
          intro x l; simp [lookup, h']
        rw [this, this, ih]

theorem lookup_mem {α : Type} {d : List (String × α)} {k : String} {v : α} (h : lookup d k = some v) :
    (k, v) ∈ d := by
  simp only [lookup, Option.map_eq_some_iff] at h
  obtain ⟨e, he, rfl⟩ := h
  have h1 := List.mem_of_find?_eq_some he
  have h2 := List.find?_some he
  simp only [decide_eq_true_eq] at h2
  rw [← h2]
  exact h1

theorem lookup_none {α : Type} {d : List (String × α)} {k : String} (h : ∀ v, (k, v) ∉ d) :
    lookup d k = none := by
  cases hl : lookup d k with
  | none => rfl
  | some v => exact absurd (lookup_mem hl) (h v)

/-- Keys of a dict are distinct. -/
def Dict {α : Type} (d : List (String × α)) : Prop := (d.map (·.1)).Nodup

instance {α : Type} (d : List (String × α)) : Decidable (Dict d) := by unfold Dict; infer_instance

theorem keys_put {α : Type} (d : List (String × α)) (k : String) (v : α) (x : String) :
    x ∈ (put d k v).map (·.1) ↔ x = k ∨ x ∈ d.map (·.1) := by
  induction d with
  | nil => simp [put]
  | cons e d ih =>
    obtain ⟨k0, v0⟩ := e
    by_cases h : k0 = k
    · subst h; simp [put]
    · simp only [put, if_neg h, List.map_cons, List.mem_cons, ih]
      constructor
      · rintro (h | h | h) <;> simp [h]
      · rintro (h | h | h) <;> simp [h]

theorem Dict.put {α : Type} {d : List (String × α)} (h : Dict d) (k : String) (v : α) :
    Dict (put d k v) := by
  induction d with
  | nil => simp [Dict, Execute.put]
  | cons e d ih =>
    obtain ⟨k0, v0⟩ := e
    simp only [Dict, List.map_cons, List.nodup_cons] at h
    by_cases hk : k0 = k
    · subst hk; simpa [Dict, Execute.put] using h
    · simp only [Dict, Execute.put, if_neg hk, List.map_cons, List.nodup_cons]
      refine ⟨?_, ih h.2⟩
      rw [keys_put]
      rintro (h' | h')
      · exact hk h'
      · exact h.1 h'

theorem Dict.lookup_of_mem {α : Type} {d : List (String × α)} (h : Dict d) {k : String} {v : α}
    (hm : (k, v) ∈ d) : lookup d k = some v := by
  induction d with
  | nil => cases hm
  | cons e d ih =>
    obtain ⟨k0, v0⟩ := e
    simp only [Dict, List.map_cons, List.nodup_cons] at h
    rcases List.mem_cons.1 hm with hm | hm
    · cases hm; simp [lookup]
    · have : k0 ≠ k := by
        rintro rfl
        exact h.1 (List.mem_map_of_mem (f := (·.1)) hm)
      have := ih h.2 hm
      simpa [lookup, *] using this

theorem Dict.union {α : Type} {a : List (String × α)} (h : Dict a) (b : List (String × α)) :
    Dict (union a b) := by
  induction b generalizing a with
  | nil => exact h
  | cons e b ih => exact ih (h.put e.1 e.2)

theorem lookup_union_other {α : Type} (a b : List (String × α)) (k : String) (h : ∀ v, (k, v) ∉ b) :
    lookup (union a b) k = lookup a k := by
  induction b generalizing a with
  | nil => rfl
  | cons e b ih =>
    have h1 : e.1 ≠ k := fun hc => h e.2 (by rw [← hc]; simp)
    show lookup (union (put a e.1 e.2) b) k = _
    rw [ih _ (fun v hv => h v (by simp [hv])), lookup_put, if_neg h1]

theorem lookup_union_mem {α : Type} (a : List (String × α)) {b : List (String × α)} (hb : Dict b)
    {k : String} {v : α} (h : (k, v) ∈ b) : lookup (union a b) k = some v := by
  induction b generalizing a with
  | nil => cases h
  | cons e b ih =>
    simp only [Dict, List.map_cons, List.nodup_cons] at hb
    show lookup (union (put a e.1 e.2) b) k = _
    rcases List.mem_cons.1 h with h | h
    · subst h
      rw [lookup_union_other, lookup_put, if_pos rfl]
      intro v hv
      exact hb.1 (List.mem_map_of_mem (f := (·.1)) hv)
    · exact ih _ hb.2 h

/-- A worker-dependency slot. -/
def isWorkerSlot (k : String) : Bool := k.startsWith "__worker_dep__"

/-- What Python guarantees (dict keys and parameter names are distinct), and that no
parameter or annotation has a name starting with `__worker_dep__`. -/
structure NamesOK (w : World) : Prop where
  worker : Dict w.workerDeps
  params : Dict w.func.params
  annotations : Dict w.func.annotations
  kwargs : Dict w.kwargs
  plain : ∀ e ∈ w.func.params, isWorkerSlot e.1 = false
  plainAnn : ∀ e ∈ w.func.annotations, isWorkerSlot e.1 = false
  plainKw : ∀ e ∈ w.kwargs, isWorkerSlot e.1 = false

theorem isWorkerSlot_append (n : String) : isWorkerSlot ("__worker_dep__" ++ n) = true := by
  simp [isWorkerSlot]

theorem append_inj_left' {a b : String} (h : "__worker_dep__" ++ a = "__worker_dep__" ++ b) : a = b := by
  have := congrArg String.toList h
  exact String.toList_inj.1 (by simpa using this)

/-! ### What resolving leaves behind -/

/-- The entry a dependency leaves under its slot. -/
def slotOf (n : String) : Entered → Option Slot
  | .value v => some (.value v)
  | .error e => some (.failed n e)
  | .cancelled => none

/-- The entry a dependency parameter leaves. -/
def paramSlot (kwargs : List (String × Val)) (n : String) (p : Param) : Option Slot :=
  match lookup kwargs n with
  | some v => some (.value v)
  | none => match p with
    | .bareArgument => some (.failed n (.other "No parameter name specified"))
    | .dep d => slotOf n d.entered

theorem enterInto_spec (slot name : String) (keep : Bool) (d : Dep) (r : R)
    (h : (enterInto slot name keep d r).aborted = false) :
    r.aborted = false ∧ (enterInto slot name keep d r).opened = r.opened ++ d.opens ∧
    (∀ k, k ≠ slot → lookup (enterInto slot name keep d r).args k = lookup r.args k) ∧
    (Dict r.args → Dict (enterInto slot name keep d r).args) ∧
    ((∃ v, d.entered = .value v ∧ lookup (enterInto slot name keep d r).args slot =
        if keep then some (.value v) else lookup r.args slot) ∨
      ∃ e, d.entered = .error e ∧
        lookup (enterInto slot name keep d r).args slot = some (.failed name e)) := by
  cases ha : r.aborted with
  | true => simp [enterInto, ha] at h
  | false =>
    cases he : d.entered with
    | cancelled => simp [enterInto, ha, he] at h
    | error e =>
      simp only [enterInto, ha, he, Bool.false_eq_true, if_false]
      refine ⟨trivial, trivial, ?_, fun hd => hd.put _ _, Or.inr ⟨e, rfl, ?_⟩⟩
      · intro k hk; rw [lookup_put, if_neg (Ne.symm hk)]
      · rw [lookup_put, if_pos rfl]
    | value v =>
      simp only [enterInto, ha, he, Bool.false_eq_true, if_false]
      refine ⟨trivial, trivial, ?_, fun hd => ?_, Or.inl ⟨v, rfl, ?_⟩⟩
      · intro k hk
        cases keep
        · simp
        · simp only [if_true]; rw [lookup_put, if_neg (Ne.symm hk)]
      · cases keep
        · simpa using hd
        · simpa using hd.put _ _
      · cases keep
        · simp
        · simp only [if_true]; rw [lookup_put, if_pos rfl]

theorem resolveWorker_spec (deps : List (String × Dep)) (hd : Dict deps) (r : R)
    (h : (resolveWorker deps r).aborted = false) :
    r.aborted = false ∧ (∀ x ∈ r.opened, x ∈ (resolveWorker deps r).opened) ∧
    (Dict r.args → Dict (resolveWorker deps r).args) ∧
    (∀ k, isWorkerSlot k = false → lookup (resolveWorker deps r).args k = lookup r.args k) ∧
    (∀ n, (∀ d, (n, d) ∉ deps) → lookup (resolveWorker deps r).args ("__worker_dep__" ++ n) =
      lookup r.args ("__worker_dep__" ++ n)) ∧
    ∀ n d, (n, d) ∈ deps → (∀ x ∈ d.opens, x ∈ (resolveWorker deps r).opened) ∧
      (slotOf n d.entered).isSome ∧
      lookup (resolveWorker deps r).args ("__worker_dep__" ++ n) = slotOf n d.entered := by
  induction deps generalizing r with
  | nil => exact ⟨h, fun x hx => hx, fun hd => hd, fun _ _ => rfl, fun _ _ => rfl, by simp⟩
  | cons e deps ih =>
    obtain ⟨n0, d0⟩ := e
    simp only [Dict, List.map_cons, List.nodup_cons] at hd
    have h' : (resolveWorker deps (enterInto ("__worker_dep__" ++ n0) n0 true d0 r)).aborted = false := h
    show _ ∧ (∀ x ∈ r.opened, x ∈ (resolveWorker deps (enterInto ("__worker_dep__" ++ n0) n0 true d0 r)).opened) ∧ _
    obtain ⟨i1, i2, i3, i4, i5, i6⟩ := ih hd.2 _ h'
    obtain ⟨e1, e2, e3, e4, e5⟩ := enterInto_spec _ _ _ _ _ i1
    refine ⟨e1, fun x hx => i2 x (by rw [e2]; simp [hx]), fun hr => i3 (e4 hr), ?_, ?_, ?_⟩
    · intro k hk
      refine (i4 k hk).trans (e3 k ?_)
      rintro rfl
      rw [isWorkerSlot_append] at hk
      cases hk
    · intro n hn
      refine (i5 n (fun d hm => hn d (by simp [hm]))).trans (e3 _ ?_)
      intro hc
      have := append_inj_left' hc
      subst this
      exact hn d0 (by simp)
    · intro n d hm
      rcases List.mem_cons.1 hm with hm | hm
      · cases hm
        have hnot : ∀ d', (n0, d') ∉ deps := fun d' hm' => hd.1 (List.mem_map_of_mem (f := (·.1)) hm')
        refine ⟨fun x hx => i2 x (by rw [e2]; simp [hx]), ?_, (i5 n0 hnot).trans ?_⟩
        · rcases e5 with ⟨v, hv, _⟩ | ⟨e, he, _⟩
          · simp [slotOf, hv]
          · simp [slotOf, he]
        · rcases e5 with ⟨v, hv, hl⟩ | ⟨e, he, hl⟩
          · rw [hl, hv]; rfl
          · rw [hl, he]; rfl
      · exact i6 n d hm

/-- One step of `resolveParams`. -/
private def paramStep (kwargs : List (String × Val)) (r : R) (e : String × Param) : R :=
  if r.aborted then r
  else match lookup kwargs e.1 with
    | some v => { r with args := put r.args e.1 (.value v) }
    | none => match e.2 with
      | .bareArgument => { r with args := put r.args e.1 (.failed e.1 (.other "No parameter name specified")) }
      | .dep d => enterInto e.1 e.1 true d r

theorem paramStep_spec (kwargs : List (String × Val)) (n : String) (p : Param) (r : R)
    (h : (paramStep kwargs r (n, p)).aborted = false) :
    r.aborted = false ∧ (∀ x ∈ r.opened, x ∈ (paramStep kwargs r (n, p)).opened) ∧
    (∀ k, k ≠ n → lookup (paramStep kwargs r (n, p)).args k = lookup r.args k) ∧
    (Dict r.args → Dict (paramStep kwargs r (n, p)).args) ∧
    (paramSlot kwargs n p).isSome ∧ lookup (paramStep kwargs r (n, p)).args n = paramSlot kwargs n p ∧
    (∀ d, p = .dep d → lookup kwargs n = none → ∀ x ∈ d.opens, x ∈ (paramStep kwargs r (n, p)).opened) := by
  cases ha : r.aborted with
  | true => simp [paramStep, ha] at h
  | false =>
    cases hl : lookup kwargs n with
    | some v =>
      simp only [paramStep, ha, hl, Bool.false_eq_true, if_false, paramSlot]
      refine ⟨trivial, fun x hx => hx, ?_, fun hd => hd.put _ _, rfl, ?_, ?_⟩
      · intro k hk; rw [lookup_put, if_neg (Ne.symm hk)]
      · rw [lookup_put, if_pos rfl]
      · intro d _ hc; cases hc
    | none =>
      cases p with
      | bareArgument =>
        simp only [paramStep, ha, hl, Bool.false_eq_true, if_false, paramSlot]
        refine ⟨trivial, fun x hx => hx, ?_, fun hd => hd.put _ _, rfl, ?_, ?_⟩
        · intro k hk; rw [lookup_put, if_neg (Ne.symm hk)]
        · rw [lookup_put, if_pos rfl]
        · intro d hc; cases hc
      | dep d =>
        have heq : paramStep kwargs r (n, .dep d) = enterInto n n true d r := by
          simp [paramStep, ha, hl]
        rw [heq] at h ⊢
        obtain ⟨e1, e2, e3, e4, e5⟩ := enterInto_spec _ _ _ _ _ h
        refine ⟨rfl, fun x hx => by rw [e2]; simp [hx], e3, e4, ?_, ?_, ?_⟩
        · rcases e5 with ⟨v, hv, _⟩ | ⟨e, he, _⟩
          · simp [paramSlot, hl, slotOf, hv]
          · simp [paramSlot, hl, slotOf, he]
        · rcases e5 with ⟨v, hv, hl'⟩ | ⟨e, he, hl'⟩
          · rw [hl']; simp [paramSlot, hl, slotOf, hv]
          · rw [hl']; simp [paramSlot, hl, slotOf, he]
        · intro d' hd' _ x hx
          cases hd'
          rw [e2]; simp [hx]

theorem resolveParams_spec (kwargs : List (String × Val)) (params : List (String × Param))
    (hd : Dict params) (r : R) (h : (resolveParams kwargs params r).aborted = false) :
    r.aborted = false ∧ (∀ x ∈ r.opened, x ∈ (resolveParams kwargs params r).opened) ∧
    (Dict r.args → Dict (resolveParams kwargs params r).args) ∧
    (∀ k, (∀ p, (k, p) ∉ params) → lookup (resolveParams kwargs params r).args k = lookup r.args k) ∧
    ∀ n p, (n, p) ∈ params → (paramSlot kwargs n p).isSome ∧
      lookup (resolveParams kwargs params r).args n = paramSlot kwargs n p ∧
      (∀ d, p = .dep d → lookup kwargs n = none → ∀ x ∈ d.opens, x ∈ (resolveParams kwargs params r).opened) := by
  induction params generalizing r with
  | nil => exact ⟨h, fun x hx => hx, fun hd => hd, fun _ _ => rfl, by simp⟩
  | cons e params ih =>
    obtain ⟨n0, p0⟩ := e
    simp only [Dict, List.map_cons, List.nodup_cons] at hd
    have heq : resolveParams kwargs ((n0, p0) :: params) r =
        resolveParams kwargs params (paramStep kwargs r (n0, p0)) := rfl
    rw [heq] at h ⊢
    obtain ⟨i1, i2, i3, i4, i6⟩ := ih hd.2 _ h
    obtain ⟨e1, e2, e3, e4, e5, e6, e7⟩ := paramStep_spec _ _ _ _ i1
    refine ⟨e1, fun x hx => i2 x (e2 x hx), fun hr => i3 (e4 hr), ?_, ?_⟩
    · intro k hk
      refine (i4 k (fun p hm => hk p (by simp [hm]))).trans (e3 k ?_)
      rintro rfl
      exact hk p0 (by simp)
    · intro n p hm
      rcases List.mem_cons.1 hm with hm | hm
      · cases hm
        have hnot : ∀ p', (n0, p') ∉ params := fun d' hm' => hd.1 (List.mem_map_of_mem (f := (·.1)) hm')
        exact ⟨e5, (i4 n0 hnot).trans e6, fun d hd' hk x hx => i2 x (e7 d hd' hk x hx)⟩
      · exact i6 n p hm

/-- An entry that says a dependency failed. -/
def IsFailed (o : Option Slot) : Prop := ∃ p e, o = some (.failed p e)

theorem annFold_spec (name : String) (value : Option Val) (ds : List (Option Val → Dep)) (r : R)
    (h : (ds.foldl (fun r d => enterInto name name false (d value) r) r).aborted = false) :
    let r' := ds.foldl (fun r d => enterInto name name false (d value) r) r
    r.aborted = false ∧ (∀ x ∈ r.opened, x ∈ r'.opened) ∧ (Dict r.args → Dict r'.args) ∧
    (∀ k, k ≠ name → lookup r'.args k = lookup r.args k) ∧
    (∀ d ∈ ds, ∀ x ∈ (d value).opens, x ∈ r'.opened) ∧
    (((∀ d ∈ ds, ∃ v, (d value).entered = .value v) ∧ lookup r'.args name = lookup r.args name) ∨
      IsFailed (lookup r'.args name)) := by
  induction ds generalizing r with
  | nil => exact ⟨h, fun x hx => hx, fun hd => hd, fun _ _ => rfl, by simp, Or.inl ⟨by simp, rfl⟩⟩
  | cons d ds ih =>
    simp only [List.foldl_cons] at h ⊢
    obtain ⟨i1, i2, i3, i4, i5, i6⟩ := ih _ h
    obtain ⟨e1, e2, e3, e4, e5⟩ := enterInto_spec _ _ _ _ _ i1
    refine ⟨e1, fun x hx => i2 x (by rw [e2]; simp [hx]), fun hr => i3 (e4 hr),
      fun k hk => (i4 k hk).trans (e3 k hk), ?_, ?_⟩
    · intro d' hd' x hx
      rcases List.mem_cons.1 hd' with rfl | hd'
      · exact i2 x (by rw [e2]; simp [hx])
      · exact i5 d' hd' x hx
    · rcases i6 with ⟨hall, heq⟩ | hf
      · rcases e5 with ⟨v, hv, hl⟩ | ⟨e, he, hl⟩
        · left
          refine ⟨?_, heq.trans (by simpa using hl)⟩
          intro d' hd'
          rcases List.mem_cons.1 hd' with rfl | hd'
          · exact ⟨v, hv⟩
          · exact hall d' hd'
        · right
          exact ⟨name, e, heq.trans hl⟩
      · exact Or.inr hf

theorem resolveAnnotations_spec (kwargs : List (String × Val))
    (anns : List (String × List (Option Val → Dep))) (hd : Dict anns) (r : R)
    (h : (resolveAnnotations kwargs anns r).aborted = false) :
    r.aborted = false ∧ (∀ x ∈ r.opened, x ∈ (resolveAnnotations kwargs anns r).opened) ∧
    (Dict r.args → Dict (resolveAnnotations kwargs anns r).args) ∧
    (∀ k, (∀ ds, (k, ds) ∉ anns) → lookup (resolveAnnotations kwargs anns r).args k = lookup r.args k) ∧
    ∀ n ds, (n, ds) ∈ anns →
      (∀ d ∈ ds, ∀ x ∈ (d (annotated kwargs r.args n)).opens, x ∈ (resolveAnnotations kwargs anns r).opened) ∧
      (((∀ d ∈ ds, ∃ v, (d (annotated kwargs r.args n)).entered = .value v) ∧
        lookup (resolveAnnotations kwargs anns r).args n = lookup r.args n) ∨
        IsFailed (lookup (resolveAnnotations kwargs anns r).args n)) := by
  induction anns generalizing r with
  | nil => exact ⟨h, fun x hx => hx, fun hd => hd, fun _ _ => rfl, by simp⟩
  | cons e anns ih =>
    obtain ⟨n0, ds0⟩ := e
    simp only [Dict, List.map_cons, List.nodup_cons] at hd
    have heq : resolveAnnotations kwargs ((n0, ds0) :: anns) r = resolveAnnotations kwargs anns
        (ds0.foldl (fun r' d => enterInto n0 n0 false (d (annotated kwargs r.args n0)) r') r) := rfl
    rw [heq] at h ⊢
    obtain ⟨i1, i2, i3, i4, i6⟩ := ih hd.2 _ h
    obtain ⟨e1, e2, e3, e4, e5, e6⟩ := annFold_spec n0 (annotated kwargs r.args n0) ds0 r i1
    generalize ds0.foldl (fun r' d => enterInto n0 n0 false (d (annotated kwargs r.args n0)) r') r = r1 at *
    refine ⟨e1, fun x hx => i2 x (e2 x hx), fun hr => i3 (e3 hr), ?_, ?_⟩
    · intro k hk
      refine (i4 k (fun p hm => hk p (by simp [hm]))).trans (e4 k ?_)
      rintro rfl
      exact hk ds0 (by simp)
    · intro n ds hm
      rcases List.mem_cons.1 hm with hm' | hm'
      · cases hm'
        have hnot : ∀ p', (n0, p') ∉ anns := fun d' hm' => hd.1 (List.mem_map_of_mem (f := (·.1)) hm')
        refine ⟨fun d hd' x hx => i2 x (e5 d hd' x hx), ?_⟩
        rw [i4 n0 hnot]
        exact e6
      · have hne : n ≠ n0 := by
          rintro rfl
          exact hd.1 (List.mem_map_of_mem (f := (·.1)) hm')
        have hsame : annotated kwargs r1.args n = annotated kwargs r.args n := by
          simp only [annotated, e4 n hne]
        obtain ⟨j1, j2⟩ := i6 n ds hm'
        rw [hsame, e4 n hne] at j2
        rw [hsame] at j1
        exact ⟨j1, j2⟩

/-- The state before annotations. -/
def early (w : World) : R := resolveParams w.kwargs w.func.params (resolveWorker w.workerDeps {})

/-- Resolving, in full, when it was not cut short by a cancellation. -/
structure Resolved (w : World) : Prop where
  dict : Dict (resolve w).args
  worker : ∀ n d, (n, d) ∈ w.workerDeps → (∀ x ∈ d.opens, x ∈ (resolve w).opened) ∧
    (slotOf n d.entered).isSome ∧
    (lookup (resolve w).args ("__worker_dep__" ++ n) = slotOf n d.entered ∨
      IsFailed (lookup (resolve w).args ("__worker_dep__" ++ n)))
  params : ∀ n p, (n, p) ∈ w.func.params → (paramSlot w.kwargs n p).isSome ∧
    (lookup (resolve w).args n = paramSlot w.kwargs n p ∨ IsFailed (lookup (resolve w).args n)) ∧
    (∀ d, p = .dep d → lookup w.kwargs n = none → ∀ x ∈ d.opens, x ∈ (resolve w).opened)
  others : ∀ k, isWorkerSlot k = false → (∀ p, (k, p) ∉ w.func.params) →
    lookup (resolve w).args k = none ∨ IsFailed (lookup (resolve w).args k)
  annotations : ∀ n ds, (n, ds) ∈ w.func.annotations → ∃ value,
    (∀ d ∈ ds, ∀ x ∈ (d value).opens, x ∈ (resolve w).opened) ∧
    (IsFailed (lookup (resolve w).args n) ∨
      (value = annotated w.kwargs (resolve w).args n ∧ ∀ d ∈ ds, ∃ v, (d value).entered = .value v))
  conflicts : (∀ e ∈ (resolve w).args, e.2.err? = none) → w.conflicts (resolve w).args = []

theorem lookup_union_failed (a : List (String × Slot)) (cs : List String) (k : String) :
    lookup (union a (cs.map (fun c => (c, .failed c (.other "conflict"))))) k = lookup a k ∨
    IsFailed (lookup (union a (cs.map (fun c => (c, .failed c (.other "conflict"))))) k) := by
  induction cs generalizing a with
  | nil => exact Or.inl rfl
  | cons c cs ih =>
    show lookup (union (put a c (.failed c (.other "conflict"))) _) k = _ ∨ _
    rcases ih (put a c (.failed c (.other "conflict"))) with h | h
    · rw [lookup_put] at h
      by_cases hk : c = k
      · rw [if_pos hk] at h; exact Or.inr ⟨_, _, h⟩
      · rw [if_neg hk] at h; exact Or.inl h
    · exact Or.inr h

theorem resolved (w : World) (hn : NamesOK w) (ha : (resolve w).aborted = false) : Resolved w := by
  have ha2 : (resolveAnnotations w.kwargs w.func.annotations (early w)).aborted = false := by
    cases h : (resolveAnnotations w.kwargs w.func.annotations (early w)).aborted with
    | false => rfl
    | true =>
      have : resolve w = addConflicts w.conflicts (resolveAnnotations w.kwargs w.func.annotations (early w)) := rfl
      rw [this, addConflicts, if_pos h, h] at ha
      cases ha
  have hres : resolve w = { resolveAnnotations w.kwargs w.func.annotations (early w) with
      args := union (resolveAnnotations w.kwargs w.func.annotations (early w)).args
        ((w.conflicts (resolveAnnotations w.kwargs w.func.annotations (early w)).args).map
          (fun c => (c, .failed c (.other "conflict")))) } := by
    show addConflicts w.conflicts (resolveAnnotations w.kwargs w.func.annotations (early w)) = _
    rw [addConflicts, if_neg (by simp [ha2])]
  obtain ⟨a1, a2, a3, a4, a5⟩ := resolveAnnotations_spec w.kwargs w.func.annotations hn.annotations _ ha2
  obtain ⟨p1, p2, p3, p4, p5⟩ := resolveParams_spec w.kwargs w.func.params hn.params _ a1
  obtain ⟨_, _, w3, w4, w5, w6⟩ := resolveWorker_spec w.workerDeps hn.worker _ p1
  have hlk : ∀ k, lookup (resolve w).args k =
      lookup (resolveAnnotations w.kwargs w.func.annotations (early w)).args k ∨
      IsFailed (lookup (resolve w).args k) := by
    intro k; rw [hres]; exact lookup_union_failed _ _ k
  have hop : (resolve w).opened = (resolveAnnotations w.kwargs w.func.annotations (early w)).opened := by
    rw [hres]
  -- after annotations an entry is the early one or failed
  have hann : ∀ k, lookup (resolveAnnotations w.kwargs w.func.annotations (early w)).args k =
      lookup (early w).args k ∨
      IsFailed (lookup (resolveAnnotations w.kwargs w.func.annotations (early w)).args k) := by
    intro k
    by_cases hk : ∃ ds, (k, ds) ∈ w.func.annotations
    · obtain ⟨ds, hds⟩ := hk
      rcases (a5 k ds hds).2 with ⟨_, h⟩ | h
      · exact Or.inl h
      · exact Or.inr h
    · exact Or.inl (a4 k (fun ds hds => hk ⟨ds, hds⟩))
  have hall : ∀ k, lookup (resolve w).args k = lookup (early w).args k ∨ IsFailed (lookup (resolve w).args k) := by
    intro k
    rcases hlk k with h | h
    · rcases hann k with h' | h'
      · exact Or.inl (h.trans h')
      · right; rw [h]; exact h'
    · exact Or.inr h
  have hdict : Dict (early w).args := p3 (w3 (by simp [Dict]))
  refine ⟨?_, ?_, ?_, ?_, ?_, ?_⟩
  · rw [hres]; exact (a3 hdict).union _
  · intro n d hm
    obtain ⟨h1, h2, h3⟩ := w6 n d hm
    refine ⟨fun x hx => by rw [hop]; exact a2 x (p2 x (h1 x hx)), h2, ?_⟩
    rcases hall ("__worker_dep__" ++ n) with h | h
    · left
      rw [h, ← h3]
      apply p4
      intro p hp
      have := hn.plain _ hp
      rw [isWorkerSlot_append] at this
      cases this
    · exact Or.inr h
  · intro n p hm
    obtain ⟨h1, h2, h3⟩ := p5 n p hm
    refine ⟨h1, ?_, fun d hd hk x hx => by rw [hop]; exact a2 x (h3 d hd hk x hx)⟩
    rcases hall n with h | h
    · exact Or.inl (h.trans h2)
    · exact Or.inr h
  · intro k hk hp
    rcases hall k with h | h
    · left
      rw [h]
      refine (p4 k hp).trans ((w4 k hk).trans ?_)
      rfl
    · exact Or.inr h
  · intro n ds hm
    obtain ⟨h1, h2⟩ := a5 n ds hm
    refine ⟨annotated w.kwargs (early w).args n, fun d hd x hx => by rw [hop]; exact h1 d hd x hx, ?_⟩
    rcases hlk n with h | h
    · rcases h2 with ⟨h3, h4⟩ | h3
      · right
        refine ⟨?_, h3⟩
        simp only [annotated, h.trans h4]
      · left; rw [h]; exact h3
    · exact Or.inl h
  · intro hno
    have hc : w.conflicts (resolveAnnotations w.kwargs w.func.annotations (early w)).args = [] := by
      cases hcs : w.conflicts (resolveAnnotations w.kwargs w.func.annotations (early w)).args with
      | nil => rfl
      | cons c cs =>
        exfalso
        have hf : IsFailed (lookup (resolve w).args c) := by
          rw [hres, hcs]
          show IsFailed (lookup (union (put _ c (.failed c (.other "conflict"))) _) c)
          rcases lookup_union_failed (put (resolveAnnotations w.kwargs w.func.annotations (early w)).args c
            (.failed c (.other "conflict"))) cs c with h | h
          · rw [lookup_put, if_pos rfl] at h
            exact ⟨_, _, h⟩
          · exact h
        obtain ⟨p, e, hf⟩ := hf
        have := hno _ (lookup_mem hf)
        cases this
    have : (resolve w).args = (resolveAnnotations w.kwargs w.func.annotations (early w)).args := by
      rw [hres, hc]; rfl
    rw [this, hc]

/-- Neither the call nor opening or closing something. -/
def Eff.quiet (e : Eff) : Prop := (∀ kw, e ≠ .called kw) ∧ (∀ r, e ≠ .opened r) ∧ (∀ r, e ≠ .closed r)

theorem complete_effs (w : World) (b : Bool) : ∀ e ∈ (complete w b).1, e.quiet := by
  intro e he
  simp only [complete] at he
  split at he
  · simp at he; subst he; simp [Eff.quiet]
  · split at he
    · simp at he
    · simp at he; rcases he with rfl | rfl <;> simp [Eff.quiet]

theorem finish_effs (w : World) (args : List (String × Slot)) (b : Bool) :
    ∀ e ∈ (finish w args b).1, e.quiet := by
  intro e hb
  simp only [finish] at hb
  split at hb
  · exact complete_effs w b e hb
  · split at hb
    · simp at hb; rcases hb with rfl | rfl <;> simp [Eff.quiet]
    · rcases List.mem_cons.1 hb with rfl | hb
      · simp [Eff.quiet]
      · exact complete_effs w b e hb
    · simp at hb; subst hb; simp [Eff.quiet]

/-- No failed entry. -/
theorem block_called {w : World} {args : List (String × Slot)} {kw : List (String × Val)}
    (h : Eff.called kw ∈ (block w args).1) :
    (∀ e ∈ args, e.2.err? = none) ∧ kw = finalKwargs w args ∧ clash w kw = false := by
  simp only [block] at h
  split at h
  · cases h
  · split at h
    · cases h
    · rename_i hf
      split at h
      · cases h
      · rename_i hcl
        have hnil : args.filterMap (fun e => e.2.err?) = [] := by simpa using hf
        have h1 : ∀ e ∈ args, e.2.err? = none := by
          intro e he
          cases hx : e.2.err? with
          | none => rfl
          | some x =>
            have : x ∈ args.filterMap (fun e => e.2.err?) := List.mem_filterMap.2 ⟨e, he, hx⟩
            rw [hnil] at this; cases this
        have hfin : ∀ b, Eff.called kw ∉ (finish w args b).1 :=
          fun b hb => (finish_effs w args b _ hb).1 kw rfl
        have h2 : kw = finalKwargs w args := by
          split at h
          · simpa using h
          · simpa using h
          · simp only [List.mem_cons, Eff.called.injEq] at h
            rcases h with h | h
            · exact h
            · exact absurd h (hfin _)
        refine ⟨h1, h2, ?_⟩
        rw [h2]; simpa using hcl

theorem not_failed_of {args : List (String × Slot)} (h : ∀ e ∈ args, e.2.err? = none) {k : String} :
    ¬ IsFailed (lookup args k) := by
  rintro ⟨p, e, hf⟩
  have := h _ (lookup_mem hf)
  cases this

theorem unwind_no_called (exit : Res → Out → ExitOut) (rs : List Res) (out : Out) :
    (unwind exit rs out).1 = rs.map Eff.closed := by
  induction rs generalizing out with
  | nil => rfl
  | cons r rs ih => simp only [unwind, List.map_cons, ih]

theorem recordFailure_effs (w : World) : ∀ e ∈ (recordFailure w).1, e.quiet := by
  intro e he
  simp only [recordFailure] at he
  split at he
  · simp at he; subst he; simp [Eff.quiet]
  · split at he
    · cases he
    · simp at he; rcases he with rfl | rfl <;> simp [Eff.quiet]

theorem notRetried_effs (w : World) (args : List (String × Slot)) : ∀ e ∈ (notRetried w args).1, e.quiet := by
  intro e he
  simp only [notRetried] at he
  split at he
  · exact recordFailure_effs w e he
  · split at he
    · simp at he; subst he; simp [Eff.quiet]
    · rcases List.mem_cons.1 he with rfl | he
      · simp [Eff.quiet]
      · exact recordFailure_effs w e he

theorem outer_effs (w : World) (args : List (String × Slot)) (out : Out) :
    ∀ e ∈ (outer w args out).1, e.quiet := by
  intro e he
  cases out with
  | done => cases he
  | cancelled => simp only [outer, List.mem_singleton] at he; subst he; simp [Eff.quiet]
  | raised err =>
    cases err with
    | blocked h r => cases he
    | other x =>
      simp only [outer, onError] at he
      split at he
      · exact notRetried_effs w args e he
      · split at he
        · simp only [List.mem_append, List.mem_singleton] at he
          rcases he with rfl | he
          · simp [Eff.quiet]
          · split at he
            · simp at he; subst he; simp [Eff.quiet]
            · cases he
        · simp at he; subst he; simp [Eff.quiet]
        · rcases List.mem_cons.1 he with rfl | he
          · simp [Eff.quiet]
          · exact notRetried_effs w args e he

end Docket.Execute
