import Verif.Strikes.Spec
/-
The invariant that links the dictionaries to the active strikes.
-/
namespace Docket.Strikes

namespace Dict
variable {α : Type}

@[simp] theorem get_nil (k : String) : get ([] : Dict α) k = none := rfl

theorem get_cons (k k' : String) (v : α) (d : Dict α) :
    get ((k', v) :: d) k = if k = k' then some v else get d k := by
  simp only [get, List.lookup_cons]
  by_cases h : k = k'
  · simp [h]
  · have : (k == k') = false := by simp [h]
    simp [h, this]

theorem get_set (d : Dict α) (k k' : String) (v : α) :
    get (set d k v) k' = if k' = k then some v else get d k' := by
  induction d with
  | nil => simp [set, get_cons]
  | cons e d ih =>
    obtain ⟨a, b⟩ := e
    simp only [set]
    by_cases h : a = k
    · subst h
      simp only [if_true, get_cons]
      by_cases hk : k' = a <;> simp [hk]
    · simp only [h, if_false, get_cons, ih]
      by_cases hk : k' = a
      · subst hk; simp [h]
      · simp [hk]

theorem get_pop (d : Dict α) (k k' : String) :
    get (pop d k) k' = if k' = k then none else get d k' := by
  induction d with
  | nil => simp [pop]
  | cons e d ih =>
    obtain ⟨a, b⟩ := e
    simp only [pop] at ih ⊢
    simp only [List.filter_cons]
    by_cases h : a = k
    · subst h
      simp only [ne_eq, not_true_eq_false, decide_false, Bool.false_eq_true, if_false, ih, get_cons]
      by_cases hk : k' = a <;> simp [hk]
    · simp only [ne_eq, h, not_false_eq_true, decide_true, if_true, get_cons, ih]
      by_cases hk : k' = a
      · subst hk; simp [h]
      · simp [hk]

/-- A dict is empty exactly when it has no entries. -/
theorem eq_nil_iff (d : Dict α) : d = [] ↔ ∀ k, get d k = none := by
  constructor
  · rintro rfl; simp
  · intro h
    cases d with
    | nil => rfl
    | cons e d =>
      obtain ⟨a, b⟩ := e
      have := h a
      simp [get_cons] at this

end Dict

theorem mem_setAdd (s : List Minimal) (x y : Minimal) : y ∈ setAdd s x ↔ y = x ∨ y ∈ s := by
  unfold setAdd
  split
  · rename_i h
    constructor
    · exact Or.inr
    · rintro (rfl | h') <;> assumption
  · simp [or_comm]

theorem mem_setRemove (s : List Minimal) (x y : Minimal) : y ∈ setRemove s x ↔ y ≠ x ∧ y ∈ s := by
  simp [setRemove, and_comm]

theorem setAdd_ne_nil (s : List Minimal) (x : Minimal) : setAdd s x ≠ [] := by
  unfold setAdd
  split
  · rename_i h; intro hs; subst hs; cases h
  · simp

/-- The minimal strikes recorded for parameter `p` in a dict. -/
def members (d : Dict (List Minimal)) (p : String) : List Minimal := (Dict.get d p).getD []

/-- The dict of parameter strikes of task `f`. -/
def ofTask (st : State) (f : String) : Dict (List Minimal) := (Dict.get st.tasks f).getD []

/-- The dictionaries hold exactly the active parameter strikes, a task with an empty
dictionary is actively struck, and no empty set is left behind. -/
structure Inv (st : State) (A : Target → Prop) : Prop where
  param : ∀ p op v, (op, v) ∈ members st.params p ↔ A (.param p op v)
  taskParam : ∀ f p op v, (op, v) ∈ members (ofTask st f) p ↔ A (.taskParam f p op v)
  task : ∀ f, Dict.get st.tasks f = some [] → A (.task f)
  inner : ∀ f p, Dict.get (ofTask st f) p ≠ some []
  outer : ∀ p, Dict.get st.params p ≠ some []

/-- Set one target. -/
def put (A : Target → Prop) (t : Target) (b : Prop) : Target → Prop :=
  fun t' => (t' = t ∧ b) ∨ (t' ≠ t ∧ A t')

theorem Inv.congr {st : State} {A B : Target → Prop} (h : Inv st A) (hAB : ∀ t, A t ↔ B t) :
    Inv st B := by
  have : A = B := funext fun t => propext (hAB t)
  rwa [← this]

theorem members_set (d : Dict (List Minimal)) (p q : String) (s : List Minimal) :
    members (Dict.set d p s) q = if q = p then s else members d q := by
  simp only [members, Dict.get_set]
  by_cases h : q = p <;> simp [h]

theorem members_pop (d : Dict (List Minimal)) (p q : String) :
    members (Dict.pop d p) q = if q = p then [] else members d q := by
  simp only [members, Dict.get_pop]
  by_cases h : q = p <;> simp [h]

theorem ofTask_set (st : State) (f g : String) (d : Dict (List Minimal)) :
    ofTask { st with tasks := Dict.set st.tasks f d } g = if g = f then d else ofTask st g := by
  simp only [ofTask, Dict.get_set]
  by_cases h : g = f <;> simp [h]

theorem ofTask_pop (st : State) (f g : String) :
    ofTask { st with tasks := Dict.pop st.tasks f } g = if g = f then [] else ofTask st g := by
  simp only [ofTask, Dict.get_pop]
  by_cases h : g = f <;> simp [h]

theorem Inv.strike {st : State} {A : Target → Prop} (h : Inv st A) (i : Instr) :
    Inv (doStrike st i) (put A i.target True) := by
  unfold doStrike
  rw [Instr.target_eq]
  cases hf : truthy i.function with
  | none =>
    cases hp : truthy i.parameter with
    | none =>
      refine ⟨?_, ?_, ?_, h.inner, h.outer⟩
      · intro p op v; simp [put, h.param]
      · intro f p op v; simp [put, h.taskParam]
      · intro f hf; simp [put, h.task f hf]
    | some p =>
      refine ⟨?_, ?_, ?_, h.inner, ?_⟩
      · intro p' op v
        simp only [members_set]
        by_cases hp' : p' = p
        · subst hp'
          simp only [if_true, mem_setAdd, put, Target.param.injEq, true_and]
          have := h.param p' op v
          simp only [members] at this
          rw [this]
          by_cases hx : op = i.operator ∧ v = i.value
          · obtain ⟨rfl, rfl⟩ := hx; simp
          · simp only [Prod.mk.injEq]
            simp [hx]
        · simp [hp', put, h.param]
      · intro f p' op v; simpa [put, ofTask] using h.taskParam f p' op v
      · intro f hf; simpa [put] using h.task f hf
      · intro p'
        simp only [Dict.get_set]
        by_cases hp' : p' = p
        · simp only [hp', if_true, ne_eq, Option.some.injEq]
          exact setAdd_ne_nil _ _
        · simp only [hp', if_false]; exact h.outer p'
  | some f =>
    cases hp : truthy i.parameter with
    | none =>
      dsimp only
      cases ht : Dict.get st.tasks f with
      | some d =>
        refine ⟨?_, ?_, ?_, h.inner, h.outer⟩
        · intro p op v; simp [put, h.param]
        · intro f p op v; simp [put, h.taskParam]
        · intro f' hf'
          simp only [put, Target.task.injEq, ne_eq]
          by_cases hff : f' = f
          · simp [hff]
          · simp [hff, h.task f' hf']
      | none =>
        have hof : ∀ g, ofTask { st with tasks := Dict.set st.tasks f [] } g = ofTask st g := by
          intro g
          rw [ofTask_set]
          by_cases hg : g = f
          · subst hg; simp [ofTask, ht]
          · simp [hg]
        refine ⟨?_, ?_, ?_, ?_, h.outer⟩
        · intro p op v; simpa [put] using h.param p op v
        · intro f' p op v
          simp only [hof]
          simpa [put] using h.taskParam f' p op v
        · intro f' hf'
          simp only [put, Target.task.injEq, ne_eq]
          by_cases hff : f' = f
          · simp [hff]
          · simp only [Dict.get_set, hff, if_false] at hf'
            simp [hff, h.task f' hf']
        · intro f' p
          simp only [hof]
          exact h.inner f' p
    | some p =>
      refine ⟨?_, ?_, ?_, ?_, h.outer⟩
      · intro p op v; simpa [put] using h.param p op v
      · intro f' p' op v
        simp only [ofTask_set]
        by_cases hff : f' = f
        · subst hff
          simp only [if_true, members_set]
          by_cases hp' : p' = p
          · subst hp'
            simp only [if_true, mem_setAdd, put, Target.taskParam.injEq, true_and]
            have := h.taskParam f' p' op v
            simp only [members, ofTask] at this
            rw [this]
            by_cases hx : op = i.operator ∧ v = i.value
            · obtain ⟨rfl, rfl⟩ := hx; simp
            · simp only [Prod.mk.injEq]
              simp [hx]
          · simp only [hp', if_false]
            have := h.taskParam f' p' op v
            simp only [ofTask] at this
            simp [put, this, hp']
        · simp only [hff, if_false]
          have := h.taskParam f' p' op v
          simp [put, this, hff]
      · intro f' hf'
        simp only [Dict.get_set] at hf'
        by_cases hff : f' = f
        · simp only [hff, if_true, Option.some.injEq] at hf'
          exfalso
          have := (Dict.eq_nil_iff _).1 hf' p
          simp [Dict.get_set] at this
        · simp only [hff, if_false] at hf'
          simpa [put] using h.task f' hf'
      · intro f' p'
        simp only [ofTask_set]
        by_cases hff : f' = f
        · subst hff
          simp only [if_true, Dict.get_set]
          by_cases hp' : p' = p
          · simp only [hp', if_true, ne_eq, Option.some.injEq]
            exact setAdd_ne_nil _ _
          · simp only [hp', if_false]
            exact h.inner f' p'
        · simp only [hff, if_false]
          exact h.inner f' p'

theorem Inv.restore {st : State} {A : Target → Prop} (h : Inv st A) (i : Instr) :
    Inv (doRestore st i) (put A i.target False) := by
  unfold doRestore
  rw [Instr.target_eq]
  cases hf : truthy i.function with
  | none =>
    cases hp : truthy i.parameter with
    | none =>
      refine ⟨?_, ?_, ?_, h.inner, h.outer⟩
      · intro p op v; simp [put, h.param]
      · intro f p op v; simp [put, h.taskParam]
      · intro f hf; simp [put, h.task f hf]
    | some p =>
      dsimp only
      cases hg : Dict.get st.params p with
      | none =>
        refine ⟨?_, ?_, ?_, h.inner, h.outer⟩
        · intro p' op v
          rw [h.param]
          simp only [put, and_false, false_or, ne_eq]
          constructor
          · intro ha
            refine ⟨?_, ha⟩
            intro hx
            simp only [Target.param.injEq] at hx
            have := (h.param p' op v).2 ha
            rw [hx.1, members, hg] at this
            cases this
          · exact fun ha => ha.2
        · intro f p op v; simp [put, h.taskParam]
        · intro f hf; simp [put, h.task f hf]
      | some ps =>
        have hmem : ∀ p' op v, (op, v) ∈ (if p' = p then setRemove ps (i.operator, i.value)
            else members st.params p') ↔ put A (.param p i.operator i.value) False (.param p' op v) := by
          intro p' op v
          by_cases hp' : p' = p
          · subst hp'
            simp only [if_true, mem_setRemove, put, and_false, false_or, ne_eq, Target.param.injEq,
              true_and, Prod.mk.injEq]
            rw [← h.param p' op v, members, hg]
            simp
          · simp [hp', put, h.param]
        dsimp only
        by_cases he : setRemove ps (i.operator, i.value) = []
        · simp only [he, if_true]
          refine ⟨?_, ?_, ?_, h.inner, ?_⟩
          · intro p' op v
            simp only [members_pop]
            rw [← hmem, he]
          · intro f p' op v; simpa [put, ofTask] using h.taskParam f p' op v
          · intro f hf; simpa [put] using h.task f hf
          · intro p'
            simp only [Dict.get_pop]
            by_cases hp' : p' = p
            · simp [hp']
            · simp only [hp', if_false]; exact h.outer p'
        · simp only [he, if_false]
          refine ⟨?_, ?_, ?_, h.inner, ?_⟩
          · intro p' op v
            simp only [members_set]
            exact hmem p' op v
          · intro f p' op v; simpa [put, ofTask] using h.taskParam f p' op v
          · intro f hf; simpa [put] using h.task f hf
          · intro p'
            simp only [Dict.get_set]
            by_cases hp' : p' = p
            · simpa [hp'] using he
            · simp only [hp', if_false]; exact h.outer p'
  | some f =>
    cases hp : truthy i.parameter with
    | none =>
      have keep : (Dict.get st.tasks f ≠ some []) → Inv st (put A (.task f) False) := by
        intro hne
        refine ⟨?_, ?_, ?_, h.inner, h.outer⟩
        · intro p op v; simp [put, h.param]
        · intro f p op v; simp [put, h.taskParam]
        · intro f' hf'
          have : f' ≠ f := by rintro rfl; exact hne hf'
          simp [put, h.task f' hf', this]
      dsimp only
      cases ht : Dict.get st.tasks f with
      | none => exact keep (by simp [ht])
      | some d =>
        dsimp only
        by_cases hd : d = []
        · subst hd
          simp only [if_true]
          have hof : ∀ g, ofTask { st with tasks := Dict.pop st.tasks f } g = ofTask st g := by
            intro g
            rw [ofTask_pop]
            by_cases hg : g = f
            · subst hg; simp [ofTask, ht]
            · simp [hg]
          refine ⟨?_, ?_, ?_, ?_, h.outer⟩
          · intro p op v; simpa [put] using h.param p op v
          · intro f' p op v
            simp only [hof]
            simpa [put] using h.taskParam f' p op v
          · intro f' hf'
            simp only [Dict.get_pop] at hf'
            by_cases hff : f' = f
            · simp [hff] at hf'
            · simp only [hff, if_false] at hf'
              simp [put, hff, h.task f' hf']
          · intro f' p
            simp only [hof]
            exact h.inner f' p
        · simp only [hd, if_false]
          exact keep (by simp [ht, hd])
    | some p =>
      have hmem0 : ∀ ts, Dict.get st.tasks f = some ts → ofTask st f = ts := by
        intro ts ht; simp [ofTask, ht]
      have htask : ∀ f', f' ≠ f → Dict.get st.tasks f' = some [] →
          put A (.taskParam f p i.operator i.value) False (.task f') := by
        intro f' _ hf'
        simpa [put] using h.task f' hf'
      have hparam : ∀ p' op v, (op, v) ∈ members st.params p' ↔
          put A (.taskParam f p i.operator i.value) False (.param p' op v) := by
        intro p' op v; simpa [put] using h.param p' op v
      -- the generic shape: task `f` now has the dict `d`
      have key : ∀ d : Dict (List Minimal),
          (∀ p', members d p' = if p' = p then setRemove (members (ofTask st f) p) (i.operator, i.value)
            else members (ofTask st f) p') →
          ∀ f' p' op v, (op, v) ∈ members (if f' = f then d else ofTask st f') p' ↔
            put A (.taskParam f p i.operator i.value) False (.taskParam f' p' op v) := by
        intro d hd f' p' op v
        by_cases hff : f' = f
        · subst hff
          simp only [if_true, hd]
          by_cases hp' : p' = p
          · subst hp'
            simp only [if_true, mem_setRemove, h.taskParam, put, and_false, false_or, ne_eq,
              Target.taskParam.injEq, true_and, Prod.mk.injEq]
          · simp [hp', put, h.taskParam]
        · simp [hff, put, h.taskParam]
      dsimp only
      cases ht : Dict.get st.tasks f with
      | none =>
        dsimp only
        have := key (ofTask st f) (by
          intro p'
          by_cases hp' : p' = p
          · subst hp'; simp [members, ofTask, ht, setRemove]
          · simp [hp'])
        refine ⟨hparam, ?_, ?_, h.inner, h.outer⟩
        · intro f' p' op v
          rw [← this]
          by_cases hff : f' = f <;> simp [hff]
        · intro f' hf'
          refine htask f' ?_ hf'
          rintro rfl; rw [ht] at hf'; cases hf'
      | some ts =>
        dsimp only
        have hts := hmem0 ts ht
        cases hg : Dict.get ts p with
        | none =>
          have hpop : Dict.pop ts p = ts := by
            simp only [Dict.pop]
            rw [List.filter_eq_self]
            intro e he
            simp only [ne_eq, decide_not, Bool.not_eq_true', decide_eq_false_iff_not]
            intro hep
            simp only [Dict.get] at hg
            rw [List.lookup_eq_none_iff] at hg
            have := hg e he
            simp [hep] at this
          dsimp only
          rw [hpop]
          have hof : ∀ g, ofTask { st with tasks := Dict.set st.tasks f ts } g = ofTask st g := by
            intro g
            rw [ofTask_set]
            by_cases hgf : g = f
            · subst hgf; simp [hts]
            · simp [hgf]
          have := key ts (by
            intro p'
            by_cases hp' : p' = p
            · subst hp'; simp [members, hts, hg, setRemove]
            · simp [hp', hts])
          refine ⟨hparam, ?_, ?_, ?_, h.outer⟩
          · intro f' p' op v
            rw [← this, ofTask_set]
          · intro f' hf'
            simp only [Dict.get_set] at hf'
            by_cases hff : f' = f
            · subst hff
              simp only [if_true] at hf'
              have := h.task f' (ht.trans hf')
              simpa [put] using this
            · simp only [hff, if_false] at hf'
              exact htask f' hff hf'
          · intro f' p'
            simp only [hof]
            exact h.inner f' p'
        | some ps =>
          dsimp only
          have hps : members (ofTask st f) p = ps := by simp [members, hts, hg]
          by_cases he : setRemove ps (i.operator, i.value) = []
          · simp only [he, if_true]
            have hpk := key (Dict.pop ts p) (by
              intro p'
              rw [members_pop, hps, he, hts])
            by_cases hd : Dict.pop ts p = []
            · simp only [hd, if_true]
              rw [hd] at hpk
              refine ⟨hparam, ?_, ?_, ?_, h.outer⟩
              · intro f' p' op v
                rw [← hpk, ofTask_pop]
              · intro f' hf'
                simp only [Dict.get_pop] at hf'
                by_cases hff : f' = f
                · simp [hff] at hf'
                · simp only [hff, if_false] at hf'
                  exact htask f' hff hf'
              · intro f' p'
                rw [ofTask_pop]
                by_cases hff : f' = f
                · simp [hff]
                · simp only [hff, if_false]; exact h.inner f' p'
            · simp only [hd, if_false]
              refine ⟨hparam, ?_, ?_, ?_, h.outer⟩
              · intro f' p' op v
                rw [← hpk, ofTask_set]
              · intro f' hf'
                simp only [Dict.get_set] at hf'
                by_cases hff : f' = f
                · simp [hff, hd] at hf'
                · simp only [hff, if_false] at hf'
                  exact htask f' hff hf'
              · intro f' p'
                rw [ofTask_set]
                by_cases hff : f' = f
                · simp only [hff, if_true, Dict.get_pop]
                  by_cases hp' : p' = p
                  · simp [hp']
                  · simp only [hp', if_false]
                    have := h.inner f p'
                    rwa [hts] at this
                · simp only [hff, if_false]; exact h.inner f' p'
          · simp only [he, if_false]
            have hpk := key (Dict.set ts p (setRemove ps (i.operator, i.value))) (by
              intro p'
              rw [members_set, hps, hts])
            refine ⟨hparam, ?_, ?_, ?_, h.outer⟩
            · intro f' p' op v
              rw [← hpk, ofTask_set]
            · intro f' hf'
              simp only [Dict.get_set] at hf'
              by_cases hff : f' = f
              · simp only [hff, if_true, Option.some.injEq] at hf'
                exfalso
                have := (Dict.eq_nil_iff _).1 hf' p
                simp [Dict.get_set] at this
              · simp only [hff, if_false] at hf'
                exact htask f' hff hf'
            · intro f' p'
              rw [ofTask_set]
              by_cases hff : f' = f
              · simp only [hff, if_true, Dict.get_set]
                by_cases hp' : p' = p
                · simpa [hp'] using he
                · simp only [hp', if_false]
                  have := h.inner f p'
                  rwa [hts] at this
              · simp only [hff, if_false]; exact h.inner f' p'

theorem Inv.update {st : State} {h : List Instr} (hi : Inv st (Active h)) (i : Instr) :
    Inv (update st i) (Active (i :: h)) := by
  unfold Strikes.update
  by_cases hv : i.value.hashable = true
  · rw [if_pos hv]
    have hput : ∀ b : Prop, (b ↔ i.restore = false) → ∀ t, put (Active h) i.target b t ↔ Active (i :: h) t := by
      intro b hb t
      simp only [put, Active, hv, true_and]
      by_cases ht : i.target = t
      · subst ht; simp [hb]
      · have : t ≠ i.target := Ne.symm ht
        simp [ht, this]
    cases hr : i.restore with
    | true => exact (hi.restore i).congr (hput False (by simp [hr]))
    | false => exact (hi.strike i).congr (hput True (by simp [hr]))
  · rw [if_neg hv]
    exact hi.congr (by intro t; simp [Active, hv])

theorem Inv.init : Inv {} (Active []) := by
  refine ⟨?_, ?_, ?_, ?_, ?_⟩ <;> simp [members, ofTask, Active]

/-- The state after a history (oldest first). -/
theorem Inv.replay (l : List Instr) : Inv (replay {} l) (Active l.reverse) := by
  have : ∀ (l : List Instr) (st : State) (h : List Instr), Inv st (Active h) →
      Inv (Strikes.replay st l) (Active (l.reverse ++ h)) := by
    intro l
    induction l with
    | nil => intro st h hi; simpa [Strikes.replay] using hi
    | cons i l ih =>
      intro st h hi
      have := ih _ _ (hi.update i)
      simpa [Strikes.replay, List.reverse_cons, List.append_assoc] using this
  simpa using this l {} [] Inv.init

end Docket.Strikes
