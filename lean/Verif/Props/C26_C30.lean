import Verif.Strikes.Lemmas
/-
C26 A task is blocked exactly when an active strike matches it.
C27 restore() undoes strike().
C28 Every process ends up with the same strikes.
C29 Strike instructions survive the wire.
C30 Strike operators mean what they say, and incomparable values never match.
-/
namespace Docket.Strikes

/-! ### C30 -/

/-- Mathematical "less than" on values: numbers by value, strings by code points,
sequences of the same type lexicographically.  Nothing else is ordered. -/
inductive Less : Val → Val → Prop
  | num {a b : Rat} : a < b → Less (.num a) (.num b)
  | str {a b : String} : a < b → Less (.str a) (.str b)
  | shorter (t : Bool) (y : Val) (ys : List Val) : Less (.seq t []) (.seq t (y :: ys))
  | first {t : Bool} {x y : Val} {xs ys : List Val} : Less x y → Less (.seq t (x :: xs)) (.seq t (y :: ys))
  | later {t : Bool} {x : Val} {xs ys : List Val} : Less (.seq t xs) (.seq t ys) →
      Less (.seq t (x :: xs)) (.seq t (x :: ys))

/-- Equal values of an orderable sort. -/
def Orderable : Val → Prop
  | .num _ | .str _ | .seq _ _ => True
  | _ => False

/-- What an ordering operator should say. -/
def Ord.Means (o : Ord) (a b : Val) : Prop :=
  match o with
  | .lt => Less a b
  | .gt => Less b a
  | .le => Less a b ∨ (a = b ∧ Orderable a)
  | .ge => Less b a ∨ (a = b ∧ Orderable a)

theorem less_irrefl : ∀ a : Val, ¬ Less a a := by
  intro a h
  have : ∀ a b, Less a b → a ≠ b := by
    intro a b h
    induction h with
    | num h => intro he; cases he; exact absurd h (Rat.lt_irrefl)
    | str h => intro he; cases he; exact absurd h (String.lt_irrefl _)
    | shorter => simp
    | first _ ih => intro he; cases he; exact ih rfl
    | later _ ih => intro he; cases he; exact ih rfl
  exact this a a h rfl

theorem str_on (o : Ord) (a b : String) :
    o.on (decide (a < b)) (decide (a = b)) = true ↔ o.Means (.str a) (.str b) := by
  have hls : ∀ a b, Less (.str a) (.str b) ↔ a < b :=
    fun a b => ⟨fun h => by cases h; assumption, .str⟩
  cases o with
  | lt => simp [Ord.on, Ord.Means, hls]
  | le => simp [Ord.on, Ord.Means, hls, Orderable]
  | gt =>
    simp only [Ord.on, Ord.Means, hls, Bool.not_eq_true', Bool.or_eq_false_iff, decide_eq_false_iff_not]
    constructor
    · rintro ⟨h1, h2⟩
      rcases Decidable.em (b < a) with h | h
      · exact h
      · exact absurd (String.le_antisymm (String.not_lt.1 h) (String.not_lt.1 h1)) h2
    · intro h
      exact ⟨String.lt_asymm h, fun he => by subst he; exact String.lt_irrefl _ h⟩
  | ge =>
    simp only [Ord.on, Ord.Means, hls, Bool.not_eq_true', decide_eq_false_iff_not, Val.str.injEq,
      Orderable, and_true]
    constructor
    · intro h1
      rcases Decidable.em (b < a) with h | h
      · exact Or.inl h
      · exact Or.inr (String.le_antisymm (String.not_lt.1 h) (String.not_lt.1 h1))
    · rintro (h | rfl)
      · exact String.lt_asymm h
      · exact String.lt_irrefl _

theorem num_on (o : Ord) (a b : Rat) :
    o.on (decide (a < b)) (decide (a = b)) = true ↔ o.Means (.num a) (.num b) := by
  have hls : ∀ a b, Less (.num a) (.num b) ↔ a < b :=
    fun a b => ⟨fun h => by cases h; assumption, .num⟩
  have has : ∀ {a b : Rat}, a < b → ¬ b < a := fun h h' => Rat.not_le.2 h (Rat.le_of_lt h')
  have hanti : ∀ {a b : Rat}, ¬ a < b → ¬ b < a → a = b :=
    fun h h' => Rat.le_antisymm (Rat.not_lt.1 h') (Rat.not_lt.1 h)
  cases o with
  | lt => simp [Ord.on, Ord.Means, hls]
  | le => simp [Ord.on, Ord.Means, hls, Orderable]
  | gt =>
    simp only [Ord.on, Ord.Means, hls, Bool.not_eq_true', Bool.or_eq_false_iff, decide_eq_false_iff_not]
    constructor
    · rintro ⟨h1, h2⟩
      rcases Decidable.em (b < a) with h | h
      · exact h
      · exact absurd (hanti h1 h) h2
    · intro h
      exact ⟨has h, fun he => by subst he; exact Rat.lt_irrefl h⟩
  | ge =>
    simp only [Ord.on, Ord.Means, hls, Bool.not_eq_true', decide_eq_false_iff_not, Val.num.injEq,
      Orderable, and_true]
    constructor
    · intro h1
      rcases Decidable.em (b < a) with h | h
      · exact Or.inl h
      · exact Or.inr (hanti h1 h)
    · rintro (h | rfl)
      · exact has h
      · exact Rat.lt_irrefl

theorem less_seq_cons {t : Bool} {x y : Val} {xs ys : List Val} :
    Less (.seq t (x :: xs)) (.seq t (y :: ys)) ↔ Less x y ∨ (x = y ∧ Less (.seq t xs) (.seq t ys)) := by
  constructor
  · intro h
    cases h with
    | first h => exact Or.inl h
    | later h => exact Or.inr ⟨rfl, h⟩
  · rintro (h | ⟨rfl, h⟩)
    · exact .first h
    · exact .later h

theorem order_spec (o : Ord) : ∀ a b : Val, a.order o b = some true ↔ o.Means a b := by
  intro a
  refine Val.rec (motive_1 := fun a => ∀ b, a.order o b = some true ↔ o.Means a b)
    (motive_2 := fun xs => ∀ t ys, Val.orderList o xs ys = some true ↔ o.Means (.seq t xs) (.seq t ys))
    ?_ ?_ ?_ ?_ ?_ ?_ ?_ a
  · intro b
    have : Val.order o .null b = none := by cases b <;> simp [Val.order]
    rw [this]
    cases o <;> simp only [Ord.Means, reduceCtorEq, false_iff, Orderable, and_false, or_false] <;>
      (intro h; cases h)
  · intro q b
    cases b with
    | num q' => simp only [Val.order, Option.some.injEq]; exact num_on o q q'
    | _ =>
      simp only [Val.order, reduceCtorEq, false_iff]
      cases o <;> simp only [Ord.Means, reduceCtorEq, false_and, or_false] <;> (intro h; cases h)
  · intro s b
    cases b with
    | str s' => simp only [Val.order, Option.some.injEq]; exact str_on o s s'
    | _ =>
      simp only [Val.order, reduceCtorEq, false_iff]
      cases o <;> simp only [Ord.Means, reduceCtorEq, false_and, or_false] <;> (intro h; cases h)
  · intro t xs ih b
    cases b with
    | seq u ys =>
      simp only [Val.order]
      by_cases htu : t = u
      · subst htu
        rw [if_pos rfl]
        exact ih t ys
      · rw [if_neg htu]
        simp only [reduceCtorEq, false_iff]
        cases o <;> simp only [Ord.Means, Val.seq.injEq, htu, false_and, or_false] <;>
          (intro h; cases h <;> exact htu rfl)
    | _ =>
      simp only [Val.order, reduceCtorEq, false_iff]
      cases o <;> simp only [Ord.Means, reduceCtorEq, false_and, or_false] <;> (intro h; cases h)
  · intro n b
    have : Val.order o (.obj n) b = none := by cases b <;> simp [Val.order]
    rw [this]
    cases o <;> simp only [Ord.Means, reduceCtorEq, false_iff, Orderable, and_false, or_false] <;>
      (intro h; cases h)
  · intro t ys
    have nol : ∀ zs, ¬ Less (.seq t zs) (.seq t []) := by intro zs h; cases h
    have iff : ∀ zs, Less (.seq t []) (.seq t zs) ↔ zs ≠ [] := by
      intro zs
      cases zs with
      | nil => simp [nol]
      | cons z zs => simp [Less.shorter]
    cases ys with
    | nil => cases o <;> simp [Val.orderList, Ord.onLength, Ord.on, Ord.Means, iff, Orderable]
    | cons y ys => cases o <;> simp [Val.orderList, Ord.onLength, Ord.on, Ord.Means, iff, nol]
  · intro x xs ihx ihxs t ys
    cases ys with
    | nil =>
      have nol : ¬ Less (.seq t (x :: xs)) (.seq t []) := by intro h; cases h
      cases o <;> simp [Val.orderList, Ord.onLength, Ord.on, Ord.Means, nol, Less.shorter]
    | cons y ys =>
      simp only [Val.orderList]
      by_cases hxy : x = y
      · subst hxy
        rw [if_pos rfl, ihxs t ys]
        cases o <;> simp [Ord.Means, less_seq_cons, less_irrefl, Orderable]
      · rw [if_neg hxy, ihx y]
        have hyx : ¬ y = x := fun h => hxy h.symm
        cases o <;> simp [Ord.Means, less_seq_cons, hxy, hyx]

theorem orderD_spec (o : Ord) (a b : Val) : (a.order o b).getD false = true ↔ o.Means a b := by
  rw [← order_spec]
  cases h : a.order o b with
  | none => simp
  | some x => simp

/-- The value is the pair of a lower and an upper end: a sequence of two items, or a text of
two characters. -/
inductive Ends : Val → Val → Val → Prop
  | seq (t : Bool) (lo hi : Val) : Ends (.seq t [lo, hi]) lo hi
  | str (lo hi : Char) : Ends (.str (String.ofList [lo, hi])) (.str (String.ofList [lo])) (.str (String.ofList [hi]))

theorem unpack2_iff (v lo hi : Val) : v.unpack2 = some (lo, hi) ↔ Ends v lo hi := by
  constructor
  · intro h
    unfold Val.unpack2 at h
    split at h
    · simp only [Option.some.injEq, Prod.mk.injEq] at h
      obtain ⟨rfl, rfl⟩ := h
      exact .seq _ _ _
    · rename_i s
      split at h
      · rename_i a b hs
        simp only [Option.some.injEq, Prod.mk.injEq] at h
        obtain ⟨rfl, rfl⟩ := h
        have : s = String.ofList [a, b] := by rw [← hs, String.ofList_toList]
        rw [this]
        exact .str a b
      · cases h
    · cases h
  · intro h
    cases h with
    | seq t lo hi => rfl
    | str lo hi =>
      simp only [Val.unpack2, String.toList_ofList]
      rfl

/-- C30.  For all values: `==` and `!=` are equality and its negation; `<`, `<=`, `>` and
`>=` hold exactly when the values are ordered so; `between` holds exactly when the strike's
value unpacks into a lower and an upper end and the call's value lies between them, both
ends included. -/
theorem C30_operators (x v : Val) :
    (isMatch x .eq v = true ↔ x = v) ∧
    (isMatch x .ne v = true ↔ x ≠ v) ∧
    (isMatch x .lt v = true ↔ Less x v) ∧
    (isMatch x .gt v = true ↔ Less v x) ∧
    (isMatch x .le v = true ↔ Less x v ∨ (x = v ∧ Orderable x)) ∧
    (isMatch x .ge v = true ↔ Less v x ∨ (x = v ∧ Orderable x)) ∧
    (isMatch x .between v = true ↔ ∃ lo hi, Ends v lo hi ∧
      (Less lo x ∨ (lo = x ∧ Orderable x)) ∧ (Less x hi ∨ (x = hi ∧ Orderable x))) := by
  refine ⟨by simp [isMatch], by simp [isMatch], orderD_spec .lt x v, orderD_spec .gt x v,
    orderD_spec .le x v, orderD_spec .ge x v, ?_⟩
  simp only [isMatch, ← unpack2_iff]
  cases hu : v.unpack2 with
  | none => simp
  | some lh =>
    obtain ⟨lo, hi⟩ := lh
    have hfold : ∀ x y : Val, (Less x y ∨ (x = y ∧ Orderable x)) ↔ x.order .le y = some true :=
      fun x y => (order_spec .le x y).symm
    have h1 : (Less lo x ∨ (lo = x ∧ Orderable x)) ↔ lo.order .le x = some true := by
      rw [← hfold]
      constructor
      · rintro (h | ⟨rfl, h⟩)
        · exact Or.inl h
        · exact Or.inr ⟨rfl, h⟩
      · rintro (h | ⟨rfl, h⟩)
        · exact Or.inl h
        · exact Or.inr ⟨rfl, h⟩
    simp only [Option.some.injEq, Prod.mk.injEq]
    constructor
    · intro h
      refine ⟨lo, hi, ⟨rfl, rfl⟩, ?_⟩
      rw [h1, hfold]
      cases hlo : lo.order .le x with
      | none => simp [hlo] at h
      | some b =>
        cases b with
        | false => simp [hlo] at h
        | true =>
          simp only [hlo] at h
          refine ⟨rfl, ?_⟩
          cases hh : x.order .le hi with
          | none => simp [hh] at h
          | some b => simpa [hh] using h
    · rintro ⟨lo', hi', ⟨rfl, rfl⟩, hlo, hhi⟩
      rw [h1] at hlo
      rw [hfold] at hhi
      simp [hlo, hhi]

/-- C30, incomparable values: values of different sorts, None and plain objects never
match an ordering operator. -/
theorem C30_incomparable (x v : Val) (op : Operator) (hop : op ≠ .eq) (hop' : op ≠ .ne) (hop'' : op ≠ .between)
    (h : match x, v with
      | .num _, .num _ | .str _, .str _ => False
      | .seq t _, .seq u _ => t ≠ u
      | _, _ => True) : isMatch x op v = false := by
  have key : ∀ o, x.order o v = none := by
    intro o
    cases x <;> cases v <;> simp_all [Val.order]
  cases op <;> simp_all [isMatch]

/-- C30, on orderable values of one sort, `<`, `==` and `>` exclude each other. -/
theorem C30_exclusive (x v : Val) :
    ¬ (isMatch x .lt v = true ∧ isMatch x .eq v = true) ∧
    ¬ (isMatch x .gt v = true ∧ isMatch x .eq v = true) := by
  have h := C30_operators x v
  refine ⟨?_, ?_⟩
  · rintro ⟨h1, h2⟩
    have h1 := h.2.2.1.1 h1
    have h2 := h.1.1 h2
    subst h2; exact less_irrefl _ h1
  · rintro ⟨h1, h2⟩
    have h1 := h.2.2.2.1.1 h1
    have h2 := h.1.1 h2
    subst h2; exact less_irrefl _ h1

example : isMatch (.str "b") .between (.seq true [.str "a", .str "c"]) = true ∧
    isMatch (.str "b") .between (.str "az") = true ∧
    isMatch .null .lt (.str "c") = false ∧ isMatch (.obj 1) .ne .null = true ∧
    isMatch (.seq true [.str "a", .null]) .lt (.seq true [.str "b", .null]) = true ∧
    isMatch (.seq true [.str "a", .null]) .lt (.seq true [.str "a", .obj 3]) = false := by decide

/-! ### C26 -/

theorem mem_anyMatch (d : Dict (List Minimal)) (p : String) (x : Val) :
    anyMatch d p x = true ↔ ∃ op v, (op, v) ∈ members d p ∧ isMatch x op v = true := by
  simp only [anyMatch, List.any_eq_true, members, Prod.exists]

theorem isStricken_spec {st : State} {A : Target → Prop} (h : Inv st A) (c : Call) :
    isStricken st c = true ↔
      Dict.get st.tasks c.fn = some [] ∨
      (Dict.get st.tasks c.fn ≠ some [] ∧ ∃ t, A t ∧ Covers t c ∧ ∀ f, t ≠ .task f) := by
  have hparams : (∃ t, A t ∧ Covers t c ∧ ∀ f, t ≠ .task f) ↔
      ∃ args, c.args = some args ∧ args.any (fun a => anyMatch (ofTask st c.fn) a.1 a.2 ||
        anyMatch st.params a.1 a.2) = true := by
    constructor
    · rintro ⟨t, hA, hc, hne⟩
      cases t with
      | task f => exact absurd rfl (hne f)
      | nothing => exact absurd hc id
      | param p op v =>
        obtain ⟨x, ⟨args, ha, hx⟩, hm⟩ := hc
        refine ⟨args, ha, List.any_eq_true.2 ⟨(p, x), hx, ?_⟩⟩
        rw [Bool.or_eq_true]
        exact Or.inr ((mem_anyMatch _ _ _).2 ⟨op, v, (h.param p op v).2 hA, hm⟩)
      | taskParam f p op v =>
        obtain ⟨rfl, x, ⟨args, ha, hx⟩, hm⟩ := hc
        refine ⟨args, ha, List.any_eq_true.2 ⟨(p, x), hx, ?_⟩⟩
        rw [Bool.or_eq_true]
        exact Or.inl ((mem_anyMatch _ _ _).2 ⟨op, v, (h.taskParam c.fn p op v).2 hA, hm⟩)
    · rintro ⟨args, ha, hany⟩
      obtain ⟨⟨p, x⟩, hx, hm⟩ := List.any_eq_true.1 hany
      rw [Bool.or_eq_true] at hm
      rcases hm with hm | hm
      · obtain ⟨op, v, h1, h2⟩ := (mem_anyMatch _ _ _).1 hm
        exact ⟨.taskParam c.fn p op v, (h.taskParam _ _ _ _).1 h1, ⟨rfl, x, ⟨args, ha, hx⟩, h2⟩, by simp⟩
      · obtain ⟨op, v, h1, h2⟩ := (mem_anyMatch _ _ _).1 hm
        exact ⟨.param p op v, (h.param _ _ _).1 h1, ⟨x, ⟨args, ha, hx⟩, h2⟩, by simp⟩
  rw [hparams]
  unfold isStricken
  rcases Option.eq_none_or_eq_some (Dict.get st.tasks c.fn) with hg | ⟨ts, hg⟩
  · have hof : ofTask st c.fn = [] := by simp [ofTask, hg]
    rw [hof, hg]
    cases ha : c.args <;> simp
  · have hof : ofTask st c.fn = ts := by simp [ofTask, hg]
    rw [hof, hg]
    cases ts with
    | nil => simp
    | cons e ts => cases ha : c.args <;> simp

/-- No strike on a parameter of task `f` occurs in the history. -/
def NoParamStrikes (f : String) (l : List Instr) : Prop :=
  ∀ i ∈ l, i.restore = false → ∀ p op v, i.target ≠ .taskParam f p op v

theorem task_exact (f : String) (l : List Instr) (hl : NoParamStrikes f l) :
    (Dict.get (replay {} l).tasks f = some [] ∧ Active l.reverse (.task f)) ∨
    (Dict.get (replay {} l).tasks f = none ∧ ¬ Active l.reverse (.task f)) := by
  have main : ∀ (l : List Instr) (st : State) (h : List Instr), NoParamStrikes f l →
      ((Dict.get st.tasks f = some [] ∧ Active h (.task f)) ∨
        (Dict.get st.tasks f = none ∧ ¬ Active h (.task f))) →
      (Dict.get (replay st l).tasks f = some [] ∧ Active (l.reverse ++ h) (.task f)) ∨
      (Dict.get (replay st l).tasks f = none ∧ ¬ Active (l.reverse ++ h) (.task f)) := by
    intro l
    induction l with
    | nil => intro st h _ hg; simpa [replay] using hg
    | cons i l ih =>
      intro st h hl hg
      have := ih (update st i) (i :: h) (fun j hj => hl j (List.mem_cons_of_mem _ hj)) ?_
      · simpa [replay, List.reverse_cons, List.append_assoc] using this
      · unfold update
        by_cases hv : i.value.hashable = true
        · rw [if_pos hv]
          simp only [Active, hv, true_and]
          have h0 := hl i (by simp)
          cases hr : i.restore with
          | true =>
            simp only [if_true]
            unfold doRestore
            rw [Instr.target_eq]
            cases hf : truthy i.function with
            | none =>
              cases hp : truthy i.parameter with
              | none => simpa using hg
              | some p =>
                simp only [reduceCtorEq, if_false]
                split
                · exact hg
                · split <;> exact hg
            | some g =>
              cases hp : truthy i.parameter with
              | none =>
                simp only [Target.task.injEq]
                by_cases hgf : g = f
                · subst hgf
                  rcases hg with ⟨hg, hA⟩ | ⟨hg, hA⟩
                  · simp [hg, Dict.get_pop]
                  · simp [hg]
                · simp only [hgf, if_false]
                  split
                  · exact hg
                  · have hne : f ≠ g := fun h => hgf h.symm
                    split
                    · simpa [Dict.get_pop, hne] using hg
                    · exact hg
              | some p =>
                simp only [reduceCtorEq, if_false]
                by_cases hgf : g = f
                · subst hgf
                  rcases hg with ⟨hg, hA⟩ | ⟨hg, hA⟩
                  · simp [hg, Dict.get_set, hA, Dict.pop]
                  · simp [hg, hA]
                · have hne : f ≠ g := fun h => hgf h.symm
                  split
                  · exact hg
                  · split
                    · simpa [Dict.get_set, hne] using hg
                    · split
                      · split
                        · simpa [Dict.get_pop, hne] using hg
                        · simpa [Dict.get_set, hne] using hg
                      · simpa [Dict.get_set, hne] using hg
          | false =>
            simp only [Bool.false_eq_true, if_false]
            have h1 := h0 hr
            rw [Instr.target_eq] at h1
            unfold doStrike
            rw [Instr.target_eq]
            cases hf : truthy i.function with
            | none =>
              cases hp : truthy i.parameter with
              | none => simpa using hg
              | some p => simpa using hg
            | some g =>
              cases hp : truthy i.parameter with
              | none =>
                simp only [Target.task.injEq]
                by_cases hgf : g = f
                · subst hgf
                  rcases hg with ⟨hg, hA⟩ | ⟨hg, hA⟩
                  · simp [hg]
                  · simp [hg, Dict.get_set]
                · have hne : f ≠ g := fun h => hgf h.symm
                  simp only [hgf, if_false]
                  split
                  · exact hg
                  · simpa [Dict.get_set, hne] using hg
              | some p =>
                simp only [hf, hp] at h1
                have hne : f ≠ g := by
                  rintro rfl
                  exact h1 p i.operator i.value rfl
                simpa [Dict.get_set, hne] using hg
        · rw [if_neg hv]
          simpa [Active, hv] using hg
  simpa using main l {} [] hl (by simp [Active])

/-- C26.  For every history of instructions and every call:
* a call that is blocked is covered by an active strike;
* a call covered by an active strike on a parameter, of its own task or of any task, is
  blocked;
* a call of a task that is actively struck as a whole is blocked, provided no strike on a
  parameter of that task was ever issued.
Partial: without that proviso the last part is false (`C26_violated`). -/
theorem C26_blocked_iff_struck_partial (l : List Instr) (c : Call) :
    (isStricken (replay {} l) c = true → ∃ t, Active l.reverse t ∧ Covers t c) ∧
    (∀ t, Active l.reverse t → Covers t c → (∀ f, t ≠ .task f) → isStricken (replay {} l) c = true) ∧
    (NoParamStrikes c.fn l →
      (isStricken (replay {} l) c = true ↔ ∃ t, Active l.reverse t ∧ Covers t c)) := by
  have hi := Inv.replay l
  have hs := isStricken_spec hi c
  have sound : isStricken (replay {} l) c = true → ∃ t, Active l.reverse t ∧ Covers t c := by
    intro h
    rcases hs.1 h with h | ⟨_, t, hA, hc, _⟩
    · exact ⟨.task c.fn, hi.task _ h, rfl⟩
    · exact ⟨t, hA, hc⟩
  have compl : ∀ t, Active l.reverse t → Covers t c → (∀ f, t ≠ .task f) →
      isStricken (replay {} l) c = true := by
    intro t hA hc hne
    rw [hs]
    by_cases h : Dict.get (replay {} l).tasks c.fn = some []
    · exact Or.inl h
    · exact Or.inr ⟨h, t, hA, hc, hne⟩
  refine ⟨sound, compl, fun hno => ⟨sound, ?_⟩⟩
  rintro ⟨t, hA, hc⟩
  cases t with
  | task f =>
    have : c.fn = f := hc
    subst this
    rw [hs]
    left
    rcases task_exact _ _ hno with h | h
    · exact h.1
    · exact absurd hA h.2
  | taskParam f p op v => exact compl _ hA hc (by simp)
  | param p op v => exact compl _ hA hc (by simp)
  | nothing => exact absurd hc id

/-- C26 for plain parameter mappings: blocked exactly when an active strike on one of the
parameters, for any task, matches. -/
theorem C26_mapping_blocked_iff_struck (l : List Instr) (params : List (String × Val)) :
    isDictStricken (replay {} l) params = true ↔
      ∃ p x op v, (p, x) ∈ params ∧ Active l.reverse (.param p op v) ∧ isMatch x op v = true := by
  have hi := Inv.replay l
  simp only [isDictStricken, List.any_eq_true, mem_anyMatch, Prod.exists, hi.param]
  constructor
  · rintro ⟨p, x, h1, op, v, h2, h3⟩; exact ⟨p, x, op, v, h1, h2, h3⟩
  · rintro ⟨p, x, op, v, h1, h2, h3⟩; exact ⟨p, x, h1, op, v, h2, h3⟩

/-- The full statement. -/
def C26_statement : Prop := ∀ (l : List Instr) (c : Call),
  isStricken (replay {} l) c = true ↔ ∃ t, Active l.reverse t ∧ Covers t c

/-- The code violates it: a later strike on one parameter of a task narrows the strike on
the whole task, because "whole task" is represented by an empty dictionary. -/
theorem C26_violated : ¬ C26_statement := by
  intro h
  have := (h [⟨false, some "f", none, .eq, .null⟩, ⟨false, some "f", some "p", .eq, .str "x"⟩]
    ⟨"f", some [("p", .str "y")]⟩).2 ⟨.task "f", by decide, rfl⟩
  revert this
  decide

/-- A history and a call to which all three parts apply. -/
example : let l : List Instr := [⟨false, some "f", none, .eq, .null⟩, ⟨false, none, some "p", .le, .str "m"⟩,
      ⟨true, some "f", none, .eq, .null⟩]
    Active l.reverse (.param "p" .le (.str "m")) ∧ ¬ Active l.reverse (.task "f") ∧
    Covers (.param "p" .le (.str "m")) ⟨"f", some [("p", .str "a")]⟩ ∧
    NoParamStrikes "f" l ∧
    isStricken (replay {} l) ⟨"f", some [("p", .str "a")]⟩ = true ∧
    isStricken (replay {} l) ⟨"f", some [("p", .str "z")]⟩ = false := by
  refine ⟨by decide, by decide, ⟨.str "a", ⟨_, rfl, by simp⟩, by decide⟩, ?_, by decide, by decide⟩
  intro i hi
  simp only [List.mem_cons, List.not_mem_nil, or_false] at hi
  rcases hi with rfl | rfl | rfl <;> simp [Instr.target_eq, truthy]

/-! ### C27 -/

theorem stricken_congr {st st' : State} {A A' : Target → Prop} (h : Inv st A) (h' : Inv st' A')
    (hA : ∀ t, (∀ f, t ≠ .task f) → (A t ↔ A' t))
    (hT : ∀ f, Dict.get st.tasks f = some [] ↔ Dict.get st'.tasks f = some []) (c : Call) :
    isStricken st c = isStricken st' c := by
  rw [Bool.eq_iff_iff, isStricken_spec h, isStricken_spec h', hT]
  refine or_congr Iff.rfl (and_congr (not_congr (hT _)) ?_)
  constructor
  · rintro ⟨t, h1, h2, h3⟩; exact ⟨t, (hA t h3).1 h1, h2, h3⟩
  · rintro ⟨t, h1, h2, h3⟩; exact ⟨t, (hA t h3).2 h1, h2, h3⟩

/-- The opposite instruction. -/
def Instr.undo (i : Instr) : Instr := { i with restore := true }

/-- The instruction touches at most the entry of its own function. -/
theorem tasks_other (st : State) (i : Instr) (f : String) (h : truthy i.function ≠ some f) :
    Dict.get (update st i).tasks f = Dict.get st.tasks f := by
  unfold update
  split
  · split
    · unfold doRestore
      cases hf : truthy i.function with
      | none =>
        cases hp : truthy i.parameter with
        | none => rfl
        | some p =>
          dsimp only
          split
          · rfl
          · split <;> rfl
      | some g =>
        have hne : f ≠ g := by rintro rfl; exact h hf
        cases hp : truthy i.parameter with
        | none =>
          dsimp only
          split
          · rfl
          · split
            · simp [Dict.get_pop, hne]
            · rfl
        | some p =>
          dsimp only
          split
          · rfl
          · split
            · simp [Dict.get_set, hne]
            · split
              · split
                · simp [Dict.get_pop, hne]
                · simp [Dict.get_set, hne]
              · simp [Dict.get_set, hne]
    · unfold doStrike
      cases hf : truthy i.function with
      | none => cases hp : truthy i.parameter <;> rfl
      | some g =>
        have hne : f ≠ g := by rintro rfl; exact h hf
        cases hp : truthy i.parameter with
        | none =>
          dsimp only
          split
          · rfl
          · simp [Dict.get_set, hne]
        | some p => simp [Dict.get_set, hne]
  · rfl

/-- C27.  In every reachable strike list: if a strike `i` is not active, issuing it and
then restoring it leaves the decision for every call as it was, unless `i` is about a
parameter of a task that is already struck as a whole.  Partial: that case is
`C27_violated`. -/
theorem C27_restore_undoes_strike_partial (l : List Instr) (i : Instr) (hi : i.restore = false)
    (hnew : ¬ Active l.reverse i.target)
    (hwhole : ∀ f p op v, i.target = .taskParam f p op v → ¬ Active l.reverse (.task f)) (c : Call) :
    isStricken (replay {} (l ++ [i, i.undo])) c = isStricken (replay {} l) c := by
  have h0 := Inv.replay l
  have h2 := Inv.replay (l ++ [i, i.undo])
  refine stricken_congr h2 h0 ?_ ?_ c
  · intro t _
    have ht : i.undo.target = i.target := rfl
    have hv : i.undo.value = i.value := rfl
    simp only [List.reverse_append, List.reverse_cons, List.reverse_nil, List.nil_append,
      List.cons_append, Active, ht, hv]
    by_cases hc : i.value.hashable ∧ i.target = t
    · rw [if_pos hc]
      simp only [Instr.undo, Bool.true_eq_false, false_iff]
      rw [← hc.2]; exact hnew
    · rw [if_neg hc, if_neg hc]
  · intro f
    simp only [replay, List.foldl_append, List.foldl_cons, List.foldl_nil]
    change Dict.get (update (update (replay {} l) i) i.undo).tasks f = _ ↔
      Dict.get (replay {} l).tasks f = _
    by_cases hf : truthy i.function = some f
    · by_cases hv : i.value.hashable = true
      · have hv' : i.undo.value.hashable = true := hv
        have hr : i.undo.restore = true := rfl
        have hf' : truthy i.undo.function = some f := hf
        have hp' : truthy i.undo.parameter = truthy i.parameter := rfl
        simp only [update, hv, hv', hi, hr, if_true, Bool.false_eq_true, if_false]
        cases hp : truthy i.parameter with
        | none =>
          have htar : i.target = .task f := by simp [Instr.target_eq, hf, hp]
          simp only [doStrike, doRestore, hf, hf', hp', hp]
          rcases Option.eq_none_or_eq_some (Dict.get (replay {} l).tasks f) with hg | ⟨ts, hg⟩
          · simp [hg, Dict.get_set, Dict.get_pop]
          · have hne : ts ≠ [] := by
              rintro rfl
              exact hnew (htar ▸ h0.task f hg)
            simp [hg, hne]
        | some p =>
          have htar : i.target = .taskParam f p i.operator i.value := by simp [Instr.target_eq, hf, hp]
          have hno : Dict.get (replay {} l).tasks f ≠ some [] := fun hg =>
            hwhole f p _ _ htar (h0.task f hg)
          have hnot : (i.operator, i.value) ∉ members (ofTask (replay {} l) f) p := by
            rw [h0.taskParam, ← htar]; exact hnew
          simp only [doStrike, doRestore, hf, hf', hp', hp, Dict.get_set, if_true]
          have e1 : i.undo.operator = i.operator := rfl
          have e2 : i.undo.value = i.value := rfl
          rw [e1, e2]
          constructor
          · intro h
            exfalso
            revert h
            split
            · split
              · simp [Dict.get_pop]
              · rename_i h1; simp [Dict.get_set, h1]
            · intro h
              simp only [Dict.get_set, if_true, Option.some.injEq] at h
              have := (Dict.eq_nil_iff _).1 h p
              simp [Dict.get_set] at this
          · intro h; exact absurd h hno
      · have hv' : ¬ i.undo.value.hashable = true := hv
        simp [update, hv, hv']
    · have hf' : truthy i.undo.function ≠ some f := hf
      rw [tasks_other _ _ _ hf', tasks_other _ _ _ hf]

/-- C27, second part.  Restoring a strike that is not active changes no decision. -/
theorem C27_restore_of_absent_changes_nothing (l : List Instr) (i : Instr) (hi : i.restore = true)
    (habs : ¬ Active l.reverse i.target) (c : Call) :
    isStricken (replay {} (l ++ [i])) c = isStricken (replay {} l) c := by
  have h0 := Inv.replay l
  have h2 := Inv.replay (l ++ [i])
  refine stricken_congr h2 h0 ?_ ?_ c
  · intro t _
    simp only [List.reverse_append, List.reverse_cons, List.reverse_nil, List.nil_append,
      List.cons_append, Active]
    by_cases hc : i.value.hashable ∧ i.target = t
    · rw [if_pos hc]
      simp only [hi, Bool.true_eq_false, false_iff]
      rw [← hc.2]; exact habs
    · rw [if_neg hc]
  · intro f
    simp only [replay, List.foldl_append, List.foldl_cons, List.foldl_nil]
    change Dict.get (update (replay {} l) i).tasks f = _ ↔ Dict.get (replay {} l).tasks f = _
    by_cases hf : truthy i.function = some f
    · by_cases hv : i.value.hashable = true
      · simp only [update, hv, hi, if_true]
        cases hp : truthy i.parameter with
        | none =>
          have htar : i.target = .task f := by simp [Instr.target_eq, hf, hp]
          simp only [doRestore, hf, hp]
          rcases Option.eq_none_or_eq_some (Dict.get (replay {} l).tasks f) with hg | ⟨ts, hg⟩
          · simp [hg]
          · have hne : ts ≠ [] := by
              rintro rfl
              exact habs (htar ▸ h0.task f hg)
            simp [hg, hne]
        | some p =>
          have htar : i.target = .taskParam f p i.operator i.value := by simp [Instr.target_eq, hf, hp]
          simp only [doRestore, hf, hp]
          rcases Option.eq_none_or_eq_some (Dict.get (replay {} l).tasks f) with hg | ⟨ts, hg⟩
          · simp [hg]
          · simp only [hg]
            have hts : ofTask (replay {} l) f = ts := by simp [ofTask, hg]
            rcases Option.eq_none_or_eq_some (Dict.get ts p) with hps | ⟨ps, hps⟩
            · simp only [hps, Dict.get_set, if_true, Option.some.injEq]
              rw [Dict.eq_nil_iff, Dict.eq_nil_iff]
              refine forall_congr' fun q => ?_
              rw [Dict.get_pop]
              by_cases hq : q = p
              · simp [hq, hps]
              · simp [hq]
            · simp only [hps]
              have hnot : (i.operator, i.value) ∉ ps := by
                have := h0.taskParam f p i.operator i.value
                rw [← htar] at this
                have h3 : members (ofTask (replay {} l) f) p = ps := by simp [members, hts, hps]
                rw [h3] at this
                exact fun hm => habs (this.1 hm)
              have hsame : setRemove ps (i.operator, i.value) = ps := by
                simp only [setRemove, List.filter_eq_self]
                intro y hy
                simp only [decide_eq_true_eq]
                rintro rfl; exact hnot hy
              have hne : ps ≠ [] := by
                rintro rfl
                have := h0.inner f p
                rw [hts] at this; exact this hps
              rw [hsame, if_neg hne]
              simp only [Dict.get_set, if_true, Option.some.injEq]
              rw [Dict.eq_nil_iff, Dict.eq_nil_iff]
              refine forall_congr' fun q => ?_
              rw [Dict.get_set]
              by_cases hq : q = p
              · simp [hq, hps]
              · simp [hq]
      · simp [update, hv]
    · rw [tasks_other _ _ _ hf]

/-- The full statement. -/
def C27_statement : Prop := ∀ (l : List Instr) (i : Instr), i.restore = false →
  ¬ Active l.reverse i.target → ∀ c : Call,
    isStricken (replay {} (l ++ [i, i.undo])) c = isStricken (replay {} l) c

/-- The code violates it: striking and restoring a parameter of a task that is struck as
a whole lifts the strike on the whole task. -/
theorem C27_violated : ¬ C27_statement := by
  intro h
  have := h [⟨false, some "f", none, .eq, .null⟩] ⟨false, some "f", some "p", .eq, .str "x"⟩ rfl
    (by decide) ⟨"f", some [("p", .str "y")]⟩
  revert this
  decide

/-- A strike on a parameter of a task with another parameter strike. -/
example : let l : List Instr := [⟨false, some "f", some "q", .eq, .null⟩]
    let i : Instr := ⟨false, some "f", some "p", .eq, .str "x"⟩
    ¬ Active l.reverse i.target ∧ ¬ Active l.reverse (.task "f") ∧
    isStricken (replay {} (l ++ [i])) ⟨"f", some [("p", .str "x")]⟩ = true ∧
    isStricken (replay {} l) ⟨"f", some [("p", .str "x")]⟩ = false := by decide

/-! ### C28 -/

/-- What happens to the strike stream and to one process.  `other i` is another process
appending `i`; `send i` is this process's `send_instruction` when nothing happens between
its XADD and its local update (strikelist.py:303-307); `sendSlow i` is its XADD alone and
`sent` the local update of the oldest such instruction; `read n` is one `_read_strikes`
(567-619) that gets up to `n` messages after `last_id`. -/
inductive Ev
  | other (i : Instr)
  | send (i : Instr)
  | sendSlow (i : Instr)
  | sent
  | read (n : Nat)

/-- The stream, how far this process has read it, what it has still to apply locally and
its strike list. -/
structure Proc where
  stream : List Instr := []
  pos : Nat := 0
  unsent : List Instr := []
  st : State := {}

def Proc.step (p : Proc) : Ev → Proc
  | .other i => { p with stream := p.stream ++ [i] }
  | .send i => { p with stream := p.stream ++ [i], st := update p.st i }
  | .sendSlow i => { p with stream := p.stream ++ [i], unsent := p.unsent ++ [i] }
  | .sent =>
    match p.unsent with
    | [] => p
    | i :: rest => { p with unsent := rest, st := update p.st i }
  | .read n =>
    let batch := (p.stream.drop p.pos).take n
    { p with pos := p.pos + batch.length, st := replay p.st batch }

def Proc.run (evs : List Ev) : Proc := evs.foldl Proc.step {}

/-- The process has read the whole stream and applied all its own instructions. -/
def Proc.Settled (p : Proc) : Prop := p.pos = p.stream.length ∧ p.unsent = []

/-- What the stream says. -/
def Agrees (p : Proc) : Prop := ∀ c, isStricken p.st c = isStricken (replay {} p.stream) c

theorem replay_append (st : State) (a b : List Instr) : replay st (a ++ b) = replay (replay st a) b := by
  simp [replay]

theorem run_snoc (evs : List Ev) (e : Ev) : Proc.run (evs ++ [e]) = (Proc.run evs).step e := by
  simp [Proc.run]

theorem list_snoc {α : Type} {P : List α → Prop} (nil : P []) (snoc : ∀ l a, P l → P (l ++ [a])) :
    ∀ l, P l := by
  intro l
  have : ∀ n (l : List α), l.length = n → P l := by
    intro n
    induction n with
    | zero => intro l h; rw [List.length_eq_zero_iff.1 h]; exact nil
    | succ n ih =>
      intro l h
      have hne : l ≠ [] := by rintro rfl; cases h
      rw [← List.dropLast_concat_getLast hne]
      exact snoc _ _ (ih _ (by simp [h]))
  exact this _ l rfl

theorem take_drop_add {α : Type} (l : List α) (p n : Nat) :
    l.take p ++ (l.drop p).take n = l.take (p + ((l.drop p).take n).length) := by
  rw [List.take_add, List.length_take]
  congr 1
  by_cases h : n ≤ (l.drop p).length
  · rw [Nat.min_eq_left h]
  · have : (l.drop p).length ≤ n := by omega
    rw [Nat.min_eq_right this, List.take_of_length_le this, List.take_of_length_le (Nat.le_refl _)]

/-- C28, readers: a process that only reads has, after any batching of its reads, exactly
the strike list of the part of the stream it has read. -/
theorem C28_batching_does_not_matter (evs : List Ev)
    (hev : ∀ e ∈ evs, (∃ i, e = .other i) ∨ ∃ n, e = .read n) :
    (Proc.run evs).st = replay {} ((Proc.run evs).stream.take (Proc.run evs).pos) := by
  suffices h : ∀ evs : List Ev, (∀ e ∈ evs, (∃ i, e = Ev.other i) ∨ ∃ n, e = Ev.read n) →
      (Proc.run evs).pos ≤ (Proc.run evs).stream.length ∧
      (Proc.run evs).st = replay {} ((Proc.run evs).stream.take (Proc.run evs).pos) from (h evs hev).2
  intro evs
  refine list_snoc (P := fun evs => (∀ e ∈ evs, (∃ i, e = Ev.other i) ∨ ∃ n, e = Ev.read n) →
      (Proc.run evs).pos ≤ (Proc.run evs).stream.length ∧
      (Proc.run evs).st = replay {} ((Proc.run evs).stream.take (Proc.run evs).pos)) ?_ ?_ evs
  · intro _; exact ⟨Nat.le_refl _, rfl⟩
  · intro l e ih hall
    obtain ⟨ih1, ih2⟩ := ih (fun e' he' => hall e' (by simp [he']))
    rw [run_snoc]
    rcases hall e (by simp) with ⟨i, rfl⟩ | ⟨n, rfl⟩
    · refine ⟨by simp [Proc.step]; omega, ?_⟩
      simp only [Proc.step]
      rw [List.take_append_of_le_length ih1, ih2]
    · simp only [Proc.step]
      refine ⟨?_, ?_⟩
      · rw [List.length_take, List.length_drop]; omega
      · rw [ih2, ← replay_append, take_drop_add]

/-- Instructions about one target decide its activity. -/
theorem active_append (a b : List Instr) (t : Target) :
    Active (a ++ b) t ↔ if (∃ i ∈ a, i.value.hashable ∧ i.target = t) then Active a t else Active b t := by
  induction a with
  | nil => simp
  | cons i a ih =>
    simp only [List.cons_append, Active]
    by_cases hc : i.value.hashable ∧ i.target = t
    · simp [hc]
    · rw [if_neg hc, if_neg hc, ih]
      have : (∃ j ∈ i :: a, j.value.hashable ∧ j.target = t) ↔
          ∃ j ∈ a, j.value.hashable ∧ j.target = t := by
        constructor
        · rintro ⟨j, hj, hj'⟩
          rcases List.mem_cons.1 hj with rfl | hj
          · exact absurd hj' hc
          · exact ⟨j, hj, hj'⟩
        · rintro ⟨j, hj, hj'⟩; exact ⟨j, List.mem_cons_of_mem _ hj, hj'⟩
      by_cases h : ∃ j ∈ a, j.value.hashable ∧ j.target = t
      · rw [if_pos h, if_pos (this.2 h)]
      · rw [if_neg h, if_neg (fun h' => h (this.1 h'))]

/-- Every task is struck only as a whole or only by parameters. -/
def Unmixed (l : List Instr) : Prop :=
  ∀ f, NoParamStrikes f l ∨ ∀ i ∈ l, i.target ≠ .task f

/-- On unmixed histories the decisions depend only on the active strikes. -/
theorem decided_by_active (a b : List Instr) (hsub : ∀ i ∈ a, i ∈ b) (hb : Unmixed b)
    (h : ∀ t, Active a.reverse t ↔ Active b.reverse t) (c : Call) :
    isStricken (replay {} a) c = isStricken (replay {} b) c := by
  refine stricken_congr (Inv.replay a) (Inv.replay b) (fun t _ => h t) ?_ c
  intro f
  rcases hb f with hno | hno
  · rcases task_exact f a (fun i hi => hno i (hsub i hi)) with ⟨h1, h2⟩ | ⟨h1, h2⟩ <;>
      rcases task_exact f b hno with ⟨h3, h4⟩ | ⟨h3, h4⟩
    · simp [h1, h3]
    · exact absurd ((h _).1 h2) h4
    · exact absurd ((h _).2 h4) h2
    · simp [h1, h3]
  · have never : ∀ l : List Instr, (∀ i ∈ l, i.target ≠ .task f) → ¬ Active l.reverse (.task f) := by
      intro l hl hA
      have : ∀ l : List Instr, (∀ i ∈ l, i.target ≠ .task f) → ¬ Active l (.task f) := by
        intro l
        induction l with
        | nil => intro _ h; exact h
        | cons i l ih =>
          intro hl hA
          simp only [Active, hl i (by simp), and_false, if_false] at hA
          exact ih (fun j hj => hl j (by simp [hj])) hA
      exact this l.reverse (fun i hi => hl i (by simpa using hi)) hA
    constructor
    · intro hg
      exact absurd ((Inv.replay a).task f hg) (never a (fun i hi => hno i (hsub i hi)))
    · intro hg
      exact absurd ((Inv.replay b).task f hg) (never b hno)

/-- C28.  Every process that has read the strike stream to its end decides every call as
a fresh reader of the stream would, whatever it sent itself and however reads and sends
were interleaved, provided its sends update its own list before it reads further and no
task is struck both as a whole and by parameter.  Partial: `C28_violated_*` show that
both provisos are needed. -/
theorem C28_converges_partial (evs : List Ev)
    (hev : ∀ e ∈ evs, (∃ i, e = .other i) ∨ (∃ i, e = .send i) ∨ ∃ n, e = .read n)
    (hset : (Proc.run evs).Settled) (hmix : Unmixed (Proc.run evs).stream) :
    Agrees (Proc.run evs) := by
  -- the instructions applied so far, in order
  suffices h : ∀ evs : List Ev, (∀ e ∈ evs, (∃ i, e = Ev.other i) ∨ (∃ i, e = Ev.send i) ∨ ∃ n, e = Ev.read n) →
      (Proc.run evs).pos ≤ (Proc.run evs).stream.length ∧
      ∃ applied : List Instr, (Proc.run evs).st = replay {} applied ∧
        (∀ i ∈ applied, i ∈ (Proc.run evs).stream) ∧
        ∀ t, Active (applied ++ (Proc.run evs).stream.drop (Proc.run evs).pos).reverse t ↔
          Active (Proc.run evs).stream.reverse t by
    obtain ⟨_, applied, h1, h2, h3⟩ := h evs hev
    intro c
    rw [h1]
    refine decided_by_active _ _ h2 hmix ?_ c
    intro t
    rw [← h3 t, hset.1]
    simp
  intro evs
  refine list_snoc (P := fun evs =>
      (∀ e ∈ evs, (∃ i, e = Ev.other i) ∨ (∃ i, e = Ev.send i) ∨ ∃ n, e = Ev.read n) →
      (Proc.run evs).pos ≤ (Proc.run evs).stream.length ∧
      ∃ applied : List Instr, (Proc.run evs).st = replay {} applied ∧
        (∀ i ∈ applied, i ∈ (Proc.run evs).stream) ∧
        ∀ t, Active (applied ++ (Proc.run evs).stream.drop (Proc.run evs).pos).reverse t ↔
          Active (Proc.run evs).stream.reverse t) ?_ ?_ evs
  · intro _
    exact ⟨Nat.le_refl _, [], rfl, by simp, by intro t; rfl⟩
  · intro l e ih hall
    obtain ⟨ih0, applied, ih1, ih2, ih3⟩ := ih (fun e' he' => hall e' (by simp [he']))
    rw [run_snoc]
    generalize Proc.run l = p at *
    rcases hall e (by simp) with ⟨i, rfl⟩ | ⟨i, rfl⟩ | ⟨n, rfl⟩
    · refine ⟨by simp [Proc.step]; omega, applied, ih1, ?_, ?_⟩
      · intro j hj; simp [Proc.step, ih2 j hj]
      · intro t
        simp only [Proc.step]
        rw [List.drop_append_of_le_length ih0, ← List.append_assoc, List.reverse_append,
          List.reverse_append (as := p.stream)]
        simp only [List.reverse_cons, List.reverse_nil, List.nil_append, List.cons_append, Active]
        split
        · exact Iff.rfl
        · exact ih3 t
    · refine ⟨by simp [Proc.step]; omega, applied ++ [i], ?_, ?_, ?_⟩
      · simp only [Proc.step, replay_append, ← ih1]; rfl
      · intro j hj
        simp only [List.mem_append, List.mem_singleton] at hj
        rcases hj with hj | rfl
        · simp [Proc.step, ih2 j hj]
        · simp [Proc.step]
      · intro t
        simp only [Proc.step]
        rw [List.drop_append_of_le_length ih0, ← List.append_assoc, List.reverse_append,
          List.reverse_append (as := p.stream)]
        simp only [List.reverse_cons, List.reverse_nil, List.nil_append, List.cons_append, Active]
        split
        · exact Iff.rfl
        · rename_i hc
          rw [← ih3 t]
          simp only [List.append_assoc, List.reverse_append, List.cons_append, List.nil_append,
            List.reverse_cons]
          rw [active_append, active_append]
          split
          · exact Iff.rfl
          · simp [Active, hc]
    · refine ⟨?_, applied ++ (p.stream.drop p.pos).take n, ?_, ?_, ?_⟩
      · simp only [Proc.step]
        rw [List.length_take, List.length_drop]; omega
      · simp only [Proc.step, replay_append, ← ih1]
      · intro j hj
        simp only [List.mem_append] at hj
        rcases hj with hj | hj
        · exact ih2 j hj
        · exact List.mem_of_mem_drop (List.mem_of_mem_take hj)
      · intro t
        simp only [Proc.step]
        rw [List.append_assoc]
        have : (p.stream.drop p.pos).take n ++ p.stream.drop (p.pos + ((p.stream.drop p.pos).take n).length) =
            p.stream.drop p.pos := by
          rw [← List.drop_drop]
          rw [List.length_take]
          by_cases h : n ≤ (p.stream.drop p.pos).length
          · rw [Nat.min_eq_left h, List.take_append_drop]
          · have h' : (p.stream.drop p.pos).length ≤ n := by omega
            rw [Nat.min_eq_right h', List.take_of_length_le h', List.drop_length, List.append_nil]
        rw [this]
        exact ih3 t

/-- The full statement. -/
def C28_statement : Prop := ∀ evs : List Ev, (Proc.run evs).Settled → Agrees (Proc.run evs)

/-- The code violates it when the local update of a sent strike comes after the monitor
has already read that strike and another process's restore of it. -/
theorem C28_violated_late_update : ¬ C28_statement := by
  intro h
  have := h [.sendSlow ⟨false, some "f", none, .eq, .null⟩, .other ⟨true, some "f", none, .eq, .null⟩,
    .read 100, .sent] (by constructor <;> decide) ⟨"f", some []⟩
  revert this
  decide

/-- The code violates it even with immediate local updates when a task is struck both as
a whole and by parameter. -/
theorem C28_violated_mixed : ¬ C28_statement := by
  intro h
  have := h [.other ⟨false, some "f", some "p", .eq, .null⟩, .read 100,
    .other ⟨false, some "f", none, .eq, .null⟩, .send ⟨true, some "f", some "p", .eq, .null⟩,
    .read 100] (by constructor <;> decide) ⟨"f", some []⟩
  revert this
  decide

/-- An interleaving that satisfies the hypotheses of `C28_converges_partial`. -/
example : let evs : List Ev := [.other ⟨false, some "f", none, .eq, .null⟩,
      .send ⟨true, some "f", none, .eq, .null⟩, .read 1, .other ⟨false, none, some "p", .eq, .null⟩, .read 5]
    (Proc.run evs).Settled ∧ Unmixed (Proc.run evs).stream := by
  refine ⟨by constructor <;> decide, ?_⟩
  intro f
  left
  intro i hi
  simp only [Proc.run, Proc.step, List.foldl_cons, List.foldl_nil, List.nil_append,
    List.cons_append, List.mem_cons, List.not_mem_nil, or_false] at hi
  rcases hi with rfl | rfl | rfl <;> simp [Instr.target_eq, truthy]

/-! ### C29 -/

/-- A field of a strike message: text, or a pickled value (`cloudpickle` is opaque). -/
inductive Field (P : Type)
  | text (s : String)
  | pickled (p : P)

/-- The texts of the operators, strikelist.py:45-52. -/
def Operator.text : Operator → String
  | .eq => "==" | .ne => "!=" | .gt => ">" | .ge => ">=" | .lt => "<" | .le => "<=" | .between => "between"

/-- `StrikeInstruction.as_message`, strikelist.py:74-82. -/
def asMessage {P : Type} (dumps : Val → P) (i : Instr) : Dict (Field P) :=
  let m : Dict (Field P) := [("direction", .text (if i.restore then "restore" else "strike"))]
  let m := match truthy i.function with
    | some f => Dict.set m "function" (.text f)
    | none => m
  let m := match truthy i.parameter with
    | some p => Dict.set m "parameter" (.text p)
    | none => m
  Dict.set (Dict.set m "operator" (.text i.operator.text)) "value" (.pickled (dumps i.value))

/-- A text field, if there. -/
def textField {P : Type} (m : Dict (Field P)) (k : String) : Option String :=
  match Dict.get m k with
  | some (.text s) => some s
  | _ => none

/-- The operator with a text; an unknown text would never match anything. -/
def Operator.ofText (s : String) : Option Operator :=
  if s = "==" then some .eq else if s = "!=" then some .ne else if s = ">" then some .gt
  else if s = ">=" then some .ge else if s = "<" then some .lt else if s = "<=" then some .le
  else if s = "between" then some .between else none

/-- `StrikeInstruction.from_message`, strikelist.py:84-94; `none` is the KeyError or a
failure to unpickle. -/
def fromMessage {P : Type} (loads : P → Option Val) (m : Dict (Field P)) : Option Instr := do
  let direction ← textField m "direction"
  let operator ← (textField m "operator").bind Operator.ofText
  let value ← match Dict.get m "value" with
    | some (.pickled p) => loads p
    | _ => none
  -- anything but "strike" becomes a Restore
  pure ⟨direction ≠ "strike", textField m "function", textField m "parameter", operator, value⟩

theorem ofText_text (o : Operator) : Operator.ofText o.text = some o := by
  cases o <;> decide

/-- C29.  For every instruction and every pickling that round-trips its value, the
decoded message is the instruction (an empty function or parameter name, which means
"none", comes back as none). -/
theorem C29_wire_round_trip {P : Type} (dumps : Val → P) (loads : P → Option Val) (i : Instr)
    (hp : loads (dumps i.value) = some i.value) :
    fromMessage loads (asMessage dumps i) =
      some { i with function := given i.function, parameter := given i.parameter } := by
  rw [given_eq, given_eq]
  obtain ⟨r, f, p, o, v⟩ := i
  simp only at hp
  simp only [fromMessage, asMessage, textField]
  cases hf : truthy f <;> cases hpp : truthy p <;> cases r <;>
    simp [Dict.get_set, Dict.get_cons, ofText_text, hp]

/-- C29, effect: receiving the message has the same effect on every strike list as the
instruction itself. -/
theorem C29_same_effect {P : Type} (dumps : Val → P) (loads : P → Option Val) (i : Instr)
    (hp : loads (dumps i.value) = some i.value) :
    ∃ j, fromMessage loads (asMessage dumps i) = some j ∧ ∀ st, update st j = update st i := by
  refine ⟨_, C29_wire_round_trip dumps loads i hp, ?_⟩
  have tt : ∀ x, truthy (truthy x) = truthy x := by
    intro x
    cases x with
    | none => rfl
    | some s =>
      by_cases hs : s = ""
      · subst hs; rfl
      · have : truthy (some s) = some s := by
          unfold truthy
          split
          · rename_i h; cases h; exact absurd rfl hs
          · rfl
        rw [this, this]
  intro st
  obtain ⟨r, f, p, o, v⟩ := i
  unfold update doRestore doStrike
  simp only [given_eq, tt]

/-- The identity pickling round-trips. -/
example : fromMessage (P := Val) some (asMessage id ⟨true, some "f", none, .between, .seq true [.str "a", .str "b"]⟩) =
    some ⟨true, some "f", none, .between, .seq true [.str "a", .str "b"]⟩ := by decide

end Docket.Strikes
