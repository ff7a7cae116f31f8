import Verif.Worker.Single
/-
C41 Conflicting single dependencies are always detected.
-/
namespace Docket.Single

/-- The specification: two of the declared dependencies (at different positions) are both
instances of a class that may be declared only once. -/
def Conflict (H : Hierarchy) (items : List Item) : Prop :=
  ∃ i j : Nat, i < j ∧ ∃ x y b, items[i]? = some x ∧ items[j]? = some y ∧ H.single b = true ∧
    b ∈ H.mro x.cls ∧ b ∈ H.mro y.cls

/-- A subclass of a class that may be declared only once may be declared only once: nobody
overrides `single = True` with `False` below. -/
def Inherited (H : Hierarchy) : Prop := ∀ c b, b ∈ H.mro c → H.single b = true → H.single c = true

/-! What `byType` computes: for each class the number of its items. -/

def occ (items : List Item) (c : Cls) : Nat := (items.filter (fun it => it.cls = c)).length

theorem bump_mem (d : List (Cls × List String)) (it : Item) (hd : (d.map (·.1)).Nodup) :
    ((bump d it).map (·.1)).Nodup ∧
    (∀ c, c ∈ (bump d it).map (·.1) ↔ c ∈ d.map (·.1) ∨ c = it.cls) ∧
    (∀ c ps, (c, ps) ∈ bump d it → c ≠ it.cls → (c, ps) ∈ d) ∧
    (∀ ps, (it.cls, ps) ∈ bump d it → (∃ qs, (it.cls, qs) ∈ d ∧ ps.length = qs.length + 1) ∨
      (it.cls ∉ d.map (·.1) ∧ ps.length = 1)) := by
  induction d with
  | nil => simp [bump]
  | cons e d ih =>
    obtain ⟨c0, ps0⟩ := e
    simp only [List.map_cons, List.nodup_cons] at hd
    obtain ⟨ih1, ih2, ih3, ih4⟩ := ih hd.2
    by_cases h : c0 = it.cls
    · subst h
      simp only [bump, if_true, List.map_cons, List.nodup_cons]
      refine ⟨hd, ?_, ?_, ?_⟩
      · intro c; simp only [List.mem_cons]; constructor
        · exact fun h => Or.inl h
        · rintro (h | rfl)
          · exact h
          · exact Or.inl rfl
      · intro c ps hm hc
        simp only [List.mem_cons, Prod.mk.injEq] at hm ⊢
        rcases hm with ⟨rfl, _⟩ | hm
        · exact absurd rfl hc
        · exact Or.inr hm
      · intro ps hm
        simp only [List.mem_cons, Prod.mk.injEq] at hm
        left
        rcases hm with ⟨_, rfl⟩ | hm
        · exact ⟨ps0, by simp, by simp⟩
        · exact absurd (List.mem_map_of_mem (f := (·.1)) hm) hd.1
    · simp only [bump, if_neg h, List.map_cons, List.nodup_cons]
      refine ⟨⟨?_, ih1⟩, ?_, ?_, ?_⟩
      · rw [ih2]; rintro (h' | h')
        · exact hd.1 h'
        · exact h h'
      · intro c
        simp only [List.mem_cons, ih2, or_assoc]
      · intro c ps hm hc
        simp only [List.mem_cons] at hm ⊢
        rcases hm with hm | hm
        · exact Or.inl hm
        · exact Or.inr (ih3 c ps hm hc)
      · intro ps hm
        simp only [List.mem_cons, Prod.mk.injEq] at hm
        rcases hm with ⟨h', _⟩ | hm
        · exact absurd h'.symm h
        · rcases ih4 ps hm with ⟨qs, hq, hl⟩ | ⟨hn, hl⟩
          · exact Or.inl ⟨qs, by simp [hq], hl⟩
          · right
            simp only [List.mem_cons, not_or]
            exact ⟨⟨Ne.symm h, hn⟩, hl⟩

theorem byType_spec (items : List Item) :
    ((byType items).map (·.1)).Nodup ∧
    (∀ c, c ∈ (byType items).map (·.1) ↔ 0 < occ items c) ∧
    (∀ c ps, (c, ps) ∈ byType items → ps.length = occ items c) := by
  have main : ∀ (items before : List Item) (d : List (Cls × List String)), (d.map (·.1)).Nodup →
      (∀ c, c ∈ d.map (·.1) ↔ 0 < occ before c) → (∀ c ps, (c, ps) ∈ d → ps.length = occ before c) →
      ((items.foldl bump d).map (·.1)).Nodup ∧
      (∀ c, c ∈ (items.foldl bump d).map (·.1) ↔ 0 < occ (before ++ items) c) ∧
      (∀ c ps, (c, ps) ∈ items.foldl bump d → ps.length = occ (before ++ items) c) := by
    intro items
    induction items with
    | nil => intro before d h1 h2 h3; rw [List.append_nil]; exact ⟨h1, h2, h3⟩
    | cons it items ih =>
      intro before d h1 h2 h3
      obtain ⟨b1, b2, b3, b4⟩ := bump_mem d it h1
      have hocc : ∀ c, occ (before ++ [it]) c = occ before c + (if it.cls = c then 1 else 0) := by
        intro c
        simp only [occ, List.filter_append, List.length_append]
        by_cases h : it.cls = c <;> simp [h]
      have := ih (before ++ [it]) (bump d it) b1 ?_ ?_
      · simpa using this
      · intro c
        rw [b2, hocc, h2]
        split <;> rename_i h
        · simp [h]
        · constructor
          · rintro (h' | h')
            · omega
            · exact absurd h'.symm h
          · intro h'; left; omega
      · intro c ps hm
        rw [hocc]
        by_cases hc : c = it.cls
        · subst hc
          simp only [if_true]
          rcases b4 ps hm with ⟨qs, hq, hl⟩ | ⟨hn, hl⟩
          · rw [hl, h3 _ _ hq]
          · have : ¬ 0 < occ before it.cls := fun hh => hn ((h2 _).2 hh)
            omega
        · rw [if_neg (Ne.symm hc), h3 c ps (b3 c ps hm hc)]; rfl
  exact main items [] [] (by simp) (by simp [occ]) (by simp)

theorem mem_sameClass (H : Hierarchy) (items : List Item) (c : Cls) :
    c ∈ sameClass H items ↔ H.single c = true ∧ 1 < occ items c := by
  obtain ⟨_, h2, h3⟩ := byType_spec items
  simp only [sameClass, List.mem_map, List.mem_filter, Bool.and_eq_true, decide_eq_true_eq]
  constructor
  · rintro ⟨⟨c', ps⟩, ⟨hm, hs, hl⟩, rfl⟩
    have := h3 _ _ hm
    exact ⟨hs, by rw [← this]; exact hl⟩
  · rintro ⟨hs, hl⟩
    obtain ⟨⟨c', ps⟩, hm, rfl⟩ := List.mem_map.1 ((h2 c).2 (by omega))
    exact ⟨(c', ps), ⟨hm, hs, by have := h3 _ _ hm; simp only at hl ⊢; omega⟩, rfl⟩

theorem two_distinct {l : List Nat} (h : 1 < l.eraseDups.length) : ∃ a b, a ∈ l ∧ b ∈ l ∧ a ≠ b := by
  cases l with
  | nil => simp at h
  | cons a l =>
    rw [List.eraseDups_cons, List.length_cons] at h
    obtain ⟨b, hb⟩ := List.exists_mem_of_length_pos (Nat.lt_of_succ_lt_succ h)
    rw [List.mem_eraseDups, List.mem_filter] at hb
    refine ⟨a, b, by simp, by simp [hb.1], ?_⟩
    intro hab
    subst hab
    simp at hb

theorem distinct_two {l : List Nat} {a b : Nat} (ha : a ∈ l) (hb : b ∈ l) (hab : a ≠ b) :
    1 < l.eraseDups.length := by
  have h1 := List.mem_eraseDups.2 ha
  have h2 := List.mem_eraseDups.2 hb
  match h : l.eraseDups with
  | [] => rw [h] at h1; cases h1
  | [x] => rw [h] at h1 h2; simp at h1 h2; omega
  | x :: y :: rest => simp

/-- The second half reports exactly the single bases shared by items of different
classes. -/
theorem mem_shared (H : Hierarchy) (items : List Item) (b : Cls) :
    b ∈ shared H items ↔ b ∉ sameClass H items ∧ H.single b = true ∧
      ∃ x ∈ items, ∃ y ∈ items, x.cls ≠ y.cls ∧ b ∈ H.mro x.cls ∧ b ∈ H.mro y.cls := by
  simp only [shared, List.mem_filter, List.mem_eraseDups, List.mem_flatMap, singleBases,
    Bool.and_eq_true, Bool.not_eq_true', decide_eq_true_eq]
  constructor
  · rintro ⟨⟨x, hx, hb, hs⟩, hr, hl⟩
    refine ⟨by simpa using hr, hs, ?_⟩
    obtain ⟨c, c', hc, hc', hne⟩ := two_distinct hl
    simp only [List.mem_map, List.mem_filter, Hierarchy.isA, decide_eq_true_eq] at hc hc'
    obtain ⟨u, ⟨hu, hub⟩, rfl⟩ := hc
    obtain ⟨v, ⟨hv, hvb⟩, rfl⟩ := hc'
    exact ⟨u, hu, v, hv, hne, hub, hvb⟩
  · rintro ⟨hr, hs, x, hx, y, hy, hne, hxb, hyb⟩
    refine ⟨⟨x, hx, hxb, hs⟩, by simpa using hr, ?_⟩
    apply distinct_two (a := x.cls) (b := y.cls) _ _ hne
    · simp only [List.mem_map, List.mem_filter, Hierarchy.isA, decide_eq_true_eq]
      exact ⟨x, ⟨hx, hxb⟩, rfl⟩
    · simp only [List.mem_map, List.mem_filter, Hierarchy.isA, decide_eq_true_eq]
      exact ⟨y, ⟨hy, hyb⟩, rfl⟩

theorem occ_two {items : List Item} {c : Cls} (h : 1 < occ items c) :
    ∃ i j : Nat, i < j ∧ ∃ x y, items[i]? = some x ∧ items[j]? = some y ∧ x.cls = c ∧ y.cls = c := by
  induction items with
  | nil => simp [occ] at h
  | cons it items ih =>
    by_cases hc : it.cls = c
    · have : 0 < occ items c := by
        simp only [occ, List.filter_cons, hc, decide_true, if_true, List.length_cons] at h
        simp only [occ]; omega
      obtain ⟨y, hy⟩ := List.exists_mem_of_length_pos this
      simp only [List.mem_filter, decide_eq_true_eq] at hy
      obtain ⟨j, hj, hjy⟩ := List.mem_iff_getElem.1 hy.1
      refine ⟨0, j + 1, by omega, it, y, by simp, ?_, hc, hy.2⟩
      simp [List.getElem?_eq_getElem hj, hjy]
    · have : 1 < occ items c := by
        simpa [occ, List.filter_cons, hc] using h
      obtain ⟨i, j, hij, x, y, hx, hy, h1, h2⟩ := ih this
      exact ⟨i + 1, j + 1, by omega, x, y, by simpa using hx, by simpa using hy, h1, h2⟩

theorem two_occ {items : List Item} {c : Cls} {i j : Nat} (hij : i < j) {x y : Item}
    (hx : items[i]? = some x) (hy : items[j]? = some y) (h1 : x.cls = c) (h2 : y.cls = c) :
    1 < occ items c := by
  induction items generalizing i j with
  | nil => simp at hx
  | cons it items ih =>
    cases i with
    | zero =>
      simp only [List.getElem?_cons_zero, Option.some.injEq] at hx
      subst hx
      cases j with
      | zero => omega
      | succ j =>
        simp only [List.getElem?_cons_succ] at hy
        have hm : y ∈ items.filter (fun it => it.cls = c) := by
          simp only [List.mem_filter, decide_eq_true_eq]
          exact ⟨List.mem_of_getElem? hy, h2⟩
        have := List.length_pos_of_mem hm
        simp only [occ, List.filter_cons, h1, decide_true, if_true, List.length_cons]
        omega
    | succ i =>
      cases j with
      | zero => omega
      | succ j =>
        simp only [List.getElem?_cons_succ] at hx hy
        have := ih (by omega) hx hy
        simp only [occ, List.filter_cons]
        split
        · simp only [List.length_cons]; simp only [occ] at this; omega
        · exact this

/-- C41, no false alarm: whatever the class hierarchy, a reported conflict is one. -/
theorem C41_no_false_alarm (H : Hierarchy) (items : List Item) (h : detect H items ≠ []) :
    Conflict H items := by
  obtain ⟨c, hc⟩ := List.exists_mem_of_ne_nil _ h
  simp only [detect, List.mem_append] at hc
  rcases hc with hc | hc
  · obtain ⟨hs, ho⟩ := (mem_sameClass H items c).1 hc
    obtain ⟨i, j, hij, x, y, hx, hy, h1, h2⟩ := occ_two ho
    exact ⟨i, j, hij, x, y, c, hx, hy, hs, by rw [h1]; exact H.self c, by rw [h2]; exact H.self c⟩
  · obtain ⟨_, hs, x, hx, y, hy, hne, hxb, hyb⟩ := (mem_shared H items c).1 hc
    obtain ⟨i, hi, rfl⟩ := List.mem_iff_getElem.1 hx
    obtain ⟨j, hj, rfl⟩ := List.mem_iff_getElem.1 hy
    rcases Nat.lt_trichotomy i j with hij | hij | hij
    · exact ⟨i, j, hij, _, _, c, List.getElem?_eq_getElem hi, List.getElem?_eq_getElem hj, hs, hxb, hyb⟩
    · subst hij; exact absurd rfl hne
    · exact ⟨j, i, hij, _, _, c, List.getElem?_eq_getElem hj, List.getElem?_eq_getElem hi, hs, hyb, hxb⟩

/-- C41.  If no class overrides an inherited `single = True`, conflict detection reports a
problem if and only if there is one, for every list of dependencies. -/
theorem C41_detected_iff_partial (H : Hierarchy) (hi : Inherited H) (items : List Item) :
    detect H items ≠ [] ↔ Conflict H items := by
  refine ⟨C41_no_false_alarm H items, ?_⟩
  rintro ⟨i, j, hij, x, y, b, hx, hy, hs, hxb, hyb⟩ hnil
  simp only [detect, List.append_eq_nil_iff] at hnil
  by_cases hc : x.cls = y.cls
  · have : x.cls ∈ sameClass H items := (mem_sameClass H items _).2
      ⟨hi _ b hxb hs, two_occ hij hx hy rfl hc.symm⟩
    rw [hnil.1] at this
    cases this
  · by_cases hr : b ∈ sameClass H items
    · rw [hnil.1] at hr; cases hr
    · have : b ∈ shared H items := (mem_shared H items b).2
        ⟨hr, hs, x, List.mem_of_getElem? hx, y, List.mem_of_getElem? hy, hc, hxb, hyb⟩
      rw [hnil.2] at this
      cases this

section examples
/-- 1 is `Runtime`, 2 is `Timeout`, 3 another `Runtime`, 4 is not single. -/
private def H : Hierarchy where
  mro c := if c = 2 then [2, 1] else if c = 3 then [3, 1] else [c]
  single c := c = 1 ∨ c = 2 ∨ c = 3
  self c := by by_cases h2 : c = 2 <;> by_cases h3 : c = 3 <;> simp [h2, h3]

example : Inherited H := by
  intro c b hb hs
  simp only [H] at hb hs ⊢
  by_cases h2 : c = 2
  · simp [h2]
  · by_cases h3 : c = 3
    · simp [h3]
    · rw [if_neg h2, if_neg h3] at hb
      simp at hb
      subst hb
      exact hs
example : detect H [⟨"a", 2⟩, ⟨"b", 4⟩, ⟨"worker", 3⟩] = [1] ∧ detect H [⟨"a", 2⟩, ⟨"b", 2⟩] = [2] ∧
    detect H [⟨"a", 2⟩, ⟨"b", 4⟩, ⟨"c", 4⟩] = [] := by decide

/-- The full statement of C41. -/
def C41_statement : Prop := ∀ (H : Hierarchy) (items : List Item), detect H items ≠ [] ↔ Conflict H items

/-- A hierarchy in which 2 is a subclass of the single class 1, with `single = False`. -/
private def H' : Hierarchy where
  mro c := if c = 2 then [2, 1] else [c]
  single c := c = 1
  self c := by by_cases h2 : c = 2 <;> simp [h2]

/-- The code violates it: two instances of a class that sets `single = False` below a
single base are not reported (neither half of the check applies, _resolution.py:128-148),
although two instances of different such classes are. -/
theorem C41_violated_override : ¬ C41_statement := by
  intro h
  have := (h H' [⟨"a", 2⟩, ⟨"b", 2⟩]).2
    ⟨0, 1, by decide, ⟨"a", 2⟩, ⟨"b", 2⟩, 1, rfl, rfl, rfl, by decide, by decide⟩
  exact this (by decide)

/-- The full statement for the worker's memoised check: after any executions of a function,
the verdict on an execution is the one its own dependencies deserve. -/
def C41_memo_statement : Prop := ∀ (H : Hierarchy) (memo : String → Option (List Cls)) (f : String)
    (earlier items : List Item), Inherited H → memo f = none →
    ((validate H true (validate H true memo f earlier).2 f items).1 ≠ [] ↔ Conflict H items)

/-- The code violates it: the verdict of a function's first execution is reused for all
others (worker.py:366-371), although it depends on how that execution's dependencies
resolved: one that failed, or was passed explicitly, is not among them
(_resolution.py:113-117, 184-186, 201-206).  If the first execution's `Timeout` failed, no
later conflict with the worker's is reported. -/
theorem C41_violated_memo : ¬ C41_memo_statement := by
  intro h
  have := (h H (fun _ => none) "f" [⟨"worker", 3⟩] [⟨"worker", 3⟩, ⟨"timeout", 2⟩] ?_ rfl).2
    ⟨0, 1, by decide, ⟨"worker", 3⟩, ⟨"timeout", 2⟩, 1, rfl, rfl, rfl, by decide, by decide⟩
  · exact this (by decide)
  · intro c b hb hs
    simp only [H] at hb hs ⊢
    by_cases h2 : c = 2
    · simp [h2]
    · by_cases h3 : c = 3
      · simp [h3]
      · rw [if_neg h2, if_neg h3] at hb
        simp at hb
        subst hb
        exact hs

/-- What does hold of the memoised check: if every execution of a function has the same
dependencies, each gets the verdict it deserves, with no limit on their number. -/
theorem C41_memo_partial (H : Hierarchy) (hi : Inherited H) (memo : String → Option (List Cls)) (f : String)
    (items : List Item) (hm : ∀ c, memo f = some c → c = detect H items) :
    ((validate H true memo f items).1 ≠ [] ↔ Conflict H items) ∧
    ∀ c, (validate H true memo f items).2 f = some c → c = detect H items := by
  rw [← C41_detected_iff_partial H hi items]
  simp only [validate]
  cases h : memo f with
  | none => simp
  | some c => simp [hm c h, h]

/-- The worker's memory after executions of the given functions with the given dependencies. -/
def memoAfter (H : Hierarchy) (earlier : List (String × List Item)) : String → Option (List Cls) :=
  earlier.foldl (fun memo e => (validate H true memo e.1 e.2).2) (fun _ => none)

/-- The dependencies of the first execution of a function. -/
def firstOf (f : String) (earlier : List (String × List Item)) : Option (List Item) :=
  (earlier.find? (fun e => e.1 = f)).map (·.2)

theorem memoAfter_eq (H : Hierarchy) (earlier : List (String × List Item)) (f : String) :
    memoAfter H earlier f = (firstOf f earlier).map (detect H) := by
  have gen : ∀ (l : List (String × List Item)) (memo : String → Option (List Cls)),
      l.foldl (fun memo e => (validate H true memo e.1 e.2).2) memo f =
        match memo f with
        | some c => some c
        | none => (firstOf f l).map (detect H) := by
    intro l
    induction l with
    | nil => intro memo; simp only [List.foldl_nil, firstOf]; cases memo f <;> rfl
    | cons e l ih =>
      intro memo
      obtain ⟨g, its⟩ := e
      rw [List.foldl_cons, ih]
      simp only [validate, firstOf, List.find?_cons]
      by_cases hg : g = f
      · subst hg
        cases h : memo g with
        | none => simp
        | some c => simp [h]
      · cases h : memo g with
        | none => simp [hg, Ne.symm hg]
        | some c => simp [hg]
  exact gen earlier _

/-- What does hold whatever was executed before: the verdict on an execution is the one that
the first execution of the same function deserves, or this one if it is the first; executions
of other functions do not matter. -/
theorem C41_memo_history_partial (H : Hierarchy) (hi : Inherited H) (earlier : List (String × List Item)) (f : String)
    (items : List Item) :
    (∀ first, firstOf f earlier = some first →
      ((validate H true (memoAfter H earlier) f items).1 ≠ [] ↔ Conflict H first)) ∧
    (firstOf f earlier = none → ((validate H true (memoAfter H earlier) f items).1 ≠ [] ↔ Conflict H items)) := by
  constructor
  · intro first hf
    rw [← C41_detected_iff_partial H hi first]
    simp [validate, memoAfter_eq, hf]
  · intro hf
    rw [← C41_detected_iff_partial H hi items]
    simp [validate, memoAfter_eq, hf]

example : firstOf "f" [("g", [⟨"a", 2⟩]), ("f", [⟨"b", 3⟩]), ("f", [])] = some [⟨"b", 3⟩] := by decide
end examples

end Docket.Single
