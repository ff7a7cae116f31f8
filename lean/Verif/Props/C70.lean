import Verif.Cli.StrikeArgs
import Verif.Props.C54
/-
C70 A strike on the command line strikes the value that was written.
-/
namespace Docket.Cli

/-! ## Specification -/

/-- Python's standard names. -/
structure Standard (names : Names) : Prop where
  int : names t!"builtins" t!"int" = some .int
  bool : names t!"builtins" t!"bool" = some .bool
  str : names t!"builtins" t!"str" = some .str
  timedelta : names t!"datetime" t!"timedelta" = some .timedelta

/-- How the help tells one to write a value: text as it is, other types with their name in
front. -/
inductive Means : Option Text → PyVal → Prop
  | nothing : Means none .none
  | text (t : Text) : Means (some t) (.str t)
  | int {t n} : Written t n → Means (some (t!"int:" ++ t)) (.int n)
  | true : Means (some t!"bool:true") (.bool true)
  | false : Means (some t!"bool:false") (.bool false)
  | timedelta {t n} : Written t n → shortest ≤ n → n ≤ longest → Means (some (t!"datetime.timedelta:" ++ t)) (.timedelta n)

/-- The text has no colon. -/
def NoColon : Option Text → Prop
  | none => True
  | some t => ':' ∉ t

/-- The full property: the command makes the call that was meant. -/
def C70_statement : Prop :=
  ∀ (names : Names), Standard names → ∀ (function parameter operator : Text) (arg : Option Text) (v : PyVal),
    function ≠ t!"" → function ≠ t!"*" → parameter ≠ t!"" → parameter ≠ t!"*" → Means arg v →
    strikeCommand names function parameter operator arg = some ⟨some function, some parameter, operator, v⟩

/-! ## Proof -/

theorem takeWhile_stop {p : Char → Bool} {a b : Text} {c : Char} (ha : ∀ x ∈ a, p x = true) (hc : p c = false) :
    (a ++ c :: b).takeWhile p = a ∧ (a ++ c :: b).dropWhile p = c :: b := by
  induction a with
  | nil => simp [hc]
  | cons x a ih =>
    obtain ⟨h1, h2⟩ := ih (fun y hy => ha y (List.mem_cons_of_mem _ hy))
    simp [ha x (List.mem_cons_self ..), h1, h2]

theorem rpartition_at {sep : Char} (a : Text) {b : Text} (h : sep ∉ b) : rpartition sep (a ++ sep :: b) = (a, b) := by
  have hm : sep ∈ a ++ sep :: b := by simp
  have hr : (a ++ sep :: b).reverse = b.reverse ++ sep :: a.reverse := by simp
  obtain ⟨h1, h2⟩ := takeWhile_stop (p := fun x => decide (x ≠ sep)) (a := b.reverse) (b := a.reverse) (c := sep)
    (by intro x hx; rw [List.mem_reverse] at hx; simp; rintro rfl; exact h hx) (by simp)
  unfold rpartition
  rw [if_pos hm, hr]
  simp only [h1, h2]
  simp

theorem rpartition_none {sep : Char} {t : Text} (h : sep ∉ t) : rpartition sep t = ([], t) := by
  unfold rpartition
  rw [if_neg h]

/-- What comes after the last separator has none. -/
theorem rpartition_snd (sep : Char) (t : Text) : sep ∉ (rpartition sep t).2 := by
  unfold rpartition
  split
  · simp only [List.mem_reverse]
    intro h
    have : ∀ l : Text, sep ∉ l.takeWhile (fun x => decide (x ≠ sep)) := by
      intro l
      induction l with
      | nil => simp
      | cons x l ih =>
        rw [List.takeWhile_cons]
        split
        · rename_i hx
          simp only [List.mem_cons, not_or]
          exact ⟨fun he => by simp [he] at hx, ih⟩
        · simp
    exact this _ h
  · assumption

theorem interpret_means {names : Names} (hs : Standard names) {arg : Option Text} {v : PyVal} (h : Means arg v)
    (hcolon : ∀ t, v = .str t → ':' ∉ t) : interpret names arg = some v := by
  cases h with
  | nothing => rfl
  | text t =>
    have := hcolon t rfl
    simp [interpret, rpartition_none this]
  | int hw =>
    rename_i t n
    have h1 : rpartition ':' (t!"int:" ++ t) = (t!"int", t) := rpartition_at t!"int" (no_colon (.none hw))
    have h2 : rpartition '.' t!"int" = ([], t!"int") := rpartition_none (by decide)
    simp only [interpret, h1, h2, if_true, hs.int, pyInt_written hw]
    rfl
  | true =>
    have h1 : rpartition ':' t!"bool:true" = (t!"bool", t!"true") := rpartition_at t!"bool" (by decide)
    have h2 : rpartition '.' t!"bool" = ([], t!"bool") := rpartition_none (by decide)
    simp only [interpret, h1, h2, if_true, hs.bool]
    rfl
  | false =>
    have h1 : rpartition ':' t!"bool:false" = (t!"bool", t!"false") := rpartition_at t!"bool" (by decide)
    have h2 : rpartition '.' t!"bool" = ([], t!"bool") := rpartition_none (by decide)
    simp only [interpret, h1, h2, if_true, hs.bool]
    rfl
  | timedelta hw hlo hhi =>
    rename_i t n
    have h1 : rpartition ':' (t!"datetime.timedelta:" ++ t) = (t!"datetime.timedelta", t) :=
      rpartition_at t!"datetime.timedelta" (no_colon (.none hw))
    have h2 : rpartition '.' t!"datetime.timedelta" = (t!"datetime", t!"timedelta") :=
      rpartition_at t!"datetime" (by decide)
    have h3 : Cli.timedelta 0 0 n = some n := by
      rw [timedelta_eq (n := n) (by omega), if_pos ⟨hlo, hhi⟩]
    simp only [interpret, h1, h2, pyInt_written hw]
    rw [if_neg (by decide), if_neg (by decide), hs.timedelta]
    simp [h3]

/-- **C70, partial**: for values that are not texts with a colon, the command makes the call
that was meant, for every operator. -/
theorem C70_strikes_what_was_written_partial (names : Names) (hs : Standard names)
    (function parameter operator : Text) (arg : Option Text) (v : PyVal)
    (hf : function ≠ t!"" ∧ function ≠ t!"*") (hp : parameter ≠ t!"" ∧ parameter ≠ t!"*") (h : Means arg v)
    (hcolon : ∀ t, v = .str t → ':' ∉ t) :
    strikeCommand names function parameter operator arg = some ⟨some function, some parameter, operator, v⟩ := by
  have h1 : wildcard function = some function := by simp [wildcard, hf]
  have h2 : wildcard parameter = some parameter := by simp [wildcard, hp]
  simp [strikeCommand, h1, h2, interpret_means hs h hcolon]

/-- **C70**: a star (or nothing) in place of the function strikes the parameter of every
task, in place of the parameter the whole task; both together are refused. -/
theorem C70_wildcards (names : Names) (operator : Text) (star : Text) (hstar : star = t!"*" ∨ star = t!"") :
    (∀ function, function ≠ t!"" → function ≠ t!"*" →
      strikeCommand names function star operator none = some ⟨some function, none, operator, .none⟩) ∧
    (∀ parameter t, parameter ≠ t!"" → parameter ≠ t!"*" → ':' ∉ t →
      strikeCommand names star parameter operator (some t) = some ⟨none, some parameter, operator, .str t⟩) ∧
    (∀ star' value, star' = t!"*" ∨ star' = t!"" → strikeCommand names star star' operator value = none) := by
  have hw : ∀ star, star = t!"*" ∨ star = t!"" → wildcard star = none := by
    intro star h; rcases h with rfl | rfl <;> rfl
  refine ⟨fun f h1 h2 => ?_, fun p t h1 h2 ht => ?_, fun s' v hs' => ?_⟩
  · have : wildcard f = some f := by simp [wildcard, h1, h2]
    simp [strikeCommand, this, hw star hstar, interpret]
  · have : wildcard p = some p := by simp [wildcard, h1, h2]
    simp [strikeCommand, this, hw star hstar, interpret, rpartition_none ht]
  · simp [strikeCommand, hw star hstar, hw s' hs']

/-- **C70**: a name that cannot be imported, or a number that cannot be read, strikes nothing. -/
theorem C70_refused (names : Names) (function parameter operator type : Text) (value : Text) (hv : ':' ∉ value)
    (ht : type ≠ []) (hdot : '.' ∉ type)
    (h : names t!"builtins" type = none ∨ names t!"builtins" type = some .int ∧ pyInt value = none) :
    strikeCommand names function parameter operator (some (type ++ t!":" ++ value)) = none := by
  have h1 : rpartition ':' (type ++ t!":" ++ value) = (type, value) := by
    rw [List.append_assoc]; exact rpartition_at type hv
  have hi : interpret names (some (type ++ t!":" ++ value)) = none := by
    simp only [interpret, h1, ht, if_false, rpartition_none hdot, if_true]
    rcases h with h | ⟨h, h'⟩
    · simp [h]
    · simp [h, h']
  unfold strikeCommand
  rw [hi]
  simp

/-! ## Where the code disagrees -/

/-- The standard names and no others. -/
def builtins : Names := fun m n =>
  if m = t!"builtins" then
    if n = t!"int" then some .int else if n = t!"bool" then some .bool else if n = t!"str" then some .str else none
  else if m = t!"datetime" ∧ n = t!"timedelta" then some .timedelta
  else none

theorem builtins_standard : Standard builtins := ⟨rfl, rfl, rfl, rfl⟩

/-- **C70 is violated**: a text with a colon, such as `orders:2024`, is taken for a type and
a value. -/
theorem C70_violated : ¬ C70_statement := by
  intro h
  have := h builtins builtins_standard t!"f" t!"p" t!"==" (some t!"orders:2024") (.str t!"orders:2024")
    (by decide) (by decide) (by decide) (by decide) (.text _)
  exact absurd this (by decide)

/-- **C70 is violated** silently when what is in front of the colon is empty or the name of a
type: the strike is on another value. -/
theorem C70_violated_other_value :
    strikeCommand builtins t!"f" t!"p" t!"==" (some t!":x") = some ⟨some t!"f", some t!"p", t!"==", .str t!"x"⟩ ∧
    strikeCommand builtins t!"f" t!"p" t!"==" (some t!"int:1") = some ⟨some t!"f", some t!"p", t!"==", .int 1⟩ := by
  decide

/-- **C70 is violated** for every text with a colon, whatever one writes: with Python's own
types there is no way to name it, not even `str:...`, because the text is split at its
last colon. -/
theorem C70_violated_unreachable (function parameter operator t : Text) (h : ':' ∈ t) (arg : Option Text) (f p : Option Text) :
    strikeCommand builtins function parameter operator arg ≠ some ⟨f, p, operator, .str t⟩ := by
  intro hc
  unfold strikeCommand at hc
  split at hc
  · cases hc
  · rw [Option.map_eq_some_iff] at hc
    obtain ⟨v, hv, he⟩ := hc
    have hvt : v = .str t := by injection he
    subst hvt
    cases arg with
    | none => cases hv
    | some a =>
      have hsnd := rpartition_snd ':' a
      simp only [interpret] at hv
      split at hv
      · injection hv with hv
        injection hv with hv
        exact hsnd (hv ▸ h)
      · split at hv
        · cases hv
        · rename_i hm
          cases h1 : pyInt (rpartition ':' a).2 with
          | none => rw [h1] at hv; cases hv
          | some n =>
            rw [h1] at hv
            cases h2 : Cli.timedelta 0 0 n with
            | none => simp [h2] at hv
            | some n => simp [h2] at hv
        · injection hv with hv; cases hv
        · injection hv with hv
          injection hv with hv
          exact hsnd (hv ▸ h)
        · cases h1 : pyInt (rpartition ':' a).2 with
          | none => rw [h1] at hv; cases hv
          | some n => simp [h1] at hv
        · rename_i g hm
          unfold builtins at hm
          repeat' split at hm
          all_goals cases hm

example : strikeCommand builtins t!"send" t!"customer" t!"!=" (some t!"int:-42") =
    some ⟨some t!"send", some t!"customer", t!"!=", .int (-42)⟩ := by decide

example : Means (some t!"int:-42") (.int (-42)) := .int (.minus (a := [4, 2]) ⟨by decide, by decide⟩)

/-- The word "true" in any mixture of upper and lower case. -/
def SpellsTrue (t : Text) : Prop :=
  ∃ a b c d, t = [a, b, c, d] ∧ (a = 't' ∨ a = 'T') ∧ (b = 'r' ∨ b = 'R') ∧ (c = 'u' ∨ c = 'U') ∧ (d = 'e' ∨ d = 'E')

theorem toLower_eq (c l u : Char) (h : u.toLower = l) (hl : l.toNat = u.toNat + 32) (hu : 65 ≤ u.toNat ∧ u.toNat ≤ 90) :
    c.toLower = l ↔ c = l ∨ c = u := by
  have hn : ∀ a b : Char, a.toNat = b.toNat → a = b := fun a b h => Char.ext (UInt32.toNat_inj.1 h)
  have hc : ∀ c : Char, c.toLower.toNat = if 65 ≤ c.toNat ∧ c.toNat ≤ 90 then c.toNat + 32 else c.toNat := by
    intro c
    have e1 : (c.val ≥ 65) ↔ 65 ≤ c.toNat := UInt32.le_iff_toNat_le
    have e2 : (c.val ≤ 90) ↔ c.toNat ≤ 90 := UInt32.le_iff_toNat_le
    unfold Char.toLower
    split
    · next h =>
      have : 65 ≤ c.toNat ∧ c.toNat ≤ 90 := ⟨e1.1 h.1, e2.1 h.2⟩
      rw [if_pos this]
      show (c.val + 32).toNat = c.val.toNat + 32
      rw [UInt32.toNat_add]
      have hx : c.val.toNat ≤ 90 := this.2
      show (c.val.toNat + 32) % 4294967296 = _
      omega
    · next h =>
      have : ¬ (65 ≤ c.toNat ∧ c.toNat ≤ 90) := fun hh => h ⟨e1.2 hh.1, e2.2 hh.2⟩
      rw [if_neg this]
  constructor
  · intro he
    have := hc c
    rw [he] at this
    split at this
    · exact Or.inr (hn _ _ (by omega))
    · exact Or.inl (hn _ _ (by omega))
  · rintro (rfl | rfl)
    · exact hn _ _ (by rw [hc, if_neg (by omega)])
    · exact h

/-- **C70**: truth values may be written in any case: what says "true" means `True`, and
everything else means `False`. -/
theorem C70_truth_values (names : Names) (hs : Standard names) (function parameter operator value : Text)
    (hf : function ≠ t!"" ∧ function ≠ t!"*") (hp : parameter ≠ t!"" ∧ parameter ≠ t!"*") (hv : ':' ∉ value) :
    ∃ b, strikeCommand names function parameter operator (some (t!"bool:" ++ value)) =
        some ⟨some function, some parameter, operator, .bool b⟩ ∧ (b = true ↔ SpellsTrue value) := by
  have h1 : wildcard function = some function := by simp [wildcard, hf]
  have h2 : wildcard parameter = some parameter := by simp [wildcard, hp]
  have h3 : rpartition ':' (t!"bool:" ++ value) = (t!"bool", value) := rpartition_at t!"bool" hv
  have h4 : rpartition '.' t!"bool" = ([], t!"bool") := rpartition_none (by decide)
  have h5 : interpret names (some (t!"bool:" ++ value)) = some (.bool (lower value = t!"true")) := by
    simp only [interpret, h3, h4, if_true, hs.bool]
    rfl
  refine ⟨_, by simp only [strikeCommand, h1, h2, h5]; rfl, ?_⟩
  rw [decide_eq_true_iff]
  have ht := fun c => toLower_eq c 't' 'T' (by decide) (by decide) (by decide)
  have hr := fun c => toLower_eq c 'r' 'R' (by decide) (by decide) (by decide)
  have hu := fun c => toLower_eq c 'u' 'U' (by decide) (by decide) (by decide)
  have he := fun c => toLower_eq c 'e' 'E' (by decide) (by decide) (by decide)
  constructor
  · intro h
    match value, h with
    | [a, b, c, d], h =>
      have h : [a.toLower, b.toLower, c.toLower, d.toLower] = ['t', 'r', 'u', 'e'] := h
      simp only [List.cons.injEq, and_true] at h
      exact ⟨a, b, c, d, rfl, (ht a).1 h.1, (hr b).1 h.2.1, (hu c).1 h.2.2.1, (he d).1 h.2.2.2⟩
    | [], h => exact absurd (congrArg List.length h) (by simp [lower])
    | [_], h => exact absurd (congrArg List.length h) (by simp [lower])
    | [_, _], h => exact absurd (congrArg List.length h) (by simp [lower])
    | [_, _, _], h => exact absurd (congrArg List.length h) (by simp [lower])
    | _ :: _ :: _ :: _ :: _ :: _, h => exact absurd (congrArg List.length h) (by simp [lower])
  · rintro ⟨a, b, c, d, rfl, h1, h2, h3, h4⟩
    show [a.toLower, b.toLower, c.toLower, d.toLower] = ['t', 'r', 'u', 'e']
    rw [(ht a).2 h1, (hr b).2 h2, (hu c).2 h3, (he d).2 h4]

example : SpellsTrue t!"TrUe" ∧ ¬ SpellsTrue t!"yes" :=
  ⟨⟨'T', 'r', 'U', 'e', rfl, by decide, by decide, by decide, by decide⟩,
   fun ⟨_, _, _, _, h, _⟩ => by cases h⟩

end Docket.Cli
