import Verif.Cli.Duration

/-! # C54: durations on the command line are read correctly -/

namespace Docket.Cli
open Decimal

/-! ## Specification -/

/-- A numeral: its digits. -/
abbrev Numeral := List (Fin 10)

/-- The number a numeral denotes. -/
def value (ds : Numeral) : Nat := ds.foldl (fun acc d => 10 * acc + d.val) 0

/-- How it is written. -/
def written (ds : Numeral) : Text := ds.map (fun d => Char.ofNat (48 + d.val))

/-- A numeral that Python's `int` takes: not empty, at most 4300 digits. -/
def Readable (ds : Numeral) : Prop := ds ≠ [] ∧ ds.length ≤ 4300

/-- An integer as it is written: a numeral, with a sign or without. -/
inductive Written : Text → Int → Prop where
  | bare {a} : Readable a → Written (written a) (value a)
  | plus {a} : Readable a → Written (t!"+" ++ written a) (value a)
  | minus {a} : Readable a → Written (t!"-" ++ written a) (-(value a))

/-- White space, as ASCII has it and `int` passes over it. -/
def Blank (c : Char) : Prop :=
  c ∈ [' ', '\t', '\n', '\x0b', '\x0c', '\r', '\x1c', '\x1d', '\x1e', '\x1f']

instance (c : Char) : Decidable (Blank c) :=
  inferInstanceAs (Decidable (c ∈ [' ', '\t', '\n', '\x0b', '\x0c', '\r', '\x1c', '\x1d', '\x1e', '\x1f']))

/-- An integer with white space around it. -/
inductive Padded : Text → Int → Prop where
  | mk {pre w post n} : (∀ c ∈ pre, Blank c) → Written w n → (∀ c ∈ post, Blank c) →
      Padded (pre ++ w ++ post) n

/-- The six ways of writing a duration, and the number of seconds each denotes. -/
inductive Denotes : Text → Int → Prop where
  | plain {t n} : Padded t n → Denotes t n
  | seconds {t n} : Padded t n → Denotes (t ++ t!"s") n
  | minutes {t n} : Padded t n → Denotes (t ++ t!"m") (60 * n)
  | hours {t n} : Padded t n → Denotes (t ++ t!"h") (3600 * n)
  | mmss {t n u m} : Padded t n → Padded u m → Denotes (t ++ t!":" ++ u) (60 * n + m)
  | hhmmss {t n u m v k} : Padded t n → Padded u m → Padded v k →
      Denotes (t ++ t!":" ++ u ++ t!":" ++ v) (3600 * n + 60 * m + k)

/-- The longest `timedelta`: 999999999 days and 23:59:59.  The shortest: minus 999999999 days. -/
def longest : Int := 999999999 * 86400 + 86399
def shortest : Int := -999999999 * 86400

/-! ## Proof -/

theorem digit_facts (d : Fin 10) : digitVal? (Char.ofNat (48 + d.val)) = some d.val ∧ isSpace (Char.ofNat (48 + d.val)) = false ∧
    Char.ofNat (48 + d.val) ≠ '_' ∧ Char.ofNat (48 + d.val) ≠ ':' ∧ Char.ofNat (48 + d.val) ≠ '-' ∧ Char.ofNat (48 + d.val) ≠ '+' ∧
    Char.ofNat (48 + d.val) ≠ 's' ∧ Char.ofNat (48 + d.val) ≠ 'm' ∧ Char.ofNat (48 + d.val) ≠ 'h' := by
  revert d
  decide

theorem mem_written {ds : Numeral} {c : Char} (h : c ∈ written ds) : ∃ d : Fin 10, c = Char.ofNat (48 + d.val) := by
  obtain ⟨d, _, rfl⟩ := List.mem_map.1 h
  exact ⟨d, rfl⟩

theorem go_written (ds : Numeral) (acc : Nat) : go acc (written ds) = some (ds.foldl (fun acc d => 10 * acc + d.val) acc) := by
  induction ds generalizing acc with
  | nil => rfl
  | cons d ds ih =>
    have : written (d :: ds) = Char.ofNat (48 + d.val) :: written ds := rfl
    rw [this, go, (digit_facts d).1]
    simp only [List.foldl_cons]
    rw [Nat.mul_comm 10 acc]
    exact ih _

theorem splitOn_none {sep : Char} {t : Text} (h : sep ∉ t) : splitOn sep t = [t] := by
  induction t with
  | nil => rfl
  | cons c t ih =>
    simp only [List.mem_cons, not_or] at h
    have hc : ¬ c = sep := fun hh => h.1 hh.symm
    simp [splitOn, hc, ih h.2]

theorem splitOn_append {sep : Char} {a : Text} (b : Text) (h : sep ∉ a) : splitOn sep (a ++ sep :: b) = a :: splitOn sep b := by
  induction a with
  | nil => simp [splitOn]
  | cons c a ih =>
    simp only [List.mem_cons, not_or] at h
    have hc : ¬ c = sep := fun hh => h.1 hh.symm
    simp [splitOn, hc, ih h.2]

theorem pyNat_written {ds : Numeral} (h : Readable ds) : pyNat (written ds) = some (value ds) := by
  have h_ : '_' ∉ written ds := by
    intro hm
    obtain ⟨d, hd⟩ := mem_written hm
    exact (digit_facts d).2.2.1 hd.symm
  have hne : written ds ≠ [] := by simp [written, h.1]
  have hlen : (written ds).length = ds.length := by simp [written]
  have h2 := h.2
  unfold pyNat
  rw [splitOn_none h_]
  have h1 : ¬ 4300 < [written ds].flatten.length := by simp [hlen]; omega
  have h3 : ([written ds].any (· = [])) = false := by simp [hne]
  rw [h3, if_neg (by simp), if_neg h1]
  simp only [List.flatten_cons, List.flatten_nil, List.append_nil, parse, if_neg hne]
  exact go_written ds 0

theorem dropWhile_none {p : Char → Bool} {t : Text} (h : ∀ c ∈ t, p c = false) : t.dropWhile p = t := by
  cases t with
  | nil => rfl
  | cons c t => simp [h c (by simp)]

theorem strip_none {t : Text} (h : ∀ c ∈ t, isSpace c = false) : strip t = t := by
  unfold strip
  rw [dropWhile_none h, dropWhile_none (by simpa using h), List.reverse_reverse]

theorem pyInt_written {t : Text} {n : Int} (h : Written t n) : pyInt t = some n := by
  have hsp : ∀ ds : Numeral, ∀ c ∈ written ds, isSpace c = false := by
    intro ds c hc
    obtain ⟨d, rfl⟩ := mem_written hc
    exact (digit_facts d).2.1
  unfold pyInt
  cases h with
  | @bare a ha =>
    rw [strip_none (hsp a)]
    have hm : ∀ c, c ∈ written a → c ≠ '-' ∧ c ≠ '+' := by
      intro c hc
      obtain ⟨d, rfl⟩ := mem_written hc
      exact ⟨(digit_facts d).2.2.2.2.1, (digit_facts d).2.2.2.2.2.1⟩
    split
    · next heq => exact absurd rfl (hm '-' (by rw [heq]; simp)).1
    · next heq => exact absurd rfl (hm '+' (by rw [heq]; simp)).2
    · rw [pyNat_written ha]; rfl
  | @plus a ha =>
    have : strip (t!"+" ++ written a) = '+' :: written a :=
      strip_none (by intro c hc; exact (List.mem_cons.1 hc).elim (fun h => h ▸ by decide) (fun h => hsp a c h))
    rw [this]
    simp only
    rw [pyNat_written ha]; rfl
  | @minus a ha =>
    have : strip (t!"-" ++ written a) = '-' :: written a :=
      strip_none (by intro c hc; exact (List.mem_cons.1 hc).elim (fun h => h ▸ by decide) (fun h => hsp a c h))
    rw [this]
    simp only
    rw [pyNat_written ha]; rfl

theorem no_char_written {t : Text} {n : Int} (hw : Written t n) {c : Char} (h : ∀ d : Fin 10, Char.ofNat (48 + d.val) ≠ c)
    (h1 : '+' ≠ c) (h2 : '-' ≠ c) : c ∉ t := by
  have h0 : ∀ ds : Numeral, c ∉ written ds := by
    intro ds hm
    obtain ⟨d, hd⟩ := mem_written hm
    exact h d hd.symm
  cases hw with
  | bare => exact h0 _
  | plus =>
    intro hm
    rcases List.mem_cons.1 hm with rfl | hm
    · exact h1 rfl
    · exact h0 _ hm
  | minus =>
    intro hm
    rcases List.mem_cons.1 hm with rfl | hm
    · exact h2 rfl
    · exact h0 _ hm

theorem no_char {t : Text} {n : Int} (hw : Padded t n) {c : Char} (h : ∀ d : Fin 10, Char.ofNat (48 + d.val) ≠ c)
    (h1 : '+' ≠ c) (h2 : '-' ≠ c) (hb : ¬ Blank c) : c ∉ t := by
  cases hw with
  | mk ha hw hp =>
    intro hm
    rcases List.mem_append.1 hm with hm | hm
    · rcases List.mem_append.1 hm with hm | hm
      · exact hb (ha c hm)
      · exact no_char_written hw h h1 h2 hm
    · exact hb (hp c hm)

theorem Padded.none {t : Text} {n : Int} (h : Written t n) : Padded t n := by
  simpa using Padded.mk (pre := []) (post := []) (by simp) h (by simp)

theorem no_colon {t : Text} {n : Int} (hw : Padded t n) : ':' ∉ t :=
  no_char hw (fun d => (digit_facts d).2.2.2.1) (by decide) (by decide) (by decide)

theorem isSpace_iff (c : Char) : isSpace c = true ↔ Blank c := by
  constructor
  · intro h
    have hc : c = Char.ofNat c.toNat := (Char.ofNat_toNat c).symm
    have hn : c.toNat = 32 ∨ (9 ≤ c.toNat ∧ c.toNat ≤ 13) ∨ (28 ≤ c.toNat ∧ c.toNat ≤ 31) := by
      simp only [isSpace, Bool.or_eq_true, Bool.and_eq_true, decide_eq_true_eq] at h
      rcases h with (h | h) | h
      · exact .inl (by rw [h]; rfl)
      · exact .inr (.inl h)
      · exact .inr (.inr h)
    have hm : c.toNat ∈ [32, 9, 10, 11, 12, 13, 28, 29, 30, 31] := by
      simp only [List.mem_cons, List.not_mem_nil, or_false]
      omega
    rw [hc]
    generalize c.toNat = n at hm
    revert n
    decide
  · intro h
    have : ∀ c ∈ [' ', '\t', '\n', '\x0b', '\x0c', '\r', '\x1c', '\x1d', '\x1e', '\x1f'], isSpace c = true := by decide
    exact this c h

theorem written_solid {w : Text} {n : Int} (h : Written w n) : w ≠ [] ∧ ∀ c ∈ w, isSpace c = false := by
  have hsp : ∀ ds : Numeral, ∀ c ∈ written ds, isSpace c = false := by
    intro ds c hc
    obtain ⟨d, rfl⟩ := mem_written hc
    exact (digit_facts d).2.1
  cases h with
  | bare ha => exact ⟨by simpa [written] using ha.1, hsp _⟩
  | plus => exact ⟨by simp, fun c hc => (List.mem_cons.1 hc).elim (fun h => h ▸ by decide) (fun h => hsp _ c h)⟩
  | minus => exact ⟨by simp, fun c hc => (List.mem_cons.1 hc).elim (fun h => h ▸ by decide) (fun h => hsp _ c h)⟩

theorem dropWhile_pad {pre w : Text} (rest : Text) (hp : ∀ c ∈ pre, isSpace c = true) (hw : w ≠ [])
    (hs : ∀ c ∈ w, isSpace c = false) : (pre ++ (w ++ rest)).dropWhile isSpace = w ++ rest := by
  rw [List.dropWhile_append_of_pos hp]
  cases w with
  | nil => exact absurd rfl hw
  | cons a w => simp [hs a (by simp)]

theorem pyInt_padded {t : Text} {n : Int} (h : Padded t n) : pyInt t = some n := by
  cases h with
  | @mk pre w post _ ha hw hp =>
    obtain ⟨hne, hs⟩ := written_solid hw
    have e : strip (pre ++ w ++ post) = w := by
      unfold strip
      rw [List.append_assoc, dropWhile_pad post (fun c hc => (isSpace_iff c).2 (ha c hc)) hne hs, List.reverse_append]
      have := dropWhile_pad (pre := post.reverse) (w := w.reverse) []
        (fun c hc => (isSpace_iff c).2 (hp c (List.mem_reverse.1 hc))) (by simpa using hne)
        (fun c hc => hs c (List.mem_reverse.1 hc))
      simp only [List.append_nil] at this
      rw [this, List.reverse_reverse]
    have := pyInt_written hw
    unfold pyInt at this ⊢
    rw [strip_none hs] at this
    rw [e]
    exact this

theorem unsuffix_other {c x : Char} {t : Text} (h : x ≠ c) : unsuffix c (t ++ [x]) = none := by
  simp [unsuffix, h]

theorem unsuffix_same (c : Char) (t : Text) : unsuffix c (t ++ [c]) = some t := by
  simp [unsuffix]

theorem unsuffix_no {c : Char} {t : Text} (h : c ∉ t) : unsuffix c t = none := by
  unfold unsuffix
  rw [if_neg]
  intro hh
  exact h (List.mem_of_getLast? hh)

theorem timedelta_eq {h m s n : Int} (hn : n = 3600 * h + 60 * m + s) :
    timedelta h m s = if shortest ≤ n ∧ n ≤ longest then some n else none := by
  subst hn
  unfold timedelta longest shortest
  by_cases hc : -86399999913600 ≤ 3600 * h + 60 * m + s ∧ 3600 * h + 60 * m + s ≤ 86399999999999
  · rw [if_pos hc, if_pos ⟨by omega, by omega⟩]
  · rw [if_neg hc, if_neg (by omega)]

/-- **C54**: every duration written in one of the six ways is read as the number of seconds it
denotes, unless that is beyond Python's longest or shortest `timedelta`, when it is an error.
Signs count for the number they stand before, so `-1:30` is minus 30
seconds.  (Numerals of more than 4300 digits are refused by Python.) -/
theorem C54_reads (t : Text) (n : Int) (h : Denotes t n) :
    duration t = if shortest ≤ n ∧ n ≤ longest then some n else none := by
  cases h with
  | plain ha =>
    unfold duration
    rw [if_neg (no_colon ha), unsuffix_no (no_char ha (fun d => (digit_facts d).2.2.2.2.2.2.1) (by decide) (by decide) (by decide)),
      unsuffix_no (no_char ha (fun d => (digit_facts d).2.2.2.2.2.2.2.1) (by decide) (by decide) (by decide)),
      unsuffix_no (no_char ha (fun d => (digit_facts d).2.2.2.2.2.2.2.2) (by decide) (by decide) (by decide)), pyInt_padded ha]
    exact timedelta_eq (by omega)
  | seconds ha =>
    unfold duration
    rw [if_neg (by simp [no_colon ha]), unsuffix_same]
    simp only [pyInt_padded ha]
    exact timedelta_eq (by omega)
  | minutes ha =>
    unfold duration
    rw [if_neg (by simp [no_colon ha]), unsuffix_other (by decide), unsuffix_same]
    simp only [pyInt_padded ha]
    exact timedelta_eq (by omega)
  | hours ha =>
    unfold duration
    rw [if_neg (by simp [no_colon ha]), unsuffix_other (by decide), unsuffix_other (by decide), unsuffix_same]
    simp only [pyInt_padded ha]
    exact timedelta_eq (by omega)
  | mmss ha hb =>
    unfold duration
    rw [if_pos (by simp), List.append_assoc, List.singleton_append, splitOn_append _ (no_colon ha), splitOn_none (no_colon hb)]
    simp only [pyInt_padded ha, pyInt_padded hb]
    exact timedelta_eq (by omega)
  | @hhmmss t _ u _ v _ ha hb hc =>
    unfold duration
    have : t ++ t!":" ++ u ++ t!":" ++ v = t ++ ':' :: (u ++ ':' :: v) := by simp
    rw [if_pos (by simp), this, splitOn_append _ (no_colon ha), splitOn_append _ (no_colon hb), splitOn_none (no_colon hc)]
    simp only [pyInt_padded ha, pyInt_padded hb, pyInt_padded hc]
    exact timedelta_eq (by omega)

/-! ## What is refused -/

/-- The characters of numbers as `int` takes them. -/
def NumberChar (c : Char) : Prop :=
  c ∈ ['0', '1', '2', '3', '4', '5', '6', '7', '8', '9'] ∨ c = '_' ∨ c = '-' ∨ c = '+' ∨ Blank c

theorem go_some {t : Text} {acc n : Nat} (h : go acc t = some n) : ∀ c ∈ t, (digitVal? c).isSome := by
  induction t generalizing acc with
  | nil => simp
  | cons c t ih =>
    simp only [go] at h
    cases hd : digitVal? c with
    | none => rw [hd] at h; cases h
    | some d =>
      rw [hd] at h
      intro x hx
      rcases List.mem_cons.1 hx with rfl | hx
      · rw [hd]; rfl
      · exact ih h x hx

theorem splitOn_mem (sep : Char) (t : Text) : ∀ c ∈ t, c = sep ∨ ∃ p ∈ splitOn sep t, c ∈ p := by
  induction t with
  | nil => simp
  | cons x t ih =>
    intro c hc
    simp only [splitOn]
    by_cases hx : x = sep
    · rw [if_pos hx]
      rcases List.mem_cons.1 hc with rfl | hc
      · exact Or.inl hx
      · rcases ih c hc with h | ⟨p, hp, hcp⟩
        · exact Or.inl h
        · exact Or.inr ⟨p, by simp [hp], hcp⟩
    · rw [if_neg hx]
      cases hs : splitOn sep t with
      | nil =>
        rcases List.mem_cons.1 hc with rfl | hc
        · exact Or.inr ⟨[c], by simp, by simp⟩
        · rcases ih c hc with h | ⟨p, hp, _⟩
          · exact Or.inl h
          · rw [hs] at hp; cases hp
      | cons q qs =>
        rcases List.mem_cons.1 hc with rfl | hc
        · exact Or.inr ⟨c :: q, by simp, by simp⟩
        · rcases ih c hc with h | ⟨p, hp, hcp⟩
          · exact Or.inl h
          · rw [hs] at hp
            rcases List.mem_cons.1 hp with rfl | hp
            · exact Or.inr ⟨x :: p, by simp, by simp [hcp]⟩
            · exact Or.inr ⟨p, by simp [hp], hcp⟩

theorem digit_of_val {c : Char} (h : (digitVal? c).isSome = true) :
    c ∈ ['0', '1', '2', '3', '4', '5', '6', '7', '8', '9'] := by
  have hc : c = Char.ofNat c.toNat := (Char.ofNat_toNat c).symm
  have hn : 48 ≤ c.toNat ∧ c.toNat ≤ 57 := by
    unfold digitVal? at h
    split at h
    · rename_i hh; exact hh
    · cases h
  have hm : c.toNat ∈ [48, 49, 50, 51, 52, 53, 54, 55, 56, 57] := by
    simp only [List.mem_cons, List.not_mem_nil, or_false]
    omega
  rw [hc]
  generalize c.toNat = n at hm
  revert n
  decide

theorem pyNat_chars {t : Text} {n : Nat} (h : pyNat t = some n) : ∀ c ∈ t, NumberChar c := by
  unfold pyNat at h
  split at h
  · cases h
  split at h
  · cases h
  unfold parse at h
  split at h
  · cases h
  have := go_some h
  intro c hc
  rcases splitOn_mem '_' t c hc with rfl | ⟨p, hp, hcp⟩
  · exact Or.inr (Or.inl rfl)
  · exact Or.inl (digit_of_val (this c (List.mem_flatten.2 ⟨p, hp, hcp⟩)))

theorem mem_dropWhile {p : Char → Bool} {t : Text} {c : Char} (h : c ∈ t) : p c = true ∨ c ∈ t.dropWhile p := by
  induction t with
  | nil => cases h
  | cons x t ih =>
    rw [List.dropWhile_cons]
    cases hp : p x with
    | true =>
      rw [if_pos rfl]
      rcases List.mem_cons.1 h with rfl | h
      · exact Or.inl hp
      · exact ih h
    | false => exact Or.inr (by simpa using h)

theorem mem_strip {t : Text} {c : Char} (h : c ∈ t) : isSpace c = true ∨ c ∈ strip t := by
  rcases mem_dropWhile (p := isSpace) h with h | h
  · exact Or.inl h
  · rcases mem_dropWhile (p := isSpace) (List.mem_reverse.2 h) with h | h
    · exact Or.inl h
    · exact Or.inr (List.mem_reverse.2 h)

theorem pyInt_chars {t : Text} {n : Int} (h : pyInt t = some n) : ∀ c ∈ t, NumberChar c := by
  intro c hc
  rcases mem_strip hc with hs | hs
  · exact Or.inr (Or.inr (Or.inr (Or.inr ((isSpace_iff c).1 hs))))
  · unfold pyInt at h
    split at h
    · next ds heq =>
      obtain ⟨m, hm, _⟩ := Option.map_eq_some_iff.1 h
      rw [heq] at hs
      rcases List.mem_cons.1 hs with rfl | hs
      · exact Or.inr (Or.inr (Or.inl rfl))
      · exact pyNat_chars hm c hs
    · next ds heq =>
      obtain ⟨m, hm, _⟩ := Option.map_eq_some_iff.1 h
      rw [heq] at hs
      rcases List.mem_cons.1 hs with rfl | hs
      · exact Or.inr (Or.inr (Or.inr (Or.inl rfl)))
      · exact pyNat_chars hm c hs
    · obtain ⟨m, hm, _⟩ := Option.map_eq_some_iff.1 h
      exact pyNat_chars hm c hs

theorem mem_unsuffix {c x : Char} {t d : Text} (h : unsuffix c t = some d) (hx : x ∈ t) : x ∈ d ∨ t.getLast? = some c ∧ x = c := by
  unfold unsuffix at h
  split at h
  · next hl =>
    cases h
    have hne : t ≠ [] := by rintro rfl; cases hx
    have : t.dropLast ++ [t.getLast hne] = t := List.dropLast_concat_getLast hne
    rw [← this] at hx
    rcases List.mem_append.1 hx with hx | hx
    · exact Or.inl hx
    · refine Or.inr ⟨hl, ?_⟩
      rw [List.mem_singleton.1 hx]
      rw [List.getLast?_eq_some_getLast hne] at hl
      exact Option.some.inj hl
  · cases h

/-- **C54**: nothing else is taken for a duration by accident: an accepted text has only
characters of numbers, colons, and a final `s`, `m` or `h`. -/
theorem C54_rejects (t : Text) (n : Int) (h : duration t = some n) (c : Char) (hc : c ∈ t) :
    NumberChar c ∨ c = ':' ∨ (t.getLast? = some c ∧ (c = 's' ∨ c = 'm' ∨ c = 'h')) := by
  unfold duration at h
  split at h
  · rcases splitOn_mem ':' t c hc with rfl | ⟨p, hp, hcp⟩
    · exact Or.inr (Or.inl rfl)
    refine Or.inl ?_
    split at h
    · next m s heq =>
      rw [heq] at hp
      simp only [Option.bind_eq_bind, Option.bind_eq_some_iff] at h
      obtain ⟨x, hx, y, hy, _⟩ := h
      simp at hp
      rcases hp with rfl | rfl
      · exact pyInt_chars hx c hcp
      · exact pyInt_chars hy c hcp
    · next h' m s heq =>
      rw [heq] at hp
      simp only [Option.bind_eq_bind, Option.bind_eq_some_iff] at h
      obtain ⟨x, hx, y, hy, z, hz, _⟩ := h
      simp at hp
      rcases hp with rfl | rfl | rfl
      · exact pyInt_chars hx c hcp
      · exact pyInt_chars hy c hcp
      · exact pyInt_chars hz c hcp
    · cases h
  · split at h
    · next d hd =>
      simp only [Option.bind_eq_bind, Option.bind_eq_some_iff] at h
      obtain ⟨x, hx, _⟩ := h
      rcases mem_unsuffix hd hc with hcd | ⟨hl, rfl⟩
      · exact Or.inl (pyInt_chars hx c hcd)
      · exact Or.inr (Or.inr ⟨hl, Or.inl rfl⟩)
    split at h
    · next d hd =>
      simp only [Option.bind_eq_bind, Option.bind_eq_some_iff] at h
      obtain ⟨x, hx, _⟩ := h
      rcases mem_unsuffix hd hc with hcd | ⟨hl, rfl⟩
      · exact Or.inl (pyInt_chars hx c hcd)
      · exact Or.inr (Or.inr ⟨hl, Or.inr (Or.inl rfl)⟩)
    split at h
    · next d hd =>
      simp only [Option.bind_eq_bind, Option.bind_eq_some_iff] at h
      obtain ⟨x, hx, _⟩ := h
      rcases mem_unsuffix hd hc with hcd | ⟨hl, rfl⟩
      · exact Or.inl (pyInt_chars hx c hcd)
      · exact Or.inr (Or.inr ⟨hl, Or.inr (Or.inr rfl)⟩)
    · simp only [Option.bind_eq_bind, Option.bind_eq_some_iff] at h
      obtain ⟨x, hx, _⟩ := h
      exact Or.inl (pyInt_chars hx c hc)

/-! ## Examples -/

example : Denotes t!" 90\t" 90 :=
  .plain (.mk (pre := t!" ") (w := t!"90") (post := t!"\t") (by decide) (Written.bare (a := [9, 0]) ⟨by simp, by decide⟩) (by decide))

example : Denotes t!"01:90" 150 :=
  Denotes.mmss (.none (Written.bare (a := [0, 1]) ⟨by simp, by decide⟩)) (.none (Written.bare (a := [9, 0]) ⟨by simp, by decide⟩))
example : Denotes t!"-5m" (-300) := Denotes.minutes (.none (Written.minus (a := [5]) ⟨by simp, by decide⟩))
example : duration t!"01:90" = some 150 := by decide +kernel
example : duration t!"12h" = some 43200 := by decide +kernel
example : duration t!"1:02:03" = some 3723 := by decide +kernel
example : duration t!" 1_000s" = some 1000 ∧ duration t!" 1_000 " = some 1000 ∧ duration t!"1__0" = none ∧ duration t!"" = none := by
  decide +kernel
example : duration t!"1:2:3:4" = none ∧ duration t!"5d" = none ∧ duration t!"-5m" = some (-300) := by decide +kernel
example : duration t!"99999999999999" = none := by decide +kernel

end Docket.Cli
