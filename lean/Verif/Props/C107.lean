import Verif.Codec.Json
/-
C107: an announcement is read as it was meant.
-/
namespace Docket.Json
open Decimal

/-! ### Reading what was written -/

theorem hexVal_hexDigit {d : Nat} (h : d < 16) : hexVal (hexDigit d) = some d := by
  have : ∀ d : Fin 16, hexVal (hexDigit d.val) = some d.val := by decide +kernel
  exact this ⟨d, h⟩

theorem hex4_written {n : Nat} (h : n < 65536) (r : Text) :
    hex4 (hexDigit (n / 4096 % 16) :: hexDigit (n / 256 % 16) :: hexDigit (n / 16 % 16) :: hexDigit (n % 16) :: r) = some (n, r) := by
  simp only [hex4, hexVal_hexDigit (Nat.mod_lt _ (by omega : 0 < 16)), Option.some.injEq, Prod.mk.injEq, and_true]
  omega

theorem char_range (c : Char) : c.toNat < 55296 ∨ (57343 < c.toNat ∧ c.toNat < 1114112) := c.valid

theorem scanStep_unicode (r : Text) : scanStep ('\\' :: 'u' :: r) = unicode r := by
  simp [scanStep]

theorem scanStep_encode (c : Char) (r : Text) : scanStep (encodeChar c ++ r) = .char c r := by
  unfold encodeChar
  by_cases h1 : c = '"'
  · subst h1; rfl
  rw [if_neg h1]
  by_cases h2 : c = '\\'
  · subst h2; rfl
  rw [if_neg h2]
  by_cases h3 : c = '\n'
  · subst h3; rfl
  rw [if_neg h3]
  by_cases h4 : c = '\r'
  · subst h4; rfl
  rw [if_neg h4]
  by_cases h5 : c = '\t'
  · subst h5; rfl
  rw [if_neg h5]
  by_cases h6 : c = Char.ofNat 12
  · subst h6; rfl
  rw [if_neg h6]
  by_cases h7 : c = Char.ofNat 8
  · subst h7; rfl
  rw [if_neg h7]
  by_cases h8 : 32 ≤ c.toNat ∧ c.toNat ≤ 126
  · rw [if_pos h8]
    simp only [List.cons_append, List.nil_append, scanStep, if_neg h1, if_neg h2]
    rw [if_neg (by omega)]
  rw [if_neg h8]
  have hr := char_range c
  by_cases h9 : c.toNat < 65536
  · rw [if_pos h9]
    simp only [unicodeEscape, List.cons_append, List.nil_append]
    rw [scanStep_unicode, unicode, hex4_written h9]
    simp only []
    rw [if_neg (by omega), if_neg (by omega), Char.ofNat_toNat]
  · rw [if_neg h9]
    have ha : 55296 + (c.toNat - 65536) / 1024 < 65536 := by omega
    have hb : 56320 + (c.toNat - 65536) % 1024 < 65536 := by omega
    simp only [unicodeEscape, List.cons_append, List.nil_append]
    rw [scanStep_unicode, unicode, hex4_written ha]
    simp only []
    rw [if_pos (by omega)]
    simp only [and_self, if_true]
    rw [hex4_written hb]
    simp only []
    rw [if_pos (by omega)]
    have : 65536 + (55296 + (c.toNat - 65536) / 1024 - 55296) * 1024 + (56320 + (c.toNat - 65536) % 1024 - 56320) = c.toNat := by
      omega
    rw [this, Char.ofNat_toNat]

/-- A coding of a text inside a string is read as that text. -/
def Reads (coded t : Text) : Prop := ∀ n rest, t.length < n → scan n (coded ++ '"' :: rest) = some (t, rest)

theorem scanStep_quote (r : Text) : scanStep ('"' :: r) = .over r := rfl

theorem reads_flatMap (f : Char → Text) (t : Text) (h : ∀ c ∈ t, ∀ r, scanStep (f c ++ r) = .char c r) : Reads (t.flatMap f) t := by
  induction t with
  | nil =>
    intro n rest hn
    cases n with
    | zero => simp at hn
    | succ n => rfl
  | cons c t ih =>
    intro n rest hn
    cases n with
    | zero => simp at hn
    | succ n =>
      simp only [List.flatMap_cons, List.append_assoc, scan]
      rw [h c (by simp)]
      simp only []
      rw [ih (fun x hx => h x (List.mem_cons_of_mem _ hx)) n rest (by simpa using hn)]
      rfl

theorem reads_encode (t : Text) : Reads (encode t) t := reads_flatMap _ _ (fun c _ r => scanStep_encode c r)

theorem encodeChar_length (c : Char) : 1 ≤ (encodeChar c).length := by
  unfold encodeChar
  repeat' split
  all_goals simp [unicodeEscape]

theorem flatMap_length {f : Char → Text} (t : Text) (h : ∀ c, 1 ≤ (f c).length) : t.length ≤ (t.flatMap f).length := by
  induction t with
  | nil => simp
  | cons c t ih =>
    simp only [List.flatMap_cons, List.length_cons, List.length_append]
    have := h c
    omega

theorem encode_length (t : Text) : t.length ≤ (encode t).length := flatMap_length t encodeChar_length

/-! Numbers -/

theorem isDigit_digitChar {d : Nat} (h : d < 10) : isDigit (digitChar d) = true := by
  simp [isDigit, digitVal_digitChar h]

theorem dec_digits (n : Nat) : ∀ c ∈ dec n, isDigit c = true := by
  induction n using Nat.strongRecOn with
  | ind n ih =>
    intro c hc
    rw [dec] at hc
    split at hc
    · rename_i h
      rw [List.mem_singleton.1 hc]; exact isDigit_digitChar h
    · rename_i h
      rcases List.mem_append.1 hc with hc | hc
      · exact ih (n / 10) (by omega) c hc
      · rw [List.mem_singleton.1 hc]; exact isDigit_digitChar (Nat.mod_lt _ (by omega))

theorem dec_head (n : Nat) (h : 0 < n) : (dec n).head? ≠ some '0' := by
  induction n using Nat.strongRecOn with
  | ind n ih =>
    rw [dec]
    split
    · rename_i h'
      have : ∀ d : Fin 10, 0 < d.val → [digitChar d.val].head? ≠ some '0' := by decide +kernel
      exact this ⟨n, h'⟩ h
    · rename_i h'
      have := ih (n / 10) (by omega) (by omega)
      rw [List.head?_append]
      cases hd : (dec (n / 10)).head? with
      | none => simp [List.head?_eq_none_iff, dec_ne_nil] at hd
      | some x => rw [hd] at this; simpa using this

theorem digits_dec (n : Nat) (c : Char) (r : Text) (hc : isDigit c = false) : digits (dec n ++ c :: r) = some (n, c :: r) := by
  have h1 : (dec n ++ c :: r).takeWhile isDigit = dec n := by
    rw [List.takeWhile_append_of_pos (dec_digits n)]
    simp [hc]
  have h2 : (dec n ++ c :: r).dropWhile isDigit = c :: r := by
    rw [List.dropWhile_append_of_pos (dec_digits n)]
    simp [hc]
  unfold digits
  simp only [h1, h2]
  rw [if_neg, parse_dec]
  · rfl
  · rintro ⟨hh, hl⟩
    by_cases hn : 0 < n
    · exact dec_head n hn hh
    · obtain rfl : n = 0 := by omega
      simp [dec] at hl

theorem dec_first (n : Nat) : ∃ c r, dec n = c :: r ∧ isDigit c = true := by
  cases h : dec n with
  | nil => exact absurd h (dec_ne_nil n)
  | cons c r => exact ⟨c, r, rfl, dec_digits n c (by rw [h]; simp)⟩

theorem digit_is {c : Char} (h : isDigit c = true) : c ≠ '"' ∧ c ≠ '-' ∧ c ≠ 'n' ∧ blank c = false := by
  refine ⟨?_, ?_, ?_, ?_⟩
  · rintro rfl; revert h; decide +kernel
  · rintro rfl; revert h; decide +kernel
  · rintro rfl; revert h; decide +kernel
  · cases hb : blank c with
    | false => rfl
    | true =>
      simp only [blank, Bool.or_eq_true, decide_eq_true_eq] at hb
      rcases hb with ((rfl | rfl) | rfl) | rfl <;> (revert h; decide +kernel)

theorem readValue_written (v : Value) (c : Char) (r : Text) (hc : isDigit c = false) :
    readValue (writeValue v ++ c :: r) = some (v, c :: r) := by
  cases v with
  | str t =>
    simp only [writeValue, List.cons_append, readValue, if_true, List.append_assoc, List.nil_append]
    rw [reads_encode t _ (c :: r) (by have := encode_length t; simp only [List.length_append, List.length_cons]; omega)]
    rfl
  | null => rfl
  | num i =>
    cases i with
    | ofNat n =>
      obtain ⟨d, ds, hd, hdig⟩ := dec_first n
      obtain ⟨g1, g2, g3, -⟩ := digit_is hdig
      have hdd := digits_dec n c r hc
      simp only [writeValue]
      rw [hd] at hdd ⊢
      simp only [List.cons_append] at hdd
      simp only [List.cons_append, readValue, if_neg g1, if_neg g2]
      rw [if_neg, hdd]
      · rfl
      · simp [List.isPrefixOf, Ne.symm g3]
    | negSucc n =>
      simp only [writeValue, List.cons_append, readValue]
      rw [if_neg (by decide), if_pos trivial, digits_dec _ _ _ hc]
      rfl

/-! Members -/

theorem skip_cons {c : Char} (h : blank c = false) (r : Text) : skip (c :: r) = c :: r := by
  simp [skip, h]

theorem skip_space (r : Text) : skip (' ' :: r) = skip r := by
  simp [skip, blank]

theorem writeValue_first (v : Value) : ∃ c r, writeValue v = c :: r ∧ blank c = false := by
  cases v with
  | str t => exact ⟨_, _, rfl, by decide +kernel⟩
  | null => exact ⟨_, _, rfl, by decide +kernel⟩
  | num i =>
    cases i with
    | ofNat n =>
      obtain ⟨d, ds, hd, hdig⟩ := dec_first n
      exact ⟨d, ds, hd, (digit_is hdig).2.2.2⟩
    | negSucc n => exact ⟨_, _, rfl, by decide +kernel⟩

theorem readMember_written (m : Text × Value) (c : Char) (r : Text) (hc : isDigit c = false) :
    readMember (writeMember m ++ c :: r) = some (m, c :: r) := by
  obtain ⟨name, v⟩ := m
  obtain ⟨d, ds, hd, hb⟩ := writeValue_first v
  simp only [writeMember, List.cons_append, readMember, if_true, List.append_assoc, List.nil_append]
  rw [reads_encode name _ _ (by have := encode_length name; simp only [List.length_append, List.length_cons]; omega)]
  simp only []
  rw [skip_cons (by decide +kernel)]
  simp only [if_true, skip_space]
  have : skip (writeValue v ++ c :: r) = writeValue v ++ c :: r := by
    rw [hd, List.cons_append, skip_cons hb]
  rw [this, readValue_written v c r hc]
  rfl

theorem readMembers_written (ms : List (Text × Value)) (hm : ms ≠ []) (n : Nat) (hn : ms.length ≤ n) (r : Text) :
    readMembers n (writeMembers ms ++ '}' :: r) = some (ms, r) := by
  induction ms generalizing n with
  | nil => exact absurd rfl hm
  | cons m ms ih =>
    cases n with
    | zero => simp at hn
    | succ n =>
      cases ms with
      | nil =>
        simp only [writeMembers, readMembers]
        rw [readMember_written m '}' r (by decide +kernel)]
        simp only []
        rw [skip_cons (by decide +kernel)]
        rfl
      | cons m' ms =>
        simp only [writeMembers, List.append_assoc, List.cons_append, List.nil_append, readMembers]
        rw [readMember_written m ',' _ (by decide +kernel)]
        simp only []
        rw [skip_cons (by decide +kernel)]
        simp only [if_true, skip_space]
        have hs : skip (writeMembers (m' :: ms) ++ '}' :: r) = writeMembers (m' :: ms) ++ '}' :: r := by
          cases ms with
          | nil => simp only [writeMembers, writeMember, List.cons_append]; exact skip_cons (by decide +kernel) _
          | cons m'' ms => simp only [writeMembers, writeMember, List.cons_append]; exact skip_cons (by decide +kernel) _
        have ih' := ih (by simp) n (by simpa using hn)
        rw [hs, ih']
        rfl

theorem writeMembers_first (m : Text × Value) (ms : List (Text × Value)) : ∃ r, writeMembers (m :: ms) = '"' :: r := by
  cases ms with
  | nil => exact ⟨_, rfl⟩
  | cons m' ms => exact ⟨_, rfl⟩

theorem writeMembers_length (ms : List (Text × Value)) : ms.length ≤ (writeMembers ms).length := by
  induction ms with
  | nil => simp
  | cons m ms ih =>
    cases ms with
    | nil => simp [writeMembers, writeMember]
    | cons m' ms =>
      simp only [writeMembers, List.length_append, List.length_cons] at ih ⊢
      omega

/-- **C107**: whatever docket announces with `json.dumps` is read by every follower as it was meant: all
names, texts, whole numbers and nulls, whatever the characters of the key, the worker's name or the
error. -/
theorem C107_announced (ms : List (Text × Value)) : loads (dumps ms) = some ms := by
  unfold dumps loads
  rw [skip_cons (by decide +kernel)]
  simp only [if_true]
  cases ms with
  | nil => rfl
  | cons m ms =>
    obtain ⟨r, hr⟩ := writeMembers_first m ms
    have hlen := writeMembers_length (m :: ms)
    have hrm := readMembers_written (m :: ms) (by simp) ((writeMembers (m :: ms) ++ ['}']).length + 1)
      (by simp only [List.length_append]; omega) []
    rw [hr] at hrm ⊢
    simp only [List.cons_append] at hrm ⊢
    rw [skip_cons (by decide +kernel)]
    simp only [hrm]
    rfl

/-! ### What the scripts put together -/

/-- A text that `json_escape` makes readable: besides line feeds, carriage returns and tabs it has no
control characters. -/
def Readable (k : Text) : Prop := ∀ c ∈ k, 32 ≤ c.toNat ∨ c = '\n' ∨ c = '\r' ∨ c = '\t'

/-- A text that needs no escaping, as an ISO timestamp. -/
def Plain (w : Text) : Prop := ∀ c ∈ w, 32 ≤ c.toNat ∧ c ≠ '"' ∧ c ≠ '\\'

def luaChar (c : Char) : Text :=
  if c = '\\' then ['\\', '\\'] else if c = '"' then ['\\', '"'] else if c = '\n' then ['\\', 'n']
  else if c = '\r' then ['\\', 'r'] else if c = '\t' then ['\\', 't'] else [c]

theorem gsub_append (c : Char) (b s t : Text) : gsub c b (s ++ t) = gsub c b s ++ gsub c b t := by
  simp [gsub]

theorem jsonEscape_append (s t : Text) : jsonEscape (s ++ t) = jsonEscape s ++ jsonEscape t := by
  simp only [jsonEscape, gsub_append]

theorem jsonEscape_one (c : Char) : jsonEscape [c] = luaChar c := by
  unfold luaChar
  by_cases h1 : c = '\\'
  · subst h1; decide +kernel
  by_cases h2 : c = '"'
  · subst h2; decide +kernel
  by_cases h3 : c = '\n'
  · subst h3; decide +kernel
  by_cases h4 : c = '\r'
  · subst h4; decide +kernel
  by_cases h5 : c = '\t'
  · subst h5; decide +kernel
  simp [jsonEscape, gsub, h1, h2, h3, h4, h5]

theorem jsonEscape_eq (k : Text) : jsonEscape k = k.flatMap luaChar := by
  induction k with
  | nil => rfl
  | cons c k ih =>
    rw [show c :: k = [c] ++ k from rfl, jsonEscape_append, jsonEscape_one, ih]
    rfl

theorem scanStep_lua (c : Char) (h : 32 ≤ c.toNat ∨ c = '\n' ∨ c = '\r' ∨ c = '\t') (r : Text) :
    scanStep (luaChar c ++ r) = .char c r := by
  unfold luaChar
  by_cases h1 : c = '\\'
  · subst h1; rfl
  rw [if_neg h1]
  by_cases h2 : c = '"'
  · subst h2; rfl
  rw [if_neg h2]
  by_cases h3 : c = '\n'
  · subst h3; rfl
  rw [if_neg h3]
  by_cases h4 : c = '\r'
  · subst h4; rfl
  rw [if_neg h4]
  by_cases h5 : c = '\t'
  · subst h5; rfl
  rw [if_neg h5]
  have : 32 ≤ c.toNat := by
    rcases h with h | h | h | h
    · exact h
    · exact absurd h h3
    · exact absurd h h4
    · exact absurd h h5
  simp only [List.cons_append, List.nil_append, scanStep, if_neg h1, if_neg h2]
  rw [if_neg (by omega)]

theorem luaChar_length (c : Char) : 1 ≤ (luaChar c).length := by
  unfold luaChar
  repeat' split
  all_goals simp

theorem reads_lua {k : Text} (h : Readable k) : Reads (jsonEscape k) k := by
  rw [jsonEscape_eq]
  exact reads_flatMap _ _ (fun c hc r => scanStep_lua c (h c hc) r)

theorem reads_plain {w : Text} (h : Plain w) : Reads w w := by
  have := reads_flatMap (fun c => [c]) w (fun c hc r => by
    obtain ⟨h1, h2, h3⟩ := h c hc
    simp only [List.cons_append, List.nil_append, scanStep, if_neg h2, if_neg h3]
    rw [if_neg (by omega)])
  have he : w.flatMap (fun c => [c]) = w := by simp
  rw [he] at this
  exact this

theorem unreadable {k : Text} (h : ¬ Readable k) (n : Nat) (r : Text) : scan n (jsonEscape k ++ r) = none := by
  rw [jsonEscape_eq]
  induction k generalizing n with
  | nil => exact absurd (fun c hc => nomatch hc) h
  | cons c k ih =>
    cases n with
    | zero => rfl
    | succ n =>
      simp only [List.flatMap_cons, List.append_assoc, scan]
      by_cases hc : 32 ≤ c.toNat ∨ c = '\n' ∨ c = '\r' ∨ c = '\t'
      · rw [scanStep_lua c hc]
        simp only []
        rw [ih]
        · rfl
        · intro hk
          refine h (fun x hx => ?_)
          rcases List.mem_cons.1 hx with rfl | hx
          · exact hc
          · exact hk x hx
      · simp only [not_or] at hc
        have hl : luaChar c = [c] := by
          unfold luaChar
          rw [if_neg, if_neg, if_neg hc.2.1, if_neg hc.2.2.1, if_neg hc.2.2.2]
          · rintro rfl; exact hc.1 (by decide +kernel)
          · rintro rfl; exact hc.1 (by decide +kernel)
        have h1 : c ≠ '"' := by rintro rfl; exact hc.1 (by decide +kernel)
        have h2 : c ≠ '\\' := by rintro rfl; exact hc.1 (by decide +kernel)
        rw [hl]
        simp only [List.cons_append, List.nil_append, scanStep, if_neg h1, if_neg h2]
        rw [if_pos (by omega)]

/-- A member as the scripts write it, of coded texts. -/
def member (name value : Text) : Text := '"' :: (name ++ '"' :: ':' :: '"' :: (value ++ ['"']))

theorem readMember_script {cn cv name value : Text} (h1 : Reads cn name) (h2 : Reads cv value)
    (l1 : name.length ≤ cn.length) (l2 : value.length ≤ cv.length) (r : Text) :
    readMember (member cn cv ++ r) = some ((name, .str value), r) := by
  simp only [member, List.cons_append, List.append_assoc, List.nil_append, readMember, if_true]
  rw [h1 _ _ (by simp only [List.length_append, List.length_cons]; omega)]
  simp only []
  rw [skip_cons (by decide +kernel)]
  simp only [if_true]
  rw [skip_cons (by decide +kernel)]
  simp only [readValue, if_true]
  rw [h2 _ _ (by simp only [List.length_append, List.length_cons]; omega)]
  rfl

theorem readMember_unreadable {cn name k : Text} (h1 : Reads cn name) (l1 : name.length ≤ cn.length) (hk : ¬ Readable k) (r : Text) :
    readMember (member cn (jsonEscape k) ++ r) = none := by
  simp only [member, List.cons_append, List.append_assoc, List.nil_append, readMember, if_true]
  rw [h1 _ _ (by simp only [List.length_append, List.length_cons]; omega)]
  simp only []
  rw [skip_cons (by decide +kernel)]
  simp only [if_true]
  rw [skip_cons (by decide +kernel)]
  simp only [readValue, if_true]
  rw [unreadable hk]
  rfl

/-- Members as the scripts write them. -/
def scriptMembers : List (Text × Text) → Text
  | [] => []
  | [m] => member m.1 m.2
  | m :: ms => member m.1 m.2 ++ ',' :: scriptMembers ms

/-- A coded member and what it stands for. -/
structure Coded where
  name : Text
  codedName : Text
  value : Text
  codedValue : Text

def Coded.Good (m : Coded) : Prop :=
  Reads m.codedName m.name ∧ Reads m.codedValue m.value ∧ m.name.length ≤ m.codedName.length ∧ m.value.length ≤ m.codedValue.length

theorem scriptMembers_first (m : Text × Text) (ms : List (Text × Text)) : ∃ r, scriptMembers (m :: ms) = '"' :: r := by
  cases ms with
  | nil => exact ⟨_, rfl⟩
  | cons m' ms => exact ⟨_, rfl⟩

theorem readMembers_next {n : Nat} {m m' : Coded} (hm : m.Good) (ms : List (Text × Text)) (r : Text) :
    readMembers (n + 1) (scriptMembers ((m.codedName, m.codedValue) :: (m'.codedName, m'.codedValue) :: ms) ++ r) =
      (readMembers n (scriptMembers ((m'.codedName, m'.codedValue) :: ms) ++ r)).map
        (fun p => ((m.name, .str m.value) :: p.1, p.2)) := by
  obtain ⟨h1, h2, l1, l2⟩ := hm
  rw [readMembers, scriptMembers]
  simp only [List.append_assoc, List.cons_append]
  rw [readMember_script h1 h2 l1 l2]
  simp only []
  rw [skip_cons (by decide +kernel)]
  simp only [if_true]
  obtain ⟨x, hx⟩ := scriptMembers_first (m'.codedName, m'.codedValue) ms
  have hs : skip (scriptMembers ((m'.codedName, m'.codedValue) :: ms) ++ r) = scriptMembers ((m'.codedName, m'.codedValue) :: ms) ++ r := by
    rw [hx, List.cons_append, skip_cons (by decide +kernel)]
  rw [hs]
  · simp

theorem readMembers_end {n : Nat} {m : Coded} (hm : m.Good) (r : Text) :
    readMembers (n + 1) (scriptMembers [(m.codedName, m.codedValue)] ++ '}' :: r) = some ([(m.name, .str m.value)], r) := by
  obtain ⟨h1, h2, l1, l2⟩ := hm
  rw [readMembers, scriptMembers, readMember_script h1 h2 l1 l2]
  simp only []
  rw [skip_cons (by decide +kernel)]
  rfl

theorem lua_len (k : Text) : k.length ≤ (jsonEscape k).length := by
  rw [jsonEscape_eq]; exact flatMap_length k luaChar_length

instance decPlain (w : Text) : Decidable (Plain w) := by unfold Plain; infer_instance
instance decReadable (w : Text) : Decidable (Readable w) := by unfold Readable; infer_instance

theorem loads_object {body : Text} {ms : List (Text × Value)} (h : ∃ r, body = '"' :: r)
    (hm : readMembers (body.length + 2) (body ++ ['}']) = some (ms, [])) : loads ('{' :: (body ++ ['}'])) = some ms := by
  unfold loads
  rw [skip_cons (by decide +kernel)]
  simp only [if_true]
  obtain ⟨r, rfl⟩ := h
  simp only [List.cons_append, List.length_cons, List.length_append, List.length_nil] at hm ⊢
  rw [skip_cons (by decide +kernel)]
  simp only [hm]
  rfl

theorem loads_object_bad {body : Text} (h : ∃ r, body = '"' :: r)
    (hm : readMembers (body.length + 2) (body ++ ['}']) = none) : loads ('{' :: (body ++ ['}'])) = none := by
  unfold loads
  rw [skip_cons (by decide +kernel)]
  simp only [if_true]
  obtain ⟨r, rfl⟩ := h
  simp only [List.cons_append, List.length_cons, List.length_append, List.length_nil] at hm ⊢
  rw [skip_cons (by decide +kernel)]
  simp only [hm]
  rfl

theorem good_plain (name value : Text) (h1 : Plain name) (h2 : Plain value) : (Coded.mk name name value value).Good :=
  ⟨reads_plain h1, reads_plain h2, Nat.le_refl _, Nat.le_refl _⟩

theorem good_key (k : Text) (h : Readable k) : (Coded.mk t!"key" t!"key" k (jsonEscape k)).Good :=
  ⟨reads_plain (w := t!"key") (by decide +kernel), reads_lua h, Nat.le_refl _, lua_len k⟩

theorem due_eq (k w : Text) : duePayload k w = '{' :: (scriptMembers [(t!"type", t!"state"), (t!"key", jsonEscape k),
    (t!"state", t!"queued"), (t!"when", w)] ++ ['}']) := by
  simp [duePayload, scriptMembers, member]

theorem woken_eq (k : Text) : wokenPayload k = '{' :: (scriptMembers [(t!"type", t!"state"), (t!"key", jsonEscape k),
    (t!"state", t!"queued")] ++ ['}']) := by
  simp [wokenPayload, scriptMembers, member]

/-- **C107**, partial: what the scripts announce, that a task is due or that a waiter has its turn,
is read as it was meant if the key has no control characters but line feeds, carriage returns and
tabs.  Missing: the other keys, whose announcements no follower can read (`C107_unreadable`,
`C107_violated_due`, `C107_violated_woken`). -/
theorem C107_scripts_partial (k w : Text) (hk : Readable k) (hw : Plain w) :
    loads (duePayload k w) = some [(t!"type", .str t!"state"), (t!"key", .str k), (t!"state", .str t!"queued"), (t!"when", .str w)] ∧
    loads (wokenPayload k) = some [(t!"type", .str t!"state"), (t!"key", .str k), (t!"state", .str t!"queued")] := by
  have g1 := good_plain t!"type" t!"state" (by decide +kernel) (by decide +kernel)
  have g2 := good_key k hk
  have g3 := good_plain t!"state" t!"queued" (by decide +kernel) (by decide +kernel)
  have g4 := good_plain t!"when" w (by decide +kernel) hw
  constructor
  · rw [due_eq]
    refine loads_object ⟨_, rfl⟩ ?_
    generalize hlen : (scriptMembers _).length = len
    obtain ⟨n, rfl⟩ : ∃ n, len = n + 2 := ⟨len - 2, by simp [scriptMembers, member] at hlen; omega⟩
    have e1 := readMembers_next (n := n + 3) (m' := ⟨t!"key", t!"key", k, jsonEscape k⟩) g1 [(t!"state", t!"queued"), (t!"when", w)] ['}']
    have e2 := readMembers_next (n := n + 2) (m' := ⟨t!"state", t!"state", t!"queued", t!"queued"⟩) g2 [(t!"when", w)] ['}']
    have e3 := readMembers_next (n := n + 1) (m' := ⟨t!"when", t!"when", w, w⟩) g3 [] ['}']
    have e4 := readMembers_end (n := n) g4 []
    simp only [] at e1 e2 e3 e4
    rw [show n + 2 + 2 = n + 3 + 1 from rfl, e1, show n + 3 = n + 2 + 1 from rfl, e2, show n + 2 = n + 1 + 1 from rfl, e3, e4]
    rfl
  · rw [woken_eq]
    refine loads_object ⟨_, rfl⟩ ?_
    generalize hlen : (scriptMembers _).length = len
    obtain ⟨n, rfl⟩ : ∃ n, len = n + 1 := ⟨len - 1, by simp [scriptMembers, member] at hlen; omega⟩
    have e1 := readMembers_next (n := n + 2) (m' := ⟨t!"key", t!"key", k, jsonEscape k⟩) g1 [(t!"state", t!"queued")] ['}']
    have e2 := readMembers_next (n := n + 1) (m' := ⟨t!"state", t!"state", t!"queued", t!"queued"⟩) g2 [] ['}']
    have e3 := readMembers_end (n := n) g3 []
    simp only [] at e1 e2 e3
    rw [show n + 1 + 2 = n + 2 + 1 from rfl, e1, show n + 2 = n + 1 + 1 from rfl, e2, e3]
    rfl

/-- Beside it: a key with quotes, a backslash, a line feed and letters beyond ASCII. -/
example : loads (duePayload t!"a\"b\\n\nü" t!"2026-11-16T22:00:00+00:00") = some [(t!"type", .str t!"state"),
    (t!"key", .str t!"a\"b\\n\nü"), (t!"state", .str t!"queued"), (t!"when", .str t!"2026-11-16T22:00:00+00:00")] :=
  (C107_scripts_partial _ _ (by decide +kernel) (by decide +kernel)).1

/-- Exactly the other keys are the trouble: an announcement of the scripts for a key with another
control character is no JSON, and the follower who reads it fails. -/
theorem C107_unreadable (k w : Text) (hk : ¬ Readable k) : loads (duePayload k w) = none ∧ loads (wokenPayload k) = none := by
  have g1 := good_plain t!"type" t!"state" (by decide +kernel) (by decide +kernel)
  have hbad : ∀ n (m : Text × Text) ms r, readMembers n (scriptMembers ((t!"key", jsonEscape k) :: m :: ms) ++ r) = none := by
    intro n m ms r
    cases n with
    | zero => rfl
    | succ n =>
      rw [readMembers, scriptMembers]
      · simp only [List.append_assoc, List.cons_append]
        rw [readMember_unreadable (reads_plain (by decide +kernel)) (Nat.le_refl _) hk]
      · simp
  constructor
  · rw [due_eq]
    refine loads_object_bad ⟨_, rfl⟩ ?_
    have e1 := fun n => readMembers_next (n := n) (m' := ⟨t!"key", t!"key", k, jsonEscape k⟩) g1 [(t!"state", t!"queued"), (t!"when", w)] ['}']
    simp only [] at e1
    rw [show ∀ l, l + 2 = (l + 1) + 1 from fun _ => rfl, e1, hbad]
    rfl
  · rw [woken_eq]
    refine loads_object_bad ⟨_, rfl⟩ ?_
    have e1 := fun n => readMembers_next (n := n) (m' := ⟨t!"key", t!"key", k, jsonEscape k⟩) g1 [(t!"state", t!"queued")] ['}']
    simp only [] at e1
    rw [show ∀ l, l + 2 = (l + 1) + 1 from fun _ => rfl, e1, hbad]
    rfl

/-- **C107**, full statement for the scripts: every announcement can be read, and names the task. -/
def C107_scripts : Prop := ∀ k w, Plain w →
  loads (duePayload k w) = some [(t!"type", .str t!"state"), (t!"key", .str k), (t!"state", .str t!"queued"), (t!"when", .str w)] ∧
  loads (wokenPayload k) = some [(t!"type", .str t!"state"), (t!"key", .str k), (t!"state", .str t!"queued")]

/-- A key with a NUL character: when the task becomes due, those who wait for it get an error. -/
theorem C107_violated_due : ¬ C107_scripts := fun h => by
  have := (h [Char.ofNat 0] [] (by decide +kernel)).1
  rw [(C107_unreadable _ _ (by decide +kernel)).1] at this
  cases this

/-- The same when a waiter gets its turn. -/
theorem C107_violated_woken : ¬ C107_scripts := fun h => by
  have := (h [Char.ofNat 27] [] (by decide +kernel)).2
  rw [(C107_unreadable _ [] (by decide +kernel)).2] at this
  cases this

/-! ### Event by event -/

/-- What an event says under a name. -/
def says (ms : List (Text × Value)) (name : Text) : Option Value := (ms.find? (fun m => m.1 = name)).map (·.2)

/-- The text is an event of the given type about the given task. -/
def About (payload type k : Text) (ms : List (Text × Value)) : Prop :=
  loads payload = some ms ∧ says ms t!"type" = some (.str type) ∧ says ms t!"key" = some (.str k)

/-- **C107**: every event of a task's life names the task and its new state, for every key; a start names
the worker, an end carries the error there was, if it has a text. -/
theorem C107_events (k : Text) :
    (∀ immediate when_, ∃ ms, About (schedulePayload k immediate when_) t!"state" k ms ∧
      says ms t!"state" = some (.str (if immediate then t!"queued" else t!"scheduled")) ∧ says ms t!"when" = some (.str when_)) ∧
    (∀ worker started, ∃ ms, About (claimPayload k worker started) t!"state" k ms ∧
      says ms t!"state" = some (.str t!"running") ∧ says ms t!"worker" = some (.str worker) ∧ says ms t!"started_at" = some (.str started)) ∧
    (∀ state completed error, ∃ ms, About (finishPayload k state completed error) t!"state" k ms ∧
      says ms t!"state" = some (.str state) ∧ says ms t!"completed_at" = some (.str completed) ∧
      ∀ e, says ms t!"error" = some (.str e) ↔ error = some e ∧ e ≠ []) ∧
    (∃ ms, About (parkPayload k) t!"state" k ms ∧ says ms t!"state" = some (.str t!"scheduled")) := by
  refine ⟨fun immediate when_ => ⟨_, ⟨C107_announced _, rfl, rfl⟩, ?_, rfl⟩,
    fun worker started => ⟨_, ⟨C107_announced _, rfl, rfl⟩, rfl, rfl, rfl⟩, ?_, ⟨_, ⟨C107_announced _, rfl, rfl⟩, rfl⟩⟩
  · cases immediate <;> rfl
  · intro state completed error
    refine ⟨_, ⟨C107_announced _, rfl, rfl⟩, rfl, rfl, ?_⟩
    intro e
    rcases error with _ | _ | ⟨c, x⟩
    · simp [says]
    · simp [says]
    · simp only [says, List.cons_append, List.nil_append]
      constructor
      · intro h
        have : some (Value.str (c :: x)) = some (.str e) := by rw [← h]; rfl
        simp only [Option.some.injEq, Value.str.injEq] at this
        exact ⟨by rw [this], by rw [← this]; simp⟩
      · rintro ⟨h, -⟩
        simp only [Option.some.injEq] at h
        rw [← h]; rfl

/-- **C107**: a progress event carries the numbers and the message as they are, with zero for a count
that is not known. -/
theorem C107_progress (k : Text) (current : Option Int) (total : Int) (message updated : Option Text) :
    ∃ ms, About (progressPayload k current total message updated) t!"progress" k ms ∧
      says ms t!"current" = some (.num (current.getD 0)) ∧ says ms t!"total" = some (.num total) ∧
      (∀ m, says ms t!"message" = some (.str m) ↔ message = some m) ∧
      (∀ u, says ms t!"updated_at" = some (.str u) ↔ updated = some u) := by
  refine ⟨_, ⟨C107_announced _, rfl, rfl⟩, ?_, rfl, ?_, ?_⟩
  · cases current <;> rfl
  · intro m; cases message <;> simp [says, orNull]
  · intro m; cases updated <;> simp [says, orNull]

/-- Beside them: an error with a line break and a NUL, and a negative count. -/
example : loads (finishPayload t!"k" t!"failed" t!"now" (some ['a', '\n', Char.ofNat 0, Char.ofNat 128512])) =
    some [(t!"type", .str t!"state"), (t!"key", .str t!"k"), (t!"state", .str t!"failed"), (t!"completed_at", .str t!"now"),
      (t!"error", .str ['a', '\n', Char.ofNat 0, Char.ofNat 128512])] := by decide +kernel
example : loads (progressPayload t!"k" (some (-12)) 100 none (some t!"now")) =
    some [(t!"type", .str t!"progress"), (t!"key", .str t!"k"), (t!"current", .num (-12)), (t!"total", .num 100),
      (t!"message", .null), (t!"updated_at", .str t!"now")] := by decide +kernel

end Docket.Json
