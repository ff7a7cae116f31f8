import Verif.Text
/-
Decimal notation of numbers: Python's `str(int)` and the reading of runs of digits.
-/
namespace Docket.Decimal

def digitChar (d : Nat) : Char := Char.ofNat (48 + d)

def digitVal? (c : Char) : Option Nat :=
  if 48 ≤ c.toNat ∧ c.toNat ≤ 57 then some (c.toNat - 48) else none

/-- `str(n)` for a natural number. -/
def dec (n : Nat) : Text :=
  if n < 10 then [digitChar n] else dec (n / 10) ++ [digitChar (n % 10)]

/-- Reads digits, continuing from a value. -/
def go (acc : Nat) : Text → Option Nat
  | [] => some acc
  | c :: cs => match digitVal? c with
    | some d => go (acc * 10 + d) cs
    | none => none

/-- A non-empty run of digits. -/
def parse (t : Text) : Option Nat := if t = [] then none else go 0 t

theorem digitVal_digitChar {d : Nat} (h : d < 10) : digitVal? (digitChar d) = some d := by
  have : ∀ d : Fin 10, digitVal? (digitChar d.val) = some d.val := by decide
  exact this ⟨d, h⟩

theorem go_append (acc : Nat) (a b : Text) : go acc (a ++ b) = (go acc a).bind (fun x => go x b) := by
  induction a generalizing acc with
  | nil => rfl
  | cons c cs ih =>
    simp only [List.cons_append, go]
    cases digitVal? c with
    | none => rfl
    | some d => exact ih _

theorem go_dec (n : Nat) : go 0 (dec n) = some n := by
  induction n using Nat.strongRecOn with
  | ind n ih =>
    rw [dec]
    split
    · rename_i h
      simp [go, digitVal_digitChar h]
    · rename_i h
      rw [go_append, ih (n / 10) (by omega)]
      simp only [Option.bind_some, go, digitVal_digitChar (Nat.mod_lt n (by omega))]
      congr 1
      omega

theorem dec_ne_nil (n : Nat) : dec n ≠ [] := by
  rw [dec]; split <;> simp

theorem parse_dec (n : Nat) : parse (dec n) = some n := by
  rw [parse, if_neg (dec_ne_nil n), go_dec]

theorem dec_inj {m n : Nat} (h : dec m = dec n) : m = n := by
  have := parse_dec m
  rw [h, parse_dec] at this
  exact (Option.some.inj this).symm

/-- Every character is a digit. -/
theorem dec_digits (n : Nat) : ∀ c ∈ dec n, (digitVal? c).isSome = true := by
  induction n using Nat.strongRecOn with
  | ind n ih =>
    intro c hc
    rw [dec] at hc
    split at hc
    · rename_i h
      simp only [List.mem_singleton] at hc
      rw [hc, digitVal_digitChar h]; rfl
    · rcases List.mem_append.1 hc with hc | hc
      · exact ih _ (by omega) c hc
      · simp only [List.mem_singleton] at hc
        rw [hc, digitVal_digitChar (Nat.mod_lt n (by omega))]; rfl

theorem dec_no_char (n : Nat) {c : Char} (h : digitVal? c = none) : c ∉ dec n := by
  intro hc
  have := dec_digits n c hc
  rw [h] at this
  cases this

/-- `str(n)` for an integer. -/
def decInt : Int → Text
  | .ofNat n => dec n
  | .negSucc n => '-' :: dec (n + 1)

/-- An optional minus sign and a non-empty run of digits. -/
def parseInt : Text → Option Int
  | '-' :: t => (parse t).map (fun n : Nat => -Int.ofNat n)
  | t => (parse t).map (fun n : Nat => Int.ofNat n)

theorem parseInt_decInt (n : Int) : parseInt (decInt n) = some n := by
  cases n with
  | ofNat n =>
    have hne : ∀ t, decInt (.ofNat n) ≠ '-' :: t := by
      intro t h
      exact dec_no_char n (c := '-') (by decide) (by rw [show dec n = '-' :: t from h]; simp)
    unfold parseInt
    split
    · rename_i t h; exact absurd h (hne t)
    · show (parse (dec n)).map _ = _
      rw [parse_dec]; rfl
  | negSucc n =>
    simp only [decInt, parseInt, parse_dec, Option.map_some]
    rfl

theorem decInt_inj {m n : Int} (h : decInt m = decInt n) : m = n := by
  have := parseInt_decInt m
  rw [h, parseInt_decInt] at this
  exact (Option.some.inj this).symm

end Docket.Decimal
