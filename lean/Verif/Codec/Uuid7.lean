import Verif.Text
/-
`_uuid7.py`: the generator of default task keys (the vendored version, used before Python
3.14).  The clock and the random bytes are inputs.
-/
namespace Docket.Uuid7

/-- `sixteen_secs`, _uuid7.py:64, in nanoseconds. -/
def sixteen : Nat := 16000000000

/-- The module-level `_last`, _uuid7.py:27. -/
structure Last where
  t1 : Nat
  t2 : Nat
  t3 : Nat
  seq : Nat
  deriving DecidableEq

def start : Last := ⟨0, 0, 0, 0⟩

/-- The three time fields, _uuid7.py:65-68. -/
def split (ns : Nat) : Nat × Nat × Nat :=
  let rest1 := ns % sixteen
  let rest2 := (rest1 <<< 16) % sixteen
  (ns / sixteen, (rest1 <<< 16) / sixteen, ((rest2 <<< 12) / sixteen) ||| (7 <<< 12))

/-- The sequence counter, _uuid7.py:73-83. -/
def bump (l : Last) (ns : Nat) : Last :=
  let t := split ns
  if t.1 = l.t1 ∧ t.2.1 = l.t2 ∧ t.2.2 = l.t3 then
    if l.seq < 0x3FFF then { l with seq := l.seq + 1 } else l
  else ⟨t.1, t.2.1, t.2.2, 0⟩

/-- The number, _uuid7.py:84-91, from the fields and the six random bytes. -/
def number (l : Last) (r : Nat) : Nat :=
  (l.t1 <<< 96) + (l.t2 <<< 80) + (l.t3 <<< 64) + (((2 <<< 14) ||| l.seq) <<< 48) + r

def hexDigit (d : Nat) : Char := if d < 10 then Char.ofNat (48 + d) else Char.ofNat (87 + d)

/-- `%0wx`. -/
def hex : Nat → Nat → Text
  | 0, _ => []
  | w + 1, n => hexDigit (n / 16 ^ w) :: hex w (n % 16 ^ w)

def hyphen (i : Nat) (t : Text) : Text := t.take i ++ '-' :: t.drop i

/-- `str(uuid.UUID(int=n))`: 32 hexadecimal digits with four hyphens. -/
def text (n : Nat) : Text := hyphen 23 (hyphen 18 (hyphen 13 (hyphen 8 (hex 32 n))))

/-- A sequence of calls of `str(uuid7())`, each with its clock reading and random bytes;
`none` is the `ValueError` of a number that has more than 128 bits. -/
def keys (l : Last) : List (Nat × Nat) → List (Option Text)
  | [] => []
  | (ns, r) :: rest =>
    let l' := bump l ns
    (if number l' r < 2 ^ 128 then some (text (number l' r)) else none) :: keys l' rest

end Docket.Uuid7
