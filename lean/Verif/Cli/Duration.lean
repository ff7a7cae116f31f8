import Verif.Decimal

/-!
# Durations on the command line

Models `duration` (cli/_support.py:73-105) for text arguments.  The result is a number of
seconds, `none` an exception.

Simplification: `int` reads ASCII digits and trims ASCII white space only; Python also takes
other Unicode digits and spaces.
-/

namespace Docket.Cli
open Decimal

/-- `t.split(sep)` for one character. -/
def splitOn (sep : Char) : Text → List Text
  | [] => [[]]
  | c :: cs =>
    if c = sep then [] :: splitOn sep cs
    else match splitOn sep cs with
      | [] => [[c]]
      | p :: ps => (c :: p) :: ps

/-- White space that `int` trims. -/
def isSpace (c : Char) : Bool := c = ' ' || (9 ≤ c.toNat && c.toNat ≤ 13) || (28 ≤ c.toNat && c.toNat ≤ 31)

def strip (t : Text) : Text := ((t.dropWhile isSpace).reverse.dropWhile isSpace).reverse

/-- A natural number as `int` reads it: groups of digits separated by single underscores, at most
4300 digits in all (`sys.int_info.default_max_str_digits`). -/
def pyNat (t : Text) : Option Nat :=
  if (splitOn '_' t).any (· = []) then none
  else if 4300 < (splitOn '_' t).flatten.length then none
  else parse (splitOn '_' t).flatten

/-- `int(t)`. -/
def pyInt (t : Text) : Option Int :=
  match strip t with
  | '-' :: ds => (pyNat ds).map (fun n : Nat => - Int.ofNat n)
  | '+' :: ds => (pyNat ds).map Int.ofNat
  | ds => (pyNat ds).map Int.ofNat

/-- `timedelta(hours=h, minutes=m, seconds=s)` in seconds; `none` is the `OverflowError` outside
of plus or minus 999999999 days. -/
def timedelta (h m s : Int) : Option Int :=
  let n := 3600 * h + 60 * m + s
  if -86399999913600 ≤ n ∧ n ≤ 86399999999999 then some n else none

/-- The two results of `t.endswith(c)` and `t[:-1]`. -/
def unsuffix (c : Char) (t : Text) : Option Text := if t.getLast? = some c then some t.dropLast else none

/-- `duration`, cli/_support.py:85-105. -/
def duration (t : Text) : Option Int :=
  if ':' ∈ t then
    match splitOn ':' t with
    | [m, s] => do timedelta 0 (← pyInt m) (← pyInt s)
    | [h, m, s] => do timedelta (← pyInt h) (← pyInt m) (← pyInt s)
    | _ => none
  else if let some d := unsuffix 's' t then do timedelta 0 0 (← pyInt d)
  else if let some d := unsuffix 'm' t then do timedelta 0 (← pyInt d) 0
  else if let some d := unsuffix 'h' t then do timedelta (← pyInt d) 0 0
  else do timedelta 0 0 (← pyInt t)

end Docket.Cli
