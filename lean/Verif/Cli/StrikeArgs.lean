import Verif.Cli.Duration
/-
`docket strike` and `docket restore` (cli/__init__.py:202-268, 300-366): the wildcards and
the typed values of the command line, cli/_support.py:156-181.
-/
namespace Docket.Cli

/-- A Python value. -/
inductive PyVal
  | none
  | str (t : Text)
  | int (n : Int)
  | bool (b : Bool)
  /-- in seconds -/
  | timedelta (s : Int)
  | other (id : Nat)
  deriving DecidableEq

/-- What a name can stand for: the types treated specially, `str` and `int`, and anything
else that can be called with a text. -/
inductive Member
  | timedelta
  | bool
  | str
  | int
  | callable (f : Text → Option PyVal)

/-- `importlib.import_module(module)` and `getattr(module, member)`; `none`: an exception. -/
abbrev Names := Text → Text → Option Member

/-- `t.rpartition(sep)` without the separator itself: what comes before the last one (empty
if there is none) and what comes after it. -/
def rpartition (sep : Char) (t : Text) : Text × Text :=
  if sep ∈ t then
    let r := t.reverse
    ((r.dropWhile (· ≠ sep)).drop 1 |>.reverse, (r.takeWhile (· ≠ sep)).reverse)
  else ([], t)

/-- `value.lower()`, for the comparison with an ASCII word. -/
def lower (t : Text) : Text := t.map Char.toLower

/-- `interpret_python_value`, cli/_support.py:162-181; the outer `none`: an exception. -/
def interpret (names : Names) : Option Text → Option PyVal
  | none => some .none
  | some text =>
    let (type, value) := rpartition ':' text
    if type = [] then some (.str value)
    else
      let (module, member) := rpartition '.' type
      match names (if module = [] then t!"builtins" else module) member with
      | none => none
      | some .timedelta => do some (.timedelta (← Cli.timedelta 0 0 (← pyInt value)))
      | some .bool => some (.bool (lower value = t!"true"))
      | some .str => some (.str value)
      | some .int => do some (.int (← pyInt value))
      | some (.callable f) => f value

/-- `handle_strike_wildcard`, cli/_support.py:156-159. -/
def wildcard (t : Text) : Option Text := if t = t!"" ∨ t = t!"*" then none else some t

/-- The call of `docket.strike` (or `docket.restore`) a command makes. -/
structure StrikeCall where
  function : Option Text
  parameter : Option Text
  operator : Text
  value : PyVal
  deriving DecidableEq

/-- The command `docket strike FUNCTION PARAMETER OPERATOR VALUE`, cli/__init__.py:202-268
(`docket restore` is the same, 300-366): `none` if it is refused. -/
def strikeCommand (names : Names) (function parameter operator : Text) (value : Option Text) : Option StrikeCall :=
  if wildcard function = none ∧ wildcard parameter = none then none
  else (interpret names value).map (fun v => ⟨wildcard function, wildcard parameter, operator, v⟩)

end Docket.Cli
