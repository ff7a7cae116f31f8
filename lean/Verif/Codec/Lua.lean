import Verif.Decimal
/-
`_lua.py`: how the arguments of a script wrapper travel to the Lua locals of the script.
Lua itself appears only as far as the generated preamble needs it: `local` declarations,
`KEYS[i]`, `ARGV[i]`, `tonumber` of decimal texts and `== '1'`.  Floats are represented by
an arbitrary type with the text Python writes and C's `strtod` reads.
-/
namespace Docket.Lua

open Decimal

/-- The type in `Arg[...]`; bytes are texts here. -/
inductive Ty
  | str
  | int
  | float
  | bool
  deriving DecidableEq

/-- The annotation of a parameter of the wrapped function. -/
inductive Hint
  | redis
  | key
  | arg (t : Ty)
  | args
  | other
  deriving DecidableEq

/-- A Python value as an argument: a scalar, a dict or a list.  `F` stands for floats. -/
inductive Py (F : Type)
  | str (t : Text)
  | int (n : Int)
  | float (x : F)
  | bool (b : Bool)
  | none
  deriving DecidableEq

inductive Value (F : Type)
  | scalar (v : Py F)
  | dict (d : List (Py F × Py F))
  | list (l : List (Py F))
  deriving DecidableEq

/-- The texts of floats. -/
structure Floats (F : Type) where
  fmt : F → Text
  read : Text → Option F

/-- Python's `str(float)` always has a point, an exponent or letters, and reads back as the
same double. -/
def Floats.Faithful {F : Type} (fl : Floats F) : Prop :=
  ∀ x, parseInt (fl.fmt x) = none ∧ fl.read (fl.fmt x) = some x

/-- `_encode_scalar`, _lua.py:116-136; `none` is the `TypeError`. -/
def encodeScalar {F : Type} (fl : Floats F) : Py F → Option Text
  | .bool b => some (if b then t!"1" else t!"0")
  | .int n => some (decInt n)
  | .float x => some (fl.fmt x)
  | .str t => some t
  | .none => none

/-- `mapM` with an early exit. -/
def encodeAll {F : Type} (fl : Floats F) : List (Py F) → Option (List Text)
  | [] => some []
  | v :: vs => match encodeScalar fl v, encodeAll fl vs with
    | some t, some ts => some (t :: ts)
    | _, _ => none

/-- The elements of a variadic value in order, _lua.py:139-153 (a scalar is not accepted by
the type bounds). -/
def items {F : Type} : Value F → List (Py F)
  | .dict d => d.flatMap (fun e => [e.1, e.2])
  | .list l => l
  | .scalar _ => []

/-- `_expand_args`, _lua.py:139-153. -/
def expandArgs {F : Type} (fl : Floats F) (v : Value F) : Option (List Text) := encodeAll fl (items v)

/-- What the decorator keeps of the signature: the keys, and the other parameters, `none` for
variadic ones. -/
structure Script where
  keys : List Text
  args : List (Text × Option Ty)
  deriving DecidableEq

/-- The loop over the parameters, _lua.py:231-251: the first parameter typed as a client is
set aside; any other must be annotated. -/
def classify : Bool → List (Text × Hint) → Option (Bool × Script)
  | seen, [] => some (seen, ⟨[], []⟩)
  | seen, (n, h) :: rest =>
    match h with
    | .redis => if seen then none else classify true rest
    | .key => (classify seen rest).map (fun r => (r.1, ⟨n :: r.2.keys, r.2.args⟩))
    | .arg t => (classify seen rest).map (fun r => (r.1, ⟨r.2.keys, (n, some t) :: r.2.args⟩))
    | .args => (classify seen rest).map (fun r => (r.1, ⟨r.2.keys, (n, none) :: r.2.args⟩))
    | .other => none

/-- A variadic parameter is the last one, _lua.py:266-277. -/
def variadicLast : List (Text × Option Ty) → Bool
  | [] => true
  | (_, none) :: rest => rest.isEmpty
  | (_, some _) :: rest => variadicLast rest

/-- `redis_script` up to the preamble, _lua.py:215-277; `none` is a `TypeError`. -/
def decorate (hasBody : Bool) (sig : List (Text × Hint)) : Option Script :=
  if !hasBody then none
  else match classify false sig with
    | some (true, sc) => if sc.keys.isEmpty || !variadicLast sc.args then none else some sc
    | _ => none

/-- The right-hand side of a generated `local`. -/
inductive Expr
  /-- `KEYS[i]` -/
  | key (i : Nat)
  /-- `ARGV[i]`, `tonumber(ARGV[i])` or `ARGV[i] == '1'` -/
  | arg (t : Ty) (i : Nat)
  /-- the literal `i` -/
  | num (i : Nat)
  deriving DecidableEq

def startName (n : Text) : Text := n ++ t!"_start"

/-- The `KEYS` lines of `_generate_preamble`, _lua.py:202-204. -/
def keyLines (i : Nat) : List Text → List (Text × Expr)
  | [] => []
  | n :: ns => (n, .key i) :: keyLines (i + 1) ns

/-- The `ARGV` lines of `_generate_preamble`, _lua.py:205-212. -/
def argLines (i : Nat) : List (Text × Option Ty) → List (Text × Expr)
  | [] => []
  | (n, none) :: rest => (startName n, .num i) :: argLines i rest
  | (n, some t) :: rest => (n, .arg t i) :: argLines (i + 1) rest

def preamble (sc : Script) : List (Text × Expr) := keyLines 1 sc.keys ++ argLines 1 sc.args

/-- Values of Lua locals; integers and floats are both doubles in Lua. -/
inductive LuaVal (F : Type)
  | str (t : Text)
  | num (n : Int)
  | dbl (x : F)
  | bool (b : Bool)
  | nil
  deriving DecidableEq

/-- The double nearest to a natural number, ties to even. -/
def roundNat (n : Nat) : Nat :=
  if n < 2 ^ 53 then n
  else
    let u := 2 ^ (Nat.log2 n - 52)
    let q := n / u
    let r := n % u
    if 2 * r > u ∨ (2 * r = u ∧ q % 2 = 1) then (q + 1) * u else q * u

def toDouble : Int → Int
  | .ofNat n => Int.ofNat (roundNat n)
  | .negSucc n => -Int.ofNat (roundNat (n + 1))

/-- `tonumber` of a text as the encoder writes them. -/
def tonumber {F : Type} (fl : Floats F) (t : Text) : LuaVal F :=
  match parseInt t with
  | some n => .num (toDouble n)
  | none => match fl.read t with
    | some x => .dbl x
    | none => .nil

/-- `table[i]`, from 1. -/
def index (l : List Text) (i : Nat) : Option Text := if i = 0 then none else l[i - 1]?

def eval {F : Type} (fl : Floats F) (keys argv : List Text) : Expr → LuaVal F
  | .key i => match index keys i with
    | some t => .str t
    | none => .nil
  | .num i => .num i
  | .arg ty i => match index argv i with
    | none => match ty with
      | .bool => .bool false
      | _ => .nil
    | some t => match ty with
      | .bool => .bool (t = t!"1")
      | .int | .float => tonumber fl t
      | .str => .str t

/-- The value of a local after the preamble: the last declaration of the name counts. -/
def local? {F : Type} (fl : Floats F) (lines : List (Text × Expr)) (keys argv : List Text) (n : Text) :
    Option (LuaVal F) :=
  (lines.reverse.find? (fun l => l.1 = n)).map (fun l => eval fl keys argv l.2)

/-- `[kwargs[name] for name in key_params]`, _lua.py:293; `none` is the `KeyError`.  A key is
a text. -/
def keysOf {F : Type} (kw : Text → Option (Value F)) : List Text → Option (List Text)
  | [] => some []
  | n :: ns => match kw n, keysOf kw ns with
    | some (.scalar (.str t)), some ts => some (t :: ts)
    | _, _ => none

/-- The `ARGV` of a call, _lua.py:294-300. -/
def argvOf {F : Type} (fl : Floats F) (kw : Text → Option (Value F)) :
    List (Text × Option Ty) → Option (List Text)
  | [] => some []
  | (n, none) :: rest => match kw n with
    | some v => match expandArgs fl v, argvOf fl kw rest with
      | some ts, some r => some (ts ++ r)
      | _, _ => none
    | none => none
  | (n, some _) :: rest => match kw n with
    | some (.scalar v) => match encodeScalar fl v, argvOf fl kw rest with
      | some t, some r => some (t :: r)
      | _, _ => none
    | _ => none

/-- The call of the wrapper, _lua.py:291-301: `KEYS` and `ARGV` of the script, or an
exception. -/
def call {F : Type} (fl : Floats F) (sc : Script) (kw : Text → Option (Value F)) :
    Option (List Text × List Text) :=
  match keysOf kw sc.keys, argvOf fl kw sc.args with
  | some k, some a => some (k, a)
  | _, _ => none

end Docket.Lua
