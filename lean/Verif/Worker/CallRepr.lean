import Verif.Text
import Verif.Decimal

/-!
# How a call is shown in the logs

Models `Execution.call_repr` (execution.py:628-649), `Annotation.annotated_parameters` and
`Logged.format` (annotations.py).  Subclasses of `Logged` and the cache of annotations are not
modelled (the cache is keyed by the signature, and its entries never change), except that
looking into it needs the hash of the signature.
-/

namespace Docket.CallRepr

open Docket.Decimal

/-- What `len()` and `isinstance` tell about a value, annotations.py:71-78. -/
inductive Size where
  /-- a dict or set -/
  | braces (n : Nat)
  /-- a tuple -/
  | parens (n : Nat)
  /-- anything else with a length -/
  | brackets (n : Nat)
  | unsized
  deriving DecidableEq

/-- A value as far as logging sees it: `repr` is `none` if `__repr__` raises. -/
structure Val where
  size : Size
  repr : Option Text
  deriving DecidableEq

/-- An item of the metadata of an `Annotated` type. -/
inductive Meta where
  /-- `Logged(length_only=...)` -/
  | logged (lengthOnly : Bool)
  /-- the class `Logged` itself -/
  | loggedClass
  | other
  deriving DecidableEq

/-- A parameter of a function.  `hashable`: its default value and annotation can be hashed
(`inspect.Parameter.__hash__`). -/
structure Param where
  name : Text
  posOnly : Bool := false
  metadata : List Meta := []
  hashable : Bool := true
  deriving DecidableEq

/-- A signature: Python keeps the kinds of parameters in this order. -/
structure Sig where
  pos : List Param
  /-- `*args` -/
  star : Option Param := none
  kwOnly : List Param := []
  /-- `**kwargs` -/
  stars : Option Param := none

/-- `signature.parameters.values()` -/
def Sig.params (s : Sig) : List Param := s.pos ++ s.star.toList ++ s.kwOnly ++ s.stars.toList

/-- The annotation found on a parameter (`length_only`); the last one wins,
annotations.py:27-34. -/
def Param.logged (p : Param) : Option Bool :=
  p.metadata.foldl (fun acc m => match m with
    | .logged b => some b
    | .loggedClass => some false
    | .other => acc) none

/-- `logged_parameters.get(name)`, annotations.py:13-38. -/
def Sig.loggedGet (s : Sig) (name : Text) : Option Bool := (s.params.find? (fun p => p.name = name)).bind Param.logged

/-- `Logged.format`, annotations.py:70-79; `none`: an exception. -/
def format (lengthOnly : Bool) (v : Val) : Option Text :=
  if lengthOnly then
    match v.size with
    | .braces n => some (t!"{len " ++ dec n ++ t!"}")
    | .parens n => some (t!"(len " ++ dec n ++ t!")")
    | .brackets n => some (t!"[len " ++ dec n ++ t!"]")
    | .unsized => v.repr
  else v.repr

structure Call where
  fn : Text
  key : Text
  args : List Val
  kwargs : List (Text × Val)

def allSome {α : Type} : List (Option α) → Option (List α)
  | [] => some []
  | none :: _ => none
  | some x :: l => (allSome l).map (x :: ·)

/-- A positional argument next to the parameter at its position, execution.py:636-641. -/
def posPart (s : Sig) (p : Param) (v : Val) : Option Text :=
  match s.loggedGet p.name with
  | some lo => format lo v
  | none => some t!"..."

/-- A keyword argument, execution.py:643-647. -/
def kwPart (s : Sig) (name : Text) (v : Val) : Option Text :=
  match s.loggedGet name with
  | some lo => (format lo v).map (fun t => name ++ t!"=" ++ t)
  | none => some (name ++ t!"=...")

/-- `Execution.call_repr`, execution.py:628-649.  `none`: an exception, from the hash of the
signature (annotations.py:15) or from a value. -/
def callRepr (s : Sig) (c : Call) : Option Text :=
  if s.params.all (·.hashable) then
    (allSome ((s.params.zip c.args).map (fun e => posPart s e.1 e.2) ++ c.kwargs.map (fun e => kwPart s e.1 e.2))).map
      (fun parts => c.fn ++ t!"(" ++ List.intercalate t!", " parts ++ t!"){" ++ c.key ++ t!"}")
  else none

end Docket.CallRepr
