/-
Conflicts between dependencies that may be declared only once:
`detect_single_conflicts` (_resolution.py:102-159) and its use in
`Worker.validate_task_dependencies` (worker.py:352-371).
-/
namespace Docket.Single

/-- A class, by its identity. -/
abbrev Cls := Nat

/-- The classes of the program, as far as the code looks at them: the method resolution
order of each (`cls.__mro__`, which contains the class itself), restricted to the subclasses
of `Dependency` other than `Dependency` itself (_resolution.py:28-33), and the value of
the class attribute `single`, inherited or not. -/
structure Hierarchy where
  mro : Cls → List Cls
  single : Cls → Bool
  self : ∀ c, c ∈ mro c

/-- `isinstance(x, b)` for an `x` of class `c`. -/
def Hierarchy.isA (H : Hierarchy) (c b : Cls) : Bool := decide (b ∈ H.mro c)

/-- `_single_bases`, _resolution.py:24-34. -/
def singleBases (H : Hierarchy) (c : Cls) : List Cls := (H.mro c).filter H.single

/-- One declared dependency: where it was found, and its class. -/
structure Item where
  place : String
  cls : Cls
  deriving DecidableEq

/-- Insert into a Python dict of lists, keeping the order of first insertion. -/
def bump (d : List (Cls × List String)) (it : Item) : List (Cls × List String) :=
  match d with
  | [] => [(it.cls, [it.place])]
  | (c, ps) :: rest => if c = it.cls then (c, ps ++ [it.place]) :: rest else (c, ps) :: bump rest it

/-- `by_type`, _resolution.py:125-127. -/
def byType (items : List Item) : List (Cls × List String) := items.foldl bump []

/-- First half, _resolution.py:128-141: the classes reported because the very same class
occurs more than once. -/
def sameClass (H : Hierarchy) (items : List Item) : List Cls :=
  ((byType items).filter (fun e => H.single e.1 && decide (e.2.length > 1))).map (·.1)

/-- Second half, _resolution.py:143-158: the classes reported because instances of
different classes share them as a base.  `bases` is a set in the code; the order plays
no role here. -/
def shared (H : Hierarchy) (items : List Item) : List Cls :=
  let reported := sameClass H items
  let bases := (items.flatMap (fun it => singleBases H it.cls)).eraseDups
  bases.filter (fun b => !reported.contains b &&
    decide (((items.filter (fun it => H.isA it.cls b)).map (·.cls)).eraseDups.length > 1))

/-- `detect_single_conflicts`: the classes named in the conflicts, in order.  Only
whether there is one matters to the caller. -/
def detect (H : Hierarchy) (items : List Item) : List Cls := sameClass H items ++ shared H items

/-- `Worker.validate_task_dependencies`, worker.py:352-371: the verdict of the first
execution of a function is kept for the later ones.  `hasDeps` is whether the worker
has dependencies.  Returns the verdict and the new memory. -/
def validate (H : Hierarchy) (hasDeps : Bool) (memo : String → Option (List Cls)) (function : String)
    (items : List Item) : List Cls × (String → Option (List Cls)) :=
  if !hasDeps then ([], memo)
  else match memo function with
    | some c => (c, memo)
    | none =>
      let c := detect H items
      (c, fun f => if f = function then some c else memo f)

end Docket.Single
