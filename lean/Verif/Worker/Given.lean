import Verif.Worker.Execute
import Verif.Decimal
/-
The dependencies a worker is created with: `validate_worker_dependencies`
(dependencies/_resolution.py:37-68).
-/
namespace Docket.Execute

/-- What may be given where a dependency is expected: one, or some other object with the name of
its type. -/
inductive Thing
  | dependency (d : Dep)
  | other (type : String)
  deriving DecidableEq

/-- `Worker(dependencies=…)`, worker.py:267, 279: nothing, a mapping or a sequence. -/
inductive Given
  | nothing
  | mapping (items : List (String × Thing))
  | sequence (items : List Thing)

/-- Why they are refused. -/
inductive Refusal
  /-- `ValueError`, _resolution.py:54-58 -/
  | reserved (name : String)
  /-- `TypeError`, _resolution.py:60-66, with the label it names -/
  | notADependency (label : String) (type : String)
  deriving DecidableEq

/-- The items with the names they were given, _resolution.py:41-48. -/
def Given.items : Given → List (Option String × Thing)
  | .nothing => []
  | .mapping items => items.map (fun e => (some e.1, e.2))
  | .sequence items => items.map (fun t => (none, t))

/-- `f"__worker_dep_{index}__"`, _resolution.py:52. -/
def positionName (index : Nat) : String := "__worker_dep_" ++ String.ofList (Decimal.dec index) ++ "__"

/-- `f"index {index}"`, _resolution.py:61. -/
def positionLabel (index : Nat) : String := "index " ++ String.ofList (Decimal.dec index)

/-- The loop, _resolution.py:50-67. -/
def collect : Nat → List (Option String × Thing) → List (String × Dep) → Except Refusal (List (String × Dep))
  | _, [], validated => .ok validated
  | index, (given, thing) :: rest, validated =>
    match given with
    | none =>
      (match thing with
       | .dependency d => collect (index + 1) rest (put validated (positionName index) d)
       | .other type => .error (.notADependency (positionLabel index) type))
    | some name =>
      if name.startsWith "__" then .error (.reserved name)
      else
        (match thing with
         | .dependency d => collect (index + 1) rest (put validated name d)
         | .other type => .error (.notADependency name type))

/-- `validate_worker_dependencies`, _resolution.py:37-68. -/
def validate (g : Given) : Except Refusal (List (String × Dep)) := collect 0 g.items []

end Docket.Execute
