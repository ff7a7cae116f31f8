import Verif.Text
/-
The keys under which `Cooldown`, `RateLimit`, `Debounce` and `ConcurrencyLimit` count
executions: one per task, or one per value of an annotated parameter.
-/
namespace Docket.ArgKey

/-- A value and what `str()` makes of it. -/
structure PyVal where
  id : Nat
  str : Text
  deriving DecidableEq

/-- A call of a task: the names of the task's positional parameters, its defaults, and the
arguments given. -/
structure Call where
  task : Text
  positional : List Text
  defaults : List (Text × PyVal)
  args : List PyVal
  kwargs : List (Text × PyVal)

def find (d : List (Text × PyVal)) (n : Text) : Option PyVal := (d.find? (fun e => e.1 = n)).map (·.2)

/-- Python's binding: the value the parameter has inside the task. -/
def Call.value (c : Call) (n : Text) : Option PyVal :=
  match find (c.positional.zip c.args) n with
  | some v => some v
  | none => match find c.kwargs n with
    | some v => some v
    | none => find c.defaults n

/-- `execution.kwargs.get(parameter_name, arguments.get(parameter_name))`,
_resolution.py:210-212, for a parameter that is not a dependency, and the text the limit
puts in its key: `None` when there is none. -/
def Call.bound (c : Call) (n : Text) : Text :=
  match find c.kwargs n with
  | some v => v.str
  | none => t!"None"

inductive Kind
  | cooldown
  | ratelimit
  | debounce
  deriving DecidableEq

def Kind.text : Kind → Text
  | .cooldown => t!"cooldown"
  | .ratelimit => t!"ratelimit"
  | .debounce => t!"debounce"

/-- The key of a limit on a parameter: _cooldown.py:51-55, _ratelimit.py:116-120,
_debounce.py:113-116 (the two keys of a debounce extend it by the same hash tag). -/
def paramKey (k : Kind) (scope n : Text) (c : Call) : Text :=
  scope ++ t!":" ++ k.text ++ t!":" ++ n ++ t!":" ++ c.bound n

/-- The key of a limit on a task: _cooldown.py:57, _ratelimit.py:122, _debounce.py:118-119. -/
def taskKey (k : Kind) (scope : Text) (c : Call) : Text :=
  scope ++ t!":" ++ k.text ++ t!":" ++ c.task

/-- `execution.get_argument(name)`, execution.py:623-626, as `ConcurrencyLimit` uses it:
`signature.bind` without `apply_defaults`. -/
def Call.getArgument (c : Call) (n : Text) : Option PyVal :=
  match find (c.positional.zip c.args) n with
  | some v => some v
  | none => find c.kwargs n

end Docket.ArgKey
