import Verif.Text

/-!
# The list of tasks a worker writes when it starts

Models `compact_signature` (execution.py:1164-1190), `Worker._startup_log` (worker.py:1237-1240)
and the beginning of `Worker._run` (worker.py:544-553).

Not modelled: `get_signature` itself (of the `uncalled_for` package), what `repr` of a default
value does (its text is given, so a `repr` that raises is left out), and the logging handlers.
-/

namespace Docket.Startup

/-- The annotation of a parameter, as far as `compact_signature` looks at it
(execution.py:1174-1179).  The name of a type is `getattr(annotation, "__name__", str(annotation))`.
* `plain`: without `__origin__`: a class, a text, `int | None`;
* `annotated`: `Annotated[int, …]`, whose `__args__` hold the type `int` alone;
* `generic`: any other type with `__origin__` and `__args__`, such as `dict[str, int]`, with its own
  name and the names of the arguments; `tuple[()]` has none;
* `bare`: `typing.Dict` and the like without brackets: `__origin__`, but no `__args__`. -/
inductive Ann
  | plain (name : Text)
  | annotated (inner : Text)
  | generic (name : Text) (args : List Text)
  | bare (name : Text)
  deriving DecidableEq

/-- The default of a parameter: none, a value with its `repr`, or a dependency. -/
inductive Default
  | empty
  | value (repr : Text)
  | dependency
  deriving DecidableEq

/-- An `inspect.Parameter`. -/
structure Param where
  name : Text
  ann : Option Ann := none
  default : Default := .empty
  deriving DecidableEq

abbrev Sig := List Param

/-- What stops `compact_signature`: `annotation.__args__` is missing, or is empty. -/
inductive Error
  | attributeError
  | indexError
  deriving DecidableEq

/-- `type_name`, execution.py:1175-1179. -/
def typeName : Ann → Except Error Text
  | .plain n => .ok n
  | .annotated n => .ok n
  | .generic _ [] => .error .indexError
  | .generic _ (a :: _) => .ok a
  | .bare _ => .error .attributeError

/-- `parameter_definition` with the annotation, execution.py:1172-1180. -/
def withType (p : Param) : Except Error Text :=
  match p.ann with
  | none => .ok p.name
  | some a =>
    match typeName a with
    | .ok t => .ok (p.name ++ t!": " ++ t)
    | .error e => .error e

/-- `parameter_definition` with the default, execution.py:1182-1183. -/
def withDefault (p : Param) (d : Text) : Text :=
  match p.default with
  | .value r => d ++ t!" = " ++ r
  | _ => d

/-- `", ".join`, execution.py:1190. -/
def join : List Text → Text
  | [] => []
  | [x] => x
  | x :: y :: l => x ++ t!", " ++ join (y :: l)

/-- The loop over the parameters, execution.py:1168-1185, with `parameters` and `dependencies`. -/
def loop : Sig → List Text → Nat → Except Error (List Text × Nat)
  | [], parameters, dependencies => .ok (parameters, dependencies)
  | p :: l, parameters, dependencies =>
    if p.default = .dependency then loop l parameters (dependencies + 1)
    else
      match withType p with
      | .error e => .error e
      | .ok d => loop l (parameters ++ [withDefault p d]) dependencies

/-- `compact_signature`, execution.py:1164-1190. -/
def compactSignature (s : Sig) : Except Error Text :=
  match loop s [] 0 with
  | .error e => .error e
  | .ok (parameters, dependencies) =>
    .ok (join (if dependencies > 0 then parameters ++ [t!"..."] else parameters))

/-- The loop of `_startup_log` over `docket.tasks`, worker.py:1239-1240: the lines written so far,
and the exception if one is raised. -/
def logTasks : List (Text × Sig) → List Text → List Text × Option Error
  | [], written => (written, none)
  | (name, sig) :: l, written =>
    match compactSignature sig with
    | .error e => (written, some e)
    | .ok text => logTasks l (written ++ [t!"* " ++ name ++ t!"(" ++ text ++ t!")"])

/-- `_startup_log`, worker.py:1237-1240. -/
def startupLog (worker : Text) (tasks : List (Text × Sig)) : List Text × Option Error :=
  logTasks tasks [t!"Starting worker '" ++ worker ++ t!"' with the following tasks:"]

/-- How far `_run` gets, worker.py:544-553: `_startup_log` is outside the `try`, so an exception
in it ends `_run`; else the connection is opened and the worker's loop entered. -/
structure Started where
  log : List Text
  raised : Option Error
  serving : Bool
  deriving DecidableEq

/-- `_run` up to the worker's loop, worker.py:544-553. -/
def start (worker : Text) (tasks : List (Text × Sig)) : Started :=
  match startupLog worker tasks with
  | (log, some e) => ⟨log, some e, false⟩
  | (log, none) => ⟨log, none, true⟩

end Docket.Startup
