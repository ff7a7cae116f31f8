import Verif.Text

/-!
# What a dependency that asks for a task argument gets

Models `Execution.get_argument` (execution.py:623-626), `_TaskArgument` (_contextual.py:92-108),
`_Depends._resolve_parameters` (_functional.py:36-51), the dependency parameters in
`resolved_dependencies` (_resolution.py:177-206) and the call of the task
(worker.py:1064-1112).

Not modelled: positional-only parameters, annotation dependencies and exit stacks (for these see
Verif/Worker/Execute.lean).  `_Depends.__aenter__` and the cache of one execution belong to the
`uncalled_for` package, whose source is not in /repo; they are modelled as: look the function up
in the cache, else resolve its parameters, call it and remember the value.
-/

namespace Docket.TaskArg

/-- A `TaskArgument(parameter, optional)` object, _contextual.py:92-98. -/
structure Obj where
  parameter : Option Text := none
  optional : Bool := false
  deriving DecidableEq

/-- `not dependency.parameter`: no name, or an empty one, _functional.py:46. -/
def Obj.missing (o : Obj) : Bool := o.parameter = none || o.parameter = some []

/-- The `TaskArgument` objects of the process.  They are default values of functions, so every
execution sees the same objects. -/
abbrev Heap := Nat → Obj

/-- A dependency used as a default value: a `TaskArgument` object, `Depends(function)`, or any
other dependency with the value entering it gives. -/
inductive Dep (α : Type) where
  | arg (o : Nat)
  | depends (f : Nat)
  | plain (v : α)
  deriving DecidableEq

/-- The default of a parameter. -/
inductive Default (α : Type) where
  | required
  | value (v : α)
  | dep (d : Dep α)
  deriving DecidableEq

structure Param (α : Type) where
  name : Text
  default : Default α := .required
  deriving DecidableEq

/-- A signature. -/
structure Sig (α : Type) where
  pos : List (Param α)
  /-- `*args` -/
  star : Option Text := none
  kwOnly : List (Param α) := []
  /-- `**kwargs` -/
  stars : Option Text := none

def find {β : Type} (d : List (Text × β)) (n : Text) : Option β := (d.find? (fun e => e.1 = n)).map (·.2)

/-- `get_dependency_parameters(function)`: the parameters whose default is a dependency. -/
def Sig.depParams {α : Type} (s : Sig α) : List (Text × Dep α) :=
  (s.pos ++ s.kwOnly).filterMap (fun p => match p.default with
    | .dep d => some (p.name, d)
    | _ => none)

/-- An execution and everything it meets. -/
structure World (α : Type) where
  /-- the task -/
  sig : Sig α
  args : List α
  kwargs : List (Text × α)
  /-- the dependencies of the worker -/
  worker : List (Dep α) := []
  /-- the dependency parameters of the dependency functions -/
  factories : Nat → List (Text × Dep α)
  /-- what a dependency function makes of its arguments; `none`: it raises -/
  make : Nat → List (Text × α) → Option α
  /-- the value `None` -/
  none : α
  /-- a tuple and a dict of values -/
  tuple : List α → α
  dict : List (Text × α) → α
  /-- the `TaskArgument` objects, with the parameters they stand at, that other executions
  enter before and between the steps of this one -/
  others : Nat → List (Text × Nat) := fun _ => []
  /-- how deep Python lets calls nest -/
  depth : Nat := 100

/-! ### Binding -/

/-- The keyword part of `Signature.bind`: parameters that no positional argument reached. -/
def bindKw {α : Type} (kwargs : List (Text × α)) : List (Param α) → Option (List (Text × α))
  | [] => some []
  | p :: ps => match find kwargs p.name with
    | some v => (bindKw kwargs ps).map ((p.name, v) :: ·)
    | none => match p.default with
      | .required => none
      | _ => bindKw kwargs ps

/-- The positional part of `Signature.bind`. -/
def bindPos {α : Type} (w : World α) (kwargs : List (Text × α)) : List (Param α) → List α → Option (List (Text × α))
  | [], [] => bindKw kwargs w.sig.kwOnly
  | [], a :: as => match w.sig.star with
    | none => none
    | some n => (bindKw kwargs w.sig.kwOnly).map ((n, w.tuple (a :: as)) :: ·)
  | p :: ps, [] => bindKw kwargs (p :: ps ++ w.sig.kwOnly)
  | p :: ps, a :: as => match find kwargs p.name with
    | some _ => none
    | none => (bindPos w kwargs ps as).map ((p.name, a) :: ·)

/-- The keyword arguments that no parameter is named after. -/
def extra {α : Type} (s : Sig α) (kwargs : List (Text × α)) : List (Text × α) :=
  kwargs.filter (fun e => ! (s.pos ++ s.kwOnly).any (fun p => p.name = e.1))

/-- `signature.bind(*args, **kwargs).arguments`; `none`: a `TypeError`. -/
def bind {α : Type} (w : World α) (kwargs : List (Text × α)) : Option (List (Text × α)) :=
  match bindPos w kwargs w.sig.pos w.args with
  | none => none
  | some b => match extra w.sig kwargs, w.sig.stars with
    | [], _ => some b
    | _ :: _, none => none
    | e :: es, some n => some (b ++ [(n, w.dict (e :: es))])

/-! ### Resolving -/

/-- What one execution changes: the objects, the values its dependency functions gave, and a
clock for what other executions do in between. -/
structure St (α : Type) where
  heap : Heap
  cache : List (Nat × α) := []
  clock : Nat := 0

/-- `dependency.parameter = parameter` for a `TaskArgument` without a name,
_functional.py:46-47. -/
def infer (n : Text) (o : Nat) (h : Heap) : Heap :=
  if (h o).missing then fun o' => if o' = o then { h o with parameter := some n } else h o' else h

/-- `infer`, for whatever dependency stands at a parameter. -/
def inferAt {α : Type} (n : Text) (d : Dep α) (h : Heap) : Heap :=
  match d with
  | .arg o => infer n o h
  | _ => h

/-- Other executions of the process get to run. -/
def meanwhile {α : Type} (w : World α) (s : St α) : St α :=
  { s with heap := (w.others s.clock).foldl (fun h e => infer e.1 e.2 h) s.heap, clock := s.clock + 1 }

/-- `_TaskArgument.__aenter__`, _contextual.py:100-108, with `Execution.get_argument`,
execution.py:623-626; `none`: an exception. -/
def enterArg {α : Type} (w : World α) (o : Obj) : Option α :=
  match o.parameter with
  | none => none
  | some p => match bind w w.kwargs with
    | none => none
    | some b => match find b p with
      | some v => some v
      | none => if o.optional then some w.none else none

/-- `_Depends._resolve_parameters`, _functional.py:36-51; `enter` enters one dependency. -/
def resolveParams {α : Type} (w : World α) (enter : Dep α → St α → Option α × St α) :
    List (Text × Dep α) → St α → Option (List (Text × α)) × St α
  | [], s => (some [], s)
  | (n, d) :: ps, s =>
    match enter d { meanwhile w s with heap := inferAt n d (meanwhile w s).heap } with
    | (none, s) => (none, s)
    | (some v, s) => match resolveParams w enter ps s with
      | (none, s) => (none, s)
      | (some vs, s) => (some ((n, v) :: vs), s)

/-- Entering a dependency, `stack.enter_async_context(dependency)`; the number is how much
deeper calls may nest. -/
def enter {α : Type} (w : World α) : Nat → Dep α → St α → Option α × St α
  | _, .plain v, s => (some v, s)
  | _, .arg o, s => (enterArg w (s.heap o), s)
  | 0, .depends _, s => (none, s)
  | depth + 1, .depends f, s => match s.cache.find? (fun e => e.1 = f) with
    | some e => (some e.2, s)
    | none => match resolveParams w (enter w depth) (w.factories f) s with
      | (none, s) => (none, s)
      | (some vs, s) => match w.make f vs with
        | none => (none, s)
        | some v => (some v, { s with cache := (f, v) :: s.cache })

/-- The dependencies of the worker, _resolution.py:177-182; false: one of them failed. -/
def resolveWorker {α : Type} (w : World α) : List (Dep α) → St α → Bool × St α
  | [], s => (true, s)
  | d :: ds, s =>
    match enter w w.depth d (meanwhile w s) with
    | (v, s) => match resolveWorker w ds s with
      | (ok, s) => (v.isSome && ok, s)

/-- One dependency parameter of the task, _resolution.py:186-206: a value passed by keyword
wins, and a `TaskArgument` without a name fails. -/
def resolveParam {α : Type} (w : World α) (n : Text) (d : Dep α) (s : St α) : Option α × St α :=
  match find w.kwargs n with
  | some v => (some v, s)
  | none => match d with
    | .arg o => if ((meanwhile w s).heap o).missing then (none, meanwhile w s) else enter w w.depth d (meanwhile w s)
    | _ => enter w w.depth d (meanwhile w s)

/-- The dependency parameters of the task, _resolution.py:184-206.  A failure does not stop the
others from being resolved; `none`: there was one. -/
def resolveTask {α : Type} (w : World α) : List (Text × Dep α) → St α → Option (List (Text × α)) × St α
  | [], s => (some [], s)
  | (n, d) :: ps, s =>
    match resolveParam w n d s with
    | (v, s) => match resolveTask w ps s with
      | (vs, s) => match v, vs with
        | some v, some vs => (some ((n, v) :: vs), s)
        | _, _ => (none, s)

/-! ### The call -/

/-- Python dict assignment. -/
def put {β : Type} (d : List (Text × β)) (k : Text) (v : β) : List (Text × β) :=
  match d with
  | [] => [(k, v)]
  | e :: d => if e.1 = k then (k, v) :: d else e :: put d k v

/-- `{**a, **b}`, worker.py:1099. -/
def union {β : Type} (a b : List (Text × β)) : List (Text × β) := b.foldl (fun d e => put d e.1 e.2) a

/-- The parameters a call leaves at their default.  (A dependency as a value cannot happen: the
worker passes every dependency parameter.) -/
def defaults {α : Type} (s : Sig α) (b : List (Text × α)) : List (Text × α) :=
  (s.pos ++ s.kwOnly).filterMap (fun p => match find b p.name, p.default with
    | none, .value v => some (p.name, v)
    | _, _ => none)

/-- Python's call of the task: what every parameter is inside it; `none`: a `TypeError`. -/
def call {α : Type} (w : World α) (kwargs : List (Text × α)) : Option (List (Text × α)) :=
  (bind w kwargs).map (fun b => b ++ defaults w.sig b ++
    (w.sig.star.toList.filter (fun n => (find b n).isNone)).map (fun n => (n, w.tuple [])) ++
    (w.sig.stars.toList.filter (fun n => (find b n).isNone)).map (fun n => (n, w.dict [])))

/-- What the parameters of the task are when its body runs, worker.py:1064-1112; `none`: the
body does not run.  `heap`: the `TaskArgument` objects as they were created. -/
def body {α : Type} (w : World α) (heap : Heap) : Option (List (Text × α)) :=
  match resolveWorker w w.worker { heap := heap } with
  | (false, _) => none
  | (true, s) => match resolveTask w w.sig.depParams s with
    | (none, _) => none
    | (some deps, _) => call w (union w.kwargs deps)

end Docket.TaskArg
