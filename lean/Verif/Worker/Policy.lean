import Verif.Worker.Execute
/-
Which retry, perpetual and timeout policy applies to a task, among the dependencies of the worker,
of the function's parameters and of its annotations.  The rest of an execution is in
Worker/Execute.lean.
-/
namespace Docket.Execute

/-- The `Runtime` that runs the task's function, worker.py:1101-1112; without one the worker calls
the function itself. -/
def runner (w : World) : Option Val := role Val.runtime (resolve w).args

/-- `get_single_dependency_parameter_of_type`, _resolution.py:78-89, with which a worker looks for
the automatic perpetual tasks among the registered functions (worker.py:968-974): the dependency
parameters, then the annotations.  Simplification: a dependency is known by the value it is entered
with, which for the policies has the same type. -/
def declaredIn (p : Val → Bool) (f : Func) : Option Val :=
  match (f.params.filterMap (fun e => match e.2 with
      | .dep d => (match d.entered with | .value v => some v | _ => none)
      | .bareArgument => none)).find? p with
  | some v => some v
  | none => ((f.annotations.flatMap (·.2)).filterMap
      (fun d => match (d none).entered with | .value v => some v | _ => none)).find? p

end Docket.Execute
