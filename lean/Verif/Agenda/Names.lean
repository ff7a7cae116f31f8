import Verif.Agenda.Model
/-
Names of tasks: under which name a task is sent through Redis and which function a worker
calls for it.  One queue shared by any number of processes, each with its own registry;
times, generations and limits are left out.
-/
namespace Docket.Names

open Agenda

/-- A queued message, with the name and function the user scheduled it with. -/
structure Msg where
  key : Text
  name : Text
  wantedName : Text
  wanted : Fn
  deriving DecidableEq

/-- A run: what was called for the message; `none` is the default fallback task, which drops
it (worker.py:137-148). -/
structure Ran where
  worker : Nat
  msg : Msg
  called : Option Fn
  deriving DecidableEq

structure Sys where
  tasks : Nat → Registry
  queue : List Msg
  log : List Ran

def Sys.init : Sys := ⟨fun _ _ => none, [], []⟩

/-- What follows a run. -/
inductive Outcome
  | done
  /-- `execution.schedule(...)` of the same execution: retries and postponed executions -/
  | retry
  /-- `Perpetual.on_complete`, dependencies/_perpetual.py:135: `docket.replace(execution.function, ...)` -/
  | again
  deriving DecidableEq

inductive Op
  | register (w : Nat) (f : Fn) (names : List Text)
  | addName (w : Nat) (n key : Text)
  | addFn (w : Nat) (f : Fn) (key : Text)
  /-- `Agenda.scatter` of an entry added by name -/
  | scatterName (w : Nat) (n key : Text)
  | run (w : Nat) (key : Text) (o : Outcome)
  deriving DecidableEq

def setReg (t : Nat → Registry) (w : Nat) (r : Registry) : Nat → Registry := fun v => if v = w then r else t v

/-- `docket.add`/`docket.replace` with a function: docket.py:397-398, 520-521. -/
def pushFn (s : Sys) (w : Nat) (f : Fn) (key wantedName : Text) (wanted : Fn) : Sys :=
  { s with
    tasks := setReg s.tasks w (Agenda.register (s.tasks w) f [])
    queue := s.queue ++ [⟨key, f.name, wantedName, wanted⟩] }

/-- What happens to a message after its run by a worker that knows its function. -/
def follow (s : Sys) (w : Nat) (m : Msg) (f : Fn) : Outcome → Sys
  | .done => s
  | .retry => { s with queue := s.queue ++ [m] }
  | .again => pushFn s w f m.key m.wantedName m.wanted

def step (s : Sys) : Op → Sys
  | .register w f names => { s with tasks := setReg s.tasks w (Agenda.register (s.tasks w) f names) }
  | .addName w n key => match s.tasks w n with
    | some f => { s with queue := s.queue ++ [⟨key, n, n, f⟩] }
    | none => s
  | .addFn w f key => pushFn s w f key f.name f
  | .scatterName w n key => match s.tasks w n with
    | some f => pushFn s w f key n f
    | none => s
  | .run w key o => match s.queue.find? (fun m => m.key = key) with
    | none => s
    | some m =>
      match s.tasks w m.name with
      | none => { s with
          queue := s.queue.erase m
          log := s.log ++ [⟨w, m, none⟩] }
      | some f => follow { s with
          queue := s.queue.erase m
          log := s.log ++ [⟨w, m, some f⟩] } w m f o

def run (ops : List Op) : Sys := ops.foldl step Sys.init

end Docket.Names
