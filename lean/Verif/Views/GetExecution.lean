import Verif.Core.System
/-
`Docket.get_execution` (docket.py:615-689) with `Execution.sync` (execution.py:1032-1072).

The two read the record one after the other, so the model takes two states of Redis: the
one at the first HGETALL and the one at the second; anything may happen in between.
Left out: unpickling the arguments (they are opaque here), the lookup of the function in
the registry (the name is reported; a name that is not registered gets a placeholder of
that name, docket.py:656-666) and the progress (C22).
-/
namespace Docket
open Redis

/-- What a caller can read off the returned `Execution`: execution.py:511-565 and the
attributes `sync` sets, execution.py:1046-1072. -/
structure Info where
  fn : String
  args : String
  kwargs : String
  when_ : Time
  attempt : Nat
  state : RunState := .scheduled
  worker : Option WorkerName := none
  startedAt : Option Time := none
  completedAt : Option Time := none
  error : Option String := none
  resultKey : Option Key := none
  deriving DecidableEq, Repr

/-- The first read, docket.py:638-684: nothing without a record, or when the function, the
arguments or the time are missing or empty; the attempt is always 1. -/
def getDefinition (r : Redis) (k : Key) : Option Info :=
  match r.runs k with
  | none => none
  | some h =>
    match h.fn, h.args, h.kwargs with
    | some f, some a, some kw =>
      if f = "" ∨ a = "" ∨ kw = "" then none
      else match h.when_ with
        | none => none
        | some t => some { fn := f, args := a, kwargs := kw, when_ := t, attempt := 1 }
    | _, _, _ => none

/-- `Execution.sync`, execution.py:1038-1072. -/
def syncInfo (r : Redis) (k : Key) (v : Info) : Info :=
  match r.runs k with
  | some h => { v with
      state := h.state.getD v.state
      worker := h.worker
      startedAt := h.startedAt
      completedAt := h.completedAt
      error := h.error
      resultKey := h.resultKey }
  | none => { v with
      state := .scheduled
      worker := none, startedAt := none, completedAt := none, error := none, resultKey := none }

/-- `Docket.get_execution`, docket.py:615-689: `r₁` is the Redis its first read meets and
`r₂` the one that `sync` (docket.py:687) meets. -/
def getExecution (r₁ r₂ : Redis) (k : Key) : Option Info :=
  (getDefinition r₁ k).map (syncInfo r₂ k)

end Docket
