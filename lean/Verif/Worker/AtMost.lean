/-
`Worker.run_at_most` and the limits it puts on a docket: worker.py:504-542, with the part of
`Worker._execute` that asks the strike list and counts (worker.py:1017-1033), the conditions of
the strike list (strikelist.py:199, 267-274 and 345-360) and the question in `Docket.add`
(docket.py:414, likewise 524 and 566).

Several workers and clients, some of which share a `Docket` object.  Simplified: the question and
the claim of a delivery are one step (what happens between them is C44); the strikes proper are
a flag of the delivery or the addition; what a worker does with a task is left out.
-/
namespace Docket.AtMost

/-- Which `Docket` object a worker was given. -/
abbrev Cfg := Nat → Nat

/-- `iterations_by_key`, a dict. -/
abbrev Limits := List (String × Nat)

def Limits.get? (l : Limits) (k : String) : Option Nat := (l.find? (fun e => e.1 = k)).map (·.2)

/-- The condition `has_reached_max_iterations` made by a worker, with what it closes over. -/
structure Cond where
  worker : Nat
  limits : Limits
  deriving DecidableEq

/-- What happens, newest first. -/
inductive Event
  | began (w : Nat) (limits : Limits)
  | ended (w : Nat)
  | started (w : Nat) (k : String)
  /-- a delivery that is cancelled because the task is stricken -/
  | refused (w : Nat) (k : String)
  | superseded (w : Nat) (k : String)
  | accepted (d : Nat) (k : String)
  /-- an addition that is not made because the task is stricken -/
  | dropped (d : Nat) (k : String)
  deriving DecidableEq

structure Sys where
  /-- `strike_list._conditions` of each `Docket` object, apart from the strikes proper -/
  conds : Nat → List Cond := fun _ => []
  /-- `_execution_counts` of each worker -/
  counts : Nat → Limits := fun _ => []
  log : List Event := []

inductive Op
  /-- `run_at_most` is called, worker.py:524-537 -/
  | begin_ (w : Nat) (limits : Limits)
  /-- and returns, is cancelled or raises, worker.py:540-542 -/
  | finish (w : Nat)
  /-- a message for the key is executed by the worker -/
  | deliver (w : Nat) (k : String) (struck claimed : Bool)
  /-- `add`, `replace` or `schedule` on a `Docket` object -/
  | add (d : Nat) (k : String) (struck : Bool)
  deriving DecidableEq

/-- `has_reached_max_iterations`, worker.py:526-535; the count is that of the worker that made
it. -/
def reached (s : Sys) (c : Cond) (k : String) : Bool :=
  match c.limits.get? k with
  | none => false
  | some n => decide (((s.counts c.worker).get? k).getD 0 ≥ n)

/-- `is_stricken`, strikelist.py:345-360. -/
def isStricken (s : Sys) (d : Nat) (k : String) (struck : Bool) : Bool :=
  (s.conds d).any (fun c => reached s c k) || struck

/-- Whether the worker is in `run_at_most`. -/
def Sys.limiting (cfg : Cfg) (s : Sys) (w : Nat) : Bool := (s.conds (cfg w)).any (fun c => c.worker = w)

def update {α : Type} (f : Nat → α) (i : Nat) (v : α) : Nat → α := fun j => if j = i then v else f j

/-- `if key in counts: counts[key] += 1`, worker.py:1032-1033. -/
def count (l : Limits) (k : String) : Limits := l.map (fun e => if e.1 = k then (e.1, e.2 + 1) else e)

def step (cfg : Cfg) (s : Sys) : Op → Sys
  | .begin_ w limits =>
    if s.limiting cfg w then s
    else { conds := update s.conds (cfg w) (⟨w, limits⟩ :: s.conds (cfg w))
           counts := update s.counts w (limits.map (fun e => (e.1, 0)))
           log := .began w limits :: s.log }
  | .finish w =>
    if s.limiting cfg w then
      { conds := update s.conds (cfg w) ((s.conds (cfg w)).filter (fun c => c.worker ≠ w))
        counts := update s.counts w []
        log := .ended w :: s.log }
    else s
  | .deliver w k struck claimed =>
    if isStricken s (cfg w) k struck then { s with log := .refused w k :: s.log }
    else if !claimed then { s with log := .superseded w k :: s.log }
    else { s with counts := update s.counts w (count (s.counts w) k), log := .started w k :: s.log }
  | .add d k struck =>
    if isStricken s d k struck then { s with log := .dropped d k :: s.log }
    else { s with log := .accepted d k :: s.log }

def run (cfg : Cfg) (ops : List Op) : Sys := ops.foldl (step cfg) {}

end Docket.AtMost
