import Verif.Worker.Execute

/-
The counters a worker keeps of the tasks it runs (instrumentation.py:35-97, worker.py:1011-1235),
on top of the model of one execution in `Verif.Worker.Execute`, for any number of executions
under way at once and interrupted anywhere.
-/
namespace Docket.Metrics

open Docket.Execute

/-- What an execution does, one after the other: its effects, and what it adds to the
counters.  What is added without an `await` in between is one item: `began` stands for
worker.py:1040-1043 and `ended` for worker.py:1233-1234.  (A scrape from another thread can
fall in between the additions of one item.)  The histograms are left out. -/
inductive Item
  | eff (e : Eff)
  /-- `TASKS_STRICKEN`, worker.py:1023 -/
  | stricken
  /-- `TASKS_SUPERSEDED`, worker.py:1029 -/
  | superseded
  /-- `TASKS_STARTED`, `TASKS_REDELIVERED` if it was, `TASKS_RUNNING` up, worker.py:1040-1043 -/
  | began (redelivered : Bool)
  /-- `TASKS_SUCCEEDED`, worker.py:1116 -/
  | succeeded
  /-- `TASKS_FAILED`, worker.py:1176 -/
  | failed
  /-- `TASKS_RUNNING` down, `TASKS_COMPLETED`, worker.py:1233-1234 -/
  | ended
  deriving DecidableEq

def Item.eff? : Item → Option Eff
  | .eff e => some e
  | _ => none

/-- The block inside `async with resolved_dependencies(...)`, worker.py:1062-1156, with the
success counted as soon as the body has returned (1115-1116). -/
def blockItems (w : World) (args : List (String × Slot)) : List Item × Out :=
  let failures := args.filterMap (fun e => e.2.err?)
  match failures.find? Err.isBlocked with
  | some e => ([], .raised e)
  | none =>
    if failures ≠ [] then ([], .raised (.other "ExceptionGroup"))
    else
      let kwargs := finalKwargs w args
      if clash w kwargs then ([], .raised (.other "TypeError"))
      else match w.body kwargs with
        | .cancelled => ([.eff (.called kwargs)], .cancelled)
        | .raised e => ([.eff (.called kwargs)], .raised e)
        | .returned isNone =>
          let f := finish w args isNone
          (.eff (.called kwargs) :: .succeeded :: f.1.map .eff, f.2)

/-- The three `except` clauses, worker.py:1157-1230, with the failure counted first (1176). -/
def outerItems (w : World) (args : List (String × Slot)) : Out → List Item
  | .raised (.other x) => .failed :: (onError w args (.other x)).1.map .eff
  | o => (outer w args o).1.map .eff

/-- Everything between the two ends of a claimed execution, worker.py:1047-1230. -/
def middle (w : World) : List Item :=
  let r := resolve w
  let inner := if r.aborted then ([], Out.cancelled) else blockItems w r.args
  let u := unwind w.exit r.opened.reverse inner.2
  (r.opened.map (Item.eff ∘ Eff.opened)) ++ inner.1 ++ u.1.map .eff ++
    outerItems w (if r.aborted then [] else r.args) u.2

/-- `Worker._execute`, worker.py:1011-1235. -/
def items (w : World) (redelivered : Bool) : List Item :=
  if w.stricken then [.eff .cancelled, .stricken]
  else if !w.claimed then [.superseded]
  else .began redelivered :: middle w ++ [.ended]

/-- The counters, instrumentation.py:35-69 and 99-103. -/
structure Counts where
  stricken : Nat := 0
  superseded : Nat := 0
  started : Nat := 0
  redelivered : Nat := 0
  running : Int := 0
  completed : Nat := 0
  succeeded : Nat := 0
  failed : Nat := 0
  deriving DecidableEq

/-- What an item adds, worker.py:1023, 1029, 1040-1043, 1116, 1176, 1233-1234. -/
def Counts.add (c : Counts) : Item → Counts
  | .eff _ => c
  | .stricken => { c with stricken := c.stricken + 1 }
  | .superseded => { c with superseded := c.superseded + 1 }
  | .began red => { c with
      started := c.started + 1
      redelivered := if red then c.redelivered + 1 else c.redelivered
      running := c.running + 1 }
  | .succeeded => { c with succeeded := c.succeeded + 1 }
  | .failed => { c with failed := c.failed + 1 }
  | .ended => { c with running := c.running - 1, completed := c.completed + 1 }

/-- An execution, done up to some point. -/
structure Exec where
  world : World
  redelivered : Bool
  /-- oldest first -/
  past : List Item := []
  todo : List Item

def isCalled : Eff → Bool
  | .called _ => true
  | _ => false

/-- The next thing the execution does, worker.py:1011-1235. -/
def Exec.next (e : Exec) : Exec :=
  match e.todo with
  | [] => e
  | i :: rest => { e with past := e.past ++ [i], todo := rest }

/-- An exception out of the blue at an `await` (a lost connection, a cancellation of the
asyncio task), worker.py:1157-1235: before the `try` it ends the execution; after that it goes
to one of the `except` clauses, which count a failure (`fails`) unless this comes from within
that clause, and can have any effects (`effs`) but calling the function, and then `finally`
is run.  After the `finally` there is no `await` left. -/
def Exec.cut (fails : Bool) (effs : List Eff) (e : Exec) : Exec :=
  if e.todo = [] then e
  else if e.past.any (fun i => i == .began e.redelivered) then
    { e with todo := (if fails && !(e.past.contains .failed) then [.failed] else []) ++
        (effs.filter (fun x => !isCalled x)).map .eff ++ [.ended] }
  else { e with todo := [] }

/-- What happens on a worker. -/
inductive Op
  /-- a task is handed to a new asyncio task, worker.py:669-691 -/
  | deliver (w : World) (redelivered : Bool)
  /-- the `i`-th execution goes on -/
  | go (i : Nat)
  /-- the `i`-th execution is interrupted -/
  | cut (i : Nat) (fails : Bool) (effs : List Eff)

structure State where
  execs : List Exec := []
  counts : Counts := {}

def step (s : State) : Op → State
  | .deliver w red => { s with execs := s.execs ++ [{ world := w, redelivered := red, todo := items w red }] }
  | .go i => { s with
      execs := s.execs.modify i Exec.next
      counts := match s.execs[i]? with
        | none => s.counts
        | some e => match e.todo with
          | [] => s.counts
          | x :: _ => s.counts.add x }
  | .cut i fails effs => { s with execs := s.execs.modify i (Exec.cut fails effs) }

def run (ops : List Op) : State := ops.foldl step {}

end Docket.Metrics
