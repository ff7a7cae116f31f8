import Verif.Limits.Rate
import Verif.Limits.Cooldown
import Verif.Limits.Debounce
/-
A task declared with several admission rules: `RateLimit`, `Cooldown`, `Debounce` and
`ConcurrencyLimit` together.  What one delivery of such a task does to all of them
(`resolved_dependencies`, dependencies/_resolution.py:158-239), which of their refusals counts
(`Worker._execute`, worker.py:1062-1076), and what becomes of the task
(`process_completed_tasks`, worker.py:694-725).

All tasks are of one function and fall under the same keys of the rules (rules that are grouped by
an argument: all tasks have the same value).  Whether a slot of the concurrency limit is free is
left open: it is part of each delivery.
-/
namespace Docket.Gates

/-- An admission rule with its settings. -/
inductive Kind
  /-- `RateLimit(limit, per=…, drop=…)`, _ratelimit.py:85-98 -/
  | rate (cfg : Rate.Cfg) (drop : Bool)
  /-- `Cooldown(window)`, _cooldown.py:35-38, the window in microseconds -/
  | cooldown (us : Nat)
  /-- `Debounce(settle)`, _debounce.py:97-101, in milliseconds -/
  | debounce (settle : Nat)
  /-- `ConcurrencyLimit(…)`, _concurrency.py:481-498 -/
  | slot

/-- A rule of the function, and the parameter it is declared on. -/
structure Rule where
  param : Nat
  kind : Kind

/-- What a rule keeps in Redis. -/
structure Mem where
  lim : Rate.Lim := {}
  cool : Cooldown.St := {}
  deb : Debounce.St := {}

/-- A rule's answer: the exception it raises on entering, if any (`AdmissionBlocked` with its
`reschedule`, `retry_delay` and `handled`, _base.py:53-85). -/
inductive Answer
  | pass
  | comeBack (delay : Nat)
  | drop
  | wait
  /-- an error of Redis, which is not an `AdmissionBlocked` -/
  | error
  deriving DecidableEq, Repr

/-- `RateLimit.__aenter__`, _ratelimit.py:112-157. -/
def rateAnswer (drop : Bool) : Rate.Outcome → Answer
  | .proceed => .pass
  | .blocked d => if drop then .drop else .comeBack d
  | .scriptError => .error

/-- `Cooldown.__aenter__`, _cooldown.py:61-73. -/
def coolAnswer : Cooldown.Outcome → Answer
  | .admitted => .pass
  | .dropped => .drop
  | .redisError => .error

/-- `Debounce.__aenter__`, _debounce.py:133-158. -/
def debAnswer : Debounce.Outcome → Answer
  | .proceed => .pass
  | .reschedule d => .comeBack d
  | .drop => .drop
  | .redisError => .error

/-- Entering a rule for the task `k`, whose worker reads `now` from its clock, when Redis's clock
shows `clock`; `free` says whether the concurrency limit has a slot for it. -/
def enter (clock : Nat) (free : Bool) (k : Key) (now : Nat) (kind : Kind) (g : Mem) : Mem × Answer :=
  match kind with
  | .rate cfg drop =>
    let out := Rate.script cfg { g.lim with clock := clock } (k, now) now
    ({ g with lim := out.1 }, rateAnswer drop out.2)
  | .cooldown us =>
    let out := Cooldown.attempt { g.cool with clock := clock } "" us
    ({ g with cool := out.1 }, coolAnswer out.2)
  | .debounce settle =>
    let out := Debounce.script settle { g.deb with clock := clock } k now
    ({ g with deb := out.1 }, debAnswer out.2)
  | .slot => (g, if free then .pass else .wait)

/-- Assignment to a dictionary: a name that is there already keeps its place. -/
def put (d : List (Nat × Answer)) (p : Nat) (a : Answer) : List (Nat × Answer) :=
  if d.any (fun e => e.1 = p) then d.map (fun e => if e.1 = p then (p, a) else e) else d ++ [(p, a)]

/-- The failed dependencies by parameter: all rules are entered, whatever the earlier ones said,
and a later failure on the same parameter replaces an earlier one (_resolution.py:177-224). -/
def failures (as : List (Nat × Answer)) : List (Nat × Answer) :=
  as.foldl (fun d a => if a.2 = .pass then d else put d a.1 a.2) []

/-- What becomes of a delivery. -/
inductive Verdict
  /-- the function is called -/
  | runs
  /-- the task is scheduled again, worker.py:706-714 -/
  | comesBack (delay : Nat)
  /-- the task is marked cancelled, worker.py:715-721 -/
  | dropped
  /-- the task waits for a slot, worker.py:701-705 -/
  | waits
  /-- the task fails: a dependency could not be resolved, worker.py:1078-1091 -/
  | fails
  deriving DecidableEq, Repr

/-- The first `AdmissionBlocked` among the failures is raised; without one, any failure makes the
task fail (worker.py:1062-1091). -/
def verdict : List (Nat × Answer) → Verdict
  | [] => .runs
  | (_, .comeBack d) :: _ => .comesBack d
  | (_, .drop) :: _ => .dropped
  | (_, .wait) :: _ => .waits
  | _ :: fs => match verdict fs with
    | .runs => .fails
    | v => v

/-- What really becomes of a task that a concurrency limit has put among the waiting ones: whatever
is raised, it waits.  Marking it cancelled or failed does nothing then, because waiting has made its
record newer than the execution (`_terminal`, execution.py:339-367); only scheduling it again does
something (`_schedule`, execution.py:106-158, does not ask whether the message was still there): it
comes back even if no slot is free by then. -/
def fate (as : List (Nat × Answer)) : Verdict :=
  match verdict (failures as) with
  | .comesBack d => .comesBack d
  | v => if as.any (fun a => a.2 = .wait) then .waits else v

/-- The verdict is an `AdmissionBlocked`. -/
def Verdict.refused : Verdict → Bool
  | .comesBack _ | .dropped | .waits => true
  | .runs | .fails => false

/-- `RateLimit.__aexit__`, _ratelimit.py:159-170: a task that was let through by the rate limit and
turned away by another rule gives its place back. -/
def exit (k : Key) (now : Nat) (v : Verdict) (kind : Kind) (g : Mem × Answer) : Mem :=
  match kind with
  | .rate _ _ => if v.refused ∧ g.2 = .pass then { g.1 with lim := Rate.zrem g.1.lim (k, now) } else g.1
  | _ => g.1

/-- A delivery, as it is remembered: the task, the time, and what became of it (history, not
Redis). -/
structure Entry where
  key : Key
  time : Nat
  verdict : Verdict
  deriving DecidableEq, Repr

/-- Redis's clock, the rules in the order in which they are entered, with what they keep, and the
deliveries so far, newest first. -/
structure St where
  clock : Nat := 0
  rules : List (Rule × Mem)
  log : List Entry := []

def start (rules : List Rule) : St := { rules := rules.map (fun r => (r, {})) }

inductive Op
  | tick (d : Nat)
  /-- a worker takes the task up: for the first time, or again after it came back, was woken,
  failed and is retried, or was redelivered -/
  | deliver (k : Key) (free : Bool)
  deriving DecidableEq, Repr

/-- What the rules answer to a delivery, by parameter.  Clocks are in step: the worker's shows what
Redis's shows. -/
def answers (s : St) (k : Key) (free : Bool) : List (Nat × Answer) :=
  s.rules.map (fun c => (c.1.param, (enter s.clock free k s.clock c.1.kind c.2).2))

/-- One step.  The rules are left with what was raised. -/
def step (s : St) : Op → St
  | .tick d => { s with clock := s.clock + d }
  | .deliver k free =>
    { s with
      rules := s.rules.map (fun c => (c.1,
        exit k s.clock (verdict (failures (answers s k free))) c.1.kind
          (enter s.clock free k s.clock c.1.kind c.2)))
      log := ⟨k, s.clock, fate (answers s k free)⟩ :: s.log }

def runFrom (s : St) (ops : List Op) : St := ops.foldl step s
def run (rules : List Rule) (ops : List Op) : St := runFrom (start rules) ops

theorem runFrom_append (s : St) (a b : List Op) : runFrom s (a ++ b) = runFrom (runFrom s a) b := by
  simp [runFrom]

end Docket.Gates
