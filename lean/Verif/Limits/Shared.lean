import Verif.Limits.Rate
/-
A `RateLimit` whose task is turned away by another rule gives its place back when it is left.  Which
place that is, it looks up in itself: `__aenter__` writes the member it has added into the object
(_ratelimit.py:143-146), `__aexit__` removes the member it finds there (159-170).

A `RateLimit` declared as a default is one object for all executions in a process
(_resolution.py:177-197 enters the default itself); declared as an annotation, each execution gets an
object of its own (`bind_to_parameter`, _ratelimit.py:106-110, called at _resolution.py:212-222).
Executions overlap: a worker runs several at once, and other dependencies are entered between a rate
limit's entering and leaving.
-/
namespace Docket.Shared
open Rate (Cfg Lim Member)

/-- How the rate limit is declared. -/
inductive Style
  /-- `rate: RateLimit = RateLimit(…)` -/
  | default
  /-- `customer: Annotated[int, RateLimit(…)]` (executions with the same value) -/
  | annotated
  deriving DecidableEq, Repr

/-- An execution that was let through: the process it is in, its key, and when it was. -/
structure Exec where
  process : String
  key : Key
  time : Nat
  deriving DecidableEq, Repr

/-- `member = f"{execution.key}:{now_ms}"`, _ratelimit.py:127. -/
def Exec.member (x : Exec) : Member := (x.key, x.time)

/-- The limit's key in Redis; what is written in each process's shared object; the executions that
were let through and have not been left yet; those that were let through and not turned away later,
left or not (history); and all attempts (history). -/
structure St where
  clock : Nat := 0
  lim : Lim := {}
  object : String → Option Member := fun _ => none
  inside : List Exec := []
  started : List Exec := []
  attempts : List Member := []

inductive Op
  | tick (d : Nat)
  /-- `RateLimit.__aenter__` of an execution of the task `k` in a process, _ratelimit.py:112-157 -/
  | enter (process : String) (k : Key)
  /-- `RateLimit.__aexit__` of an execution, _ratelimit.py:159-170: because another rule has turned
  the task away (`turned`), or after it has run or failed -/
  | leave (x : Exec) (turned : Bool)
  deriving DecidableEq, Repr

/-- The script's answer to an attempt.  Clocks are in step. -/
def answer (cfg : Cfg) (s : St) (k : Key) : Lim × Rate.Outcome :=
  Rate.script cfg { s.lim with clock := s.clock } (k, s.clock) s.clock

/-- `self._member` on leaving: of the object all executions of the process share, or of the
execution's own. -/
def remembered (style : Style) (s : St) (x : Exec) : Option Member :=
  match style with
  | .default => s.object x.process
  | .annotated => some x.member

def step (style : Style) (cfg : Cfg) (s : St) : Op → St
  | .tick d => { s with clock := s.clock + d }
  | .enter w k =>
    let out := answer cfg s k
    if out.2 = .proceed then
      { s with
        lim := out.1
        object := fun v => if v = w then some (k, s.clock) else s.object v
        inside := ⟨w, k, s.clock⟩ :: s.inside
        started := ⟨w, k, s.clock⟩ :: s.started
        attempts := (k, s.clock) :: s.attempts }
    else { s with lim := out.1, attempts := (k, s.clock) :: s.attempts }
  | .leave x turned =>
    if x ∈ s.inside then
      if turned then
        { s with
          lim := match remembered style s x with
            | some m => Rate.zrem { s.lim with clock := s.clock } m
            | none => s.lim
          inside := s.inside.erase x
          started := s.started.erase x }
      else { s with inside := s.inside.erase x }
    else s

def runFrom (style : Style) (cfg : Cfg) (s : St) (ops : List Op) : St := ops.foldl (step style cfg) s
def run (style : Style) (cfg : Cfg) (ops : List Op) : St := runFrom style cfg {} ops

theorem run_snoc (style : Style) (cfg : Cfg) (ops : List Op) (op : Op) :
    run style cfg (ops ++ [op]) = step style cfg (run style cfg ops) op := by
  simp [run, runFrom]

end Docket.Shared
