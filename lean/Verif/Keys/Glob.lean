import Verif.Keys.Model
/-
How Redis decides whether a published message is for a pattern subscription: `stringmatchlen`
of Redis, used for `psubscribe`, and the two pattern subscriptions of a worker
(worker.py:1343-1348, dependencies/_concurrency.py:695-699).
-/
namespace Docket.Keys

/-- What follows `[` (and `^`): whether `c` is in the class, and the pattern after it.
A class that is not closed reaches to the end of the pattern. -/
def charClass (c : Char) : Text → Bool × Text
  | [] => (false, [])
  | '\\' :: x :: p => (x = c || (charClass c p).1, (charClass c p).2)
  | ']' :: p => (false, p)
  | a :: '-' :: b :: p => ((a.toNat ≤ c.toNat && c.toNat ≤ b.toNat || b.toNat ≤ c.toNat && c.toNat ≤ a.toNat)
      || (charClass c p).1, (charClass c p).2)
  | a :: p => (a = c || (charClass c p).1, (charClass c p).2)

/-- A text and all that remains of it after dropping characters from its front. -/
def suffixes : Text → List Text
  | [] => [[]]
  | c :: s => (c :: s) :: suffixes s

/-- `stringmatchlen` of Redis (util.c), case sensitive; the first argument bounds the length of
the pattern.  Simplification: in Redis the empty text does not match `*`; channel names are
never empty here. -/
def matches' : Nat → Text → Text → Bool
  | _, [], s => s = []
  | 0, _ :: _, _ => false
  | n + 1, '*' :: p, s => (suffixes s).any (matches' n p)
  | n + 1, '?' :: p, s => match s with
    | [] => false
    | _ :: s => matches' n p s
  | n + 1, '[' :: '^' :: p, s => match s with
    | [] => false
    | c :: s => !(charClass c p).1 && matches' n (charClass c p).2 s
  | n + 1, '[' :: p, s => match s with
    | [] => false
    | c :: s => (charClass c p).1 && matches' n (charClass c p).2 s
  | n + 1, '\\' :: x :: p, s => match s with
    | [] => false
    | c :: s => x = c && matches' n p s
  | n + 1, x :: p, s => match s with
    | [] => false
    | c :: s => x = c && matches' n p s

def globMatch (pattern s : Text) : Bool := matches' pattern.length pattern s

/-- The pattern a worker subscribes to, worker.py:1343. -/
def cancelPattern (cluster : Bool) (name : Text) : Text := key cluster name t!"cancel:*"

end Docket.Keys
