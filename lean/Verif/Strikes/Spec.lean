import Verif.Strikes.Model
/-
What strikes mean, without the dictionaries: a set of active strikes.
-/
namespace Docket.Strikes

/-- What an instruction is about. -/
inductive Target
  /-- every call of the task -/
  | task (f : String)
  /-- calls of the task whose argument `p` compares so -/
  | taskParam (f p : String) (op : Operator) (v : Val)
  /-- calls of any task whose argument `p` compares so -/
  | param (p : String) (op : Operator) (v : Val)
  /-- neither a task nor a parameter was named -/
  | nothing
  deriving DecidableEq

/-- The name that was given: the empty text is no name. -/
def given : Option String → Option String
  | none => none
  | some s => if s = "" then none else some s

theorem given_eq (x : Option String) : given x = truthy x := by
  cases x with
  | none => rfl
  | some s =>
    simp only [given]
    split
    · rename_i h; subst h; rfl
    · rename_i h
      unfold truthy
      split
      · rename_i h'; exact absurd (Option.some.inj h') h
      · rfl

def Instr.target (i : Instr) : Target :=
  match given i.function, given i.parameter with
  | some f, some p => .taskParam f p i.operator i.value
  | some f, none => .task f
  | none, some p => .param p i.operator i.value
  | none, none => .nothing

theorem Instr.target_eq (i : Instr) : i.target = match truthy i.function, truthy i.parameter with
    | some f, some p => .taskParam f p i.operator i.value
    | some f, none => .task f
    | none, some p => .param p i.operator i.value
    | none, none => .nothing := by
  simp only [Instr.target, given_eq]

/-- The target is struck after the history: the last usable instruction about it is a
strike.  Instructions with an unhashable value are not usable. -/
def Active : List Instr → Target → Prop
  | [], _ => False
  | i :: earlier, t =>
    if i.value.hashable ∧ i.target = t then i.restore = false else Active earlier t

instance Active.dec : (l : List Instr) → (t : Target) → Decidable (Active l t)
  | [], _ => isFalse (fun h => h)
  | i :: l, t => by
    have := Active.dec l t
    unfold Active
    infer_instance

/-- The call's argument `p` is `x`. -/
def Call.Has (c : Call) (p : String) (x : Val) : Prop := ∃ args, c.args = some args ∧ (p, x) ∈ args

/-- A strike on the target covers the call. -/
def Covers : Target → Call → Prop
  | .task f, c => c.fn = f
  | .taskParam f p op v, c => c.fn = f ∧ ∃ x, c.Has p x ∧ isMatch x op v = true
  | .param p op v, c => ∃ x, c.Has p x ∧ isMatch x op v = true
  | .nothing, _ => False

end Docket.Strikes
