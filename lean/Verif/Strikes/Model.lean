import Verif.Strikes.Value
/-
The strike list: src/docket/strikelist.py.
-/
namespace Docket.Strikes

/-- `Operator`, strikelist.py:45-52. -/
inductive Operator
  | eq | ne | gt | ge | lt | le | between
  deriving DecidableEq, Repr

/-- `StrikeList._is_match`, strikelist.py:420-451.  A TypeError or ValueError counts as
no match. -/
def isMatch (value : Val) (op : Operator) (strikeValue : Val) : Bool :=
  match op with
  | .eq => decide (value = strikeValue)
  | .ne => decide (value ≠ strikeValue)
  | .gt => (value.order .gt strikeValue).getD false
  | .ge => (value.order .ge strikeValue).getD false
  | .lt => (value.order .lt strikeValue).getD false
  | .le => (value.order .le strikeValue).getD false
  | .between =>
    match strikeValue.unpack2 with
    | none => false
    | some (lower, upper) =>
      -- `lower <= value <= upper`
      match lower.order .le value with
      | some true => (value.order .le upper).getD false
      | _ => false

/-- `StrikeInstruction`, strikelist.py:58-72, with its direction (118-123). -/
structure Instr where
  restore : Bool
  function : Option String
  parameter : Option String
  operator : Operator
  value : Val
  deriving DecidableEq

/-- `MinimalStrike`, strikelist.py:129. -/
abbrev Minimal := Operator × Val

/-- A Python dict with string keys: insertion-ordered, one entry per key. -/
abbrev Dict (α : Type) := List (String × α)

namespace Dict
variable {α : Type}

/-- `d.get(k)` -/
def get (d : Dict α) (k : String) : Option α := d.lookup k

/-- `d[k] = v` -/
def set (d : Dict α) (k : String) (v : α) : Dict α :=
  match d with
  | [] => [(k, v)]
  | (k', v') :: d => if k' = k then (k, v) :: d else (k', v') :: set d k v

/-- `d.pop(k, None)` -/
def pop (d : Dict α) (k : String) : Dict α := d.filter (fun e => e.1 ≠ k)

end Dict

/-- `s.add(x)` -/
def setAdd (s : List Minimal) (x : Minimal) : List Minimal := if x ∈ s then s else s ++ [x]

/-- `s.remove(x)`, with its KeyError ignored. -/
def setRemove (s : List Minimal) (x : Minimal) : List Minimal := s.filter (fun y => y ≠ x)

/-- `StrikeList.task_strikes` and `parameter_strikes`, strikelist.py:129-131, 170-171, 197-198. -/
structure State where
  tasks : Dict (Dict (List Minimal)) := []
  params : Dict (List Minimal) := []
  deriving DecidableEq

/-- A Python string in a condition: None and "" are false. -/
def truthy : Option String → Option String
  | some "" => none
  | x => x

/-- `StrikeList._strike`, strikelist.py:469-495. -/
def doStrike (st : State) (i : Instr) : State :=
  match truthy i.function, truthy i.parameter with
  | some f, some p =>
    let ts := (Dict.get st.tasks f).getD []
    let ps := (Dict.get ts p).getD []
    { st with tasks := Dict.set st.tasks f (Dict.set ts p (setAdd ps (i.operator, i.value))) }
  | some f, none =>
    match Dict.get st.tasks f with
    | some _ => st
    | none => { st with tasks := Dict.set st.tasks f [] }
  | none, some p =>
    let ps := (Dict.get st.params p).getD []
    { st with params := Dict.set st.params p (setAdd ps (i.operator, i.value)) }
  | none, none => st

/-- `StrikeList._restore`, strikelist.py:497-542. -/
def doRestore (st : State) (i : Instr) : State :=
  match truthy i.function, truthy i.parameter with
  | some f, some p =>
    match Dict.get st.tasks f with
    | none => st
    | some ts =>
      match Dict.get ts p with
      | none => { st with tasks := Dict.set st.tasks f (Dict.pop ts p) }
      | some ps =>
        let ps' := setRemove ps (i.operator, i.value)
        if ps' = [] then
          let ts' := Dict.pop ts p
          if ts' = [] then { st with tasks := Dict.pop st.tasks f }
          else { st with tasks := Dict.set st.tasks f ts' }
        else { st with tasks := Dict.set st.tasks f (Dict.set ts p ps') }
  | some f, none =>
    match Dict.get st.tasks f with
    | none => st
    | some ts => if ts = [] then { st with tasks := Dict.pop st.tasks f } else st
  | none, some p =>
    match Dict.get st.params p with
    | none => st
    | some ps =>
      let ps' := setRemove ps (i.operator, i.value)
      if ps' = [] then { st with params := Dict.pop st.params p }
      else { st with params := Dict.set st.params p ps' }
  | none, none => st

/-- `StrikeList.update`, strikelist.py:453-467: unhashable values are ignored. -/
def update (st : State) (i : Instr) : State :=
  if i.value.hashable then (if i.restore then doRestore st i else doStrike st i) else st

/-- Apply instructions in order. -/
def replay (st : State) (l : List Instr) : State := l.foldl update st

/-- A call as the strike list sees it: the function's name and the bound arguments
(`all_arguments`, strikelist.py:391-408), `none` if binding raises TypeError. -/
structure Call where
  fn : String
  args : Option (List (String × Val))

/-- Does some minimal strike of `source` match the argument, strikelist.py:411-416. -/
def anyMatch (source : Dict (List Minimal)) (p : String) (v : Val) : Bool :=
  ((Dict.get source p).getD []).any (fun m => isMatch v m.1 m.2)

/-- `StrikeList._matches_task_or_parameter_strike`, strikelist.py:381-418. -/
def isStricken (st : State) (c : Call) : Bool :=
  let ts := (Dict.get st.tasks c.fn).getD []
  if (Dict.get st.tasks c.fn).isSome && ts.isEmpty then true
  else match c.args with
    | none => false
    | some args => args.any (fun a => anyMatch ts a.1 a.2 || anyMatch st.params a.1 a.2)

/-- `StrikeList._is_dict_stricken`, strikelist.py:362-379. -/
def isDictStricken (st : State) (params : List (String × Val)) : Bool :=
  params.any (fun a => anyMatch st.params a.1 a.2)

end Docket.Strikes
