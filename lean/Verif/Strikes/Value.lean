/-
Python values as far as strikes look at them, with Python's comparisons.
-/
namespace Docket.Strikes

/-- The Python values a call or a strike may carry.  `null` is None; `num` stands for int, bool and
finite float, which Python compares exactly (`True == 1 == 1.0`), so that equality here
is Python's `==`.  `seq true` is a tuple, `seq false` a list.  `obj` is any other object,
compared by identity.  Simplified: no NaN, no sets, no user-defined comparisons. -/
inductive Val
  | null
  | num (q : Rat)
  | str (s : String)
  | seq (isTuple : Bool) (xs : List Val)
  | obj (id : Nat)

mutual
def Val.decEq : (a b : Val) → Decidable (a = b)
  | .null, .null => isTrue rfl
  | .null, .num _ | .null, .str _ | .null, .seq _ _ | .null, .obj _ => isFalse (by simp)
  | .num a, .num b => if h : a = b then isTrue (by rw [h]) else isFalse (by simp [h])
  | .num _, .null | .num _, .str _ | .num _, .seq _ _ | .num _, .obj _ => isFalse (by simp)
  | .str a, .str b => if h : a = b then isTrue (by rw [h]) else isFalse (by simp [h])
  | .str _, .null | .str _, .num _ | .str _, .seq _ _ | .str _, .obj _ => isFalse (by simp)
  | .obj a, .obj b => if h : a = b then isTrue (by rw [h]) else isFalse (by simp [h])
  | .obj _, .null | .obj _, .num _ | .obj _, .seq _ _ | .obj _, .str _ => isFalse (by simp)
  | .seq t a, .seq u b =>
    if ht : t = u then
      match Val.decEqList a b with
      | isTrue h => isTrue (by rw [ht, h])
      | isFalse h => isFalse (by simp [h])
    else isFalse (by simp [ht])
  | .seq _ _, .null | .seq _ _, .num _ | .seq _ _, .str _ | .seq _ _, .obj _ => isFalse (by simp)
def Val.decEqList : (a b : List Val) → Decidable (a = b)
  | [], [] => isTrue rfl
  | [], _ :: _ | _ :: _, [] => isFalse (by simp)
  | x :: xs, y :: ys =>
    match Val.decEq x y with
    | isFalse h => isFalse (by simp [h])
    | isTrue h =>
      match Val.decEqList xs ys with
      | isTrue h' => isTrue (by rw [h, h'])
      | isFalse h' => isFalse (by simp [h'])
end

instance : DecidableEq Val := Val.decEq

/-- The comparison operators of Python's rich comparison that order values. -/
inductive Ord
  | lt | le | gt | ge
  deriving DecidableEq, Repr

/-- An ordering operator on a totally ordered sort. -/
def Ord.on (o : Ord) (lt eq : Bool) : Bool :=
  match o with
  | .lt => lt
  | .le => lt || eq
  | .gt => !(lt || eq)
  | .ge => !lt

/-- `len(xs) < len(ys)` and so on, used by sequences with a common prefix. -/
def Ord.onLength (o : Ord) (m n : Nat) : Bool := o.on (decide (m < n)) (decide (m = n))

mutual
/-- Python's `a < b`, `a <= b`, `a > b`, `a >= b`; `none` is the TypeError.  Sequences
of the same type: the first items that differ decide, else the lengths. -/
def Val.order (o : Ord) : Val → Val → Option Bool
  | .num a, .num b => some (o.on (decide (a < b)) (decide (a = b)))
  | .str a, .str b => some (o.on (decide (a < b)) (decide (a = b)))
  | .seq t a, .seq u b => if t = u then Val.orderList o a b else none
  | _, _ => none
def Val.orderList (o : Ord) : List Val → List Val → Option Bool
  | x :: xs, y :: ys => if x = y then Val.orderList o xs ys else Val.order o x y
  | xs, ys => some (o.onLength xs.length ys.length)
end

mutual
/-- `hash(value)` succeeds, strikelist.py:454-462. -/
def Val.hashable : Val → Bool
  | .seq t xs => t && Val.hashableList xs
  | _ => true
def Val.hashableList : List Val → Bool
  | [] => true
  | x :: xs => x.hashable && Val.hashableList xs
end

/-- `lower, upper = strike_value`: two-item sequences and two-character strings unpack,
anything else raises TypeError or ValueError. -/
def Val.unpack2 : Val → Option (Val × Val)
  | .seq _ [a, b] => some (a, b)
  | .str s =>
    match s.toList with
    | [a, b] => some (.str (String.singleton a), .str (String.singleton b))
    | _ => none
  | _ => none

end Docket.Strikes
