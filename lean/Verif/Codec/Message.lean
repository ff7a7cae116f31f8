import Verif.Decimal
/-
`Execution.as_message` and `Execution.from_message` with the texts and bytes they go through:
UTF-8, decimal numbers and ISO 8601 times.  Pickled arguments are opaque: any pair of
functions, of which the theorems assume that loading undoes dumping for the arguments in
question.
-/
namespace Docket.Message

open Decimal

/-- Python's `str.encode()`. -/
def encode (t : Text) : ByteArray := (String.ofList t).toUTF8

/-- Python's `bytes.decode()`; `none` is the `UnicodeDecodeError`. -/
def decode (b : ByteArray) : Option Text := (String.fromUTF8? b).map String.toList

/-- A Python `datetime`: the fields and the offset from UTC in microseconds, `none` for a
naive one.  The identity of the zone object and `fold` are left out: times are compared and
scheduled by these values. -/
structure DateTime where
  year : Nat
  month : Nat
  day : Nat
  hour : Nat
  minute : Nat
  second : Nat
  micro : Nat
  offset : Option Int
  deriving DecidableEq

def isLeap (y : Nat) : Bool := y % 4 == 0 && (y % 100 != 0 || y % 400 == 0)

def daysIn (y m : Nat) : Nat :=
  if m = 2 then (if isLeap y then 29 else 28)
  else if m = 4 ∨ m = 6 ∨ m = 9 ∨ m = 11 then 30
  else 31

/-- The checks of the `datetime` and `timezone` constructors. -/
def DateTime.Valid (d : DateTime) : Prop :=
  1 ≤ d.year ∧ d.year ≤ 9999 ∧ 1 ≤ d.month ∧ d.month ≤ 12 ∧ 1 ≤ d.day ∧ d.day ≤ daysIn d.year d.month ∧
  d.hour ≤ 23 ∧ d.minute ≤ 59 ∧ d.second ≤ 59 ∧ d.micro ≤ 999999 ∧
  (match d.offset with | none => True | some o => o.natAbs < 86400000000)

instance (d : DateTime) : Decidable d.Valid := by
  unfold DateTime.Valid
  cases d.offset <;> infer_instance

/-- `n` with leading zeros, `%0wd`. -/
def pad : Nat → Nat → Text
  | 0, _ => []
  | w + 1, n => digitChar (n / 10 ^ w) :: pad w (n % 10 ^ w)

/-- Microseconds if there are any. -/
def fmtFrac (us : Nat) : Text := if us = 0 then [] else '.' :: pad 6 us

/-- The UTC offset: sign, hours, minutes, and seconds and microseconds if there are any. -/
def fmtOffset : Option Int → Text
  | none => []
  | some o =>
    let a := o.natAbs
    let s := a / 1000000
    (if o < 0 then '-' else '+') :: pad 2 (s / 3600) ++ ':' :: pad 2 (s / 60 % 60) ++
      (if a % 60000000 = 0 then [] else ':' :: pad 2 (s % 60) ++ fmtFrac (a % 1000000))

/-- `datetime.isoformat()`, used at execution.py:570. -/
def isoformat (d : DateTime) : Text :=
  pad 4 d.year ++ '-' :: pad 2 d.month ++ '-' :: pad 2 d.day ++ 'T' ::
    pad 2 d.hour ++ ':' :: pad 2 d.minute ++ ':' :: pad 2 d.second ++ (fmtFrac d.micro ++ fmtOffset d.offset)

/-- Exactly `w` digits, and the rest of the text. -/
def num : Nat → Nat → Text → Option (Nat × Text)
  | 0, acc, t => some (acc, t)
  | _ + 1, _, [] => none
  | w + 1, acc, c :: t => match digitVal? c with
    | some d => num w (acc * 10 + d) t
    | none => none

/-- One given character, and the rest. -/
def lit (c : Char) : Text → Option Text
  | [] => none
  | x :: t => if x = c then some t else none

def readFrac : Text → Option (Nat × Text)
  | '.' :: t => num 6 0 t
  | t => some (0, t)

/-- Hours and minutes, then seconds if a colon follows, then microseconds. -/
def readClock (t : Text) : Option (Nat × Nat × Nat × Nat × Text) :=
  (num 2 0 t).bind fun (h, t) => (lit ':' t).bind fun t => (num 2 0 t).bind fun (m, t) =>
    match lit ':' t with
    | none => some (h, m, 0, 0, t)
    | some t => (num 2 0 t).bind fun (s, t) => (readFrac t).map fun (u, t) => (h, m, s, u, t)

def readOffset : Text → Option (Option Int)
  | [] => some none
  | c :: t =>
    if c = '+' ∨ c = '-' then
      match readClock t with
      | some (h, m, s, u, []) =>
        let a := Int.ofNat (((h * 60 + m) * 60 + s) * 1000000 + u)
        some (some (if c = '-' then -a else a))
      | _ => none
    else none

/-- `datetime.fromisoformat()`, used at execution.py:602, for the forms `isoformat` writes
(the other forms Python accepts are refused here); `none` is the `ValueError`. -/
def fromisoformat (t : Text) : Option DateTime :=
  (num 4 0 t).bind fun (y, t) => (lit '-' t).bind fun t => (num 2 0 t).bind fun (mo, t) =>
  (lit '-' t).bind fun t => (num 2 0 t).bind fun (d, t) => (lit 'T' t).bind fun t =>
  (readClock t).bind fun (h, m, s, u, t) => (readOffset t).bind fun o =>
    let r : DateTime := ⟨y, mo, d, h, m, s, u, o⟩
    if r.Valid then some r else none

/-- The parts of an `Execution` a message carries.  `A`, `K` are the positional and keyword
arguments, `F` the functions. -/
structure Execution (A K F : Type) where
  key : Text
  when : DateTime
  function : F
  functionName : Text
  args : A
  kwargs : K
  attempt : Int
  generation : Int

/-- `cloudpickle.dumps` and `cloudpickle.loads`. -/
structure Pickle (A : Type) where
  dumps : A → ByteArray
  loads : ByteArray → Option A

/-- For `a`, loading undoes dumping. -/
structure Pickle.Loads {A : Type} (p : Pickle A) (a : A) : Prop where
  eq : p.loads (p.dumps a) = some a

/-- A message: field names and values as Redis keeps them. -/
abbrev Msg := List (Text × ByteArray)

/-- `message[field]`; `none` is the `KeyError`. -/
def Msg.field (m : Msg) (f : Text) : Option ByteArray := (m.find? (fun e => e.1 = f)).map (·.2)

/-- `as_message`, execution.py:567-576. -/
def asMessage {A K F : Type} (pa : Pickle A) (pk : Pickle K) (e : Execution A K F) : Msg :=
  [(t!"key", encode e.key),
   (t!"when", encode (isoformat e.when)),
   (t!"function", encode e.functionName),
   (t!"args", pa.dumps e.args),
   (t!"kwargs", pk.dumps e.kwargs),
   (t!"attempt", encode (decInt e.attempt)),
   (t!"generation", encode (decInt e.generation))]

/-- The scheduling script overwrites the generation in the message, if it has one, with the
new one, execution.py:93-96, 111-114, 193-196.  (Lua's `tostring` writes plain digits below
10^14.) -/
def stamp (g : Nat) (m : Msg) : Msg :=
  m.map (fun e => if e.1 = t!"generation" then (e.1, encode (dec g)) else e)

inductive Error
  | unregistered
  | malformed
  deriving DecidableEq

/-- The registered function, or else the fallback, execution.py:587-593. -/
def resolve {F : Type} (tasks : Text → Option F) (fallback : Option F) (name : Text) : Option F :=
  match tasks name with
  | some f => some f
  | none => fallback

/-- `from_message`, execution.py:578-610, without the final `sync()`: the function is the
registered one or the fallback, everything else comes from the fields. -/
def fromMessage {A K F : Type} (pa : Pickle A) (pk : Pickle K) (tasks : Text → Option F) (fallback : Option F)
    (m : Msg) : Except Error (Execution A K F) :=
  match (m.field t!"function").bind decode with
  | none => .error .malformed
  | some name =>
    match resolve tasks fallback name with
    | none => .error .unregistered
    | some f =>
      match (m.field t!"args").bind pa.loads, (m.field t!"kwargs").bind pk.loads,
        (m.field t!"key").bind decode, ((m.field t!"when").bind decode).bind fromisoformat,
        ((m.field t!"attempt").bind decode).bind parseInt,
        (match m.field t!"generation" with
          | some b => (decode b).bind parseInt
          | none => some 0) with
      | some a, some k, some key, some w, some n, some g => .ok ⟨key, w, f, name, a, k, n, g⟩
      | _, _, _, _, _, _ => .error .malformed

end Docket.Message
