import Verif.Text
import Verif.Decimal
/-
How announcements are written and read: `json.dumps` and `json.loads` of Python on flat objects, and
the texts that docket's scripts put together themselves.

Simplifications: the values are texts, whole numbers and null; texts are Unicode scalar values, so an
escaped surrogate without its partner, which Python keeps, is an error here; an object with a repeated
name keeps both.
-/
namespace Docket.Json
open Decimal

inductive Value
  | str (t : Text)
  | num (n : Int)
  | null
  deriving DecidableEq

/-! ### Writing in Python -/

def hexDigit (d : Nat) : Char := if d < 10 then Char.ofNat (48 + d) else Char.ofNat (87 + d)

/-- `'\\u{0:04x}'` of the json module. -/
def unicodeEscape (n : Nat) : Text :=
  ['\\', 'u', hexDigit (n / 4096 % 16), hexDigit (n / 256 % 16), hexDigit (n / 16 % 16), hexDigit (n % 16)]

/-- `py_encode_basestring_ascii` of the json module, for one character. -/
def encodeChar (c : Char) : Text :=
  if c = '"' then ['\\', '"']
  else if c = '\\' then ['\\', '\\']
  else if c = '\n' then ['\\', 'n']
  else if c = '\r' then ['\\', 'r']
  else if c = '\t' then ['\\', 't']
  else if c = Char.ofNat 12 then ['\\', 'f']
  else if c = Char.ofNat 8 then ['\\', 'b']
  else if 32 ≤ c.toNat ∧ c.toNat ≤ 126 then [c]
  else if c.toNat < 65536 then unicodeEscape c.toNat
  else unicodeEscape (55296 + (c.toNat - 65536) / 1024) ++ unicodeEscape (56320 + (c.toNat - 65536) % 1024)

def encode (t : Text) : Text := t.flatMap encodeChar

def writeValue : Value → Text
  | .str t => '"' :: (encode t ++ ['"'])
  | .num (.ofNat n) => dec n
  | .num (.negSucc n) => '-' :: dec (n + 1)
  | .null => t!"null"

def writeMember (m : Text × Value) : Text := '"' :: (encode m.1 ++ t!"\": " ++ writeValue m.2)

def writeMembers : List (Text × Value) → Text
  | [] => []
  | [m] => writeMember m
  | m :: ms => writeMember m ++ t!", " ++ writeMembers ms

/-- `json.dumps` of a flat object: execution.py:707-714, 780-788, 862-870, _execution_progress.py:240-248,
dependencies/_concurrency.py:572-574. -/
def dumps (ms : List (Text × Value)) : Text := '{' :: (writeMembers ms ++ ['}'])

/-- `Execution.schedule`, execution.py:702-714. -/
def schedulePayload (key : Text) (immediate : Bool) (when_ : Text) : Text :=
  dumps [(t!"type", .str t!"state"), (t!"key", .str key), (t!"state", .str (if immediate then t!"queued" else t!"scheduled")),
    (t!"when", .str when_)]

/-- `Execution.claim`, execution.py:780-788. -/
def claimPayload (key worker started : Text) : Text :=
  dumps [(t!"type", .str t!"state"), (t!"key", .str key), (t!"state", .str t!"running"), (t!"worker", .str worker),
    (t!"started_at", .str started)]

/-- The end of an execution, execution.py:862-870: an error without a text is left out. -/
def finishPayload (key state completed : Text) (error : Option Text) : Text :=
  dumps ([(t!"type", .str t!"state"), (t!"key", .str key), (t!"state", .str state), (t!"completed_at", .str completed)] ++
    match error with
    | none => []
    | some [] => []
    | some (c :: e) => [(t!"error", .str (c :: e))])

/-- A task that has to wait for its turn, dependencies/_concurrency.py:572-574. -/
def parkPayload (key : Text) : Text :=
  dumps [(t!"type", .str t!"state"), (t!"key", .str key), (t!"state", .str t!"scheduled")]

def orNull : Option Text → Value
  | some t => .str t
  | none => .null

/-- `ExecutionProgress._publish`, _execution_progress.py:233-248. -/
def progressPayload (key : Text) (current : Option Int) (total : Int) (message updated : Option Text) : Text :=
  dumps [(t!"type", .str t!"progress"), (t!"key", .str key), (t!"current", .num (current.getD 0)), (t!"total", .num total),
    (t!"message", orNull message), (t!"updated_at", orNull updated)]

/-! ### Reading in Python -/

/-- What comes next in a string. -/
inductive Step
  | over (rest : Text)
  | char (c : Char) (rest : Text)
  | bad

def hexVal (c : Char) : Option Nat :=
  if 48 ≤ c.toNat ∧ c.toNat ≤ 57 then some (c.toNat - 48)
  else if 97 ≤ c.toNat ∧ c.toNat ≤ 102 then some (c.toNat - 87)
  else if 65 ≤ c.toNat ∧ c.toNat ≤ 70 then some (c.toNat - 55)
  else none

def hex4 : Text → Option (Nat × Text)
  | a :: b :: c :: d :: r =>
    match hexVal a, hexVal b, hexVal c, hexVal d with
    | some a, some b, some c, some d => some (a * 4096 + b * 256 + c * 16 + d, r)
    | _, _, _, _ => none
  | _ => none

def unicode (t : Text) : Step :=
  match hex4 t with
  | none => .bad
  | some (n, r) =>
    if 55296 ≤ n ∧ n ≤ 56319 then
      match r with
      | a :: b :: r =>
        if a = '\\' ∧ b = 'u' then
          match hex4 r with
          | some (m, r) =>
            if 56320 ≤ m ∧ m ≤ 57343 then .char (Char.ofNat (65536 + (n - 55296) * 1024 + (m - 56320))) r else .bad
          | none => .bad
        else .bad
      | _ => .bad
    else if 56320 ≤ n ∧ n ≤ 57343 then .bad
    else .char (Char.ofNat n) r

def escapes (c : Char) : Option Char :=
  if c = '"' then some '"' else if c = '\\' then some '\\' else if c = '/' then some '/'
  else if c = 'b' then some (Char.ofNat 8) else if c = 'f' then some (Char.ofNat 12)
  else if c = 'n' then some '\n' else if c = 'r' then some '\r' else if c = 't' then some '\t' else none

/-- `py_scanstring` of the json module, strict: control characters are refused. -/
def scanStep : Text → Step
  | [] => .bad
  | c :: r =>
    if c = '"' then .over r
    else if c = '\\' then
      match r with
      | [] => .bad
      | e :: r => if e = 'u' then unicode r else match escapes e with
        | some x => .char x r
        | none => .bad
    else if c.toNat < 32 then .bad
    else .char c r

/-- The string after its opening quote, and what follows its closing quote; the first argument
bounds the number of characters. -/
def scan : Nat → Text → Option (Text × Text)
  | 0, _ => none
  | n + 1, t =>
    match scanStep t with
    | .over r => some ([], r)
    | .char c r => (scan n r).map (fun p => (c :: p.1, p.2))
    | .bad => none

def blank (c : Char) : Bool := c = ' ' || c = '\n' || c = '\r' || c = '\t'

def skip (t : Text) : Text := t.dropWhile blank

def isDigit (c : Char) : Bool := (digitVal? c).isSome

/-- A whole number without superfluous zeros, and the rest. -/
def digits (t : Text) : Option (Nat × Text) :=
  let ds := t.takeWhile isDigit
  if ds.head? = some '0' ∧ ds.length > 1 then none
  else (parse ds).map (fun n => (n, t.dropWhile isDigit))

def readValue : Text → Option (Value × Text)
  | [] => none
  | c :: r =>
    if c = '"' then (scan (r.length + 1) r).map (fun p => (.str p.1, p.2))
    else if c = '-' then (digits r).map (fun p => (.num (-(p.1 : Int)), p.2))
    else if t!"null".isPrefixOf (c :: r) then some (.null, (c :: r).drop 4)
    else (digits (c :: r)).map (fun p => (.num p.1, p.2))

def readMember : Text → Option ((Text × Value) × Text)
  | [] => none
  | c :: r =>
    if c = '"' then
      match scan (r.length + 1) r with
      | none => none
      | some (name, r) =>
        match skip r with
        | [] => none
        | d :: r => if d = ':' then (readValue (skip r)).map (fun p => ((name, p.1), p.2)) else none
    else none

def readMembers : Nat → Text → Option (List (Text × Value) × Text)
  | 0, _ => none
  | n + 1, t =>
    match readMember t with
    | none => none
    | some (m, r) =>
      match skip r with
      | [] => none
      | d :: r =>
        if d = ',' then (readMembers n (skip r)).map (fun p => (m :: p.1, p.2))
        else if d = '}' then some ([m], r)
        else none

/-- `json.loads` of a flat object; `none` is a `JSONDecodeError`: execution.py:1158,
_execution_progress.py:278. -/
def loads (t : Text) : Option (List (Text × Value)) :=
  match skip t with
  | [] => none
  | c :: r =>
    if c = '{' then
      match skip r with
      | [] => none
      | d :: r' =>
        if d = '}' then (if skip r' = [] then some [] else none)
        else match readMembers (r.length + 1) (d :: r') with
          | some (ms, rest) => if skip rest = [] then some ms else none
          | none => none
    else none

/-! ### Writing in a script -/

/-- `s:gsub(c, by)` for a character that means itself. -/
def gsub (c : Char) (by_ : Text) (s : Text) : Text := s.flatMap (fun x => if x = c then by_ else [x])

/-- `json_escape`, worker.py:169-176, dependencies/_concurrency.py:171-178 and 295-302. -/
def jsonEscape (s : Text) : Text :=
  let s := gsub '\\' ['\\', '\\'] s
  let s := gsub '"' ['\\', '"'] s
  let s := gsub '\n' ['\\', 'n'] s
  let s := gsub '\r' ['\\', 'r'] s
  let s := gsub '\t' ['\\', 't'] s
  s

/-- The announcement of `_stream_due_tasks` that a task is due, worker.py:212. -/
def duePayload (key when_ : Text) : Text :=
  t!"{\"type\":\"state\",\"key\":\"" ++ jsonEscape key ++ t!"\",\"state\":\"queued\",\"when\":\"" ++ when_ ++ t!"\"}"

/-- The announcement of `_release_and_wake` and `_scavenge_and_wake` that a waiter got its turn,
dependencies/_concurrency.py:252 and 364. -/
def wokenPayload (key : Text) : Text :=
  t!"{\"type\":\"state\",\"key\":\"" ++ jsonEscape key ++ t!"\",\"state\":\"queued\"}"

end Docket.Json
