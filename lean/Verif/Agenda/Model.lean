import Verif.Text
/-
`agenda.py`: `Agenda.scatter`, and the registration of functions it shares with
`Docket.add`.  Times and durations are in microseconds, as in Python's `datetime`.  Random
offsets and generated keys are inputs.
-/
namespace Docket.Agenda

/-- A function: which one it is, and its `__name__`. -/
structure Fn where
  id : Nat
  name : Text
  deriving DecidableEq

/-- `docket.tasks`. -/
abbrev Registry := Text → Option Fn

/-- `self.tasks[name] = function`, docket.py:300-301. -/
def Registry.set (r : Registry) (n : Text) (f : Fn) : Registry := fun m => if m = n then some f else r m

/-- `Docket.register`, docket.py:284-301, for a function whose dependencies are valid. -/
def register (r : Registry) (f : Fn) (names : List Text) : Registry :=
  (if names = [] then [f.name] else names).foldl (fun r n => r.set n f) r

/-- `function in docket.tasks.values()`; the registry is finite, so this is decided by the
caller's table; here classically by its meaning. -/
def Registry.Has (r : Registry) (f : Fn) : Prop := ∃ n, r n = some f

/-- What an agenda entry refers to. -/
inductive Ref
  | name (n : Text)
  | fn (f : Fn)
  deriving DecidableEq

/-- An entry of the agenda, agenda.py:120. -/
structure Entry (A : Type) where
  ref : Ref
  args : A
  key : Option Text

/-- One scheduling call as it reaches `Execution.schedule`. -/
structure Call (A : Type) where
  function : Fn
  functionName : Text
  args : A
  key : Text
  when : Int

/-- `docket.add(function, ...)`, docket.py:397-398: registers the function under its own name,
which becomes the name of the call. -/
def addFn {A : Type} (r : Registry) (f : Fn) (args : A) (key : Text) (when : Int) : Registry × Call A :=
  (register r f [], ⟨f, f.name, args, key, when⟩)

/-- `timedelta / int`: to the nearest microsecond, ties to even. -/
def divRound (a : Int) (n : Nat) : Int :=
  let q := a / (n : Int)
  let r := a % (n : Int)
  if 2 * r > (n : Int) ∨ (2 * r = (n : Int) ∧ q % 2 = 1) then q + 1 else q

/-- The even distribution, agenda.py:164-174. -/
def evenTimes (start over : Int) (count : Nat) : List Int :=
  if count = 1 then [start + divRound over 2]
  else (List.range count).map (fun i => start + divRound over (count - 1) * Int.ofNat i)

/-- The jitter, agenda.py:177-190: each time is moved by its random offset, but not before
the start. -/
def jittered (start : Int) (times offsets : List Int) : List Int :=
  List.zipWith (fun t o => max (t + o) start) times offsets

inductive Error
  | notPositive
  | unregistered (n : Text)
  deriving DecidableEq

/-- The functions of the agenda, agenda.py:197-208: names are looked up, functions are
registered if they are not among the registered ones. -/
def plan {A : Type} (r : Registry) (has : Registry → Fn → Bool) :
    List (Entry A) → Except Error (Registry × List Fn)
  | [] => .ok (r, [])
  | e :: es =>
    match e.ref with
    | .name n => match r n with
      | none => .error (.unregistered n)
      | some f => match plan r has es with
        | .ok (r', fs) => .ok (r', f :: fs)
        | .error x => .error x
    | .fn f =>
      match plan (if has r f then r else register r f []) has es with
      | .ok (r', fs) => .ok (r', f :: fs)
      | .error x => .error x

/-- The keys, agenda.py:210: the given one or the next generated one. -/
def keysOf {A : Type} : List (Entry A) → (Nat → Text) → List Text
  | [], _ => []
  | e :: es, fresh => match e.key with
    | some k => k :: keysOf es fresh
    | none => fresh 0 :: keysOf es (fun i => fresh (i + 1))

/-- The final loop, agenda.py:214-217: one `docket.add` of the resolved function per entry. -/
def addAll {A : Type} (r : Registry) : List Fn → List (Entry A) → List Text → List Int → Registry × List (Call A)
  | f :: fs, e :: es, k :: ks, t :: ts =>
    let (r', c) := addFn r f e.args k t
    let (r'', cs) := addAll r' fs es ks ts
    (r'', c :: cs)
  | _, _, _, _ => (r, [])

/-- What a call of `scatter` did: the registry it left, the scheduling calls it made, and the
exception it ended with, if any. -/
structure Result (A : Type) where
  registry : Registry
  calls : List (Call A)
  error : Option Error

/-- `Agenda.scatter`, agenda.py:125-219.  `jitter` is the list of random offsets, `none` if no
jitter was asked for; `fresh` are the generated keys.  The registrations made before a failed
lookup are not kept track of. -/
def scatter {A : Type} (r : Registry) (has : Registry → Fn → Bool) (tasks : List (Entry A)) (over start : Int)
    (jitter : Option (List Int)) (fresh : Nat → Text) : Result A :=
  if over ≤ 0 then ⟨r, [], some .notPositive⟩
  else if tasks.isEmpty then ⟨r, [], none⟩
  else
    let even := evenTimes start over tasks.length
    let times := match jitter with
      | none => even
      | some offsets => jittered start even offsets
    match plan r has tasks with
    | .error x => ⟨r, [], some x⟩
    | .ok (r', fs) =>
      let added := addAll r' fs tasks (keysOf tasks fresh) times
      ⟨added.1, added.2, none⟩

end Docket.Agenda
