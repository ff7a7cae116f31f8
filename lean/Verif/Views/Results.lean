import Verif.Text

/-!
# The result store

Models `ClusterKeyValueStore` (_result_store.py:30-173), used with a cluster and with the
in-memory backend.  (With a single Redis server the store of the library py-key-value is used
instead, which is not modelled.)

Simplifications: values are opaque JSON values (`json.loads(json.dumps(v)) = v`); time is in
milliseconds; that all keys of a batch must live on one cluster node is not modelled; a batch of
reads with times to live is one step.
-/

namespace Docket.Results

/-- Redis as far as the store uses it: a value and, possibly, the last moment it exists. -/
structure S (V : Type) where
  now : Nat
  data : Text → Option (V × Option Nat)

def S.init {V : Type} : S V := ⟨0, fun _ => none⟩

/-- `_make_key` with the collection given, _result_store.py:55-58. -/
def makeKey (c k : Text) : Text := c ++ t!":" ++ k

/-- Redis GET: expired keys do not exist. -/
def S.read {V : Type} (s : S V) (rk : Text) : Option (V × Option Nat) :=
  match s.data rk with
  | none => none
  | some (v, none) => some (v, none)
  | some (v, some d) => if s.now ≤ d then some (v, some d) else none

def set {V : Type} (s : S V) (rk : Text) (x : Option (V × Option Nat)) : S V :=
  { s with data := fun q => if q = rk then x else s.data q }

/-- Redis SET, with `ex=` whole seconds; an expiry of 0 is an error (`false`). -/
def setEx {V : Type} (s : S V) (rk : Text) (v : V) : Option Nat → S V × Bool
  | none => (set s rk (some (v, none)), true)
  | some 0 => (s, false)
  | some (sec + 1) => (set s rk (some (v, some (s.now + 1000 * (sec + 1)))), true)

/-- `put`, _result_store.py:93-108; `ttl` in milliseconds, cut down to whole seconds.  The flag
says whether it returns normally. -/
def put {V : Type} (s : S V) (c k : Text) (v : V) (ttl : Option Nat) : S V × Bool :=
  setEx s (makeKey c k) v (ttl.map (· / 1000))

/-- `get`, _result_store.py:64-75. -/
def get {V : Type} (s : S V) (c k : Text) : Option V := (s.read (makeKey c k)).map (·.1)

/-- `ttl`, _result_store.py:77-91; the remaining time in whole seconds, rounded as Redis does. -/
def getTtl {V : Type} (s : S V) (c k : Text) : Option V × Option Nat :=
  match s.read (makeKey c k) with
  | none => (none, none)
  | some (v, none) => (some v, none)
  | some (v, some d) => (some v, some ((d - s.now + 500) / 1000))

/-- Redis DEL: key by key, counting those that existed. -/
def del {V : Type} (s : S V) : List Text → S V × Nat
  | [] => (s, 0)
  | rk :: rest =>
    let r := del (set s rk none) rest
    (r.1, (if (s.read rk).isSome then 1 else 0) + r.2)

/-- `delete`, _result_store.py:110-119. -/
def delete {V : Type} (s : S V) (c k : Text) : S V × Bool := ((del s [makeKey c k]).1, decide (0 < (del s [makeKey c k]).2))

/-- `get_many`, _result_store.py:121-132. -/
def getMany {V : Type} (s : S V) (c : Text) (ks : List Text) : List (Option V) :=
  if ks = [] then [] else (ks.map (makeKey c)).map (fun rk => (s.read rk).map (·.1))

/-- `ttl_many`, _result_store.py:134-147. -/
def ttlMany {V : Type} (s : S V) (c : Text) (ks : List Text) : List (Option V × Option Nat) :=
  ks.map (getTtl s c)

/-- `put_many`, _result_store.py:149-161: one after the other until an error; lists of
different lengths are an error noticed when the shorter one is used up. -/
def putMany {V : Type} (s : S V) (c : Text) (ttl : Option Nat) : List Text → List V → S V × Bool
  | [], [] => (s, true)
  | k :: ks, v :: vs =>
    let r := put s c k v ttl
    if r.2 then putMany r.1 c ttl ks vs else (r.1, false)
  | _, _ => (s, false)

/-- `put_many` of no keys returns at once, whatever the values. -/
def putManyTop {V : Type} (s : S V) (c : Text) (ttl : Option Nat) (ks : List Text) (vs : List V) : S V × Bool :=
  if ks = [] then (s, true) else putMany s c ttl ks vs

/-- `delete_many`, _result_store.py:163-173. -/
def deleteMany {V : Type} (s : S V) (c : Text) (ks : List Text) : S V × Nat :=
  if ks = [] then (s, 0) else del s (ks.map (makeKey c))

/-- The operations that change the store, and the passing of time. -/
inductive Op (V : Type) where
  | put (c k : Text) (v : V) (ttl : Option Nat)
  | putMany (c : Text) (ks : List Text) (vs : List V) (ttl : Option Nat)
  | delete (c k : Text)
  | deleteMany (c : Text) (ks : List Text)
  | tick (d : Nat)

def step {V : Type} (s : S V) : Op V → S V
  | .put c k v ttl => (put s c k v ttl).1
  | .putMany c ks vs ttl => (putManyTop s c ttl ks vs).1
  | .delete c k => (delete s c k).1
  | .deleteMany c ks => (deleteMany s c ks).1
  | .tick d => { s with now := s.now + d }

def run {V : Type} (ops : List (Op V)) : S V := ops.foldl step S.init

end Docket.Results
