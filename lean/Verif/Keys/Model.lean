import Verif.Text
/-
How docket builds the names of its Redis keys, and how Redis Cluster places them.
Texts are lists of characters.
-/
namespace Docket.Keys

/-- The purposes for which one docket uses Redis keys. -/
inductive Purpose
  | queue | stream | workers | strikes | perpetualLock
  | known (task : Text) | parked (task : Text) | streamId (task : Text) | runs (task : Text)
  | progress (task : Text) | workerTasks (worker : Text) | taskWorkers (task : Text)
  deriving DecidableEq

/-- The suffix of each key: docket.py:691-711, _docket_snapshot.py:96-103,
_execution_progress.py:94, strikelist.py:220, worker.py:964. -/
def Purpose.suffix : Purpose → Text
  | .queue => t!"queue"
  | .stream => t!"stream"
  | .workers => t!"workers"
  | .strikes => t!"strikes"
  | .perpetualLock => t!"perpetual:lock"
  | .known t => t!"known:" ++ t
  | .parked t => t
  | .streamId t => t!"stream-id:" ++ t
  | .runs t => t!"runs:" ++ t
  | .progress t => t!"progress:" ++ t
  | .workerTasks w => t!"worker-tasks:" ++ w
  | .taskWorkers t => t!"task-workers:" ++ t

/-- `RedisConnection.prefix`, _redis.py:737-752. -/
def pre (cluster : Bool) (name : Text) : Text :=
  if cluster then '{' :: (name ++ ['}']) else name

/-- `Docket.key`, docket.py:208-217. -/
def key (cluster : Bool) (name suffix : Text) : Text := pre cluster name ++ ':' :: suffix

/-- Pub/sub channels, docket.py:713-715, execution.py:727, 1150-1151. -/
inductive Channel
  | cancel (task : Text) | state (task : Text) | progress (task : Text)
  deriving DecidableEq

def Channel.suffix : Channel → Text
  | .cancel t => t!"cancel:" ++ t
  | .state t => t!"state:" ++ t
  | .progress t => t!"progress:" ++ t

/-! ### Redis Cluster -/

/-- The text up to the first `c`, if there is one. -/
def before (c : Char) : Text → Option Text
  | [] => none
  | x :: xs => if x = c then some [] else (before c xs).map (x :: ·)

/-- The text after the first `c`, if there is one. -/
def after (c : Char) : Text → Option Text
  | [] => none
  | x :: xs => if x = c then some xs else after c xs

/-- The part of a key that Redis Cluster hashes (cluster specification, "hash tags"):
what is between the first `{` and the first `}` after it, unless that is empty or
missing, in which case the whole key. -/
def hashTag (k : Text) : Text :=
  match after '{' k with
  | none => k
  | some rest =>
    match before '}' rest with
    | none => k
    | some [] => k
    | some tag => tag

/-- CRC16/XMODEM on one byte. -/
def crcByte (crc byte : Nat) : Nat :=
  let c := Nat.xor crc (byte * 256)
  let bit := fun c => if c ≥ 32768 then Nat.xor ((c * 2) % 65536) 4129 else c * 2
  bit (bit (bit (bit (bit (bit (bit (bit c)))))))

/-- The slot of a key: CRC16 of the hashed part modulo 16384.  Characters stand for
single bytes, which is exact for ASCII texts; only witnesses compute it. -/
def slot (k : Text) : Nat := ((hashTag k).map Char.toNat).foldl crcByte 0 % 16384

/-- The two keys of a debounce, dependencies/_debounce.py:113-127.  `scope` is the
explicit scope or else the docket's plain name; `tag` is the function name, or the
argument's name and value. -/
def debounceBase (scope tag : Text) : Text :=
  scope ++ t!":debounce:" ++ tag ++ t!":{" ++ tag ++ t!"}:"

def winnerKey (scope tag : Text) : Text := debounceBase scope tag ++ t!"winner"
def seenKey (scope tag : Text) : Text := debounceBase scope tag ++ t!"last_seen"

/-- The slots and waiters keys of a concurrency limit, dependencies/_concurrency.py:530-543,
554.  `what` is the function name, or the argument's name and value. -/
def concurrencyKey (cluster : Bool) (name : Text) (scope : Option Text) (what : Text) : Text :=
  (match scope with
   | none => pre cluster name
   | some [] => pre cluster name
   | some s => pre cluster name ++ ':' :: s) ++ t!":concurrency:" ++ what

def waitersKey (cluster : Bool) (name : Text) (scope : Option Text) (what : Text) : Text :=
  concurrencyKey cluster name scope what ++ t!":waiters"

/-- Result keys, _result_store.py:55-58 with docket.py:717-719 as the collection. -/
def resultKey (cluster : Bool) (name task : Text) : Text :=
  key cluster name t!"results" ++ ':' :: task

end Docket.Keys
