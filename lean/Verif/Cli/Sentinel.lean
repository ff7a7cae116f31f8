import Verif.Cli.Duration

/-!
# Sentinel URLs

Models `is_sentinel_url`, `urlparse_multihost` and `parse_sentinel_url`
(_redis_sentinel.py:57-211), with the parts of `urllib.parse` they use.

Simplifications: texts are trimmed of and lower-cased in ASCII characters only; credentials and
connection options are left out except that the options of the query string may be refused
(`Env.queryOk`); Python's check of bracketed hosts is `Env.bracketsOk`.  `none` is a `ValueError`.
-/

namespace Docket.Sentinel
open Cli Decimal

/-- What is taken from Python and redis-py as it is. -/
structure Env where
  /-- the validation of a netloc with brackets by `urlsplit` -/
  bracketsOk : Text → Bool
  /-- whether the connection options in the query string are understood,
  _redis_sentinel.py:185-201 -/
  queryOk : Text → Bool

def schemes : List Text := [t!"redis+sentinel", t!"rediss+sentinel"]

/-- `url.partition("://")`: the scheme and the remainder. -/
def partitionScheme : Text → Text × Text
  | [] => ([], [])
  | c :: cs => if t!"://".isPrefixOf (c :: cs) then ([], cs.drop 2) else
    let r := partitionScheme cs
    (c :: r.1, r.2)

/-- `is_sentinel_url`, _redis_sentinel.py:57-64; `parse_sentinel_url` is called for these only
(_redis.py). -/
def isSentinelUrl (url : Text) : Bool := schemes.contains (partitionScheme url).1

def isEnd (c : Char) : Bool := c = '/' || c = '?' || c = '#'

/-- Characters that `urlsplit` removes. -/
def isRemoved (c : Char) : Bool := c = '\t' || c = '\r' || c = '\n'

structure Parsed where
  netloc : Text
  path : Text
  query : Text
  tls : Bool

/-- `urlparse_multihost`, _redis_sentinel.py:67-86, for URLs with one of the two schemes. -/
def urlparseMultihost (url : Text) : Parsed :=
  let r := partitionScheme url
  let tail := (r.2.dropWhile (fun c => !isEnd c)).filter (fun c => !isRemoved c)
  let noFragment := tail.takeWhile (fun c => c ≠ '#')
  { netloc := r.2.takeWhile (fun c => !isEnd c)
    path := noFragment.takeWhile (fun c => c ≠ '?')
    query := (noFragment.dropWhile (fun c => c ≠ '?')).drop 1
    tls := decide (r.1 = t!"rediss+sentinel") }

/-- `t.partition(c)`: before and after. -/
def partition (c : Char) (t : Text) : Text × Text := (t.takeWhile (fun x => x ≠ c), (t.dropWhile (fun x => x ≠ c)).drop 1)

/-- `t.rpartition(c)[2]`. -/
def afterLast (c : Char) (t : Text) : Text := (t.reverse.takeWhile (fun x => x ≠ c)).reverse

/-- `_hostinfo` of urllib: host and port texts. -/
def hostinfo (netloc : Text) : Text × Text :=
  if '[' ∈ netloc then
    let b := (partition '[' netloc).2
    ((partition ']' b).1, (partition ':' (partition ']' b).2).2)
  else partition ':' netloc

/-- `.hostname` of urllib: lower case, except for an IPv6 zone. -/
def hostname (netloc : Text) : Text :=
  (hostinfo netloc).1.takeWhile (fun c => c ≠ '%') |>.map Char.toLower |> (· ++ (hostinfo netloc).1.dropWhile (fun c => c ≠ '%'))

/-- `.port` of urllib: `some none` when there is none, `none` for the `ValueError`. -/
def port (netloc : Text) : Option (Option Nat) :=
  if (hostinfo netloc).2 = [] then some none
  else if 4300 < (hostinfo netloc).2.length then none
  else match parse (hostinfo netloc).2 with
    | none => none
    | some p => if p ≤ 65535 then some (some p) else none

/-- One member of the list of hosts, _redis_sentinel.py:126-137. -/
def member (env : Env) (m : Text) : Option (Text × Nat) :=
  let netloc := m.filter (fun c => !isRemoved c)
  if (decide ('[' ∈ netloc)) ≠ (decide (']' ∈ netloc)) then none
  else if '[' ∈ netloc ∧ ¬ env.bracketsOk netloc then none
  else if hostname netloc = [] then none
  else match port netloc with
    | none => none
    | some p => some (hostname netloc, p.getD 26379)

/-- The loop over the members: empty ones are skipped, the first error ends it. -/
def members (env : Env) : List Text → Option (List (Text × Nat))
  | [] => some []
  | m :: ms =>
    if strip m = [] then members env ms
    else match member env (strip m) with
      | none => none
      | some x => match members env ms with
        | none => none
        | some xs => some (x :: xs)

structure Config where
  sentinels : List (Text × Nat)
  serviceName : Text
  db : Int
  tls : Bool
  deriving DecidableEq

/-- The database number, _redis_sentinel.py:150-158. -/
def database : List Text → Option Int
  | [] => some 0
  | s :: _ => pyInt s

/-- `parse_sentinel_url`, _redis_sentinel.py:106-211. -/
def parseSentinelUrl (env : Env) (url : Text) : Option Config :=
  let p := urlparseMultihost url
  match members env (splitOn ',' (afterLast '@' p.netloc)) with
  | none => none
  | some [] => none
  | some sentinels =>
    match (splitOn '/' p.path).filter (fun s => s ≠ []) with
    | [] => none
    | service :: rest =>
      match database rest with
      | none => none
      | some db => if env.queryOk p.query then some ⟨sentinels, service, db, p.tls⟩ else none

end Docket.Sentinel
