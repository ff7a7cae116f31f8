import Verif.Cli.Sentinel

/-!
# What a docket's connections are told

Models which connections `RedisConnection` makes for a URL, what each is given to sign in with and
which options it has (_redis.py:55, 632-693, 705-719, 754-834), which of them the commands, the
listening and the publishing go through (_redis.py:853-903) and the results
(_result_store.py:197-232), the credentials and options of `parse_sentinel_url`
(_redis_sentinel.py:160-211) and `sentinel_connection_pool` (_redis_sentinel.py:241-273), with
`parse_qs`, `urlencode` and `unquote` of Python and `parse_url` and the `from_url`s of redis-py,
which those call.

Simplifications: a character of a text stands for one byte of its UTF-8 form.  The values of
options are kept as texts: redis-py's conversion of some of them to numbers and booleans, and its
refusal of ill-formed ones, are left out.  The address and database that redis-py takes from the
URL are left out of standalone and cluster connections (for Sentinel see C56).  An in-memory
server has no connections (C92).
-/

namespace Docket.Connect
open Cli Sentinel

/-- A Python `dict` of keyword arguments. -/
abbrev Options := List (Text × Text)

/-- `d.get(k)`. -/
def Options.get? (d : Options) (k : Text) : Option Text :=
  match d with
  | [] => none
  | (n, v) :: d => if n = k then some v else Options.get? d k

/-- `d.pop(k, None)`. -/
def Options.pop (d : Options) (k : Text) : Options := d.filter (fun e => e.1 ≠ k)

/-- `d[k] = v`; the place of `k` in the order of the dictionary is of no consequence here. -/
def Options.put (d : Options) (k v : Text) : Options := (k, v) :: d.pop k

/-- `d.update(e)`, `{**d, **e}`. -/
def Options.update (d e : Options) : Options := e.foldr (fun x d => d.put x.1 x.2) d

/-! ### `urllib.parse` -/

/-- The value of a hexadecimal digit. -/
def hexVal? (c : Char) : Option Nat :=
  if '0' ≤ c ∧ c ≤ '9' then some (c.toNat - 48)
  else if 'A' ≤ c ∧ c ≤ 'F' then some (c.toNat - 55)
  else if 'a' ≤ c ∧ c ≤ 'f' then some (c.toNat - 87)
  else none

/-- The byte that two hexadecimal digits spell. -/
def hexByte? (a b : Char) : Option Char :=
  match hexVal? a, hexVal? b with
  | some x, some y => some (Char.ofNat (16 * x + y))
  | _, _ => none

/-- `unquote`: what is no escape stays as it is. -/
def unquote : Text → Text
  | '%' :: a :: b :: rest =>
    match hexByte? a b with
    | some c => c :: unquote rest
    | none => '%' :: unquote (a :: b :: rest)
  | c :: rest => c :: unquote rest
  | [] => []

/-- The bytes that `quote` leaves alone whatever `safe` is. -/
def alwaysSafe (c : Char) : Bool :=
  decide ('A' ≤ c ∧ c ≤ 'Z') || decide ('a' ≤ c ∧ c ≤ 'z') || decide ('0' ≤ c ∧ c ≤ '9')
    || c = '_' || c = '.' || c = '-' || c = '~'

/-- A digit of a byte in upper-case hexadecimal. -/
def hexDigit (n : Nat) : Char := Char.ofNat (if n < 10 then 48 + n else 55 + n)

/-- `quote_plus` of one byte. -/
def quotePlusByte (c : Char) : Text :=
  if alwaysSafe c then [c] else if c = ' ' then ['+'] else ['%', hexDigit (c.toNat / 16), hexDigit (c.toNat % 16)]

/-- `quote_plus`. -/
def quotePlus (t : Text) : Text := t.flatMap quotePlusByte

/-- `unquote` after `+` is read as a space, as `parse_qs` does. -/
def unquotePlus (t : Text) : Text := unquote (t.map fun c => if c = '+' then ' ' else c)

/-- `parse_qsl`: names and values in order. -/
def parseQsl (keepBlank : Bool) (query : Text) : List (Text × Text) :=
  (splitOn '&' query).filterMap fun field =>
    if field = [] then none
    else
      let p := partition '=' field
      if p.2 ≠ [] || keepBlank then some (unquotePlus p.1, unquotePlus p.2) else none

/-- One more value for a name in the dictionary of `parse_qs`. -/
def addValue (d : List (Text × List Text)) (n v : Text) : List (Text × List Text) :=
  match d with
  | [] => [(n, [v])]
  | (m, vs) :: d => if m = n then (m, vs ++ [v]) :: d else (m, vs) :: addValue d n v

/-- `parse_qs`: the values of each name. -/
def parseQs (keepBlank : Bool) (query : Text) : List (Text × List Text) :=
  (parseQsl keepBlank query).foldl (fun d e => addValue d e.1 e.2) []

/-- `"&".join`. -/
def ampersands : List Text → Text
  | [] => []
  | [t] => t
  | t :: ts => t ++ '&' :: ampersands ts

/-- `urlencode` of a list of pairs. -/
def urlencode (l : List (Text × Text)) : Text :=
  ampersands (l.map fun e => quotePlus e.1 ++ '=' :: quotePlus e.2)

/-- What `urlparse` and `urlparse_multihost` find in a URL, as far as it is used here. -/
structure Parts where
  scheme : Text
  netloc : Text
  path : Text
  query : Text

/-- `RedisConnection.__init__`, _redis.py:632-651.  `urlparse` is taken to do what
`urlparse_multihost` does. -/
def parts (url : Text) : Parts :=
  let p := urlparseMultihost url
  ⟨(partitionScheme url).1, p.netloc, p.path, p.query⟩

/-- `t.rpartition("@")[0]`, or nothing without an `@`. -/
def userinfo (netloc : Text) : Option Text :=
  if '@' ∈ netloc then some ((netloc.reverse.dropWhile (fun c => c ≠ '@')).drop 1).reverse else none

/-- `.username`. -/
def Parts.username (p : Parts) : Option Text := (userinfo p.netloc).map fun u => (partition ':' u).1

/-- `.password`. -/
def Parts.password (p : Parts) : Option Text :=
  (userinfo p.netloc).bind fun u => if ':' ∈ u then some (partition ':' u).2 else none

/-- `if x: d[k] = f(x)`. -/
def putIf (d : Options) (k : Text) (f : Text → Text) : Option Text → Options
  | none => d
  | some [] => d
  | some x => d.put k (f x)

/-! ### redis-py -/

/-- One name in redis-py's `parse_url`: its first value counts, and is unquoted once more. -/
def putFirst (d : Options) (e : Text × List Text) : Options :=
  match e.2 with
  | [] => d
  | v :: _ => d.put e.1 (unquote v)

/-- The options in a query string, by redis-py's `parse_url`. -/
def queryOptions (query : Text) : Options := (parseQs false query).foldl putFirst []

/-- redis-py's `parse_url`, without address and database: the options of the query string, then
the credentials. -/
def parseUrl (p : Parts) : Options :=
  putIf (putIf (queryOptions p.query) t!"username" unquote p.username) t!"password" unquote p.password

/-! ### Connections -/

/-- What a connection is made to. -/
inductive Role where
  | server
  | master
  | sentinels
  | cluster
  | node
  deriving DecidableEq, Repr

/-- A connection, or a pool of equal connections. -/
structure Conn where
  role : Role
  tls : Bool
  options : Options
  deriving DecidableEq

/-- `BLOCKING_READ_SOCKET_TIMEOUT`, _redis.py:55: no timeout. -/
def blockingReadTimeout : Text := t!"None"

def falseText : Text := t!"False"
def trueText : Text := t!"True"

/-- `is_cluster`, _redis.py:713-715. -/
def Parts.isCluster (p : Parts) : Bool := p.scheme = t!"redis+cluster" || p.scheme = t!"rediss+cluster"

/-- `is_sentinel`, _redis.py:718-720. -/
def Parts.isSentinel (p : Parts) : Bool := p.scheme = t!"redis+sentinel" || p.scheme = t!"rediss+sentinel"

/-- `is_memory`, _redis.py:723-725. -/
def Parts.isMemory (p : Parts) : Bool := p.scheme = t!"memory"

/-- `scheme.replace("+cluster", "")`, for the schemes it is called with. -/
def withoutCluster (scheme : Text) : Text :=
  if t!"+cluster".isSuffixOf scheme then scheme.take (scheme.length - 8) else scheme

/-- `_normalized_url`, _redis.py:754-767. -/
def Parts.normalized (p : Parts) : Parts :=
  if !p.isCluster then p else { p with scheme := withoutCluster p.scheme }

/-- `_create_cluster_client`, _redis.py:769-779, with `RedisCluster.from_url`: what the URL says
overrides what the call says. -/
def clusterClient (p : Parts) : Conn :=
  { role := .cluster
    tls := decide (p.normalized.scheme = t!"rediss")
    options := Options.update [(t!"socket_timeout", blockingReadTimeout)] (parseUrl p.normalized) }

/-- `ConnectionPool(username=…)` with `None` is without a user name. -/
def putSome (d : Options) (k : Text) : Option Text → Options
  | none => d
  | some x => d.put k x

/-- `_create_node_pool`, _redis.py:781-806: a pool to one of the primary nodes, which the cluster
client has found. -/
def nodePool (p : Parts) : Conn :=
  { role := .node
    tls := decide (p.scheme = t!"rediss+cluster")
    options := putSome (putSome [(t!"socket_timeout", blockingReadTimeout), (t!"decode_responses", falseText)]
      t!"username" p.username) t!"password" p.password }

/-- `query.pop(name, [""])[0]`: the first value of a name. -/
def firstValue (d : List (Text × List Text)) (n : Text) : Text :=
  match d with
  | [] => []
  | (m, vs) :: d => if m = n then vs.headD [] else firstValue d n

/-- `sentinel_kwargs`, _redis_sentinel.py:160-172. -/
def sentinelKwargs (p : Parts) : Options :=
  let tls := decide (p.scheme = t!"rediss+sentinel")
  let query := parseQs true p.query
  let d := putIf [] t!"username" id (some (firstValue query t!"sentinel_username"))
  let d := putIf d t!"password" id (some (firstValue query t!"sentinel_password"))
  if tls then d.put t!"ssl" trueText else d

/-- The query parameters that remain, written out again, _redis_sentinel.py:163-164, 180-183. -/
def remainingQuery (query : Text) : Text :=
  let rest := (parseQs true query).filter fun e => e.1 ≠ t!"sentinel_username" ∧ e.1 ≠ t!"sentinel_password"
  urlencode (rest.flatMap fun e => e.2.map fun v => (e.1, v))

/-- `connection_kwargs`, _redis_sentinel.py:174-203; parsing the empty text gives no option. -/
def connectionKwargs (p : Parts) : Options :=
  let tls := decide (p.scheme = t!"rediss+sentinel")
  let funneled := parseUrl ⟨t!"redis", [], t!"/", remainingQuery p.query⟩
  let d := ((funneled.pop t!"db").pop t!"username").pop t!"password"
  let d := putIf d t!"username" unquote p.username
  let d := putIf d t!"password" unquote p.password
  if tls then d.put t!"ssl" trueText else d

/-- The arguments of the pool in `sentinel_connection_pool`, _redis_sentinel.py:262-273, for a
database `db`. -/
def sentinelPoolKwargs (p : Parts) (db : Text) (decodeResponses : Text) : Options :=
  Options.update
    [(t!"db", db), (t!"decode_responses", decodeResponses), (t!"socket_timeout", blockingReadTimeout),
      (t!"socket_keepalive", trueText)]
    (connectionKwargs p)

/-- `kwargs.pop("ssl", False)` in redis-py's pools and clients: any text is true. -/
def truthy : Option Text → Bool
  | none => false
  | some [] => false
  | some _ => true

/-- `sentinel_connection_pool`, _redis_sentinel.py:241-273: the pool to the master. -/
def masterPool (p : Parts) (db : Text) (decodeResponses : Text) : Conn :=
  let kw := sentinelPoolKwargs p db decodeResponses
  ⟨.master, truthy (kw.get? t!"ssl"), kw.pop t!"ssl"⟩

/-- `sentinel_connection_pool`, _redis_sentinel.py:261-263: the clients of the Sentinel daemons. -/
def daemons (p : Parts) : Conn :=
  let kw := sentinelKwargs p
  ⟨.sentinels, truthy (kw.get? t!"ssl"), kw.pop t!"ssl"⟩

/-- `ConnectionPool.from_url`, in `_connection_pool_from_url`, _redis.py:831-835. -/
def serverPool (p : Parts) (decodeResponses : Text) : Conn :=
  { role := .server
    tls := decide (p.scheme = t!"rediss")
    options := Options.update
      [(t!"decode_responses", decodeResponses), (t!"socket_timeout", blockingReadTimeout)] (parseUrl p) }

/-- `_connection_pool_from_url`, _redis.py:808-835; the database of a Sentinel URL is `db` (C56). -/
def poolFromUrl (p : Parts) (db : Text) (decodeResponses : Text) : Conn :=
  if p.isSentinel then masterPool p db decodeResponses else serverPool p decodeResponses

/-- What a `RedisConnection` holds once entered, _redis.py:653-687. -/
structure Held where
  pool : Option Conn := none
  cluster : Option Conn := none
  node : Option Conn := none

/-- `__aenter__`, _redis.py:653-687. -/
def enter (p : Parts) (db : Text) : Held :=
  if p.isCluster then { cluster := some (clusterClient p), node := some (nodePool p) }
  else if p.isMemory then {}
  else { pool := some (poolFromUrl p db falseText) }

/-- What a connection is used for. -/
inductive Use where
  /-- commands: tasks, records, strikes, heartbeats -/
  | commands
  /-- listening for state, progress and cancellation events -/
  | listen
  /-- publishing them -/
  | publish
  /-- storing and reading results -/
  | results
  deriving DecidableEq, Repr

/-- Which connection a use goes through: `client`, `pubsub`, `_cluster_pubsub` and `publish`,
_redis.py:853-922, and `ResultStorage.__aenter__`, _result_store.py:197-232. -/
def through (p : Parts) (db : Text) : Use → Option Conn
  | .commands => match (enter p db).cluster with
    | some c => some c
    | none => (enter p db).pool
  | .listen | .publish => match (enter p db).cluster with
    | some _ => (enter p db).node
    | none => (enter p db).pool
  | .results => match (enter p db).cluster with
    | some c => some c
    | none => if p.isMemory then none else some (poolFromUrl p db trueText)

/-- The connection a docket with this URL uses. -/
def connection (url : Text) (db : Text) (use : Use) : Option Conn := through (parts url) db use

end Docket.Connect
