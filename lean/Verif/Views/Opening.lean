import Verif.Cli.Target

/-!
# Which kind of server a URL opens

Models the choice of the backend by the scheme of a URL: `RedisConnection.__init__` and
`__aenter__` (_redis.py:632-687), `is_cluster`, `is_sentinel` and `is_memory`
(_redis.py:712-725), `_normalized_url` (_redis.py:754-767) and `_connection_pool_from_url`
(_redis.py:808-835), with the schemes that redis-py's `parse_url` takes.  What the rest of the
URL says is left out: see C56 and C97.
-/

namespace Docket.Opening
open Decimal Sentinel Target

/-- A kind of server, with or without TLS. -/
inductive Kind where
  | server (tls : Bool)
  | socket
  | cluster (tls : Bool)
  | master (tls : Bool)
  | memory
  deriving DecidableEq, Repr

/-- `self._parsed.scheme`, _redis.py:649-651.  `urlparse_multihost` gives `urlparse` the text
before `://` again, _redis_sentinel.py:77-85. -/
def parsedScheme (url : Text) : Text :=
  if isSentinelUrl url then urlScheme ((partitionScheme url).1 ++ t!"://netloc-placeholder")
  else urlScheme url

/-- redis-py's `parse_url`, as far as the scheme counts: the error "Redis URL must specify one of
the following schemes (redis://, rediss://, unix://)" is `none`. -/
def redisPy (scheme : Text) : Option Kind :=
  if scheme = t!"unix" then some .socket
  else if scheme = t!"redis" then some (.server false)
  else if scheme = t!"rediss" then some (.server true)
  else none

/-- `is_cluster`, _redis.py:712-715. -/
def isCluster (scheme : Text) : Bool := scheme = t!"redis+cluster" || scheme = t!"rediss+cluster"

/-- `is_sentinel`, _redis.py:717-720. -/
def isSentinel (scheme : Text) : Bool := scheme = t!"redis+sentinel" || scheme = t!"rediss+sentinel"

/-- `scheme.replace("+cluster", "")` in `_normalized_url`, _redis.py:766, of the two schemes it is
called with. -/
def withoutCluster (scheme : Text) : Text :=
  if scheme = t!"rediss+cluster" then t!"rediss" else if scheme = t!"redis+cluster" then t!"redis" else scheme

/-- `_create_cluster_client`, _redis.py:769-779: `RedisCluster.from_url` reads the URL with
`parse_url` too. -/
def clusterClient (scheme : Text) : Option Kind :=
  match redisPy (withoutCluster scheme) with
  | some (.server tls) => some (.cluster tls)
  | _ => none

/-- `_connection_pool_from_url`, _redis.py:808-835; the TLS of a Sentinel URL is decided in
`parse_sentinel_url`, _redis_sentinel.py:167. -/
def poolFromUrl (scheme : Text) : Option Kind :=
  if isSentinel scheme then some (.master (scheme = t!"rediss+sentinel")) else redisPy scheme

/-- `__aenter__`, _redis.py:657-687: what a docket with this URL connects to, or `none` if it is
not opened because of the scheme. -/
def opens (url : Text) : Option Kind :=
  let scheme := parsedScheme url
  if isCluster scheme then clusterClient scheme
  else if scheme = t!"memory" then some .memory
  else poolFromUrl scheme

end Docket.Opening
