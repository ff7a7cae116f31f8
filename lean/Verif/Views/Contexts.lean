/-!
Entering and leaving a docket: `Docket.__aenter__` and `__aexit__` (docket.py:218-258) with the
contexts they enter, `RedisConnection` (_redis.py:660-702), `StrikeList` (strikelist.py:229-265)
and `ResultStorage` (_result_store.py:197-243), and how an `AsyncExitStack` unwinds.

Simplifications: one enter or leave runs to its end before the next begins; a resource is a
number, and it counts as closed when its `aclose()` (or the task's `cancel()`) has been called,
whatever comes of that call.
-/
namespace Docket.Ctx

/-- How an await ends: normally, with an exception, or with the caller being cancelled. -/
inductive Outcome where
  | ok | error | cancelled
deriving DecidableEq, Repr

/-- What is raised. -/
inductive Exc where
  | error | cancelled
  | assertion   -- "... is not reentrant"
  | attribute   -- no `_stack`
  | body        -- what the block itself raised
deriving DecidableEq, Repr

/-- What becomes of the interpreter's resources: the number of those made, those made and those
closed (newest first), and how the awaits to come end (normally, when nothing is said). -/
structure Env where
  next : Nat
  opened : List Nat
  closed : List Nat
  oracle : List Outcome
deriving DecidableEq, Repr

/-- An await. -/
def Env.await (e : Env) : Outcome × Env :=
  match e.oracle with
  | [] => (.ok, e)
  | o :: os => (o, { e with oracle := os })

/-- A resource is made. -/
def Env.make (e : Env) : Nat × Env := (e.next, { e with next := e.next + 1, opened := e.next :: e.opened })

/-- `close_resource`, _redis.py:537-545: exceptions are logged, a cancellation goes on. -/
def closeResource (r : Nat) (e : Env) : Env × Option Exc :=
  match ({ e with closed := r :: e.closed }).await with
  | (.ok, e) => (e, none)
  | (.error, e) => (e, none)
  | (.cancelled, e) => (e, some .cancelled)

/-- `cancel_task`, _cancellation.py:44-68, for the strike monitor, which never ends with an
exception of its own (strikelist.py:552-565): our own cancellation is expected, another one
goes on. -/
def cancelTask (r : Nat) (e : Env) : Env × Option Exc :=
  match ({ e with closed := r :: e.closed }).await with
  | (.ok, f) => (f, none)
  | (.error, f) => (f, none)
  | (.cancelled, f) => (f, some .cancelled)

/-- The kinds of URL, _redis.py:714-726: cluster, in memory, or a pool (with or without
Sentinel). -/
inductive Mode where
  | cluster | memory | pool
deriving DecidableEq, Repr

/-- The callbacks of a `RedisConnection`'s stack, _redis.py:669-687. -/
inductive ConnCb where
  | forgetCluster | forgetNode | forgetMemory | forgetPool
  | close (r : Nat)
deriving DecidableEq, Repr

/-- A `RedisConnection`, _redis.py:611-658. -/
structure Conn where
  cluster : Option Nat
  node : Option Nat
  memory : Bool
  pool : Option Nat
  stack : Option (List ConnCb)
deriving DecidableEq, Repr

/-- `RedisConnection(url)`, _redis.py:637-658. -/
def Conn.new : Conn := ⟨none, none, false, none, none⟩

/-- `is_connected`, _redis.py:704-711. -/
def Conn.connected (c : Conn) : Bool := c.pool.isSome || c.cluster.isSome || c.memory

/-- What an await raises. -/
def Outcome.raises : Outcome → Option Exc
  | .ok => none
  | .error => some .error
  | .cancelled => some .cancelled

/-- `RedisConnection.__aenter__`, _redis.py:660-689.  Awaits: `initialize` of the cluster client
and the look-up of a primary node, the memory server, the pool (bad URLs raise). -/
def enterConn (mode : Mode) (c : Conn) (e : Env) : Conn × Env × Option Exc :=
  if c.connected then (c, e, some .assertion)
  else
    match mode with
    | .cluster =>
      let (o, e) := e.await
      match o.raises with
      | some x => ({ c with stack := some [] }, e, some x)
      | none =>
        let (r, e) := e.make
        let c := { c with cluster := some r, stack := some [.close r, .forgetCluster] }
        let (o, e) := e.await
        match o.raises with
        | some x => (c, e, some x)
        | none =>
          let (n, e) := e.make
          ({ c with node := some n, stack := some [.close n, .forgetNode, .close r, .forgetCluster] }, e, none)
    | .memory =>
      let (o, e) := e.await
      match o.raises with
      | some x => ({ c with stack := some [] }, e, some x)
      | none => ({ c with memory := true, stack := some [.forgetMemory] }, e, none)
    | .pool =>
      let (o, e) := e.await
      match o.raises with
      | some x => ({ c with stack := some [] }, e, some x)
      | none =>
        let (r, e) := e.make
        ({ c with pool := some r, stack := some [.close r, .forgetPool] }, e, none)

/-- One callback. -/
def ConnCb.call : ConnCb → Conn → Env → Conn × Env × Option Exc
  | .forgetCluster, c, e => ({ c with cluster := none }, e, none)
  | .forgetNode, c, e => ({ c with node := none }, e, none)
  | .forgetMemory, c, e => ({ c with memory := false }, e, none)
  | .forgetPool, c, e => ({ c with pool := none }, e, none)
  | .close r, c, e => let (e, x) := closeResource r e; (c, e, x)

/-- How `AsyncExitStack.__aexit__` unwinds: the callbacks, newest first; one that raises does
not keep the others from being called, and the last exception is raised in the end. -/
def unwind {C S : Type} (call : C → S → Env → S × Env × Option Exc) : List C → S → Env → Option Exc → S × Env × Option Exc
  | [], s, e, x => (s, e, x)
  | cb :: cbs, s, e, x =>
    let (s, e, y) := call cb s e
    unwind call cbs s e (y.or x)

/-- `RedisConnection.__aexit__`, _redis.py:691-702. -/
def leaveConn (c : Conn) (e : Env) (x : Option Exc) : Conn × Env × Option Exc :=
  match c.stack with
  | none => (c, e, some .attribute)
  | some cbs =>
    let (c, e, y) := unwind ConnCb.call cbs c e x
    ({ c with stack := none }, e, y)

/-- The callbacks of a `StrikeList`'s stack, strikelist.py:238-251. -/
inductive StrikesCb where
  | leaveConn | forgetLoaded | forgetMonitor
  | cancel (r : Nat)
deriving DecidableEq, Repr

/-- A `StrikeList` with a URL, strikelist.py:168-196. -/
structure Strikes where
  conn : Conn
  loaded : Bool
  monitor : Option Nat
  stack : Option (List StrikesCb)
deriving DecidableEq, Repr

/-- `StrikeList(url, name)`, strikelist.py:187-196. -/
def Strikes.new : Strikes := ⟨Conn.new, false, none, none⟩

/-- `StrikeList.__aenter__`, strikelist.py:229-253. -/
def enterStrikes (mode : Mode) (s : Strikes) (e : Env) : Strikes × Env × Option Exc :=
  if s.conn.connected then ({ s with stack := some [] }, e, some .assertion)
  else
    match enterConn mode s.conn e with
    | (c, e, some x) => ({ s with conn := c, stack := some [] }, e, some x)
    | (c, e, none) =>
      let (r, e) := e.make
      ({ s with conn := c, loaded := true, monitor := some r,
                stack := some [.cancel r, .forgetMonitor, .forgetLoaded, .leaveConn] }, e, none)

/-- One callback. -/
def StrikesCb.call : StrikesCb → Strikes → Env → Strikes × Env × Option Exc
  | .leaveConn, s, e => let (c, e, x) := Ctx.leaveConn s.conn e none; ({ s with conn := c }, e, x)
  | .forgetLoaded, s, e => ({ s with loaded := false }, e, none)
  | .forgetMonitor, s, e => ({ s with monitor := none }, e, none)
  | .cancel r, s, e => let (e, x) := cancelTask r e; (s, e, x)

/-- `StrikeList.__aexit__`, strikelist.py:255-265. -/
def leaveStrikes (s : Strikes) (e : Env) (x : Option Exc) : Strikes × Env × Option Exc :=
  match s.stack with
  | none => (s, e, some .attribute)
  | some cbs =>
    let (s, e, y) := unwind StrikesCb.call cbs s e x
    ({ s with stack := none }, e, y)

/-- The callbacks of a `ResultStorage`'s stack, _result_store.py:217-225. -/
inductive StoreCb where
  | forgetPool | forgetClient
  | close (r : Nat)
deriving DecidableEq, Repr

/-- A `ResultStorage`, _result_store.py:176-195. -/
structure Store where
  pool : Option Nat
  client : Option Nat
  stack : Option (List StoreCb)
deriving DecidableEq, Repr

/-- `ResultStorage(redis, collection)`. -/
def Store.new : Store := ⟨none, none, none⟩

/-- `ResultStorage.__aenter__`, _result_store.py:197-232.  Awaits: the pool (bad URLs raise)
and the store's `setup`. -/
def enterStore (mode : Mode) (s : Store) (e : Env) : Store × Env × Option Exc :=
  match mode with
  | .pool =>
    let (o, e) := e.await
    match o.raises with
    | some x => ({ s with stack := some [] }, e, some x)
    | none =>
      let (r, e) := e.make
      let (n, e) := e.make
      let s := { s with pool := some r, client := some n, stack := some [.close n, .forgetClient, .close r, .forgetPool] }
      let (o, e) := e.await
      (s, e, o.raises)
  | _ =>
    let (o, e) := e.await
    ({ s with stack := some [] }, e, o.raises)

/-- One callback. -/
def StoreCb.call : StoreCb → Store → Env → Store × Env × Option Exc
  | .forgetPool, s, e => ({ s with pool := none }, e, none)
  | .forgetClient, s, e => ({ s with client := none }, e, none)
  | .close r, s, e => let (e, x) := closeResource r e; (s, e, x)

/-- `ResultStorage.__aexit__`, _result_store.py:234-243. -/
def leaveStore (s : Store) (e : Env) (x : Option Exc) : Store × Env × Option Exc :=
  match s.stack with
  | none => (s, e, some .attribute)
  | some cbs =>
    let (s, e, y) := unwind StoreCb.call cbs s e x
    ({ s with stack := none }, e, y)

/-- The callbacks of a docket's stack, docket.py:228-246.  A new strike list and a new result
storage are made each time, so the callbacks say which one they are about. -/
inductive DocketCb where
  | leaveRedis
  | leaveStrikes (i : Nat)
  | leaveStore (i : Nat)
  | forgetStore
deriving DecidableEq, Repr

/-- A docket.  `lists` and `stores` are all strike lists and result storages it has made, by
number; `strikes` is its current strike list, `store` its `_result_storage`. -/
structure Dkt where
  redis : Conn
  lists : Nat → Strikes
  nlists : Nat
  strikes : Option Nat
  stores : Nat → Store
  nstores : Nat
  store : Option Nat
  stack : Option (List DocketCb)

/-- `Docket(...)`, docket.py:152-191. -/
def Dkt.new : Dkt := ⟨Conn.new, fun _ => Strikes.new, 0, none, fun _ => Store.new, 0, none, none⟩

/-- A change at one place. -/
def upd {α : Type} (f : Nat → α) (i : Nat) (a : α) : Nat → α := fun j => if j = i then a else f j

/-- What a docket is created with: the kind of URL, and whether the user gave it a result
storage, with an asynchronous `setup` or without (docket.py:236-241). -/
structure Settings where
  mode : Mode
  userStore : Option Bool
deriving DecidableEq, Repr

/-- The last part of `__aenter__`, docket.py:235-246: the result storage. -/
def enterResults (cfg : Settings) (d : Dkt) (cbs : List DocketCb) (e : Env) : Dkt × Env × Option Exc :=
  match cfg.userStore with
  | some true =>
    let (o, e) := e.await
    ({ d with store := none, stack := some cbs }, e, o.raises)
  | some false => ({ d with store := none, stack := some cbs }, e, none)
  | none =>
    let i := d.nstores
    let d := { d with nstores := i + 1, store := some i }
    match enterStore cfg.mode (d.stores i) e with
    | (t, e, some x) => ({ d with stores := upd d.stores i t, stack := some cbs }, e, some x)
    | (t, e, none) =>
      ({ d with stores := upd d.stores i t, stack := some (.forgetStore :: .leaveStore i :: cbs) }, e, none)

/-- `Docket.__aenter__`, docket.py:218-247. -/
def enter (cfg : Settings) (d : Dkt) (e : Env) : Dkt × Env × Option Exc :=
  let i := d.nlists
  let d := { d with stack := some [], nlists := i + 1, strikes := some i }
  match enterConn cfg.mode d.redis e with
  | (c, e, some x) => ({ d with redis := c }, e, some x)
  | (c, e, none) =>
    let d := { d with redis := c, stack := some [.leaveRedis] }
    match enterStrikes cfg.mode (d.lists i) e with
    | (s, e, some x) => ({ d with lists := upd d.lists i s }, e, some x)
    | (s, e, none) =>
      enterResults cfg { d with lists := upd d.lists i s } [.leaveStrikes i, .leaveRedis] e

/-- One callback. -/
def DocketCb.call : DocketCb → Dkt → Env → Dkt × Env × Option Exc
  | .leaveRedis, d, e => let (c, e, x) := leaveConn d.redis e none; ({ d with redis := c }, e, x)
  | .leaveStrikes i, d, e =>
    let (s, e, x) := Ctx.leaveStrikes (d.lists i) e none
    ({ d with lists := upd d.lists i s }, e, x)
  | .leaveStore i, d, e =>
    let (s, e, x) := Ctx.leaveStore (d.stores i) e none
    ({ d with stores := upd d.stores i s }, e, x)
  | .forgetStore, d, e => ({ d with store := none }, e, none)

/-- `Docket.__aexit__`, docket.py:249-258; `x` is what the block raised, which goes on unless
the unwinding raises something else (`__aexit__` returns nothing). -/
def leave (d : Dkt) (e : Env) (x : Option Exc) : Dkt × Env × Option Exc :=
  match d.stack with
  | none => (d, e, some .attribute)
  | some cbs =>
    let (d, e, y) := unwind DocketCb.call cbs d e x
    ({ d with stack := none }, e, y)

/-- The docket and the resources. -/
structure World where
  docket : Dkt
  env : Env

/-- A new docket in a process without any. -/
def World.new : World := ⟨Dkt.new, ⟨0, [], [], []⟩⟩

/-- `__aenter__` and `__aexit__` are called, their awaits ending as told; `failed` says whether
the block raised. -/
inductive Op where
  | enter (os : List Outcome)
  | leave (os : List Outcome) (failed : Bool)
deriving DecidableEq, Repr

/-- One call, and what it raises. -/
def step (cfg : Settings) (w : World) : Op → World × Option Exc
  | .enter os =>
    let (d, e, x) := enter cfg w.docket { w.env with oracle := os }
    (⟨d, e⟩, x)
  | .leave os failed =>
    let (d, e, x) := leave w.docket { w.env with oracle := os } (if failed then some .body else none)
    (⟨d, e⟩, x)

/-- `async with docket: ...`: how the awaits of entering and of leaving end, and whether the
block raises. -/
structure Block where
  entering : List Outcome
  leaving : List Outcome
  failed : Bool
deriving DecidableEq, Repr

/-- What `async with` does: when `__aenter__` raises, `__aexit__` is not called. -/
def block (cfg : Settings) (w : World) (b : Block) : World × Option Exc :=
  match step cfg w (.enter b.entering) with
  | (w, some x) => (w, some x)
  | (w, none) => step cfg w (.leave b.leaving b.failed)

/-- Blocks one after the other. -/
def blocks (cfg : Settings) (w : World) (bs : List Block) : World := bs.foldl (fun w b => (block cfg w b).1) w

end Docket.Ctx
