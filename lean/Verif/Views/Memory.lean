/-!
The in-memory backend: which server a `memory://` connection gets.
`/repo/src/docket/_redis.py`, lines 548-608 and 837-853.

Event loops are objects of the interpreter.  `uid` tells them apart for good; `addr` is what
`id(loop)` gives, which is unique among the objects that exist at a time but may be used
again when an object is gone.
-/
namespace Docket.Memory

/-- An event loop: whether it has been closed, and whether the program still refers to it. -/
structure Loop where
  uid : Nat
  addr : Nat
  closed : Bool
  held : Bool
deriving DecidableEq, Repr

/-- An entry of `_memory_servers`: the key `(url, id(loop))` and the value `(loop, client)`.
The entry refers to the loop.  _redis.py:550-552, 556-557. -/
structure Entry where
  url : String
  addr : Nat
  loop : Nat
  server : Nat
deriving DecidableEq, Repr

/-- Where `_get_or_create_memory_client` is, _redis.py:837-853: the key is computed and the
entries of closed loops are to be dropped; the entry is to be looked up; through. -/
inductive Phase where
  | dropping | getting | connected (server : Nat) | over
deriving DecidableEq, Repr

/-- A connection to `url`, made in the loop `loop`; `addr` is the key's `id(loop)`. -/
structure Conn where
  url : String
  loop : Nat
  addr : Nat
  phase : Phase
deriving DecidableEq, Repr

/-- A server handed to a connection. -/
structure Served where
  conn : Nat
  url : String
  loop : Nat
  server : Nat
deriving DecidableEq, Repr

/-- The interpreter's loops and the module's cache.  `next` is the number of servers made,
`shut` the servers that have been closed; `served` (newest first) is for the statements. -/
structure State where
  loops : List Loop
  cache : List Entry
  next : Nat
  shut : List Nat
  conns : Nat → Option Conn
  served : List Served

/-- Nothing yet. -/
def init : State := ⟨[], [], 0, [], fun _ => none, []⟩

/-- What can happen.  A new loop gets an address; a loop is closed; the program forgets a
loop (which closes it); a connection is entered in a loop and goes on; a connection is left;
`clear_memory_servers` is called. -/
inductive Ev where
  | newLoop (uid addr : Nat)
  | close (uid : Nat)
  | forget (uid : Nat)
  | enter (conn uid : Nat) (url : String)
  | go (conn : Nat)
  | leave (conn : Nat)
  | clear
deriving DecidableEq, Repr

/-- An object exists while the program or an entry of the cache refers to it,
_redis.py:551 (the entry's first component). -/
def alive (s : State) (l : Loop) : Bool := l.held || s.cache.any (fun e => e.loop == l.uid)

/-- `loop.is_closed()`. -/
def isClosed (s : State) (uid : Nat) : Bool := s.loops.any fun l => l.uid == uid && l.closed

/-- The loop's state is changed. -/
def onLoop (s : State) (uid : Nat) (f : Loop → Loop) : State :=
  { s with loops := s.loops.map fun l => if l.uid = uid then f l else l }

/-- The connection's state is changed. -/
def putConn (s : State) (c : Nat) (x : Conn) : State :=
  { s with conns := fun j => if j = c then some x else s.conns j }

/-- `_drop_closed_memory_servers`, _redis.py:565-573: under the lock, the entries of closed
loops are taken out, and their clients are closed (here at once). -/
def dropClosed (s : State) : State :=
  { s with
    cache := s.cache.filter fun e => !isClosed s e.loop
    shut := s.shut ++ (s.cache.filter fun e => isClosed s e.loop).map (·.server) }

/-- The second half of `_get_or_create_memory_client`, _redis.py:847-853, under the lock. -/
def getOrCreate (s : State) (c : Nat) (x : Conn) : State :=
  match s.cache.find? fun e => e.url == x.url && e.addr == x.addr with
  | some e =>
    { putConn s c { x with phase := .connected e.server } with
      served := ⟨c, x.url, x.loop, e.server⟩ :: s.served }
  | none =>
    { putConn s c { x with phase := .connected s.next } with
      cache := s.cache ++ [⟨x.url, x.addr, x.loop, s.next⟩]
      next := s.next + 1
      served := ⟨c, x.url, x.loop, s.next⟩ :: s.served }

/-- One event.  A coroutine goes on only while its loop is open.  `enter`: _redis.py:841-843,
`go`: 845-853, `leave`: 679-681 and 691-702 (the connection lets go of the client and does not
close it), `clear`: _redis.py:584-596. -/
def step (s : State) : Ev → State
  | .newLoop uid addr =>
    if s.loops.any (fun l => l.uid == uid) || s.loops.any (fun l => alive s l && l.addr == addr)
    then s
    else { s with loops := ⟨uid, addr, false, true⟩ :: s.loops }
  | .close uid => onLoop s uid fun l => { l with closed := true }
  | .forget uid => onLoop s uid fun l => { l with closed := true, held := false }
  | .enter c uid url =>
    match s.conns c with
    | some _ => s
    | none =>
      match s.loops.find? fun l => l.uid == uid && !l.closed with
      | some l => putConn s c ⟨url, uid, l.addr, .dropping⟩
      | none => s
  | .go c =>
    match s.conns c with
    | some x =>
      if isClosed s x.loop then s
      else
        match x.phase with
        | .dropping => putConn (dropClosed s) c { x with phase := .getting }
        | .getting => getOrCreate s c x
        | _ => s
    | none => s
  | .leave c =>
    match s.conns c with
    | some x =>
      match x.phase with
      | .connected _ => putConn s c { x with phase := .over }
      | _ => s
    | none => s
  | .clear => { s with cache := [], shut := s.shut ++ s.cache.map (·.server) }

/-- All events, in order. -/
def run (es : List Ev) : State := es.foldl step init

end Docket.Memory
