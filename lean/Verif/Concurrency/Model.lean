import Verif.Core.System
/-
One concurrency limit on top of the docket model: `ConcurrencyLimit`,
dependencies/_concurrency.py.  Several limits are several independent copies of the
slots and the wait list; the model has one.

Left out: the two PUBLISH payload escapes (json_escape), and the DEL of a stream or set
that has become empty, which Redis does by itself for sorted sets and which only resets
the entry ids of the waiter stream.
-/
namespace Docket
open Redis

/-- Settings of the docket plus `max_concurrent` (_concurrency.py:478-498). -/
structure CCfg extends Cfg where
  max : Nat

/-- `key_ttl`, _concurrency.py:562-565 and 787-790: four redelivery timeouts in whole
seconds, at least one second.  Model time is in milliseconds. -/
def keyTtl (redelivery : Nat) : Nat := 1000 * Nat.max 1 (redelivery * 4 / 1000)

/-- An execution that was given a slot and has not released it, with the time of its last
acquisition or renewal. -/
structure Holder where
  pid : Nat
  key : Key
  last : Time
  deriving DecidableEq, Repr

structure CSys where
  s : Sys := {}
  /-- the slots sorted set, in rank order -/
  slots : List (Key × Time) := []
  /-- expiry of the slots key -/
  slotsExpire : Option Time := none
  /-- the waiter stream, oldest first -/
  waiters : List (MsgId × Msg) := []
  /-- next entry id of the waiter stream -/
  nextW : MsgId := 1
  /-- executions that acquired a slot and have not released it (history, not Redis) -/
  holding : List Holder := []
  /-- keys for which a cancel signal was published (docket.py:591-613) -/
  signals : List Key := []
  /-- cancel subscribers that have read the waiter's place but not yet run the script -/
  cleanups : List (Key × MsgId) := []

/-- ZADD slots and EXPIRE slots. -/
def CSys.take (cfg : CCfg) (c : CSys) (k : Key) (t : Time) : CSys :=
  { c with
    slots := zinsert k t (c.slots.filter (fun e => e.1 ≠ k))
    slotsExpire := some (c.s.r.now + keyTtl cfg.redelivery) }

/-- ZREM slots. -/
def CSys.free (c : CSys) (k : Key) : CSys :=
  { c with slots := c.slots.filter (fun e => e.1 ≠ k) }

/-- A slot is stale when its time is at most `t - redelivery_timeout`
(`stale_threshold`, _concurrency.py:561). -/
def stale (cfg : CCfg) (t : Time) (e : Key × Time) : Bool := e.2 + cfg.redelivery ≤ t

/-- The parking half of `_acquire_or_park`, _concurrency.py:104-142. -/
def luaPark (c : CSys) (p : Proc) : CSys :=
  let r := (c.s.r.xack p.id).xdel p.id
  let r := r.hsetRun p.msg.key (fun h => { h with gen := some (h.gen.getD 0 + 1) })
  let m : Msg := { p.msg with gen := (r.genOf p.msg.key).getD 0 }
  let r := r.hsetRun p.msg.key (fun h => { h with
    state := some .scheduled, waiter := some c.nextW
    fn := some m.req.fn, args := some m.req.args, kwargs := some m.req.kwargs })
  let r := r.hmodRun p.msg.key (fun h => { h with streamId := none })
  { c with
    s := { c.s with r := r.publish p.msg.key .scheduled }
    waiters := c.waiters ++ [(c.nextW, m)]
    nextW := c.nextW + 1 }

/-- `_acquire_or_park`, _concurrency.py:44-145.  `true` is 1 (acquired). -/
def luaAcquire (cfg : CCfg) (c : CSys) (p : Proc) (t : Time) : CSys × Bool :=
  match c.slots.find? (fun e => e.1 = p.msg.key) with
  | some e =>
    if p.redelivered ∧ stale cfg t e then (c.take cfg p.msg.key t, true)
    else (luaPark c p, false)
  | none =>
    if c.slots.length < cfg.max then (c.take cfg p.msg.key t, true)
    else match c.slots.find? (stale cfg t) with
      | some e => ((c.free e.1).take cfg p.msg.key t, true)
      | none => (luaPark c p, false)

/-- The key of the backstop task of a waiter, _concurrency.py:218 and 609. -/
def safeguardKey (k : Key) : Key := "__safeguard__:" ++ k

/-- ZREM, DEL parked, DEL runs of the backstop task, _concurrency.py:221-224. -/
def dropSafeguard (r : Redis) (k : Key) : Redis :=
  ((r.zrem (safeguardKey k)).unpark (safeguardKey k)).delRun (safeguardKey k)

/-- One turn of the wake loop, _concurrency.py:193-252 and 328-369. -/
def wakeOne (c : CSys) (e : MsgId × Msg) : CSys :=
  let k := e.2.key
  let c' := { c with waiters := c.waiters.filter (fun x => x.1 ≠ e.1) }
  if c.s.r.stateOf k = some .scheduled then
    let r := c.s.r.hsetRun k (fun h => { h with gen := some (h.gen.getD 0 + 1) })
    let m : Msg := { e.2 with gen := (r.genOf k).getD 0 }
    let id := r.nextId
    let r := r.xadd m
    let r := r.hsetRun k (fun h => { h with state := some .queued, streamId := some id })
    let r := r.hmodRun k (fun h => { h with waiter := none })
    let r := dropSafeguard r k
    { c' with s := { c.s with r := r.publish k .queued } }
  else
    { c' with s := { c.s with r := dropSafeguard c.s.r k } }

/-- Evict every stale slot, _concurrency.py:184-187 and 309-313. -/
def evict (cfg : CCfg) (c : CSys) (t : Time) : CSys :=
  { c with slots := c.slots.filter (fun e => ¬ stale cfg t e) }

/-- Wake the first waiters, as many as there are free slots (XRANGE COUNT capacity). -/
def wake (cfg : CCfg) (c : CSys) : CSys :=
  (c.waiters.take (cfg.max - c.slots.length)).foldl wakeOne c

/-- `_release_and_wake`, _concurrency.py:148-265, for the task key `k`. -/
def luaRelease (cfg : CCfg) (c : CSys) (k : Key) (t : Time) : CSys :=
  let c := c.free k
  let c := if c.waiters.length > 0 then evict cfg c t else c
  wake cfg c

/-- `_scavenge_and_wake`, _concurrency.py:268-379.  With more slots than the maximum the
capacity is negative; XRANGE then returns no array and the script fails after the
eviction, waking nobody, which is also what `wake` does. -/
def luaScavenge (cfg : CCfg) (c : CSys) (t : Time) : CSys :=
  if c.waiters.length = 0 then c else wake cfg (evict cfg c t)

/-- `_cancel_cleanup`, _concurrency.py:382-408. -/
def luaCancelCleanup (c : CSys) (k : Key) (entry : MsgId) : CSys :=
  { c with
    waiters := c.waiters.filter (fun x => x.1 ≠ entry)
    s := { c.s with r := (c.s.r.delProg k).hmodRun k (fun h => { h with waiter := none }) } }

/-- Steps: those of the docket, and those of the limit. -/
inductive COp
  | core (op : Op)
  /-- `__aenter__` of a claimed execution, _concurrency.py:512-645; `t` is its clock reading -/
  | acquire (pid : Nat) (t : Time)
  /-- one round of `_renew_lease_loop`, _concurrency.py:781-810 (ZADD and EXPIRE as one step) -/
  | renewSlot (pid : Nat) (t : Time)
  /-- `ConcurrencyLimit._release_and_wake`, _concurrency.py:756-779 -/
  | release (pid : Nat) (t : Time)
  /-- `_safeguard_wake`, _concurrency.py:830-870 -/
  | scavenge (t : Time)
  /-- the HMGET of `_cleanup_cancelled_waiter`, _concurrency.py:731-741, on a cancel signal -/
  | cleanupRead (k : Key)
  /-- its script call, _concurrency.py:742-748 -/
  | cleanupWrite (k : Key) (entry : MsgId)
  deriving DecidableEq, Repr

/-- The execution is still in some worker's memory. -/
def CSys.alive (c : CSys) (pid : Nat) : Bool := c.s.procs.any (fun p => p.pid = pid)

/-- The executions running their body under the limit. -/
def CSys.holders (c : CSys) : List Holder := c.holding.filter (fun h => c.alive h.pid)

/-- Expiry of the slots key. -/
def expireSlots (c : CSys) : CSys :=
  match c.slotsExpire with
  | some e => if e ≤ c.s.r.now then { c with slots := [], slotsExpire := none } else c
  | none => c

/-- `Docket.cancel` publishes the cancelled key, docket.py:591-613. -/
def signalled (keys : List Key) : Op → List Key
  | .cancel k => k :: keys
  | _ => keys

/-- Effect of one step. -/
def cstep (cfg : CCfg) (c : CSys) : COp → CSys
  | .core op => expireSlots { c with
      s := step cfg.toCfg c.s op
      signals := signalled c.signals op }
  | .acquire pid t =>
    match c.s.proc? pid with
    | some p =>
      if p.phase = .running ∧ t ≤ c.s.r.now ∧ c.holding.all (fun h => h.pid ≠ pid) then
        let out := luaAcquire cfg c p t
        if out.2 then { out.1 with holding := ⟨pid, p.msg.key, t⟩ :: c.holding }
        else { out.1 with s := out.1.s.dropProc pid }
      else c
    | none => c
  | .renewSlot pid t =>
    match c.holders.find? (fun h => h.pid = pid) with
    | some h =>
      if t ≤ c.s.r.now then
        { c.take cfg h.key t with
          holding := c.holding.map (fun h => if h.pid = pid then { h with last := t } else h) }
      else c
    | none => c
  | .release pid t =>
    match c.holders.find? (fun h => h.pid = pid) with
    | some h =>
      if t ≤ c.s.r.now then
        { luaRelease cfg c h.key t with holding := c.holding.filter (fun h => h.pid ≠ pid) }
      else c
    | none => c
  | .scavenge t => if t ≤ c.s.r.now then luaScavenge cfg c t else c
  | .cleanupRead k =>
    if k ∈ c.signals then
      match (c.s.r.runs k).bind (·.waiter) with
      | some e => { c with cleanups := (k, e) :: c.cleanups }
      | none => c
    else c
  | .cleanupWrite k e => if (k, e) ∈ c.cleanups then luaCancelCleanup c k e else c

def crunFrom (cfg : CCfg) (c : CSys) (ops : List COp) : CSys := ops.foldl (cstep cfg) c
def crun (cfg : CCfg) (ops : List COp) : CSys := crunFrom cfg {} ops

@[simp] theorem crunFrom_nil (cfg : CCfg) (c : CSys) : crunFrom cfg c [] = c := rfl
@[simp] theorem crunFrom_cons (cfg : CCfg) (c : CSys) (o : COp) (ops : List COp) :
    crunFrom cfg c (o :: ops) = crunFrom cfg (cstep cfg c o) ops := rfl
theorem crunFrom_append (cfg : CCfg) (c : CSys) (a b : List COp) :
    crunFrom cfg c (a ++ b) = crunFrom cfg (crunFrom cfg c a) b := by
  simp [crunFrom]
theorem crun_append (cfg : CCfg) (a b : List COp) :
    crun cfg (a ++ b) = crunFrom cfg (crun cfg a) b := crunFrom_append _ _ _ _

end Docket
