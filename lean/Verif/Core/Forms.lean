import Verif.Core.System
/-
Closed forms of the scripts: each script as one structure update.  These are
consequences of the definitions in `Scripts.lean`, used by the proofs.
-/
namespace Docket
open Redis

@[simp] theorem upd_upd {α : Type} (f : Key → α) (k : Key) (a b : α) :
    upd (upd f k a) k b = upd f k b := by
  funext k'; simp only [upd]; split <;> rfl

/-- The record of `k`, or an empty one. -/
def Redis.run (r : Redis) (k : Key) : Run := (r.runs k).getD {}

/-- The generation the next scheduling of `k` will get. -/
def Redis.nextGen (r : Redis) (k : Key) : Gen := (r.run k).gen.getD 0 + 1

theorem nextGen_eq (r : Redis) (k : Key) : r.nextGen k = (r.genOf k).getD 0 + 1 := by
  simp only [Redis.nextGen, Redis.run, Redis.genOf]
  cases r.runs k <;> simp

theorem genOf_bump (r : Redis) (k : Key) : (bumpGen r k).genOf k = some (r.nextGen k) := by
  simp [bumpGen, hsetRun, Redis.genOf, Redis.nextGen, Redis.run]

def queuedRun (r : Redis) (k : Key) (q : Request) : Run :=
  { r.run k with gen := some (r.nextGen k), state := some .queued, when_ := some q.when_,
                 known := some q.when_, streamId := some r.nextId, fn := some q.fn,
                 args := some q.args, kwargs := some q.kwargs }

def scheduledRun (r : Redis) (k : Key) (q : Request) : Run :=
  { r.run k with gen := some (r.nextGen k), state := some .scheduled, when_ := some q.when_,
                 known := some q.when_, fn := some q.fn,
                 args := some q.args, kwargs := some q.kwargs }

theorem schedulePlace_now (r : Redis) (k : Key) (q : Request) :
    schedulePlace r k q true =
      { r with
        nextId := r.nextId + 1
        stream := r.stream ++ [(r.nextId, ⟨k, q, r.nextGen k⟩)]
        runs := upd r.runs k (some (queuedRun r k q))
        published := ⟨k, .queued⟩ :: r.published } := by
  simp [schedulePlace, bumpGen, xadd, hsetRun, publish, Redis.genOf, Redis.nextGen, Redis.run,
    queuedRun, Run.asQueued]

theorem schedulePlace_later (r : Redis) (k : Key) (q : Request) :
    schedulePlace r k q false =
      { r with
        parked := upd r.parked k (some ⟨k, q, r.nextGen k⟩)
        queue := zinsert k q.when_ (r.queue.filter (fun e => e.1 ≠ k))
        runs := upd r.runs k (some (scheduledRun r k q))
        published := ⟨k, .scheduled⟩ :: r.published } := by
  simp [schedulePlace, bumpGen, hsetRun, publish, Redis.genOf, Redis.nextGen, Redis.run,
    scheduledRun, Run.asScheduled, park, zadd]

theorem scheduleReschedule_now (r : Redis) (k : Key) (q : Request) (id : MsgId) :
    scheduleReschedule r k q true id =
      { r with
        pending := r.pending.filter (fun p => p.id ≠ id)
        nextId := r.nextId + 1
        stream := r.stream.filter (fun e => e.1 ≠ id) ++ [(r.nextId, ⟨k, q, r.nextGen k⟩)]
        runs := upd r.runs k (some { queuedRun r k q with worker := none, startedAt := none })
        published := ⟨k, .queued⟩ :: r.published } := by
  simp [scheduleReschedule, bumpGen, xadd, xack, xdel, hsetRun, hmodRun, publish, Redis.genOf,
    Redis.nextGen, Redis.run, queuedRun, Run.asQueued]

theorem scheduleReschedule_later (r : Redis) (k : Key) (q : Request) (id : MsgId) :
    scheduleReschedule r k q false id =
      { r with
        pending := r.pending.filter (fun p => p.id ≠ id)
        stream := r.stream.filter (fun e => e.1 ≠ id)
        parked := upd r.parked k (some ⟨k, q, r.nextGen k⟩)
        queue := zinsert k q.when_ (r.queue.filter (fun e => e.1 ≠ k))
        runs := upd r.runs k (some { scheduledRun r k q with
          streamId := none, worker := none, startedAt := none })
        published := ⟨k, .scheduled⟩ :: r.published } := by
  simp [scheduleReschedule, bumpGen, xack, xdel, hsetRun, hmodRun, publish, Redis.genOf,
    Redis.nextGen, Redis.run, scheduledRun, Run.asScheduled, park, zadd]

/-- What `replace`'s clean-up leaves of the stream. -/
def dropOwn (r : Redis) (k : Key) : List (MsgId × Msg) :=
  match r.streamIdOf k with
  | some id => r.stream.filter (fun e => e.1 ≠ id)
  | none => r.stream

theorem scheduleReplaceCleanup_eq (r : Redis) (k : Key) :
    scheduleReplaceCleanup r k =
      { r with
        stream := dropOwn r k
        queue := r.queue.filter (fun e => e.1 ≠ k)
        parked := upd r.parked k none } := by
  simp only [scheduleReplaceCleanup, dropOwn]
  cases r.streamIdOf k <;> simp [xdel, zrem, unpark]

theorem luaClaim_superseded (r : Redis) (k : Key) (g : Gen) (id : MsgId) (w : WorkerName)
    (h : isSuperseded r k g = true) :
    luaClaim r k g id w =
      ({ r with pending := r.pending.filter (fun p => p.id ≠ id)
                stream := r.stream.filter (fun e => e.1 ≠ id) }, .superseded) := by
  simp [luaClaim, h, xack, xdel]

def claimedRun (r : Redis) (k : Key) (w : WorkerName) : Run :=
  { r.run k with state := some .running, worker := some w, startedAt := some r.now,
                 known := none, streamId := none }

theorem luaClaim_ok (r : Redis) (k : Key) (g : Gen) (id : MsgId) (w : WorkerName)
    (h : isSuperseded r k g = false) :
    luaClaim r k g id w =
      ({ r with runs := upd r.runs k (some (claimedRun r k w))
                progress := upd r.progress k (some
                  { current := some 0, total := some 100, gen := some g })
                published := ⟨k, .running⟩ :: r.published }, .ok) := by
  simp [luaClaim, h, hsetRun, hsetProg, hmodRun, publish, claimedRun, Redis.run]

def terminalRun (ttl : Nat) (r : Redis) (k : Key) (st : RunState) (e : Option String)
    (rk : Option Key) : Run :=
  { r.run k with state := some st, completedAt := some r.now,
                 error := e.or (r.run k).error, resultKey := rk.or (r.run k).resultKey,
                 expireAt := some (r.now + ttl) }

theorem luaTerminal_ok (ttl : Nat) (r : Redis) (k : Key) (g : Gen) (id : MsgId) (st : RunState)
    (e : Option String) (rk : Option Key) (h : isSuperseded r k g = false) :
    luaTerminal ttl r k g id st e rk =
      ({ r with pending := r.pending.filter (fun p => p.id ≠ id)
                stream := r.stream.filter (fun e => e.1 ≠ id)
                runs := upd r.runs k
                  (if ttl > 0 then some (terminalRun ttl r k st e rk) else none)
                progress := upd r.progress k none
                published := ⟨k, st⟩ :: r.published }, .ok) := by
  simp only [luaTerminal, h]
  by_cases ht : ttl > 0 <;>
    simp [ht, hsetRun, hmodRun, delRun, publish, delProg, xack, xdel, terminalRun, Redis.run]

/-- The progress hashes after a superseded completion. -/
def supersededProgress (r : Redis) (k : Key) (g : Gen) : Key → Option Prog :=
  match (r.progress k).bind (·.gen) with
  | some pg => if pg ≤ g then upd r.progress k none else r.progress
  | none => upd r.progress k none

theorem luaTerminal_superseded (ttl : Nat) (r : Redis) (k : Key) (g : Gen) (id : MsgId)
    (st : RunState) (e : Option String) (rk : Option Key) (h : isSuperseded r k g = true) :
    luaTerminal ttl r k g id st e rk =
      ({ r with pending := r.pending.filter (fun p => p.id ≠ id)
                stream := r.stream.filter (fun e => e.1 ≠ id)
                progress := supersededProgress r k g
                published := ⟨k, st⟩ :: r.published }, .superseded) := by
  simp only [luaTerminal, h, supersededProgress, publish]
  cases hp : (r.progress k).bind (·.gen) with
  | none => simp [delProg, xack, xdel]
  | some pg => by_cases hg : pg ≤ g <;> simp [hg, delProg, xack, xdel]

/-- The record after `_cancel_task`. -/
def cancelRun (r : Redis) (k : Key) : Run :=
  match r.stateOf k with
  | some .completed | some .failed | some .cancelled =>
    { r.run k with known := none, streamId := none }
  | _ => { r.run k with known := none, streamId := none,
                        state := some .cancelled, completedAt := some r.now }

theorem luaCancel_eq (r : Redis) (k : Key) :
    luaCancel r k =
      { r with stream := dropOwn r k
               parked := upd r.parked k none
               queue := r.queue.filter (fun e => e.1 ≠ k)
               progress := upd r.progress k none
               runs := upd r.runs k (some (cancelRun r k)) } := by
  have h1 : ∀ (stream : List (MsgId × Msg)) (r1 : Redis), r1 = { r with stream := stream } →
      (match (((r1.unpark k).zrem k).delProg k |>.hmodRun k
          (fun h => { h with known := none, streamId := none })).stateOf k with
        | some .completed | some .failed | some .cancelled =>
          ((r1.unpark k).zrem k).delProg k |>.hmodRun k
            (fun h => { h with known := none, streamId := none })
        | _ => (((r1.unpark k).zrem k).delProg k |>.hmodRun k
            (fun h => { h with known := none, streamId := none })).hsetRun k
              (fun h => { h with state := some .cancelled, completedAt := some r.now }))
      = { r with stream := stream
                 parked := upd r.parked k none
                 queue := r.queue.filter (fun e => e.1 ≠ k)
                 progress := upd r.progress k none
                 runs := upd r.runs k (some (cancelRun r k)) } := by
    intro stream r1 h1
    subst h1
    simp only [unpark, zrem, delProg, hmodRun, cancelRun, Redis.stateOf, Redis.run, upd_same]
    cases hr : r.runs k with
    | none => simp [hsetRun]
    | some h =>
      cases hs : h.state with
      | none => simp [hs, hsetRun]
      | some st => cases st <;> simp [hs, hsetRun]
  cases hs : r.streamIdOf k with
  | none =>
    have hd : dropOwn r k = r.stream := by simp [dropOwn, hs]
    rw [hd, ← h1 r.stream r rfl]
    simp only [luaCancel, hs]
    rfl
  | some id =>
    have hd : dropOwn r k = r.stream.filter (fun e => e.1 ≠ id) := by simp [dropOwn, hs]
    rw [hd, ← h1 _ (r.xdel id) rfl]
    simp only [luaCancel, hs]
    rfl

/-- The record after EXPIRE/DEL. -/
def expiredRun (ttl : Nat) (r : Redis) (k : Key) : Option Run :=
  if ttl > 0 then (r.runs k).map (fun h => { h with expireAt := some (r.now + ttl) }) else none

theorem expireRun_eq (ttl : Nat) (r : Redis) (k : Key) :
    expireRun ttl r k = { r with runs := upd r.runs k (expiredRun ttl r k) } := by
  simp only [expireRun, expiredRun]
  split <;> simp [hmodRun, delRun]

end Docket
