import Verif.Core.WF
/-
Every step in normal form.  `Eff cfg s op s'` lists the possible effects of an
operation as explicit updates; `step_eff` shows that `step` always has one of them.
This is a consequence of the model, used to organise the proofs.
-/
namespace Docket
open Redis

inductive Eff (cfg : Cfg) (s : Sys) : Op → Sys → Prop
  | nop (op : Op) : Eff cfg s op s
  | tick (d : Nat) : Eff cfg s (.tick d) { s with
      r := s.r.advance d
      results := fun k => (s.results k).filter (fun v => s.r.now + d < v.expireAt) }
  | addNow (k : Key) (q : Request) (t : Time) (ht : t ≤ s.r.now) (hw : q.when_ ≤ t)
      (hx : scheduleExists s.r k = false) :
      Eff cfg s (.add k q t) { s with
        r := { s.r with
          nextId := s.r.nextId + 1
          stream := s.r.stream ++ [(s.r.nextId, ⟨k, q, s.r.nextGen k⟩)]
          runs := upd s.r.runs k (some (queuedRun s.r k q))
          published := ⟨k, .queued⟩ :: s.r.published }
        log := .accepted ⟨k, q, s.r.nextGen k⟩ :: s.log }
  | addLater (k : Key) (q : Request) (t : Time) (ht : t ≤ s.r.now) (hw : t < q.when_)
      (hx : scheduleExists s.r k = false) :
      Eff cfg s (.add k q t) { s with
        r := { s.r with
          parked := upd s.r.parked k (some ⟨k, q, s.r.nextGen k⟩)
          queue := zinsert k q.when_ (s.r.queue.filter (fun e => e.1 ≠ k))
          runs := upd s.r.runs k (some (scheduledRun s.r k q))
          published := ⟨k, .scheduled⟩ :: s.r.published }
        log := .accepted ⟨k, q, s.r.nextGen k⟩ :: s.log }
  | replaceNow (k : Key) (q : Request) (t : Time) (ht : t ≤ s.r.now) (hw : q.when_ ≤ t) :
      Eff cfg s (.replace k q t) { s with
        r := { s.r with
          nextId := s.r.nextId + 1
          stream := dropOwn s.r k ++ [(s.r.nextId, ⟨k, q, s.r.nextGen k⟩)]
          queue := s.r.queue.filter (fun e => e.1 ≠ k)
          parked := upd s.r.parked k none
          runs := upd s.r.runs k (some (queuedRun s.r k q))
          published := ⟨k, .queued⟩ :: s.r.published }
        log := .accepted ⟨k, q, s.r.nextGen k⟩ :: s.log }
  | replaceLater (k : Key) (q : Request) (t : Time) (ht : t ≤ s.r.now) (hw : t < q.when_) :
      Eff cfg s (.replace k q t) { s with
        r := { s.r with
          stream := dropOwn s.r k
          parked := upd s.r.parked k (some ⟨k, q, s.r.nextGen k⟩)
          queue := zinsert k q.when_ (s.r.queue.filter (fun e => e.1 ≠ k))
          runs := upd s.r.runs k (some (scheduledRun s.r k q))
          published := ⟨k, .scheduled⟩ :: s.r.published }
        log := .accepted ⟨k, q, s.r.nextGen k⟩ :: s.log }
  | cancel (k : Key) : Eff cfg s (.cancel k) { s with
      r := { s.r with
        stream := dropOwn s.r k
        parked := upd s.r.parked k none
        queue := s.r.queue.filter (fun e => e.1 ≠ k)
        progress := upd s.r.progress k none
        runs := upd s.r.runs k (some (cancelRun s.r k)) }
      ttlJobs := k :: s.ttlJobs
      log := .cancelled k :: s.log }
  | cancelTtl (k : Key) (hk : k ∈ s.ttlJobs) : Eff cfg s (.cancelTtl k) { s with
      r := { s.r with runs := upd s.r.runs k (expiredRun cfg.ttl s.r k) }
      ttlJobs := s.ttlJobs.erase k }
  | clear (op : Op) (j : ClearJob) (js : List ClearJob)
      (hop : (op = .clear ∧ j = clearRead s.r ∧ js = s.clearJobs) ∨
             (op = .clearWrite ∧ s.clearJobs = j :: js)) :
      Eff cfg s op { s with
        r := { s.r with
          stream := if j.streamCount > 0 then [] else s.r.stream
          queue := []
          parked := fun k => if k ∈ j.scheduledKeys then none else s.r.parked k
          runs := fun k => if k ∈ j.scheduledKeys ∨ k ∈ j.streamKeys then expiredRun cfg.ttl s.r k
            else s.r.runs k }
        clearJobs := js
        log := .cleared :: s.log }
  | clearRead : Eff cfg s .clearRead { s with clearJobs := s.clearJobs ++ [Docket.clearRead s.r] }
  | schedule (t : Time) (ht : t ≤ s.r.now) : Eff cfg s (.schedule t) { s with
      r := { s.r with
        nextId := s.r.nextId + ((dueKeys s.r t).filterMap s.r.parked).length
        stream := s.r.stream ++ numbered s.r.nextId ((dueKeys s.r t).filterMap s.r.parked)
        parked := fun k => if k ∈ dueKeys s.r t then none else s.r.parked k
        queue := s.r.queue.filter (fun e => ¬ e.2 ≤ t)
        runs := fun k => if k ∈ dueKeys s.r t then
          some { s.r.run k with state := some .queued } else s.r.runs k
        published := ((dueKeys s.r t).map (fun k => ⟨k, .queued⟩)).reverse ++ s.r.published } }
  | poll (w : WorkerName) (n : Nat) (new : List (MsgId × Msg))
      (hnew : new = (s.r.stream.filter (fun e => s.r.lastDelivered < e.1)).take n) :
      Eff cfg s (.poll w n) { s with
        r := { s.r with
          pending := s.r.pending ++ new.map (fun e => ⟨e.1, w, s.r.now⟩)
          lastDelivered := (new.getLast?.map (·.1)).getD s.r.lastDelivered }
        procs := s.procs ++ newProcs s.nextPid w false new
        nextPid := s.nextPid + new.length
        log := (newHanded s.nextPid w false s.r.now new).reverse ++ s.log }
  | redeliver (w : WorkerName) (p : Pend) (e : MsgId × Msg) (hp : p ∈ s.r.pending)
      (he : e ∈ s.r.stream) (hid : p.id = e.1) (hidle : p.since + cfg.redelivery ≤ s.r.now) :
      Eff cfg s (.redeliver w e.1) { s with
        r := { s.r with
          pending := s.r.pending.map (fun p => if p.id = e.1 then ⟨e.1, w, s.r.now⟩ else p) }
        procs := s.procs ++ [⟨s.nextPid, w, e.1, e.2, true, .handed⟩]
        nextPid := s.nextPid + 1
        log := .handed s.nextPid e.1 w true s.r.now e.2 :: s.log }
  | forget (id : MsgId) (hm : ∀ e ∈ s.r.stream, e.1 ≠ id) : Eff cfg s (.forget id) { s with
      r := { s.r with pending := s.r.pending.filter (fun p => p.id ≠ id) } }
  | renew (w : WorkerName) (id : MsgId) (he : ∃ e ∈ s.r.stream, e.1 = id)
      (hp : ∃ p ∈ s.r.pending, p.id = id) : Eff cfg s (.renew w id) { s with
      r := { s.r with
        pending := s.r.pending.map (fun p => if p.id = id then ⟨id, w, s.r.now⟩ else p) }
      log := .renewed id s.r.now :: s.log }
  | crash (w : WorkerName) : Eff cfg s (.crash w) { s with
      procs := s.procs.filter (fun p => p.worker ≠ w) }
  | abandon (pid : Nat) : Eff cfg s (.abandon pid) { s with
      procs := s.procs.filter (fun p => p.pid ≠ pid) }
  | strikeOut (p : Proc) (hp : p ∈ s.procs) (hph : p.phase = .handed) :
      Eff cfg s (.strikeOut p.pid) { s with
        r := { s.r with runs := upd s.r.runs p.msg.key ((s.r.runs p.msg.key).map
          (fun h => { h with known := none, streamId := none })) }
        procs := s.procs.map (fun x => if x.pid = p.pid then { x with phase := .stricken } else x)
        log := .struck p.pid p.msg :: s.log }
  | claimSuperseded (p : Proc) (hp : p ∈ s.procs) (hph : p.phase = .handed)
      (hs : isSuperseded s.r p.msg.key p.msg.gen = true) :
      Eff cfg s (.claim p.pid) { s with
        r := { s.r with
          pending := s.r.pending.filter (fun x => x.id ≠ p.id)
          stream := s.r.stream.filter (fun e => e.1 ≠ p.id) }
        procs := s.procs.filter (fun x => x.pid ≠ p.pid) }
  | claim (p : Proc) (hp : p ∈ s.procs) (hph : p.phase = .handed)
      (hs : isSuperseded s.r p.msg.key p.msg.gen = false) :
      Eff cfg s (.claim p.pid) { s with
        r := { s.r with
          runs := upd s.r.runs p.msg.key (some (claimedRun s.r p.msg.key p.worker))
          progress := upd s.r.progress p.msg.key (some
            { current := some 0, total := some 100, gen := some p.msg.gen })
          published := ⟨p.msg.key, .running⟩ :: s.r.published }
        procs := s.procs.map (fun x => if x.pid = p.pid then { x with phase := .running } else x)
        log := .started p.pid p.id p.msg s.r.now :: s.log }
  | store (p : Proc) (data : String) (hp : p ∈ s.procs) (hph : p.phase = .running)
      (httl : 0 < cfg.ttl) :
      Eff cfg s (.store p.pid data) { s with
        results := upd s.results p.msg.key (some ⟨data, s.r.now + cfg.ttl⟩) }
  | finish (p : Proc) (st : RunState) (e : Option String) (w : Bool) (hp : p ∈ s.procs)
      (hph : (p.phase = .running ∧ st.terminal) ∨ (p.phase = .stricken ∧ st = .cancelled))
      (hs : isSuperseded s.r p.msg.key p.msg.gen = false) :
      Eff cfg s (.finish p.pid st e w) { s with
        r := { s.r with
          pending := s.r.pending.filter (fun x => x.id ≠ p.id)
          stream := s.r.stream.filter (fun e => e.1 ≠ p.id)
          runs := upd s.r.runs p.msg.key
            (if cfg.ttl > 0 then some (terminalRun cfg.ttl s.r p.msg.key st e
              (if w then some p.msg.key else none)) else none)
          progress := upd s.r.progress p.msg.key none
          published := ⟨p.msg.key, st⟩ :: s.r.published }
        procs := s.procs.filter (fun x => x.pid ≠ p.pid)
        log := .finished p.pid p.id p.msg st true :: s.log }
  | finishSuperseded (p : Proc) (st : RunState) (e : Option String) (w : Bool) (hp : p ∈ s.procs)
      (hph : (p.phase = .running ∧ st.terminal) ∨ (p.phase = .stricken ∧ st = .cancelled))
      (hs : isSuperseded s.r p.msg.key p.msg.gen = true) :
      Eff cfg s (.finish p.pid st e w) { s with
        r := { s.r with
          pending := s.r.pending.filter (fun x => x.id ≠ p.id)
          stream := s.r.stream.filter (fun e => e.1 ≠ p.id)
          progress := supersededProgress s.r p.msg.key p.msg.gen
          published := ⟨p.msg.key, st⟩ :: s.r.published }
        procs := s.procs.filter (fun x => x.pid ≠ p.pid)
        log := .finished p.pid p.id p.msg st false :: s.log }
  | rescheduleNow (p : Proc) (t a d : Nat) (q : Request) (hp : p ∈ s.procs)
      (hph : p.phase = .running) (hq : q = { p.msg.req with when_ := t, attempt := a })
      (hd : d ≤ s.r.now) (hw : t ≤ d) :
      Eff cfg s (.reschedule p.pid t a d) { s with
        r := { s.r with
          pending := s.r.pending.filter (fun x => x.id ≠ p.id)
          nextId := s.r.nextId + 1
          stream := s.r.stream.filter (fun e => e.1 ≠ p.id) ++
            [(s.r.nextId, ⟨p.msg.key, q, s.r.nextGen p.msg.key⟩)]
          runs := upd s.r.runs p.msg.key (some { queuedRun s.r p.msg.key q with
            worker := none, startedAt := none })
          published := ⟨p.msg.key, .queued⟩ :: s.r.published }
        procs := s.procs.filter (fun x => x.pid ≠ p.pid)
        log := .accepted ⟨p.msg.key, q, s.r.nextGen p.msg.key⟩ :: s.log }
  | rescheduleLater (p : Proc) (t a d : Nat) (q : Request) (hp : p ∈ s.procs)
      (hph : p.phase = .running) (hq : q = { p.msg.req with when_ := t, attempt := a })
      (hd : d ≤ s.r.now) (hw : d < t) :
      Eff cfg s (.reschedule p.pid t a d) { s with
        r := { s.r with
          pending := s.r.pending.filter (fun x => x.id ≠ p.id)
          stream := s.r.stream.filter (fun e => e.1 ≠ p.id)
          parked := upd s.r.parked p.msg.key (some ⟨p.msg.key, q, s.r.nextGen p.msg.key⟩)
          queue := zinsert p.msg.key q.when_ (s.r.queue.filter (fun e => e.1 ≠ p.msg.key))
          runs := upd s.r.runs p.msg.key (some { scheduledRun s.r p.msg.key q with
            streamId := none, worker := none, startedAt := none })
          published := ⟨p.msg.key, .scheduled⟩ :: s.r.published }
        procs := s.procs.filter (fun x => x.pid ≠ p.pid)
        log := .accepted ⟨p.msg.key, q, s.r.nextGen p.msg.key⟩ :: s.log }
  | prog (op : Op) (k : Key) (f : Prog → Prog)
      (hop : (∃ n, op = .increment k n ∧ 1 ≤ n ∧ f = fun p => { p with
                current := some (p.current.getD 0 + n.toNat), updatedAt := some s.r.now }) ∨
             (∃ n, op = .setTotal k n ∧ 1 ≤ n ∧ f = fun p => { p with
                total := some n.toNat, updatedAt := some s.r.now }) ∨
             (∃ m, op = .setMessage k m ∧ f = fun p => { p with
                message := m, updatedAt := some s.r.now })) :
      Eff cfg s op { s with
        r := { s.r with progress := upd s.r.progress k (some (f ((s.r.progress k).getD {}))) } }

theorem find_pid {s : Sys} {pid : Nat} {p : Proc} (h : s.proc? pid = some p) :
    p ∈ s.procs ∧ p.pid = pid := by
  simp only [Sys.proc?] at h
  exact ⟨List.mem_of_find?_eq_some h, by simpa using List.find?_some h⟩

theorem nextGen_cleanup (r : Redis) (k : Key) :
    (scheduleReplaceCleanup r k).nextGen k = r.nextGen k := by
  rw [scheduleReplaceCleanup_eq]; rfl

theorem dueKeys_parked {r : Redis} (h : QueueOK r.queue r.parked) {t : Time} {k : Key}
    (hk : k ∈ dueKeys r t) : ∃ m, r.parked k = some m ∧ m.req.when_ ≤ t ∧ m.key = k := by
  simp only [dueKeys, List.mem_map, List.mem_filter, decide_eq_true_eq] at hk
  obtain ⟨⟨k', t'⟩, ⟨h1, h2⟩, rfl⟩ := hk
  obtain ⟨m, hm, hw⟩ := h.parked k' t' h1
  exact ⟨m, hm, by simp only at h2; omega, h.key _ _ hm⟩

theorem dueKeys_nodup {r : Redis} (h : QueueOK r.queue r.parked) (t : Time) :
    (dueKeys r t).Nodup :=
  List.Sublist.nodup (List.Sublist.map _ List.filter_sublist) h.nodup

theorem filterMap_length_of_isSome {α β : Type} (f : α → Option β) (l : List α)
    (h : ∀ a ∈ l, (f a).isSome) : (l.filterMap f).length = l.length := by
  induction l with
  | nil => rfl
  | cons a l ih =>
    obtain ⟨b, hb⟩ := Option.isSome_iff_exists.1 (h a (by simp))
    simp [hb, ih (fun x hx => h x (by simp [hx]))]

theorem step_eff (cfg : Cfg) (s : Sys) (hq : QueueOK s.r.queue s.r.parked) (op : Op) :
    Eff cfg s op (step cfg s op) := by
  cases op with
  | tick d => exact .tick d
  | add k q t =>
    simp only [step]
    by_cases ht : t ≤ s.r.now
    · simp only [ht, if_true, doAdd, doSchedule, luaSchedule]
      cases hx : scheduleExists s.r k
      · by_cases hw : q.when_ ≤ t
        · simp only [hw, decide_true, schedulePlace_now, Bool.false_eq_true, if_false]
          have := Eff.addNow (cfg := cfg) (s := s) k q t ht hw hx
          simpa [newMsg, Redis.genOf, queuedRun] using this
        · simp only [hw, decide_false, schedulePlace_later, Bool.false_eq_true, if_false]
          have := Eff.addLater (cfg := cfg) (s := s) k q t ht (by omega) hx
          simpa [newMsg, Redis.genOf, scheduledRun] using this
      · simpa using Eff.nop _
    · simp only [ht, if_false]; exact .nop _
  | replace k q t =>
    simp only [step]
    by_cases ht : t ≤ s.r.now
    · simp only [ht, if_true, doReplace, doSchedule, luaSchedule]
      by_cases hw : q.when_ ≤ t
      · simp only [hw, decide_true, schedulePlace_now, scheduleReplaceCleanup_eq]
        have := Eff.replaceNow (cfg := cfg) (s := s) k q t ht hw
        simpa [newMsg, Redis.genOf, queuedRun, Redis.nextGen, Redis.run] using this
      · simp only [hw, decide_false, schedulePlace_later, scheduleReplaceCleanup_eq]
        have := Eff.replaceLater (cfg := cfg) (s := s) k q t ht (by omega)
        simpa [newMsg, Redis.genOf, scheduledRun, Redis.nextGen, Redis.run] using this
    · simp only [ht, if_false]; exact .nop _
  | cancel k => simp only [step, doCancel, luaCancel_eq]; exact .cancel k
  | cancelTtl k =>
    simp only [step, doCancelTtl]
    by_cases hk : k ∈ s.ttlJobs
    · simp only [hk, if_true, expireRun_eq]; exact .cancelTtl k hk
    · simp only [hk, if_false]; exact .nop _
  | clear =>
    simp only [step, doClear, clearWrite_eq]
    exact .clear _ _ _ (Or.inl ⟨rfl, rfl, rfl⟩)
  | clearRead => exact .clearRead
  | clearWrite =>
    simp only [step]
    cases hj : s.clearJobs with
    | nil => exact .nop _
    | cons j js => simp only [clearWrite_eq]; exact .clear _ _ _ (Or.inr ⟨rfl, hj⟩)
  | schedule t =>
    simp only [step]
    by_cases ht : t ≤ s.r.now
    · simp only [ht, if_true]
      rw [luaStreamDue_eq _ _ hq.nodup hq.key]
      have hlen : ((dueKeys s.r t).filterMap s.r.parked).length = (dueKeys s.r t).length := by
        apply filterMap_length_of_isSome
        intro k hk
        obtain ⟨m, hm, _⟩ := dueKeys_parked hq hk
        simp [hm]
      have h2 : (if ((dueKeys s.r t).filterMap s.r.parked).length > 0
            then s.r.queue.filter (fun e => ¬ e.2 ≤ t) else s.r.queue)
          = s.r.queue.filter (fun e => ¬ e.2 ≤ t) := by
        split
        · rfl
        · rename_i h
          rw [hlen] at h
          symm
          rw [List.filter_eq_self]
          intro e he
          simp only [decide_eq_true_eq]
          intro hc
          apply h
          apply List.length_pos_of_mem (a := e.1)
          simp only [dueKeys, List.mem_map, List.mem_filter, decide_eq_true_eq]
          exact ⟨e, ⟨he, hc⟩, rfl⟩
      have h3 : ((dueKeys s.r t).filterMap s.r.parked).map (fun m => (⟨m.key, .queued⟩ : Published))
          = (dueKeys s.r t).map (fun k => ⟨k, .queued⟩) := by
        rw [List.map_filterMap, ← List.filterMap_eq_map]
        apply filterMap_congr'
        intro k hk
        obtain ⟨m, hm, _, hmk⟩ := dueKeys_parked hq hk
        simp [hm, hmk]
      have h4 : (fun k => if k ∈ dueKeys s.r t ∧ (s.r.parked k).isSome then
            some { s.r.run k with state := some .queued } else s.r.runs k)
          = (fun k => if k ∈ dueKeys s.r t then
            some { s.r.run k with state := some .queued } else s.r.runs k) := by
        funext k
        by_cases hk : k ∈ dueKeys s.r t
        · obtain ⟨m, hm, _⟩ := dueKeys_parked hq hk
          simp [hk, hm]
        · simp [hk]
      simp only [h2, movedTo, h3, h4]
      exact Eff.schedule (cfg := cfg) (s := s) t ht
    · simp only [ht, if_false]; exact .nop _
  | poll w n =>
    simp only [step, doPoll, xreadgroup, handOut_eq]
    exact .poll w n _ rfl
  | redeliver w id =>
    simp only [step, doRedeliver]
    split
    · rename_i p e hp he
      split
      · rename_i hidle
        have h1 : p.id = id := by simpa using List.find?_some hp
        have h2 : e.1 = id := by simpa using List.find?_some he
        subst h2
        simp only [handOut_eq, reassign, newProcs, newHanded]
        exact .redeliver w p e (List.mem_of_find?_eq_some hp) (List.mem_of_find?_eq_some he) h1 hidle
      · exact .nop _
    · exact .nop _
  | forget id =>
    simp only [step, doForget]
    split
    · exact .nop _
    · rename_i h
      refine .forget id (fun e he hc => h ?_)
      simp only [List.any_eq_true, decide_eq_true_eq]
      exact ⟨e, he, hc⟩
  | renew w id =>
    simp only [step, doRenew]
    split
    · rename_i h
      simp only [List.any_eq_true, decide_eq_true_eq] at h
      exact .renew w id h.1 h.2
    · exact .nop _
  | crash w => exact .crash w
  | abandon pid => exact .abandon pid
  | strikeOut pid =>
    simp only [step, doStrikeOut]
    split
    · rename_i p hp
      obtain ⟨h1, rfl⟩ := find_pid hp
      split
      · rename_i hph; exact .strikeOut p h1 hph
      · exact .nop _
    · exact .nop _
  | claim pid =>
    simp only [step, doClaim]
    split
    · rename_i p hp
      obtain ⟨h1, rfl⟩ := find_pid hp
      split
      · rename_i hph
        cases hs : isSuperseded s.r p.msg.key p.msg.gen
        · rw [luaClaim_ok _ _ _ _ _ hs]; exact .claim p h1 hph hs
        · rw [luaClaim_superseded _ _ _ _ _ hs]; exact .claimSuperseded p h1 hph hs
      · exact .nop _
    · exact .nop _
  | store pid data =>
    simp only [step, doStore]
    split
    · rename_i p hp
      obtain ⟨h1, rfl⟩ := find_pid hp
      split
      · rename_i h; exact .store p data h1 h.1 h.2
      · exact .nop _
    · exact .nop _
  | finish pid st e w =>
    simp only [step, doFinish]
    split
    · rename_i p hp
      obtain ⟨h1, rfl⟩ := find_pid hp
      split
      · rename_i hph
        cases hs : isSuperseded s.r p.msg.key p.msg.gen
        · rw [luaTerminal_ok _ _ _ _ _ _ _ _ hs]
          exact .finish p st e w h1 hph hs
        · rw [luaTerminal_superseded _ _ _ _ _ _ _ _ hs]
          exact .finishSuperseded p st e w h1 hph hs
      · exact .nop _
    · exact .nop _
  | reschedule pid t a d =>
    simp only [step]
    by_cases hd : d ≤ s.r.now
    · simp only [hd, if_true, doReschedule]
      split
      · rename_i p hp
        obtain ⟨h1, rfl⟩ := find_pid hp
        split
        · rename_i hph
          simp only [luaSchedule]
          by_cases hw : t ≤ d
          · simp only [hw, decide_true, scheduleReschedule_now]
            have := Eff.rescheduleNow (cfg := cfg) p t a d _ h1 hph rfl hd hw
            simpa [newMsg, Redis.genOf, queuedRun, Sys.dropProc] using this
          · simp only [hw, decide_false, scheduleReschedule_later]
            have := Eff.rescheduleLater (cfg := cfg) p t a d _ h1 hph rfl hd (by omega)
            simpa [newMsg, Redis.genOf, scheduledRun, Sys.dropProc] using this
        · exact .nop _
      · exact .nop _
    · simp only [hd, if_false]; exact .nop _
  | increment k n =>
    simp only [step, doIncrement]
    split
    · exact .nop _
    · exact .prog _ k _ (Or.inl ⟨n, rfl, by omega, rfl⟩)
  | setTotal k n =>
    simp only [step, doSetTotal]
    split
    · exact .nop _
    · exact .prog _ k _ (Or.inr (Or.inl ⟨n, rfl, by omega, rfl⟩))
  | setMessage k m => exact .prog _ k _ (Or.inr (Or.inr ⟨m, rfl, rfl⟩))

end Docket
