import Verif.Core.Log
/-
C01 An accepted task is never lost.
C02 A live task can always still be started.
C03 A task never becomes deliverable before its time.
C04 A scheduler tick moves exactly the due tasks, intact and in order.
-/
namespace Docket
open Redis

/-- C01.  For every history whatsoever (any interleaving of API calls, worker steps,
scheduler ticks, clock advances, crashes): if a task was accepted under `k` and
since then the key was not cancelled, no execution of it finished as the current
one and the docket was not cleared, and the key's record still exists, then the
accepted message, with its whole payload, is still in the stream or in the schedule. -/
theorem C01_accepted_never_lost (cfg : Cfg) (ops : List Op) (k : Key) (m : Msg)
    (hout : outstanding (run cfg ops).log k = some m) (hrec : HasRecord (run cfg ops) k) :
    InStream (run cfg ops) m ∨ InSchedule (run cfg ops) m :=
  ((CarriedInv.run cfg ops k m hout).2 hrec).place

section example_C01
private def q0 : Request := ⟨"f", "a", "b", 5, 1⟩
private def ops1 : List Op :=
  [.add "k" q0 0, .tick 5, .schedule 5, .poll "w1" 3, .claim 0, .crash "w1", .tick 10]
/-- The hypotheses hold in a history with a crash in the middle of a run. -/
example : outstanding (run ⟨10, 3⟩ ops1).log "k" = some ⟨"k", q0, 1⟩ ∧
    HasRecord (run ⟨10, 3⟩ ops1) "k" := by
  constructor
  · decide
  · unfold HasRecord; decide
end example_C01

theorem started_after_poll (cfg : Cfg) {s : Sys} (hw : WF s) (w : WorkerName) {id : MsgId} {m : Msg}
    (hm : (id, m) ∈ s.r.stream) (hld : s.r.lastDelivered < id)
    (hg : s.r.genOf m.key = some m.gen) :
    ∃ cont : List Op, (∀ op ∈ cont, WorkerStep w op) ∧
      ∃ pid id t, Event.started pid id m t ∈ newEvents s (runFrom cfg s cont) := by
  obtain ⟨p, h1, h2, h3, h4, _⟩ := poll_all cfg w hm hld
  have hw' : WF (step cfg s (.poll w s.r.stream.length)) := hw.step _
  have hg' : (step cfg s (.poll w s.r.stream.length)).r.genOf p.msg.key = some p.msg.gen := by
    rw [h3]; simp only [Redis.genOf, (poll_redis cfg s w _).1]; exact hg
  have hl := claim_starts cfg hw' h1 h4 hg'
  refine ⟨[.poll w s.r.stream.length, .claim p.pid], ?_, p.pid, p.id,
    (step cfg s (.poll w s.r.stream.length)).r.now, ?_⟩
  · intro op hop
    simp only [List.mem_cons, List.not_mem_nil, or_false] at hop
    rcases hop with rfl | rfl <;> simp [WorkerStep]
  · obtain ⟨l, hl1⟩ := step_log cfg hw (.poll w s.r.stream.length)
    rw [newEvents_eq (l := .started p.pid p.id p.msg _ :: l) (by
      simp only [runFrom_cons, runFrom_nil]; rw [hl, hl1]; rfl), h3]
    simp

theorem schedule_step (cfg : Cfg) (s : Sys) (t : Time) (h : t ≤ s.r.now) :
    step cfg s (.schedule t) = { s with r := (luaStreamDue s.r t).1 } := by
  simp [step, h]

/-- C02.  From every reachable state: if a task is outstanding under `k` and its
record exists with no expiry countdown, then any worker `w`, taking only its own
steps (waiting, running the scheduler, polling, redelivery, starting), can bring
about that exactly this message is started, whatever crashed before. -/
theorem C02_live_task_can_be_started (cfg : Cfg) (ops : List Op) (k : Key) (m : Msg)
    (w : WorkerName) (hout : outstanding (run cfg ops).log k = some m)
    (hrec : ∃ h, (run cfg ops).r.runs k = some h ∧ h.gen.isSome ∧ h.expireAt = none) :
    ∃ cont : List Op, (∀ op ∈ cont, WorkerStep w op) ∧
      ∃ pid id t, Event.started pid id m t ∈
        newEvents (run cfg ops) (runFrom cfg (run cfg ops) cont) := by
  have hw := WF.run cfg ops
  obtain ⟨hk, hc⟩ := CarriedInv.run cfg ops k m hout
  generalize run cfg ops = s at *
  subst hk
  obtain ⟨h, h1, h2, h3⟩ := hrec
  have hc := hc (by simp [HasRecord, Redis.genOf, h1, h2])
  have hadv : ∀ d, (s.r.advance d).genOf m.key = s.r.genOf m.key := by
    intro d; simp [Redis.genOf, advance, h1, h3, Option.filter]
  rcases hc.place with ⟨id, hid⟩ | hsch
  · by_cases hld : s.r.lastDelivered < id
    · exact started_after_poll cfg hw w hid hld hc.gen
    · -- delivered before: wait for the lease to lapse, then take it over
      obtain ⟨p, hp, hpid⟩ := hw.stream.deliv _ hid (by omega)
      let d := p.since + cfg.redelivery
      have hw1 : WF (step cfg s (.tick d)) := hw.step _
      have hr := redeliver_hands cfg (s := step cfg s (.tick d)) hw1 w (id := id) (m := m) hid
        (p := p) hp hpid (by simp only [step, advance, d]; omega)
      obtain ⟨hr1, hr2, hr3⟩ := hr
      have hw2 : WF (step cfg (step cfg s (.tick d)) (.redeliver w id)) := hw1.step _
      have hl := claim_starts cfg hw2 hr1 rfl (by
        have := hadv d
        simp only [Redis.genOf] at this ⊢
        rw [hr2]
        exact this.trans hc.gen)
      obtain ⟨l1, hl1⟩ := step_log cfg hw (.tick d)
      obtain ⟨l2, hl2⟩ := step_log cfg hw1 (.redeliver w id)
      refine ⟨[.tick d, .redeliver w id, .claim s.nextPid], ?_, s.nextPid, id,
        (step cfg (step cfg s (.tick d)) (.redeliver w id)).r.now, ?_⟩
      · intro op hop
        simp only [List.mem_cons, List.not_mem_nil, or_false] at hop
        rcases hop with rfl | rfl | rfl <;> simp [WorkerStep]
      · rw [newEvents_eq (l := .started s.nextPid id m
          (step cfg (step cfg s (.tick d)) (.redeliver w id)).r.now :: (l2 ++ l1)) (by
          simp only [runFrom_cons, runFrom_nil]
          have : (step cfg s (.tick d)).nextPid = s.nextPid := rfl
          rw [this] at hl
          rw [hl, hl2, hl1]; simp)]
        simp
  · -- parked: wait until it is due, run the scheduler, poll
    let d := m.req.when_
    have hw1 : WF (step cfg s (.tick d)) := hw.step _
    have hw2 : WF (step cfg (step cfg s (.tick d)) (.schedule (s.r.now + d))) := hw1.step _
    have he := step_eff cfg (step cfg s (.tick d)) hw1.queue (.schedule (s.r.now + d))
    have hdue : m.key ∈ dueKeys (step cfg s (.tick d)).r (s.r.now + d) := by
      simp only [dueKeys, List.mem_map, List.mem_filter, decide_eq_true_eq]
      exact ⟨_, ⟨hsch.2, by simp only [d]; omega⟩, rfl⟩
    have hparked : m ∈ (dueKeys (step cfg s (.tick d)).r (s.r.now + d)).filterMap
        (step cfg s (.tick d)).r.parked := by
      rw [List.mem_filterMap]; exact ⟨_, hdue, hsch.1⟩
    obtain ⟨id, hid⟩ := numbered_of_mem (i := s.r.nextId) hparked
    have hlt := (mem_numbered hid).1
    have hstep : (step cfg (step cfg s (.tick d)) (.schedule (s.r.now + d))).r.stream
        = s.r.stream ++ numbered s.r.nextId
          ((dueKeys (step cfg s (.tick d)).r (s.r.now + d)).filterMap (step cfg s (.tick d)).r.parked) ∧
        (step cfg (step cfg s (.tick d)) (.schedule (s.r.now + d))).r.lastDelivered
          = s.r.lastDelivered ∧
        (step cfg (step cfg s (.tick d)) (.schedule (s.r.now + d))).r.genOf m.key
          = some m.gen := by
      have hnow : s.r.now + d ≤ (step cfg s (.tick d)).r.now := by simp [step, advance]
      have e1 : step cfg (step cfg s (.tick d)) (.schedule (s.r.now + d)) =
          { step cfg s (.tick d) with
            r := (luaStreamDue (step cfg s (.tick d)).r (s.r.now + d)).1 } := by
        exact schedule_step cfg _ _ hnow
      rw [e1, luaStreamDue_eq _ _ hw1.queue.nodup hw1.queue.key]
      refine ⟨rfl, rfl, ?_⟩
      have := hadv d
      simp only [movedTo, Redis.genOf]
      split
      · rw [Option.bind_some]
        show ((step cfg s (.tick d)).r.run m.key).gen = _
        rw [run_gen]
        exact this.trans hc.gen
      · exact this.trans hc.gen
    obtain ⟨hs1, hs2, hs3⟩ := hstep
    obtain ⟨cont, hcont, pid, id', t, hst⟩ := started_after_poll cfg hw2 w (id := id) (m := m)
      (by rw [hs1]; simp [hid]) (by rw [hs2]; have := hw.stream.ldlt; omega) hs3
    refine ⟨[.tick d, .schedule (s.r.now + d)] ++ cont, ?_, pid, id', t, ?_⟩
    · intro op hop
      simp only [List.mem_append, List.mem_cons, List.not_mem_nil, or_false] at hop
      rcases hop with (rfl | rfl) | hop
      · simp [WorkerStep]
      · simp [WorkerStep]
      · exact hcont op hop
    · rw [newEvents_append cfg hw]
      rw [List.mem_append]
      left
      rw [runFrom_append]
      exact hst

section example_C02
/-- The hypotheses hold for a task waiting in the schedule and for one whose worker
crashed while running it. -/
example : outstanding (run ⟨10, 3⟩ ops1).log "k" = some ⟨"k", q0, 1⟩ ∧
    ∃ h, (run ⟨10, 3⟩ ops1).r.runs "k" = some h ∧ h.gen.isSome ∧ h.expireAt = none := by
  refine ⟨by decide, ⟨_, rfl, ?_, ?_⟩⟩ <;> decide
example : outstanding (run ⟨10, 3⟩ [.add "k" q0 0]).log "k" = some ⟨"k", q0, 1⟩ ∧
    ∃ h, (run ⟨10, 3⟩ [.add "k" q0 0]).r.runs "k" = some h ∧ h.gen.isSome ∧ h.expireAt = none := by
  refine ⟨by decide, ⟨_, rfl, ?_, ?_⟩⟩ <;> decide
end example_C02

/-- Nothing deliverable, held, handed out or started is early. -/
structure TimeOK (s : Sys) : Prop where
  stream : ∀ e ∈ s.r.stream, e.2.req.when_ ≤ s.r.now
  procs : ∀ p ∈ s.procs, p.msg.req.when_ ≤ s.r.now
  handed : ∀ pid id w b t m, Event.handed pid id w b t m ∈ s.log → m.req.when_ ≤ t
  started : ∀ pid id m t, Event.started pid id m t ∈ s.log → m.req.when_ ≤ t

theorem TimeOK.step {cfg : Cfg} {s : Sys} (hw : WF s) (h : TimeOK s) (op : Op) :
    TimeOK (step cfg s op) := by
  have he := step_eff cfg s hw.queue op
  generalize Docket.step cfg s op = s' at he
  obtain ⟨h1, h2, h3, h4⟩ := h
  have hf : ∀ (st : List (MsgId × Msg)), (∀ e ∈ st, e ∈ s.r.stream) →
      ∀ e ∈ st, e.2.req.when_ ≤ s.r.now := fun st hst e he => h1 e (hst e he)
  have hpf : ∀ (ps : List Proc), (∀ p ∈ ps, p ∈ s.procs) →
      ∀ p ∈ ps, p.msg.req.when_ ≤ s.r.now := fun st hst e he => h2 e (hst e he)
  have hpm : ∀ (pid : Nat) (ph : Phase), ∀ p ∈ s.procs.map (fun x =>
      if x.pid = pid then { x with phase := ph } else x), p.msg.req.when_ ≤ s.r.now := by
    intro pid ph p hp
    obtain ⟨x, hx, rfl⟩ := List.mem_map.1 hp
    have := h2 x hx
    split <;> simpa using this
  have hadd : ∀ (st : List (MsgId × Msg)) (id : MsgId) (m : Msg), (∀ e ∈ st, e ∈ s.r.stream) →
      m.req.when_ ≤ s.r.now → ∀ e ∈ st ++ [(id, m)], e.2.req.when_ ≤ s.r.now := by
    intro st id m hst hm e he
    simp only [List.mem_append, List.mem_singleton] at he
    rcases he with he | rfl
    · exact h1 e (hst e he)
    · exact hm
  have hself : ∀ e ∈ s.r.stream, e ∈ s.r.stream := fun _ h => h
  have hdrop : ∀ k, ∀ e ∈ dropOwn s.r k, e ∈ s.r.stream := fun _ _ h => mem_dropOwn h
  have hfil : ∀ id : MsgId, ∀ e ∈ s.r.stream.filter (fun e => e.1 ≠ id), e ∈ s.r.stream :=
    fun _ _ h => (List.mem_filter.1 h).1
  have hpfil : ∀ f : Proc → Bool, ∀ e ∈ s.procs.filter f, e ∈ s.procs :=
    fun _ _ h => (List.mem_filter.1 h).1
  cases he with
  | nop => exact ⟨h1, h2, h3, h4⟩
  | tick d =>
    refine ⟨fun e he => ?_, fun p hp => ?_, h3, h4⟩
    · have := h1 e he; simp only [advance]; omega
    · have := h2 p hp; simp only [advance]; omega
  | addNow k q t ht hwh =>
    exact ⟨hadd _ _ _ hself (by simp only; omega), h2, by simpa using h3, by simpa using h4⟩
  | addLater k q t ht hwh => exact ⟨h1, h2, by simpa using h3, by simpa using h4⟩
  | replaceNow k q t ht hwh =>
    exact ⟨hadd _ _ _ (hdrop k) (by simp only; omega), h2, by simpa using h3, by simpa using h4⟩
  | replaceLater k q t ht hwh =>
    exact ⟨hf _ (hdrop k), h2, by simpa using h3, by simpa using h4⟩
  | cancel k => exact ⟨hf _ (hdrop k), h2, by simpa using h3, by simpa using h4⟩
  | cancelTtl k => exact ⟨h1, h2, h3, h4⟩
  | clear op j js =>
    refine ⟨hf _ ?_, h2, by simpa using h3, by simpa using h4⟩
    intro e he
    split at he
    · simp at he
    · exact he
  | clearRead => exact ⟨h1, h2, h3, h4⟩
  | schedule t ht =>
    refine ⟨fun e he => ?_, h2, h3, h4⟩
    simp only [List.mem_append] at he
    rcases he with he | he
    · exact h1 e he
    · have hm := (mem_numbered he).2.2
      rw [List.mem_filterMap] at hm
      obtain ⟨k, hk, hm⟩ := hm
      obtain ⟨m, hm', hwh, _⟩ := dueKeys_parked hw.queue hk
      rw [hm] at hm'
      simp only [Option.some.injEq] at hm'
      rw [hm']
      exact Nat.le_trans hwh ht
  | poll w n new hnew =>
    have hst : ∀ e ∈ new, e ∈ s.r.stream := by
      intro e he
      rw [hnew] at he
      exact (List.mem_filter.1 (List.mem_of_mem_take he)).1
    refine ⟨h1, fun p hp => ?_, fun pid id w' b t m hm => ?_, fun pid id m t hm => ?_⟩
    · simp only [List.mem_append] at hp
      rcases hp with hp | hp
      · exact h2 p hp
      · exact h1 _ (hst _ (mem_newProcs hp).1)
    · simp only [List.mem_append, List.mem_reverse] at hm
      rcases hm with hm | hm
      · obtain ⟨p', e, heq, he, _⟩ := mem_newHanded hm
        simp only [Event.handed.injEq] at heq
        obtain ⟨_, _, _, _, rfl, rfl⟩ := heq
        exact h1 e (hst e he)
      · exact h3 _ _ _ _ _ _ hm
    · simp only [List.mem_append, List.mem_reverse] at hm
      rcases hm with hm | hm
      · obtain ⟨p', e, heq, he, _⟩ := mem_newHanded hm
        simp at heq
      · exact h4 _ _ _ _ hm
  | redeliver w p e hpe hem hid hidle =>
    refine ⟨h1, fun p hp => ?_, fun pid id w' b t m hm => ?_, fun pid id m t hm => ?_⟩
    · simp only [List.mem_append, List.mem_singleton] at hp
      rcases hp with hp | rfl
      · exact h2 p hp
      · exact h1 e hem
    · simp only [List.mem_cons] at hm
      rcases hm with hm | hm
      · simp only [Event.handed.injEq] at hm
        obtain ⟨_, _, _, _, rfl, rfl⟩ := hm
        exact h1 e hem
      · exact h3 _ _ _ _ _ _ hm
    · simp only [List.mem_cons] at hm
      rcases hm with hm | hm
      · simp at hm
      · exact h4 _ _ _ _ hm
  | forget id => exact ⟨h1, h2, h3, h4⟩
  | renew w id => exact ⟨h1, h2, by simpa using h3, by simpa using h4⟩
  | crash w => exact ⟨h1, hpf _ (hpfil _), h3, h4⟩
  | abandon pid => exact ⟨h1, hpf _ (hpfil _), h3, h4⟩
  | strikeOut p hp => exact ⟨h1, hpm _ _, by simpa using h3, by simpa using h4⟩
  | claimSuperseded p hp => exact ⟨hf _ (hfil _), hpf _ (hpfil _), h3, h4⟩
  | claim p hp =>
    refine ⟨h1, hpm _ _, by simpa using h3, fun pid id m t hm => ?_⟩
    simp only [List.mem_cons] at hm
    rcases hm with hm | hm
    · simp only [Event.started.injEq] at hm
      obtain ⟨_, _, rfl, rfl⟩ := hm
      exact h2 p hp
    · exact h4 _ _ _ _ hm
  | store p data => exact ⟨h1, h2, h3, h4⟩
  | finish p st e w hp =>
    exact ⟨hf _ (hfil _), hpf _ (hpfil _), by simpa using h3, by simpa using h4⟩
  | finishSuperseded p st e w hp =>
    exact ⟨hf _ (hfil _), hpf _ (hpfil _), by simpa using h3, by simpa using h4⟩
  | rescheduleNow p t a d q hp hph hq hd hwh =>
    exact ⟨hadd _ _ _ (hfil _) (by rw [hq]; simp only; omega), hpf _ (hpfil _),
      by simpa using h3, by simpa using h4⟩
  | rescheduleLater p t a d q hp hph hq hd hwh =>
    exact ⟨hf _ (hfil _), hpf _ (hpfil _), by simpa using h3, by simpa using h4⟩
  | prog op k f => exact ⟨h1, h2, h3, h4⟩

theorem TimeOK.run (cfg : Cfg) (ops : List Op) : TimeOK (run cfg ops) := by
  have : ∀ s, WF s → TimeOK s → TimeOK (runFrom cfg s ops) := by
    induction ops with
    | nil => intro s _ h; exact h
    | cons o ops ih => intro s hw h; exact ih _ (hw.step o) (h.step hw o)
  exact this _ WF.init ⟨by simp, by simp, by simp, by simp⟩

/-- C03.  In every history: every message in the stream and every message a worker
holds is due, and at the moment a message was handed out or started its time had
come. -/
theorem C03_never_early (cfg : Cfg) (ops : List Op) :
    (∀ m, InStream (run cfg ops) m → m.req.when_ ≤ (run cfg ops).r.now) ∧
    (∀ m, HeldByWorker (run cfg ops) m → m.req.when_ ≤ (run cfg ops).r.now) ∧
    (∀ pid id w b t m, Event.handed pid id w b t m ∈ (run cfg ops).log → m.req.when_ ≤ t) ∧
    (∀ pid id m t, Event.started pid id m t ∈ (run cfg ops).log → m.req.when_ ≤ t) := by
  have h := TimeOK.run cfg ops
  refine ⟨fun m ⟨id, hm⟩ => h.stream _ hm, ?_, h.handed, h.started⟩
  rintro m ⟨p, hp, rfl⟩
  exact h.procs p hp

/-- In the example history something is in the stream, was handed out and started. -/
example : InStream (run ⟨10, 3⟩ ops1) ⟨"k", q0, 1⟩ ∧
    Event.started 0 1 ⟨"k", q0, 1⟩ 5 ∈ (run ⟨10, 3⟩ ops1).log :=
  ⟨⟨1, by decide⟩, by decide⟩

/-- C04.  In every reachable state, one scheduler tick at time `t`:
* appends to the stream a list `moved` and changes nothing of what was there;
* `moved` holds exactly the parked messages whose schedule time is at most `t`,
  each unchanged, in the order of the schedule, which is the order of due times;
* these leave the schedule with their parked payload, all others stay;
* the reported counts are the number scheduled before and the number moved. -/
theorem C04_tick_moves_exactly_due (cfg : Cfg) (ops : List Op) (t : Time) :
    let r := (run cfg ops).r
    let r' := (luaStreamDue r t).1
    let due := r.queue.filter (fun e => e.2 ≤ t)
    ∃ moved : List (MsgId × Msg),
      r'.stream = r.stream ++ moved ∧
      moved.map (fun e => r.parked e.2.key) = moved.map (fun e => some e.2) ∧
      moved.map (fun e => (e.2.key, e.2.req.when_)) = due ∧
      moved.Pairwise (fun a b => a.2.req.when_ ≤ b.2.req.when_) ∧
      r'.queue = r.queue.filter (fun e => t < e.2) ∧
      (∀ k, k ∈ due.map (·.1) → r'.parked k = none) ∧
      (∀ k, k ∉ due.map (·.1) → r'.parked k = r.parked k) ∧
      (luaStreamDue r t).2 = (r.queue.length, moved.length) := by
  intro r r' due
  have hw := WF.run cfg ops
  have hq : QueueOK r.queue r.parked := hw.queue
  have hdk : dueKeys r t = due.map (·.1) := rfl
  refine ⟨numbered r.nextId ((dueKeys r t).filterMap r.parked), ?_⟩
  have hr' : r' = _ := congrArg Prod.fst (luaStreamDue_eq r t hq.nodup hq.key)
  have hmem : ∀ m ∈ (dueKeys r t).filterMap r.parked, r.parked m.key = some m := by
    intro m hm
    rw [List.mem_filterMap] at hm
    obtain ⟨k, _, hk⟩ := hm
    rw [hq.key _ _ hk]; exact hk
  have hpairs : ((dueKeys r t).filterMap r.parked).map (fun m => (m.key, m.req.when_)) = due := by
    rw [hdk, List.filterMap_map, List.map_filterMap]
    rw [filterMap_congr' (g := some)]
    · simp
    · intro e he
      have he' : e ∈ r.queue := (List.mem_filter.1 he).1
      obtain ⟨m, hm, hwh⟩ := hq.parked e.1 e.2 he'
      simp only [Function.comp, hm, Option.map_some, Option.some.injEq]
      rw [hq.key _ _ hm, hwh]
  have hlen : ((dueKeys r t).filterMap r.parked).length = due.length := by
    rw [← hpairs, List.length_map]
  have hmap : ∀ {β : Type} (f : Msg → β), (numbered r.nextId ((dueKeys r t).filterMap r.parked)).map
      (fun e => f e.2) = ((dueKeys r t).filterMap r.parked).map f := by
    intro β f
    have := congrArg (List.map f) (numbered_map_snd r.nextId ((dueKeys r t).filterMap r.parked))
    rw [List.map_map] at this
    exact this
  refine ⟨by rw [hr']; rfl, ?_, ?_, ?_, ?_, ?_, ?_, ?_⟩
  · rw [hmap (fun m => r.parked m.key), hmap (fun m => some m)]
    exact List.map_congr_left hmem
  · rw [hmap (fun m => (m.key, m.req.when_))]; exact hpairs
  · have h1 : due.Pairwise (fun a b => a.2 ≤ b.2) := hq.sorted.filter _
    rw [← hpairs, ← hmap (fun m => (m.key, m.req.when_)), List.pairwise_map] at h1
    exact h1
  · rw [hr']
    simp only
    have e1 : (fun e : Key × Nat => decide (¬ e.2 ≤ t)) = (fun e => decide (t < e.2)) := by
      funext e; simp
    rw [e1]
    split
    · rfl
    · rename_i hz
      symm
      rw [List.filter_eq_self]
      intro e he
      simp only [decide_eq_true_eq]
      rw [hlen] at hz
      have : due = [] := List.length_eq_zero_iff.1 (by omega)
      have hn : e ∉ due := by rw [this]; simp
      simp only [due, List.mem_filter, decide_eq_true_eq, not_and] at hn
      have := hn he
      omega
  · intro k hk
    rw [hr']
    simp only [movedTo, hdk]
    rw [if_pos hk]
  · intro k hk
    rw [hr']
    simp only [movedTo, hdk]
    rw [if_neg hk]
  · rw [luaStreamDue_eq r t hq.nodup hq.key]
    simp [numbered_length]

/-- A schedule with two due tasks out of three. -/
example : ((run ⟨10, 3⟩ [.add "a" ⟨"f", "", "", 7, 1⟩ 0, .add "b" ⟨"f", "", "", 3, 1⟩ 0,
    .add "c" ⟨"f", "", "", 9, 1⟩ 0]).r.queue.filter (fun e => e.2 ≤ 7)).length = 2 := by decide

/-! ### Ties -/

/-- Earlier in the schedule: by time, and by key among those of the same time. -/
def Before (a b : Key × Time) : Prop := a.2 < b.2 ∨ (a.2 = b.2 ∧ a.1 < b.1)

theorem Before.trans {a b c : Key × Time} (h : Before a b) (h' : Before b c) : Before a c := by
  rcases h with h | ⟨h1, h2⟩ <;> rcases h' with h' | ⟨h3, h4⟩
  · exact .inl (by omega)
  · exact .inl (by omega)
  · exact .inl (by omega)
  · exact .inr ⟨by omega, String.lt_trans h2 h4⟩

theorem zinsert_before {k : Key} {t : Time} {q : List (Key × Time)} (h : q.Pairwise Before) (hk : ∀ e ∈ q, e.1 ≠ k) :
    (zinsert k t q).Pairwise Before := by
  induction q with
  | nil => simp [zinsert]
  | cons a q ih =>
    simp only [zinsert]
    have h' := List.pairwise_cons.1 h
    split
    · rename_i hc
      have hb : Before (k, t) a := hc
      rw [List.pairwise_cons]
      refine ⟨fun b hm => ?_, h⟩
      rcases List.mem_cons.1 hm with rfl | hm
      · exact hb
      · exact hb.trans (h'.1 b hm)
    · rename_i hc
      rw [List.pairwise_cons]
      refine ⟨fun b hm => ?_, ih h'.2 fun e he => hk e (List.mem_cons_of_mem _ he)⟩
      rcases zinsert_mem.1 hm with rfl | hm
      · rw [not_or] at hc
        by_cases ht : a.2 = t
        · right
          refine ⟨ht, ?_⟩
          by_cases hl : a.1 < k
          · exact hl
          · have h1 : ¬ k < a.1 := fun x => hc.2 ⟨ht.symm, x⟩
            exact absurd (String.le_antisymm (String.not_lt.1 h1) (String.not_lt.1 hl)) (hk a (List.mem_cons_self ..))
        · left
          have := hc.1
          show a.2 < t
          omega
      · exact h'.1 b hm

theorem before_step (cfg : Cfg) (s : Sys) (hw : WF s) (h : s.r.queue.Pairwise Before) (op : Op) :
    (step cfg s op).r.queue.Pairwise Before := by
  have he := step_eff cfg s hw.queue op
  have hf : ∀ k t, (zinsert k t (s.r.queue.filter (fun e => e.1 ≠ k))).Pairwise Before := fun k t =>
    zinsert_before (h.filter _) (fun e he => by simpa using (List.mem_filter.1 he).2)
  generalize step cfg s op = s' at he
  cases he <;> first | exact h | exact hf _ _ | exact h.filter _ | exact List.Pairwise.nil

theorem before_run (cfg : Cfg) (ops : List Op) : (run cfg ops).r.queue.Pairwise Before := by
  have gen : ∀ (rest past : List Op), (run cfg past).r.queue.Pairwise Before →
      (run cfg (past ++ rest)).r.queue.Pairwise Before := by
    intro rest
    induction rest with
    | nil => intro past h; simpa using h
    | cons o rest ih =>
      intro past h
      have h' := before_step cfg _ (WF.run cfg past) h o
      have := ih (past ++ [o]) (by simpa [run, runFrom_append] using h')
      simpa using this
  simpa using gen ops [] List.Pairwise.nil

/-- C04, ties.  In every reachable state, a scheduler tick appends the due tasks by their due time,
and those that are due at the same time by their keys, whatever the order in which they were
scheduled. -/
theorem C04_ties (cfg : Cfg) (ops : List Op) (t : Time) :
    ∃ moved : List (MsgId × Msg), (luaStreamDue (run cfg ops).r t).1.stream = (run cfg ops).r.stream ++ moved ∧
      moved.Pairwise (fun a b => a.2.req.when_ < b.2.req.when_ ∨
        (a.2.req.when_ = b.2.req.when_ ∧ a.2.key < b.2.key)) := by
  obtain ⟨moved, h1, _, h3, _⟩ := C04_tick_moves_exactly_due cfg ops t
  refine ⟨moved, h1, ?_⟩
  have hd := (before_run cfg ops).filter (fun e => decide (e.2 ≤ t))
  rw [← h3, List.pairwise_map] at hd
  exact hd

/-- Two tasks of the same time, scheduled in the opposite order of their keys. -/
example : (run ⟨10, 3⟩ [.add "b" ⟨"f", "a", "b", 5, 1⟩ 0, .add "a" ⟨"f", "a", "b", 5, 1⟩ 0]).r.queue = [("a", 5), ("b", 5)] := by
  decide +kernel

end Docket
