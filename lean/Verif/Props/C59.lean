import Verif.Props.C31_C32
/-
C59 A task that waits for a concurrency slot still counts as the task of its key:
cancel() keeps it from running, and add(), replace() and clear() treat it like any other
scheduled task.  The part about cancel() holds, the rest does not.
-/
namespace Docket
open Redis

/-- Nothing is left that could bring the key `k` back to the work stream: there is no
message of it, nothing is scheduled, no execution runs, and its record does not say
scheduled (which is what the wake scripts look at). -/
structure Quiet (c : CSys) (k : Key) : Prop where
  stream : ∀ e ∈ c.s.r.stream, e.2.key ≠ k
  queue : ∀ e ∈ c.s.r.queue, e.1 ≠ k
  procs : ∀ p ∈ c.s.procs, p.msg.key ≠ k
  state : c.s.r.stateOf k ≠ some .scheduled
  ordinary : ∀ k', k ≠ safeguardKey k'

/-- A step that schedules something under `k`. -/
def CallsFor (k : Key) : COp → Prop
  | .core (.add k' _ _) => k' = k
  | .core (.replace k' _ _) => k' = k
  | _ => False

theorem cancelRun_state (r : Redis) (k : Key) : (cancelRun r k).state ≠ some .scheduled := by
  have h : (r.run k).state = r.stateOf k := by
    simp only [Redis.run, Redis.stateOf]
    cases r.runs k <;> rfl
  simp only [cancelRun]
  split <;> simp_all

theorem core_quiet {cfg : Cfg} {s : Sys} (hw : WF s) {op : Op} {k : Key}
    (ha : ∀ q t, op ≠ .add k q t ∧ op ≠ .replace k q t)
    (h1 : ∀ e ∈ s.r.stream, e.2.key ≠ k) (h2 : ∀ e ∈ s.r.queue, e.1 ≠ k)
    (h3 : ∀ p ∈ s.procs, p.msg.key ≠ k) (h4 : s.r.stateOf k ≠ some .scheduled) :
    (∀ e ∈ (step cfg s op).r.stream, e.2.key ≠ k) ∧ (∀ e ∈ (step cfg s op).r.queue, e.1 ≠ k) ∧
    (∀ p ∈ (step cfg s op).procs, p.msg.key ≠ k) ∧ (step cfg s op).r.stateOf k ≠ some .scheduled := by
  have hst : ∀ (f : Key → Option Run) (k' : Key) (v : Option Run), k' ≠ k → f k = s.r.runs k →
      (upd f k' v k).bind (·.state) ≠ some .scheduled := by
    intro f k' v hne hf
    rw [upd_other _ _ _ _ (Ne.symm hne), hf]
    exact h4
  have hown : ∀ k', ∀ e ∈ dropOwn s.r k', e.2.key ≠ k := by
    intro k' e he
    exact h1 e (mem_dropOwn he)
  have hexp : (expiredRun cfg.ttl s.r k).bind (·.state) ≠ some .scheduled := by
    intro hc
    rw [Option.bind_eq_some_iff] at hc
    obtain ⟨v, hv1, hv2⟩ := hc
    obtain ⟨_, u, hu, rfl⟩ := expiredRun_eq_some hv1
    exact h4 (by simp only [Redis.stateOf, hu]; exact hv2)
  have heff := step_eff cfg s hw.queue op
  generalize Docket.step cfg s op = s' at heff
  cases heff with
  | nop => exact ⟨h1, h2, h3, h4⟩
  | tick d =>
    refine ⟨h1, h2, h3, ?_⟩
    intro hc
    apply h4
    simp only [Redis.stateOf, advance, Option.bind_eq_some_iff, Option.filter_eq_some_iff] at hc ⊢
    obtain ⟨v, ⟨hv, _⟩, hv2⟩ := hc
    exact ⟨v, hv, hv2⟩
  | addNow k' q t =>
    have hne : k' ≠ k := fun hc => (ha q t).1 (by rw [hc])
    refine ⟨?_, h2, h3, hst _ _ _ hne rfl⟩
    intro e he
    rcases List.mem_append.1 he with he | he
    · exact h1 e he
    · rw [List.mem_singleton.1 he]; exact hne
  | addLater k' q t =>
    have hne : k' ≠ k := fun hc => (ha q t).1 (by rw [hc])
    refine ⟨h1, ?_, h3, hst _ _ _ hne rfl⟩
    intro e he
    rcases zinsert_mem.1 he with rfl | he
    · exact hne
    · exact h2 e (List.mem_filter.1 he).1
  | replaceNow k' q t =>
    have hne : k' ≠ k := fun hc => (ha q t).2 (by rw [hc])
    refine ⟨?_, fun e he => h2 e (List.mem_filter.1 he).1, h3, hst _ _ _ hne rfl⟩
    intro e he
    rcases List.mem_append.1 he with he | he
    · exact hown _ e he
    · rw [List.mem_singleton.1 he]; exact hne
  | replaceLater k' q t =>
    have hne : k' ≠ k := fun hc => (ha q t).2 (by rw [hc])
    refine ⟨hown _, ?_, h3, hst _ _ _ hne rfl⟩
    intro e he
    rcases zinsert_mem.1 he with rfl | he
    · exact hne
    · exact h2 e (List.mem_filter.1 he).1
  | cancel k' =>
    refine ⟨hown _, fun e he => h2 e (List.mem_filter.1 he).1, h3, ?_⟩
    by_cases hk : k' = k
    · subst hk
      show (upd _ _ _ _ : Option Run).bind (·.state) ≠ _
      rw [upd_same]
      exact cancelRun_state _ _
    · exact hst _ _ _ hk rfl
  | cancelTtl k' =>
    refine ⟨h1, h2, h3, ?_⟩
    by_cases hk : k' = k
    · subst hk
      show (upd _ _ _ _ : Option Run).bind (·.state) ≠ _
      rw [upd_same]
      exact hexp
    · exact hst _ _ _ hk rfl
  | clear op j js hop =>
    refine ⟨?_, by simp, h3, ?_⟩
    · intro e he
      simp only at he
      split at he
      · simp at he
      · exact h1 e he
    · simp only [Redis.stateOf]
      split
      · exact hexp
      · exact h4
  | schedule t ht =>
    have hnd : k ∉ dueKeys s.r t := by
      intro hm
      simp only [dueKeys, List.mem_map, List.mem_filter] at hm
      obtain ⟨e, he1, he2⟩ := hm
      exact h2 e he1.1 he2
    refine ⟨?_, fun e he => h2 e (List.mem_filter.1 he).1, h3, ?_⟩
    · intro e he
      rcases List.mem_append.1 he with he | he
      · exact h1 e he
      · have := (mem_numbered he).2.2
        obtain ⟨k', hk', hp'⟩ := List.mem_filterMap.1 this
        obtain ⟨m, hm1, _, hm3⟩ := dueKeys_parked hw.queue hk'
        rw [hm1] at hp'
        cases hp'
        rw [hm3]
        intro hc; subst hc; exact hnd hk'
    · simp only [Redis.stateOf, if_neg hnd]; exact h4
  | clearRead => exact ⟨h1, h2, h3, h4⟩
  | poll w n new hnew =>
    refine ⟨h1, h2, ?_, h4⟩
    intro p hp
    rcases List.mem_append.1 hp with hp | hp
    · exact h3 p hp
    · have he := (mem_newProcs hp).1
      rw [hnew] at he
      exact h1 _ (List.mem_filter.1 (List.mem_of_mem_take he)).1
  | redeliver w p e hp he =>
    refine ⟨h1, h2, ?_, h4⟩
    intro x hx
    rcases List.mem_append.1 hx with hx | hx
    · exact h3 x hx
    · rw [List.mem_singleton.1 hx]; exact h1 e he
  | forget => exact ⟨h1, h2, h3, h4⟩
  | renew => exact ⟨h1, h2, h3, h4⟩
  | crash => exact ⟨h1, h2, fun p hp => h3 p (List.mem_filter.1 hp).1, h4⟩
  | abandon => exact ⟨h1, h2, fun p hp => h3 p (List.mem_filter.1 hp).1, h4⟩
  | strikeOut p hp =>
    refine ⟨h1, h2, ?_, hst _ _ _ (h3 p hp) rfl⟩
    intro x hx
    obtain ⟨y, hy, rfl⟩ := List.mem_map.1 hx
    split <;> exact h3 y hy
  | claimSuperseded p hp =>
    exact ⟨fun e he => h1 e (List.mem_filter.1 he).1, h2, fun p hp => h3 p (List.mem_filter.1 hp).1, h4⟩
  | claim p hp =>
    refine ⟨h1, h2, ?_, hst _ _ _ (h3 p hp) rfl⟩
    intro x hx
    obtain ⟨y, hy, rfl⟩ := List.mem_map.1 hx
    split <;> exact h3 y hy
  | store p data hp => exact ⟨h1, h2, h3, h4⟩
  | finish p st e w hp =>
    exact ⟨fun e he => h1 e (List.mem_filter.1 he).1, h2,
      fun p hp => h3 p (List.mem_filter.1 hp).1, hst _ _ _ (h3 p hp) rfl⟩
  | finishSuperseded p st e w hp =>
    exact ⟨fun e he => h1 e (List.mem_filter.1 he).1, h2,
      fun p hp => h3 p (List.mem_filter.1 hp).1, h4⟩
  | rescheduleNow p t a d q hp =>
    refine ⟨?_, h2, fun p hp => h3 p (List.mem_filter.1 hp).1, hst _ _ _ (h3 p hp) rfl⟩
    intro e he
    rcases List.mem_append.1 he with he | he
    · exact h1 e (List.mem_filter.1 he).1
    · rw [List.mem_singleton.1 he]; exact h3 p hp
  | rescheduleLater p t a d q hp =>
    refine ⟨fun e he => h1 e (List.mem_filter.1 he).1, ?_,
      fun p hp => h3 p (List.mem_filter.1 hp).1, hst _ _ _ (h3 p hp) rfl⟩
    intro e he
    rcases zinsert_mem.1 he with rfl | he
    · exact h3 p hp
    · exact h2 e (List.mem_filter.1 he).1
  | prog op k1 f hop => exact ⟨h1, h2, h3, h4⟩

theorem wakeAll_quiet (l : List (MsgId × Msg)) (c : CSys) {k : Key} (h : Quiet c k) :
    Quiet (l.foldl wakeOne c) k := by
  induction l generalizing c with
  | nil => exact h
  | cons x l ih =>
    rw [List.foldl_cons]
    apply ih
    by_cases hx : c.s.r.stateOf x.2.key = some .scheduled
    · have hne : x.2.key ≠ k := fun hc => h.state (hc ▸ hx)
      have hr := wakeOne_runs_other c x (Ne.symm hne) (h.ordinary _)
      refine ⟨?_, ?_, ?_, ?_, h.ordinary⟩
      · rw [wakeOne_woken c x hx]
        intro e he
        rcases List.mem_append.1 he with he | he
        · exact h.stream e he
        · rw [List.mem_singleton.1 he]; exact hne
      · rw [wakeOne_woken c x hx]
        exact fun e he => h.queue e (List.mem_filter.1 he).1
      · rw [wakeOne_woken c x hx]; exact h.procs
      · simp only [Redis.stateOf, hr]; exact h.state
    · rw [wakeOne_dropped c x hx]
      refine ⟨h.stream, fun e he => h.queue e (List.mem_filter.1 he).1, h.procs, ?_, h.ordinary⟩
      show (upd _ _ _ _ : Option Run).bind (·.state) ≠ _
      rw [upd_other _ _ _ _ (h.ordinary _)]
      exact h.state

theorem Quiet.slots {c c1 : CSys} {k : Key} (h : Quiet c k) (hs : c1.s = c.s) : Quiet c1 k :=
  ⟨by rw [hs]; exact h.1, by rw [hs]; exact h.2, by rw [hs]; exact h.3, by rw [hs]; exact h.4, h.5⟩

theorem Quiet.step {cfg : CCfg} {c : CSys} {k : Key} (hw : WF c.s) (h : Quiet c k) (op : COp)
    (hop : ¬ CallsFor k op) : Quiet (cstep cfg c op) k := by
  cases op with
  | core op =>
    have := core_quiet (cfg := cfg.toCfg) hw (op := op) (k := k)
      (fun q t => ⟨fun hc => hop (by subst hc; rfl), fun hc => hop (by subst hc; rfl)⟩)
      h.stream h.queue h.procs h.state
    simp only [cstep]
    refine Quiet.slots (c := { c with s := Docket.step cfg.toCfg c.s op }) ?_ (by rw [expireSlots_s])
    exact ⟨this.1, this.2.1, this.2.2.1, this.2.2.2, h.ordinary⟩
  | acquire pid t =>
    simp only [cstep]
    rcases Option.eq_none_or_eq_some (c.s.proc? pid) with hp | ⟨p, hp⟩
    · rw [hp]; exact h
    rw [hp]
    have hne := h.procs p (find_pid hp).1
    simp only
    split
    · rcases acquire_eff cfg c p t with ⟨e, _, _, _, _, h1⟩ | ⟨_, _, h1⟩ | ⟨_, _, e, _, _, h1⟩ | h1
      · rw [h1]; exact h.slots rfl
      · rw [h1]; exact h.slots rfl
      · rw [h1]; exact h.slots rfl
      · rw [h1, luaPark_eq]
        refine ⟨fun e he => h.stream e (List.mem_filter.1 he).1, h.queue,
          fun x hx => h.procs x (List.mem_filter.1 hx).1, ?_, h.ordinary⟩
        show (upd _ _ _ _ : Option Run).bind (·.state) ≠ _
        rw [upd_other _ _ _ _ (Ne.symm hne)]
        exact h.state
    · exact h
  | renewSlot pid t =>
    simp only [cstep]
    rcases Option.eq_none_or_eq_some (c.holders.find? (fun h => h.pid = pid)) with hp | ⟨x, hp⟩
    · rw [hp]; exact h
    rw [hp]
    simp only
    split
    · exact h.slots rfl
    · exact h
  | release pid t =>
    simp only [cstep]
    rcases Option.eq_none_or_eq_some (c.holders.find? (fun h => h.pid = pid)) with hp | ⟨x, hp⟩
    · rw [hp]; exact h
    rw [hp]
    simp only
    split
    · refine Quiet.slots (c := luaRelease cfg c x.key t) ?_ rfl
      simp only [luaRelease]
      split
      · exact wakeAll_quiet _ _ (h.slots rfl)
      · exact wakeAll_quiet _ _ (h.slots rfl)
    · exact h
  | scavenge t =>
    simp only [cstep, luaScavenge]
    split
    · split
      · exact h
      · exact wakeAll_quiet _ _ (h.slots rfl)
    · exact h
  | cleanupRead k' =>
    simp only [cstep]
    split
    · rcases Option.eq_none_or_eq_some ((c.s.r.runs k').bind (·.waiter)) with h1 | ⟨w', h1⟩
      · rw [h1]; exact h
      · rw [h1]; exact h.slots rfl
    · exact h
  | cleanupWrite k' e =>
    simp only [cstep]
    split
    · refine ⟨h.stream, h.queue, h.procs, ?_, h.ordinary⟩
      intro hc
      apply h.state
      by_cases hk : k' = k
      · subst hk
        simp only [luaCancelCleanup, Redis.stateOf, hmodRun, delProg, upd_same, Option.bind_eq_some_iff,
          Option.map_eq_some_iff] at hc ⊢
        obtain ⟨v, ⟨u, hu, rfl⟩, hv⟩ := hc
        exact ⟨u, hu, hv⟩
      · simp only [luaCancelCleanup, Redis.stateOf, hmodRun, delProg, upd_other _ _ _ _ (Ne.symm hk)] at hc ⊢
        exact hc
    · exact h

theorem Quiet.run {cfg : CCfg} {c : CSys} {k : Key} (hw : WF c.s) (h : Quiet c k) (ops : List COp)
    (hop : ∀ op ∈ ops, ¬ CallsFor k op) : Quiet (crunFrom cfg c ops) k := by
  induction ops generalizing c with
  | nil => exact h
  | cons o ops ih =>
    rw [crunFrom_cons]
    exact ih (CSys.wf_step cfg hw o) (h.step hw o (hop o List.mem_cons_self))
      (fun op ho => hop op (List.mem_cons_of_mem _ ho))

/-- C59, cancel.  A waiting task that is cancelled never runs: after `cancel(k)`, and
until somebody schedules `k` again, no message of `k` is in the work stream and no worker
has an execution of it, whatever is released, scavenged or cleaned up and whoever crashes. -/
theorem C59_cancelled_waiter_never_runs (cfg : CCfg) (ops more : List COp) (w : MsgId) (m : Msg)
    (h : Waits (crun cfg ops) w m)
    (hs : ∀ e ∈ (crun cfg ops).s.r.stream, e.2.key ≠ m.key)
    (hp : ∀ p ∈ (crun cfg ops).s.procs, p.msg.key ≠ m.key)
    (hop : ∀ op ∈ more, ¬ CallsFor m.key op) :
    let c := crunFrom cfg (crun cfg ops) (.core (.cancel m.key) :: more)
    (∀ e ∈ c.s.r.stream, e.2.key ≠ m.key) ∧ (∀ p ∈ c.s.procs, p.msg.key ≠ m.key) := by
  have hw := CSys.wf_run cfg ops
  generalize crun cfg ops = c0 at *
  have hq : Quiet (cstep cfg c0 (.core (.cancel m.key))) m.key := by
    simp only [cstep]
    refine Quiet.slots (c := { c0 with s := Docket.step cfg.toCfg c0.s (.cancel m.key) }) ?_
      (by rw [expireSlots_s])
    simp only [Docket.step, doCancel, luaCancel_eq]
    refine ⟨fun e he => hs e (mem_dropOwn he), ?_, hp, ?_, h.ordinary⟩
    · intro e he
      simpa using (List.mem_filter.1 he).2
    · show (upd _ _ _ _ : Option Run).bind (·.state) ≠ _
      rw [upd_same]
      exact cancelRun_state _ _
  intro c
  have := Quiet.run (cfg := cfg) (CSys.wf_step cfg hw _) hq more hop
  exact ⟨this.stream, this.procs⟩

private abbrev rq : Request := ⟨"f", "", "", 0, 1⟩

/-- "a" holds the only slot and "b" waits. -/
private def waiting : List COp :=
  [.core (.add "a" rq 0), .core (.add "b" ⟨"f", "old", "", 0, 1⟩ 0), .core (.poll "w" 2),
   .core (.claim 0), .core (.claim 1), .acquire 0 0, .acquire 1 0]

/-- The hypotheses hold, and without the cancellation the release does wake it. -/
example : let c := crun ⟨⟨10, 100⟩, 1⟩ waiting
    c.waiters.map (·.2.key) = ["b"] ∧ c.s.r.stateOf "b" = some .scheduled ∧
    c.s.r.stream.map (·.2.key) = ["a"] ∧ c.s.procs.map (·.msg.key) = ["a"] ∧
    (crunFrom ⟨⟨10, 100⟩, 1⟩ c [.release 0 0]).s.r.stream.map (·.2.key) = ["a", "b"] ∧
    (crunFrom ⟨⟨10, 100⟩, 1⟩ c [.core (.cancel "b"), .release 0 0]).s.r.stream.map (·.2.key) = ["a"] := by
  decide +kernel

/-- C59, add: while a task of the key waits, add() refuses. -/
def C59_add_statement : Prop :=
  ∀ (cfg : CCfg) (ops : List COp) (w : MsgId) (m : Msg) (q : Request) (t : Time),
    (w, m) ∈ (crun cfg ops).waiters → (crun cfg ops).s.r.stateOf m.key = some .scheduled →
    (doAdd (crun cfg ops).s m.key q t).2 = .alreadyScheduled

/-- It accepts: there are then two tasks of the key. -/
theorem C59_violated_add : ¬ C59_add_statement := by
  intro h
  have := h ⟨⟨10, 100⟩, 1⟩ waiting 1 ⟨"b", ⟨"f", "old", "", 0, 1⟩, 2⟩ rq 0 (by decide +kernel) (by decide +kernel)
  revert this
  decide +kernel

/-- C59, replace: once replace() has returned, no execution with the payload it replaced
is started. -/
def C59_replace_statement : Prop :=
  ∀ (cfg : CCfg) (ops more : List COp) (w : MsgId) (m : Msg) (q : Request),
    (w, m) ∈ (crun cfg ops).waiters → q.args ≠ m.req.args →
    let c := cstep cfg (crun cfg ops) (.core (.replace m.key q (crun cfg ops).s.r.now))
    ∀ p ∈ (crunFrom cfg c more).s.procs, p.phase = .running → p.msg.key = m.key →
      p ∈ c.s.procs ∨ p.msg.req.args ≠ m.req.args

/-- A task replaced with a later time runs right away with the old arguments when the slot
is released, and counts as the current version. -/
theorem C59_violated_replace : ¬ C59_replace_statement := by
  intro h
  have := h ⟨⟨10, 100⟩, 1⟩ waiting [.release 0 0, .core (.poll "w" 1), .core (.claim 2)] 1
    ⟨"b", ⟨"f", "old", "", 0, 1⟩, 2⟩ ⟨"f", "new", "", 50, 1⟩ (by decide +kernel) (by decide +kernel)
    ⟨2, "w", 3, ⟨"b", ⟨"f", "old", "", 0, 1⟩, 4⟩, false, .running⟩ (by decide +kernel) rfl rfl
  revert this
  decide +kernel

/-- C59, clear: after clear() no task that was scheduled before it comes back. -/
def C59_clear_statement : Prop :=
  ∀ (cfg : CCfg) (ops more : List COp) (k : Key),
    (∀ p ∈ (crun cfg ops).s.procs, p.msg.key ≠ k) → (∀ op ∈ more, ¬ CallsFor k op) →
    ∀ e ∈ (crunFrom cfg (crun cfg ops) (.core .clear :: more)).s.r.stream, e.2.key ≠ k

theorem C59_violated_clear : ¬ C59_clear_statement := by
  intro h
  have := h ⟨⟨10, 100⟩, 1⟩ waiting [.release 0 0] "b" (by decide +kernel)
    (by intro op ho; rw [List.mem_singleton.1 ho]; exact fun h => h)
  revert this
  decide +kernel

end Docket
