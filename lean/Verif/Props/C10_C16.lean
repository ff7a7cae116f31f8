import Verif.Core.Pids
import Verif.Core.Frames
/-
C10 Every message is handed to one worker unless its lease lapses.
C11 Renewing a lease in time prevents redelivery.
C12 A finished execution's message is gone for good.
C13 cancel() of a task that has not been handed to a worker prevents it from running.
C14 cancel() records the cancellation without rewriting a finished outcome.
C15 clear() empties the docket and leaves its keys usable.
C16 A scheduled task's record does not expire before the task runs.
-/
namespace Docket
open Redis

section examples
private def qn : Request := ⟨"f", "a", "b", 0, 1⟩
private def ql : Request := ⟨"f", "a", "b", 5, 1⟩
end examples

/-! ### C10 -/

/-- C10.  In the history of every run (newest event first), split at any hand-out of a
message `id` to a worker at time `t`:
* if it was a new delivery, the message was never handed out or renewed before;
* if it was a redelivery, the message had been handed out before, and every earlier
  hand-out or renewal of it lies at least `redelivery_timeout` before `t`. -/
theorem C10_one_worker_unless_lapsed (cfg : Cfg) (ops : List Op) (later earlier : List Event)
    (pid : Nat) (id : MsgId) (w : WorkerName) (b : Bool) (t : Time) (m : Msg)
    (hlog : (run cfg ops).log = later ++ .handed pid id w b t m :: earlier) :
    (b = false → ∀ e ∈ earlier, ∀ t', ¬ Touches e id t') ∧
    (b = true →
      (∃ pid' w' b' t' m', Event.handed pid' id w' b' t' m' ∈ earlier) ∧
      ∀ e ∈ earlier, ∀ t', Touches e id t' → t' + cfg.redelivery ≤ t) := by
  have h := LeaseInv.run cfg ops
  constructor
  · rintro rfl; exact h.new later earlier pid id w t m hlog
  · rintro rfl
    obtain ⟨⟨e, he, pid', w', b', t', m', rfl⟩, h2⟩ := h.red later earlier pid id w t m hlog
    exact ⟨⟨pid', w', b', t', m', he⟩, h2⟩

/-- A history with a new delivery, a renewal and a redelivery of message 1. -/
example : (run ⟨10, 3⟩ [.add "k" ⟨"f", "a", "b", 0, 1⟩ 0, .poll "w" 1, .tick 2, .renew "w" 1, .tick 3,
      .redeliver "v" 1]).log =
    [.handed 1 1 "v" true 5 ⟨"k", ⟨"f", "a", "b", 0, 1⟩, 1⟩, .renewed 1 2,
     .handed 0 1 "w" false 0 ⟨"k", ⟨"f", "a", "b", 0, 1⟩, 1⟩,
     .accepted ⟨"k", ⟨"f", "a", "b", 0, 1⟩, 1⟩] := by decide

/-! ### C11 -/

/-- The lease of message `id` is fresh: it was handed out or renewed less than
`redelivery_timeout` ago. -/
def LeaseFresh (cfg : Cfg) (id : MsgId) (s : Sys) : Prop :=
  ∃ e ∈ s.log, ∃ t, Touches e id t ∧ s.r.now < t + cfg.redelivery

/-- C11.  From every reachable state and along every continuation during which the
lease of `id` stays fresh (the gaps between renewals are below the timeout), no worker
obtains message `id`, neither by redelivery nor as a new delivery. -/
theorem C11_renewal_prevents_redelivery (cfg : Cfg) (ops cont : List Op) (id : MsgId)
    (hfresh : Throughout cfg (LeaseFresh cfg id) (run cfg ops) cont) :
    ∀ pid w b t m, Event.handed pid id w b t m ∉
      newEvents (run cfg ops) (runFrom cfg (run cfg ops) cont) := by
  have hw := WF.run cfg ops
  have hl := LeaseInv.run cfg ops
  generalize run cfg ops = s at *
  induction cont generalizing s with
  | nil => simp [newEvents]
  | cons o cont ih =>
    have hsplit := newEvents_append cfg hw [o] cont
    rw [List.singleton_append] at hsplit
    intro pid w b t m hm
    rw [hsplit, List.mem_append] at hm
    rcases hm with hm | hm
    · exact ih _ hfresh.2 (hw.step o) (hl.step hw o) pid w b t m hm
    · obtain ⟨e, he, t0, ht0, hlt⟩ := hfresh.1
      have hs := newEvents_spec cfg hw [o]
      have hl' := hl.step hw o
      obtain ⟨a, c, hac⟩ := List.append_of_mem hm
      rw [hac] at hs
      have hs' : (step cfg s o).log = a ++ Event.handed pid id w b t m :: (c ++ s.log) := by
        simpa using hs
      have hpast : t ≤ s.r.now := by
        -- a step hands out only at the current time
        have heff := step_eff cfg s hw.queue o
        have hmem : Event.handed pid id w b t m ∈ newEvents s (step cfg s o) := hm
        have hspec := newEvents_spec cfg hw [o]
        simp only [runFrom_cons, runFrom_nil] at hspec hm
        generalize hst : step cfg s o = s' at heff hspec hm
        have hl1 : ∀ ev : Event, ev :: s.log = newEvents s s' ++ s.log → newEvents s s' = [ev] := by
          intro ev hev
          exact (List.append_cancel_right (as := [ev]) (bs := s.log) (by simpa using hev)).symm
        have hl0 : s.log = newEvents s s' ++ s.log → newEvents s s' = [] := by
          intro hev
          exact (List.append_cancel_right (as := []) (bs := s.log) (by simpa using hev)).symm
        cases heff with
        | poll w' n new hnew =>
          have h1 := List.append_cancel_right (bs := s.log) hspec
          rw [← h1, List.mem_reverse] at hm
          obtain ⟨p', e', heq, _⟩ := mem_newHanded hm
          simp only [Event.handed.injEq] at heq
          omega
        | redeliver w' p e' =>
          rw [hl1 _ hspec, List.mem_singleton] at hm
          simp only [Event.handed.injEq] at hm
          omega
        | _ =>
          first
          | (rw [hl0 hspec] at hm; simp at hm)
          | (rw [hl1 _ hspec, List.mem_singleton] at hm; simp at hm)
      cases b with
      | false =>
        exact hl'.new _ _ _ _ _ _ _ hs' e (List.mem_append.2 (Or.inr he)) t0 ht0
      | true =>
        have := (hl'.red _ _ _ _ _ _ _ hs').2 e (List.mem_append.2 (Or.inr he)) t0 ht0
        omega

/-- A worker renewing every 2 with a timeout of 3 keeps its lease fresh for 6. -/
example : Throughout ⟨10, 3⟩ (LeaseFresh ⟨10, 3⟩ 1)
    (run ⟨10, 3⟩ [.add "k" ⟨"f", "a", "b", 0, 1⟩ 0, .poll "w" 1])
    [.tick 2, .renew "w" 1, .tick 2, .redeliver "v" 1, .renew "w" 1, .tick 2] := by
  have h0 : Touches (.handed 0 1 "w" false 0 ⟨"k", ⟨"f", "a", "b", 0, 1⟩, 1⟩) 1 0 :=
    Or.inl ⟨_, _, _, _, rfl⟩
  have h2 : Touches (.renewed 1 2) 1 2 := Or.inr rfl
  have h4 : Touches (.renewed 1 4) 1 4 := Or.inr rfl
  refine ⟨⟨_, ?_, 0, h0, ?_⟩, ⟨_, ?_, 0, h0, ?_⟩, ⟨_, ?_, 2, h2, ?_⟩, ⟨_, ?_, 2, h2, ?_⟩,
    ⟨_, ?_, 2, h2, ?_⟩, ⟨_, ?_, 4, h4, ?_⟩, ⟨_, ?_, 4, h4, ?_⟩⟩ <;> decide

/-! ### C12 -/

/-- The operation ends the execution `pid`: its worker marks it terminal, reschedules it
or tries to claim it. -/
def Ends (pid : Nat) : Op → Prop
  | .finish p _ _ _ => p = pid
  | .reschedule p _ _ _ => p = pid
  | .claim p => p = pid
  | _ => False

/-- C12.  In every reachable state: when a worker marks its execution `p` terminal,
reschedules it, or tries to claim it and is refused (after which it no longer holds
`p`), the message of `p` is neither in the stream nor pending, and in every
continuation no worker is ever handed it again. -/
theorem C12_finished_message_is_gone (cfg : Cfg) (ops cont : List Op) (p : Proc) (op : Op)
    (hp : p ∈ (run cfg ops).procs) (hop : Ends p.pid op)
    (hended : ∀ x ∈ (step cfg (run cfg ops) op).procs, x.pid ≠ p.pid) :
    let s' := step cfg (run cfg ops) op
    (∀ e ∈ s'.r.stream, e.1 ≠ p.id) ∧ (∀ e ∈ s'.r.pending, e.id ≠ p.id) ∧
    (∀ e ∈ (runFrom cfg s' cont).r.stream, e.1 ≠ p.id) ∧
    ∀ pid w b t m, Event.handed pid p.id w b t m ∉ newEvents s' (runFrom cfg s' cont) := by
  intro s'
  have hw := WF.run cfg ops
  have hgone : Gone s' p.id := by
    have hdel := (hw.procs.1 p hp).1
    have hidlt : p.id < (run cfg ops).r.nextId := Nat.lt_of_le_of_lt hdel hw.stream.ldlt
    have he := step_eff cfg (run cfg ops) hw.queue op
    have huniq : ∀ x ∈ (run cfg ops).procs, x.pid = p.pid → x = p := by
      intro x hx hxp
      have h1 := proc?_of_mem hw hx
      have h2 := proc?_of_mem hw hp
      rw [hxp, h2] at h1
      exact (Option.some.inj h1).symm
    simp only [s']
    generalize hst : step cfg (run cfg ops) op = s'' at he hended
    generalize run cfg ops = s at *
    have hfil : ∀ id : MsgId, id = p.id → (∀ e ∈ s.r.stream.filter (fun e => e.1 ≠ id), e.1 ≠ p.id) ∧
        (∀ e ∈ s.r.pending.filter (fun x => x.id ≠ id), e.id ≠ p.id) := by
      rintro id rfl
      exact ⟨fun e he => by simpa using (List.mem_filter.1 he).2,
        fun e he => by simpa using (List.mem_filter.1 he).2⟩
    cases he with
    | nop => exact absurd rfl (hended p hp)
    | claimSuperseded x hx =>
      obtain ⟨h1, h2⟩ := hfil x.id (by rw [huniq x hx hop])
      exact ⟨hdel, h1, h2⟩
    | claim x hx =>
      exfalso
      refine hended _ (List.mem_map.2 ⟨p, hp, rfl⟩) ?_
      split <;> rfl
    | finish x st e w hx =>
      obtain ⟨h1, h2⟩ := hfil x.id (by rw [huniq x hx hop])
      exact ⟨hdel, h1, h2⟩
    | finishSuperseded x st e w hx =>
      obtain ⟨h1, h2⟩ := hfil x.id (by rw [huniq x hx hop])
      exact ⟨hdel, h1, h2⟩
    | rescheduleNow x t a d q hx =>
      obtain ⟨h1, h2⟩ := hfil x.id (by rw [huniq x hx hop])
      refine ⟨hdel, ?_, h2⟩
      intro e he
      simp only [List.mem_append, List.mem_singleton] at he
      rcases he with he | rfl
      · exact h1 e he
      · simp only; omega
    | rescheduleLater x t a d q hx =>
      obtain ⟨h1, h2⟩ := hfil x.id (by rw [huniq x hx hop])
      exact ⟨hdel, h1, h2⟩
    | clear op j js h =>
      rcases h with ⟨rfl, _⟩ | ⟨rfl, _⟩ <;> exact hop.elim
    | prog op k f h =>
      rcases h with ⟨_, rfl, _⟩ | ⟨_, rfl, _⟩ | ⟨_, rfl, _⟩ <;> exact hop.elim
    | _ => exact hop.elim
  obtain ⟨h1, h2⟩ := hgone.runFrom (cfg := cfg) cont (hw.step op)
  exact ⟨hgone.stream, hgone.pending, h1.stream, h2⟩

/-- C12, in terms of the history alone.  If the history says that the execution `pid` was
handed the message `id`, and this execution has now ended, then `id` is neither in the
stream nor pending and is never handed out again. -/
theorem C12_handed_message_is_gone (cfg : Cfg) (ops cont : List Op) (pid : Nat) (id : MsgId)
    (w : WorkerName) (b : Bool) (t : Time) (m : Msg) (op : Op)
    (hh : Event.handed pid id w b t m ∈ (run cfg ops).log)
    (hp : ∃ p ∈ (run cfg ops).procs, p.pid = pid) (hop : Ends pid op)
    (hended : ∀ x ∈ (step cfg (run cfg ops) op).procs, x.pid ≠ pid) :
    let s' := step cfg (run cfg ops) op
    (∀ e ∈ s'.r.stream, e.1 ≠ id) ∧ (∀ e ∈ s'.r.pending, e.id ≠ id) ∧
    ∀ pid' w' b' t' m', Event.handed pid' id w' b' t' m' ∉ newEvents s' (runFrom cfg s' cont) := by
  obtain ⟨p, hp, rfl⟩ := hp
  obtain ⟨t', h⟩ := (OriginInv.run cfg ops).isHanded p hp
  obtain ⟨rfl, _⟩ := (PidInv.run cfg ops).once _ _ _ _ _ _ _ _ _ _ _ h hh
  have := C12_finished_message_is_gone cfg ops cont p op hp hop hended
  exact ⟨this.1, this.2.1, this.2.2.2⟩

/-- A running execution and its hand-out. -/
example : let s := run ⟨10, 3⟩ [.add "k" ⟨"f", "a", "b", 0, 1⟩ 0, .poll "w" 1, .claim 0]
    Event.handed 0 1 "w" false 0 ⟨"k", ⟨"f", "a", "b", 0, 1⟩, 1⟩ ∈ s.log ∧
    s.procs.map (·.pid) = [0] ∧
    (step ⟨10, 3⟩ s (.finish 0 .completed none false)).procs = [] := by decide

/-- Finishing a redelivered execution meets the hypotheses. -/
example : let s := run ⟨10, 3⟩ [.add "k" ⟨"f", "a", "b", 0, 1⟩ 0, .poll "w" 1, .claim 0, .crash "w",
      .tick 3, .redeliver "v" 1, .claim 1]
    (⟨1, "v", 1, ⟨"k", ⟨"f", "a", "b", 0, 1⟩, 1⟩, true, .running⟩ : Proc) ∈ s.procs ∧
    ∀ x ∈ (step ⟨10, 3⟩ s (.finish 1 .failed (some "e") true)).procs, x.pid ≠ 1 := by decide

/-! ### C13 -/

/-- C13.  In every reachable state where no worker holds a message of `k` and every
stream message of `k` is the one the record names: after `cancel(k)` no message of `k`
exists anywhere, and in every continuation in which nobody calls add or replace for `k`
none is ever started.  Partial: the record does not name a message that the scheduler
moved to the stream, see `C13_violated`. -/
theorem C13_cancel_prevents_running_partial (cfg : Cfg) (ops cont : List Op) (k : Key)
    (hheld : ∀ p ∈ (run cfg ops).procs, p.msg.key ≠ k)
    (hrec : ∀ e ∈ (run cfg ops).r.stream, e.2.key = k → (run cfg ops).r.streamIdOf k = some e.1)
    (hcont : ∀ op ∈ cont, ¬ Schedules k op) :
    let s' := step cfg (run cfg ops) (.cancel k)
    ¬ SomeMessage s' k ∧
    ∀ pid id m t, Event.started pid id m t ∈ newEvents s' (runFrom cfg s' cont) → m.key ≠ k := by
  intro s'
  have hw := WF.run cfg ops
  have hno : ¬ SomeMessage s' k := by
    have heq : s' = { run cfg ops with
      r := luaCancel (run cfg ops).r k
      ttlJobs := k :: (run cfg ops).ttlJobs
      log := .cancelled k :: (run cfg ops).log } := rfl
    rw [heq, luaCancel_eq]
    rintro (⟨e, he, hk⟩ | hp | ⟨p, hp, hk⟩)
    · have h1 := hrec e (mem_dropOwn he) hk
      simp only [dropOwn, h1, List.mem_filter, decide_eq_true_eq] at he
      exact he.2 rfl
    · simp at hp
    · exact hheld p hp hk
  exact ⟨hno, (NoMsg.runFrom cont (hw.step _) hno hcont).2⟩

/-- C13 for a task waiting in the schedule: always holds. -/
theorem C13_cancel_scheduled (cfg : Cfg) (ops cont : List Op) (k : Key)
    (hheld : ∀ p ∈ (run cfg ops).procs, p.msg.key ≠ k)
    (hstream : ∀ e ∈ (run cfg ops).r.stream, e.2.key ≠ k)
    (hcont : ∀ op ∈ cont, ¬ Schedules k op) :
    ∀ pid id m t, Event.started pid id m t ∈ newEvents (step cfg (run cfg ops) (.cancel k))
      (runFrom cfg (step cfg (run cfg ops) (.cancel k)) cont) → m.key ≠ k :=
  (C13_cancel_prevents_running_partial cfg ops cont k hheld
    (fun e he hk => absurd hk (hstream e he)) hcont).2

theorem run_snoc (cfg : Cfg) (ops : List Op) (op : Op) :
    run cfg (ops ++ [op]) = step cfg (run cfg ops) op := by
  rw [run, runFrom_append]; rfl

/-- C13 for a task that was just added for immediate execution under a key without
other messages. -/
theorem C13_cancel_immediate (cfg : Cfg) (ops cont : List Op) (k : Key) (q : Request) (t : Time)
    (hnone : ¬ SomeMessage (run cfg ops) k) (ht : t ≤ (run cfg ops).r.now) (hq : q.when_ ≤ t)
    (hok : (doAdd (run cfg ops) k q t).2 = .scheduled)
    (hcont : ∀ op ∈ cont, ¬ Schedules k op) :
    let s' := step cfg (run cfg (ops ++ [.add k q t])) (.cancel k)
    ∀ pid id m t', Event.started pid id m t' ∈ newEvents s' (runFrom cfg s' cont) → m.key ≠ k := by
  have hx : scheduleExists (run cfg ops).r k = false := by
    cases hx : scheduleExists (run cfg ops).r k with
    | false => rfl
    | true => simp [doAdd, doSchedule, luaSchedule, hx] at hok
  have heq : run cfg (ops ++ [.add k q t]) = { run cfg ops with
      r := schedulePlace (run cfg ops).r k q true
      log := .accepted (newMsg (schedulePlace (run cfg ops).r k q true) k q) :: (run cfg ops).log } := by
    rw [run_snoc]
    simp [step, ht, doAdd, doSchedule, luaSchedule, hx, hq]
  have h1 : ∀ p ∈ (run cfg (ops ++ [.add k q t])).procs, p.msg.key ≠ k := by
    rw [heq]
    exact fun p hp hk => hnone (Or.inr (Or.inr ⟨p, hp, hk⟩))
  have h2 : ∀ e ∈ (run cfg (ops ++ [.add k q t])).r.stream, e.2.key = k →
      (run cfg (ops ++ [.add k q t])).r.streamIdOf k = some e.1 := by
    rw [heq, schedulePlace_now]
    intro e he hk
    simp only [List.mem_append, List.mem_singleton] at he
    rcases he with he | rfl
    · exact absurd (Or.inl ⟨e, he, hk⟩) hnone
    · simp [Redis.streamIdOf, queuedRun]
  clear heq
  generalize ops ++ [.add k q t] = ops' at *
  exact (C13_cancel_prevents_running_partial cfg ops' cont k h1 h2 hcont).2

/-- The hypotheses of the general theorem hold for a task in the stream and one in the
schedule. -/
example : let s := run ⟨10, 3⟩ [.add "k" qn 0, .add "j" ql 0]
    (∀ p ∈ s.procs, p.msg.key ≠ "k") ∧
    (∀ e ∈ s.r.stream, e.2.key = "k" → s.r.streamIdOf "k" = some e.1) ∧
    (∀ e ∈ s.r.stream, e.2.key = "j" → s.r.streamIdOf "j" = some e.1) ∧
    SomeMessage s "k" ∧ SomeMessage s "j" := by decide

/-- A scheduling is accepted for a client, or for a running execution of the key. -/
theorem accepted_by (cfg : Cfg) {s : Sys} (hw : WF s) (op : Op) {m : Msg}
    (hl : (step cfg s op).log = .accepted m :: s.log) :
    Schedules m.key op ∨ ∃ p ∈ s.procs, p.phase = .running ∧ p.msg.key = m.key := by
  have he := step_eff cfg s hw.queue op
  generalize Docket.step cfg s op = s' at he hl
  have hself : s.log ≠ .accepted m :: s.log := by
    intro h; have := congrArg List.length h; simp at this
  cases he with
  | poll w n new hnew =>
    have h1 : (newHanded s.nextPid w false s.r.now new).reverse = [Event.accepted m] :=
      List.append_cancel_right (bs := s.log) hl
    have h2 : Event.accepted m ∈ newHanded s.nextPid w false s.r.now new := by
      rw [← List.mem_reverse, h1]; simp
    obtain ⟨_, _, h3, _⟩ := mem_newHanded h2
    simp at h3
  | rescheduleNow p t a d q hp hph =>
    simp only [List.cons.injEq, Event.accepted.injEq, and_true] at hl
    subst hl; exact Or.inr ⟨p, hp, hph, rfl⟩
  | rescheduleLater p t a d q hp hph =>
    simp only [List.cons.injEq, Event.accepted.injEq, and_true] at hl
    subst hl; exact Or.inr ⟨p, hp, hph, rfl⟩
  | _ =>
    first
    | exact absurd hl hself
    | (simp at hl; done)
    | (simp only [List.cons.injEq, Event.accepted.injEq, and_true] at hl; subst hl; exact Or.inl rfl)

/-- An execution that is running after a step was running before, or the step is its
claim, which was not refused. -/
theorem running_step (cfg : Cfg) {s : Sys} (hw : WF s) (op : Op) {p : Proc}
    (hp : p ∈ (step cfg s op).procs) (hph : p.phase = .running) :
    (∃ p' ∈ s.procs, p'.phase = .running ∧ p'.msg = p.msg) ∨
    (p.msg ∈ s.procs.map (·.msg) ∧ isSuperseded s.r p.msg.key p.msg.gen = false) := by
  have he := step_eff cfg s hw.queue op
  generalize Docket.step cfg s op = s' at he hp
  cases he with
  | poll w n new hnew =>
    simp only [List.mem_append] at hp
    rcases hp with hp | hp
    · exact Or.inl ⟨p, hp, hph, rfl⟩
    · have : p.phase = .handed := by
        clear hnew
        generalize s.nextPid = n at hp
        induction new generalizing n with
        | nil => simp [newProcs] at hp
        | cons e es ih =>
          simp only [newProcs, List.mem_cons] at hp
          rcases hp with rfl | hp
          · rfl
          · exact ih _ hp
      rw [this] at hph; cases hph
  | redeliver w pe e =>
    simp only [List.mem_append, List.mem_singleton] at hp
    rcases hp with hp | rfl
    · exact Or.inl ⟨p, hp, hph, rfl⟩
    · cases hph
  | strikeOut x hx =>
    obtain ⟨y, hy, rfl⟩ := List.mem_map.1 hp
    by_cases hxy : y.pid = x.pid
    · simp [hxy] at hph
    · simp only [hxy, if_false] at hph ⊢
      exact Or.inl ⟨y, hy, hph, rfl⟩
  | claim x hx hxh hs =>
    obtain ⟨y, hy, rfl⟩ := List.mem_map.1 hp
    by_cases hxy : y.pid = x.pid
    · have h1 := proc?_of_mem hw hx
      have h2 := proc?_of_mem hw hy
      rw [hxy, h1] at h2
      obtain rfl := Option.some.inj h2
      right
      simp only [if_true]
      exact ⟨List.mem_map.2 ⟨x, hx, rfl⟩, hs⟩
    · simp only [hxy, if_false] at hph ⊢
      exact Or.inl ⟨y, hy, hph, rfl⟩
  | _ =>
    first
    | exact Or.inl ⟨p, hp, hph, rfl⟩
    | exact Or.inl ⟨p, (List.mem_filter.1 hp).1, hph, rfl⟩

/-- C13 with `execution_ttl=0`.  Then the cancelled key's record is gone, and every
message of it that is left anywhere, even one that a worker was already handed, is
refused when it is about to start, as long as nobody calls add or replace for the key. -/
theorem C13_cancel_ttl_zero (cfg : Cfg) (ops cont : List Op) (k : Key) (h0 : cfg.ttl = 0)
    (hrun : ∀ p ∈ (run cfg ops).procs, p.msg.key = k → p.phase ≠ .running)
    (hcont : ∀ op ∈ cont, ¬ Schedules k op) :
    let s' := runFrom cfg (run cfg ops) [.cancel k, .cancelTtl k]
    ∀ pid id m t, Event.started pid id m t ∈ newEvents s' (runFrom cfg s' cont) → m.key ≠ k := by
  intro s'
  have hs' : s' = run cfg (ops ++ [.cancel k, .cancelTtl k]) := by simp [s', run, runFrom_append]
  have hgen : s'.r.genOf k = none := by
    simp only [s', runFrom_cons, runFrom_nil, step, doCancel, doCancelTtl]
    rw [if_pos (by simp)]
    simp [expireRun_eq, luaCancel_eq, expiredRun, h0, Redis.genOf]
  have hprocs : ∀ p ∈ s'.procs, p.msg.key = k → p.phase ≠ .running := by
    have : s'.procs = (run cfg ops).procs := by
      simp only [s', runFrom_cons, runFrom_nil, step, doCancel, doCancelTtl]
      rw [if_pos (by simp)]
    rw [this]; exact hrun
  have hw : WF s' := by rw [hs']; exact WF.run _ _
  have hor : OriginInv s' := by rw [hs']; exact OriginInv.run _ _
  clear_value s'
  clear hs' hrun
  induction cont generalizing s' with
  | nil => intro pid id m t h; simp [newEvents] at h
  | cons o cont ih =>
    have hsup : ∀ p ∈ s'.procs, p.msg.key = k → isSuperseded s'.r p.msg.key p.msg.gen = true := by
      intro p hp hk
      have := hor.pos _ (hor.procs p hp)
      simp [isSuperseded, hk, hgen, this]
    have hgen' : (step cfg s' o).r.genOf k = none := by
      rcases gen_step cfg hw o k with h | h | ⟨m, h1, h2, _, _⟩
      · exact h
      · rw [h, hgen]
      · rcases accepted_by cfg hw o h1 with h | ⟨p, hp, hph, hpk⟩
        · exact absurd (h2 ▸ h) (hcont o (by simp))
        · exact absurd hph (hprocs p hp (hpk.trans h2))
    have hprocs' : ∀ p ∈ (step cfg s' o).procs, p.msg.key = k → p.phase ≠ .running := by
      intro p hp hk hph
      rcases running_step cfg hw o hp hph with ⟨p', hp', hph', hm⟩ | ⟨hm, hs⟩
      · exact hprocs p' hp' (by rw [hm, hk]) hph'
      · obtain ⟨p', hp', hm'⟩ := List.mem_map.1 hm
        have := hsup p' hp' (by rw [hm', hk])
        rw [hm', hs] at this; cases this
    intro pid id m t hm
    have hsplit := newEvents_append cfg hw [o] cont
    rw [List.singleton_append] at hsplit
    rw [hsplit, List.mem_append] at hm
    rcases hm with hm | hm
    · exact ih (fun op hop => hcont op (by simp [hop])) _ hgen' hprocs' (hw.step o) (hor.step hw o)
        pid id m t hm
    · obtain ⟨p, hp, _, _, _, rfl, _, _, hs⟩ := started_step cfg hw o (newEvents_spec cfg hw [o]) hm
      intro hk
      rw [hsup p hp hk] at hs; cases hs

/-- The scheduler moved the task and a worker already holds it when it is cancelled:
it is not started, although with a positive `execution_ttl` it would be. -/
example : let ops : List Op := [.add "k" ql 0, .tick 5, .schedule 5, .poll "w" 1]
    (∀ p ∈ (run ⟨0, 3⟩ ops).procs, p.msg.key = "k" → p.phase ≠ .running) ∧
    (run ⟨0, 3⟩ ops).procs.length = 1 ∧
    (∃ e ∈ newEvents (run ⟨9, 3⟩ (ops ++ [.cancel "k", .cancelTtl "k"]))
      (run ⟨9, 3⟩ (ops ++ [.cancel "k", .cancelTtl "k", .claim 0])),
      e = .started 0 1 ⟨"k", ql, 1⟩ 5) := by decide

/-- The full statement of C13. -/
def C13_statement : Prop := ∀ (cfg : Cfg) (ops cont : List Op) (k : Key),
  (∀ p ∈ (run cfg ops).procs, p.msg.key ≠ k) → (∀ op ∈ cont, ¬ Schedules k op) →
  ∀ pid id m t, Event.started pid id m t ∈ newEvents (step cfg (run cfg ops) (.cancel k))
      (runFrom cfg (step cfg (run cfg ops) (.cancel k)) cont) → m.key ≠ k

/-- The code violates it: the scheduler does not record the stream id of the message it
moves (worker.py:193-207), so `cancel` (docket.py:84-97) does not delete it and
the next worker runs the task. -/
theorem C13_violated : ¬ C13_statement := by
  intro h
  exact h ⟨10, 3⟩ [.add "k" ql 0, .tick 5, .schedule 5] [.cancelTtl "k", .poll "w" 1, .claim 0] "k"
    (by decide) (by decide) 0 1 ⟨"k", ql, 1⟩ 5 (by decide) rfl

/-! ### C14 -/

/-- C14.  In every state whatsoever, `cancel(k)`:
* keeps the state of a completed, failed or cancelled record;
* makes every other record of `k` (or a missing one) read cancelled;
* leaves nothing of `k` in the schedule and no progress;
* does not touch the record of any other key;
* and a second `cancel(k)` changes nothing in Redis. -/
theorem C14_cancel_records (s : Sys) (k : Key) :
    let s' := doCancel s k
    (∀ st, s.r.stateOf k = some st → (st = .completed ∨ st = .failed ∨ st = .cancelled) →
      s'.r.stateOf k = some st) ∧
    (s.r.stateOf k ≠ some .completed → s.r.stateOf k ≠ some .failed →
      s'.r.stateOf k = some .cancelled) ∧
    (s'.r.parked k = none ∧ (∀ t, (k, t) ∉ s'.r.queue) ∧ s'.r.progress k = none) ∧
    (∀ k', k' ≠ k → s'.r.runs k' = s.r.runs k') ∧
    (doCancel s' k).r = s'.r := by
  intro s'
  have hr : s'.r = luaCancel s.r k := rfl
  have hrun : ∀ st, s.r.stateOf k = some st → (s.r.run k).state = some st := by
    intro st h
    simp only [Redis.stateOf, Option.bind_eq_some_iff] at h
    obtain ⟨v, h1, h2⟩ := h
    simp [Redis.run, h1, h2]
  have hstate : (cancelRun s.r k).state =
      match s.r.stateOf k with
      | some .completed => some .completed
      | some .failed => some .failed
      | _ => some .cancelled := by
    simp only [cancelRun]
    cases hs : s.r.stateOf k with
    | none => rfl
    | some st => cases st <;> first | rfl | exact hrun _ hs
  refine ⟨?_, ?_, ?_, ?_, ?_⟩
  · intro st hst hterm
    rw [hr, luaCancel_eq]
    simp only [Redis.stateOf, upd_same, Option.bind_some]
    rw [hstate, hst]
    rcases hterm with rfl | rfl | rfl <;> rfl
  · intro h1 h2
    rw [hr, luaCancel_eq]
    simp only [Redis.stateOf, upd_same, Option.bind_some]
    rw [hstate]
    cases hs : s.r.stateOf k with
    | none => rfl
    | some st =>
      cases st <;> first | rfl | exact absurd hs h1 | exact absurd hs h2
  · rw [hr, luaCancel_eq]
    refine ⟨by simp, ?_, by simp⟩
    intro t ht
    have := (List.mem_filter.1 ht).2
    simp at this
  · intro k' hk
    rw [hr, luaCancel_eq]
    exact upd_other _ _ _ _ hk
  · show luaCancel s'.r k = s'.r
    have hsid : s'.r.streamIdOf k = none := by
      rw [hr, luaCancel_eq]
      simp only [Redis.streamIdOf, upd_same, Option.bind_some, cancelRun]
      split <;> rfl
    have hst' : s'.r.stateOf k = (cancelRun s.r k).state := by
      rw [hr, luaCancel_eq]; simp [Redis.stateOf]
    have hrun' : s'.r.run k = cancelRun s.r k := by
      rw [hr, luaCancel_eq]; simp [Redis.run]
    have hcr : cancelRun s'.r k = cancelRun s.r k := by
      have hk1 : (cancelRun s.r k).known = none := by simp only [cancelRun]; split <;> rfl
      have hk2 : (cancelRun s.r k).streamId = none := by simp only [cancelRun]; split <;> rfl
      have hsame : { cancelRun s.r k with known := none, streamId := none } = cancelRun s.r k := by
        generalize cancelRun s.r k = c at *
        cases c; simp only at hk1 hk2; subst hk1; subst hk2; rfl
      conv => lhs; rw [cancelRun]
      rw [hst', hstate, hrun']
      cases hs : s.r.stateOf k with
      | none => exact hsame
      | some st => cases st <;> exact hsame
    rw [luaCancel_eq, hcr]
    have hdrop : dropOwn s'.r k = s'.r.stream := by simp [dropOwn, hsid]
    rw [hdrop, hr, luaCancel_eq]
    simp

/-- Cancelling a running task and a finished one. -/
example : (doCancel (run ⟨10, 3⟩ [.add "k" qn 0, .poll "w" 1, .claim 0]) "k").r.stateOf "k" =
      some .cancelled ∧
    (doCancel (run ⟨10, 3⟩ [.add "k" qn 0, .poll "w" 1, .claim 0,
      .finish 0 .failed none false]) "k").r.stateOf "k" = some .failed := by decide

/-! ### C15 -/

/-- C15.  In every reachable state, an uninterrupted `clear()` returns the number of
stream messages plus the number of scheduled tasks, leaves the stream and the schedule
empty, and in every continuation everything that is ever handed to a worker was
scheduled after the clear.  With `execution_ttl=0` every cleared key can be added again
at once.  Partial: with a positive `execution_ttl` a cleared key is refused
(`C15_violated_readd`), and a clear that is interleaved with an add can strand the
added task (`C15_violated_race`). -/
theorem C15_clear_partial (cfg : Cfg) (ops cont : List Op) :
    let s := run cfg ops
    let s' := (doClear cfg s).1
    (doClear cfg s).2 = s.r.stream.length + s.r.queue.length ∧
    s'.r.stream = [] ∧ s'.r.queue = [] ∧ (∀ k t, (k, t) ∈ s.r.queue → s'.r.parked k = none) ∧
    (∀ pid id w b t m, Event.handed pid id w b t m ∈ newEvents s' (runFrom cfg s' cont) →
      Event.accepted m ∈ newEvents s' (runFrom cfg s' cont)) ∧
    (cfg.ttl = 0 → ∀ k q t, ((∃ e ∈ s.r.stream, e.2.key = k) ∨ (∃ t', (k, t') ∈ s.r.queue)) →
      (doAdd s' k q t).2 = .scheduled) := by
  intro s s'
  have hw : WF s := WF.run cfg ops
  have hs' : s' = { s with
      r := clearWrite cfg.ttl s.r (clearRead s.r), log := .cleared :: s.log } := rfl
  have hstream : s'.r.stream = [] := by
    rw [hs', clearWrite_eq]
    by_cases h : (clearRead s.r).streamCount > 0
    · simp [h]
    · have h0 : s.r.stream.length = 0 := Nat.eq_zero_of_not_pos h
      simp [h, List.length_eq_zero_iff.1 h0]
  have hqueue : s'.r.queue = [] := by rw [hs', clearWrite_eq]
  refine ⟨rfl, hstream, hqueue, ?_, ?_, ?_⟩
  · intro k t hk
    rw [hs', clearWrite_eq]
    exact if_pos (show k ∈ (clearRead s.r).scheduledKeys from List.mem_map.2 ⟨(k, t), hk, rfl⟩)
  · have hws' : WF s' := hw.step .clear (cfg := cfg)
    have h0 : FreshInv s' s' :=
      ⟨⟨[], rfl⟩, by rw [hstream]; simp, by rw [hqueue]; simp, by simp [newEvents]⟩
    exact (h0.runFrom (cfg := cfg) cont hws').handed
  · intro httl k q t hk
    have hrun : s'.r.runs k = none := by
      rw [hs', clearWrite_eq]
      refine (if_pos ?_).trans (by simp [expiredRun, httl])
      rcases hk with ⟨e, he, hk⟩ | ⟨t', hk⟩
      · exact Or.inr (List.mem_map.2 ⟨e, he, hk⟩)
      · exact Or.inl (List.mem_map.2 ⟨(k, t'), hk, rfl⟩)
    have hx : scheduleExists s'.r k = false := by
      simp [scheduleExists, Redis.knownOf, Redis.stateOf, hrun]
    simp [doAdd, doSchedule, luaSchedule, hx]

/-- Clearing a docket with one queued and one scheduled task. -/
example : (doClear ⟨0, 3⟩ (run ⟨0, 3⟩ [.add "k" qn 0, .add "j" ql 0])).2 = 2 := by decide

/-- The last claim of C15 for every `execution_ttl`. -/
def C15_readd : Prop := ∀ (cfg : Cfg) (ops : List Op) (k : Key) (q : Request) (t : Time),
  (∃ e ∈ (run cfg ops).r.stream, e.2.key = k) →
    (doAdd (doClear cfg (run cfg ops)).1 k q t).2 = .scheduled

/-- The code violates it: `clear` sets an expiry but keeps the `known` mark. -/
theorem C15_violated_readd : ¬ C15_readd := by
  intro h
  have := h ⟨10, 3⟩ [.add "k" qn 0] "k" qn 0 (by decide)
  revert this
  decide

/-- The code's `clear` is two round trips.  A task added in between for later execution
loses its schedule entry but keeps its record: it can never run, because nothing moves
it any more, and it cannot be added again. -/
theorem C15_violated_race : ∃ (cfg : Cfg) (ops : List Op) (k : Key) (m : Msg),
    (run cfg ops).log = [.cleared, .accepted m] ∧
    (run cfg ops).r.parked k = some m ∧ (run cfg ops).r.queue = [] ∧
    ∀ q t, (doAdd (run cfg ops) k q t).2 = .alreadyScheduled := by
  refine ⟨⟨10, 3⟩, [.clearRead, .add "k" ql 0, .clearWrite], "k", ⟨"k", ql, 1⟩, by decide, by decide,
    by decide, ?_⟩
  intro q t
  have : scheduleExists (run ⟨10, 3⟩ [.clearRead, .add "k" ql 0, .clearWrite]).r "k" = true := by decide
  simp [doAdd, doSchedule, luaSchedule, this]

/-! ### C16 -/

/-- C16.  From every reachable state in which the record of `k` (if any) has no expiry
and no cancel of `k` is still to set one, along every continuation with any clock
advances in which `k` is not cancelled or finished by a current execution and the
docket is not cleared: if `k` had a record or was scheduled since, its record exists
and has no expiry.  Partial: a record that got an expiry earlier keeps it when the key
is scheduled again, see `C16_violated`. -/
theorem C16_record_lasts_partial (cfg : Cfg) (ops cont : List Op) (k : Key)
    (h0 : ∀ h, (run cfg ops).r.runs k = some h → h.expireAt = none)
    (hjob : k ∉ (run cfg ops).ttlJobs)
    (hnr : ∀ e ∈ newEvents (run cfg ops) (runFrom cfg (run cfg ops) cont), ¬ Retires k e)
    (hhas : HasRecord (run cfg ops) k ∨ ∃ m, m.key = k ∧
      Event.accepted m ∈ newEvents (run cfg ops) (runFrom cfg (run cfg ops) cont)) :
    ∃ h, (runFrom cfg (run cfg ops) cont).r.runs k = some h ∧ h.gen.isSome ∧ h.expireAt = none := by
  obtain ⟨h1, h2⟩ := LastsInv.runFrom cont (WF.run cfg ops) ⟨h0, hjob⟩ hnr
  have h3 := h2 (by
    rcases hhas with h | ⟨m, hm, he⟩
    · exact Or.inl h
    · exact Or.inr ⟨m, he, hm⟩)
  generalize runFrom cfg (run cfg ops) cont = s' at *
  simp only [HasRecord, Redis.genOf] at h3
  cases hr : s'.r.runs k with
  | none => rw [hr] at h3; simp at h3
  | some v => rw [hr] at h3; exact ⟨v, rfl, by simpa using h3, h1.lasts v hr⟩

/-- A task scheduled far ahead of a short `execution_ttl`. -/
example : (∀ e ∈ newEvents (run ⟨1, 3⟩ []) (runFrom ⟨1, 3⟩ (run ⟨1, 3⟩ [])
      [.add "k" ⟨"f", "", "", 100, 1⟩ 0, .tick 99]), ¬ Retires "k" e) ∧
    Event.accepted ⟨"k", ⟨"f", "", "", 100, 1⟩, 1⟩ ∈ newEvents (run ⟨1, 3⟩ [])
      (runFrom ⟨1, 3⟩ (run ⟨1, 3⟩ []) [.add "k" ⟨"f", "", "", 100, 1⟩ 0, .tick 99]) := by
  refine ⟨?_, by decide⟩
  have : newEvents (run ⟨1, 3⟩ []) (runFrom ⟨1, 3⟩ (run ⟨1, 3⟩ [])
      [.add "k" ⟨"f", "", "", 100, 1⟩ 0, .tick 99]) =
      [.accepted ⟨"k", ⟨"f", "", "", 100, 1⟩, 1⟩] := by decide
  rw [this]
  simp [Retires]

/-- The full statement of C16: the record of an outstanding task survives the clock. -/
def C16_statement : Prop := ∀ (cfg : Cfg) (ops : List Op) (k : Key) (m : Msg) (d : Nat),
  outstanding (run cfg ops).log k = some m → HasRecord (run cfg ops) k →
    HasRecord (step cfg (run cfg ops) (.tick d)) k

/-- The code violates it: `_schedule` never clears the expiry that `_terminal` set
(execution.py:377-382, 210-234), so a key that is added again within `execution_ttl`
of its last run, for a time beyond it, loses its record ... -/
theorem C16_violated : ¬ C16_statement := by
  intro h
  have := h ⟨10, 3⟩ [.add "k" qn 0, .poll "w" 1, .claim 0, .finish 0 .completed none false,
    .add "k" ⟨"f", "a", "b", 20, 1⟩ 0] "k" ⟨"k", ⟨"f", "a", "b", 20, 1⟩, 2⟩ 10
    (by decide) (by decide)
  revert this
  decide

/-- ... and then the task is lost: when its time comes the scheduler moves it and the
worker that claims it drops it as superseded, without running it. -/
theorem C16_violated_task_lost : ∃ (cfg : Cfg) (ops rest : List Op) (m : Msg),
    outstanding (run cfg ops).log "k" = some m ∧ HasRecord (run cfg ops) "k" ∧
    rest = [.tick 20, .schedule 20, .poll "w" 1, .claim 1] ∧
    (∀ pid id t, Event.started pid id m t ∉ (runFrom cfg (run cfg ops) rest).log) ∧
    ¬ SomeMessage (runFrom cfg (run cfg ops) rest) "k" := by
  refine ⟨⟨10, 3⟩, [.add "k" qn 0, .poll "w" 1, .claim 0, .finish 0 .completed none false,
    .add "k" ⟨"f", "a", "b", 20, 1⟩ 0], _, ⟨"k", ⟨"f", "a", "b", 20, 1⟩, 2⟩, by decide, by decide,
    rfl, ?_, by decide⟩
  intro pid id t hm
  have : (runFrom ⟨10, 3⟩ (run ⟨10, 3⟩ [.add "k" qn 0, .poll "w" 1, .claim 0,
      .finish 0 .completed none false, .add "k" ⟨"f", "a", "b", 20, 1⟩ 0])
      [.tick 20, .schedule 20, .poll "w" 1, .claim 1]).log =
    [.handed 1 2 "w" false 20 ⟨"k", ⟨"f", "a", "b", 20, 1⟩, 2⟩,
     .accepted ⟨"k", ⟨"f", "a", "b", 20, 1⟩, 2⟩, .finished 0 1 ⟨"k", qn, 1⟩ .completed true,
     .started 0 1 ⟨"k", qn, 1⟩ 0, .handed 0 1 "w" false 0 ⟨"k", qn, 1⟩, .accepted ⟨"k", qn, 1⟩] := by
    decide
  rw [this] at hm
  simp [qn] at hm

/-- The same happens when `cancel` and `add` race: the cancel's EXPIRE lands on the new
task's record (docket.py:771-777). -/
theorem C16_violated_cancel_race : ∃ (cfg : Cfg) (ops : List Op) (m : Msg),
    ops = [.add "k" ql 0, .cancel "k", .add "k" ⟨"f", "a", "b", 20, 1⟩ 0, .cancelTtl "k"] ∧
    outstanding (run cfg ops).log "k" = some m ∧
    ¬ HasRecord (step cfg (run cfg ops) (.tick 10)) "k" :=
  ⟨⟨10, 3⟩, _, ⟨"k", ⟨"f", "a", "b", 20, 1⟩, 2⟩, rfl, by decide, by decide⟩

end Docket
