import Verif.Core.Settled
/-
C05 add() is a no-op for a key that is already scheduled or running.
C06 At most one current task per key.
C07 After replace() returns, no older version of the task is started.
C08 replace() is not overridden by a retry of the version it replaced (violated).
C09 A stale completion never disturbs its successor.
-/
namespace Docket
open Redis

/-! ### C05 -/

/-- C05, refusal.  Along every history in which no task of `k` is struck, no
superseded execution of `k` is rescheduled and the record of `k` is never missing
while messages of `k` exist: if a task is outstanding under `k` (and has its
record), `add` reports ALREADY_SCHEDULED and changes nothing at all.
Partial: in the excluded histories the code can accept the duplicate, see
`C05_violated_by_strike` below. -/
theorem C05_add_refused_for_live_key_partial (cfg : Cfg) (ops : List Op) (k : Key) (m : Msg)
    (q : Request) (t : Time)
    (hord : EachStep cfg (OrderlyStep k) {} ops)
    (hout : outstanding (run cfg ops).log k = some m) (hrec : HasRecord (run cfg ops) k) :
    doAdd (run cfg ops) k q t = (run cfg ops, .alreadyScheduled) := by
  have hinv := KnownInv.runFrom (cfg := cfg) WF.init (CarriedInv.run cfg []) (OriginInv.run cfg [])
    (GenInv.init k) (KnownInv.init k) hord
  have := hinv.busy m hout hrec
  have hx : scheduleExists (run cfg ops).r k = true := by
    rcases this with h | h
    · simp only [scheduleExists, Bool.or_eq_true]; exact Or.inl h
    · simp only [scheduleExists, Bool.or_eq_true, beq_iff_eq]; exact Or.inr h
  simp [doAdd, doSchedule, luaSchedule, hx]

/-- A refused `add` never changes anything, in any state at all. -/
theorem C05_refused_add_changes_nothing (s : Sys) (k : Key) (q : Request) (t : Time)
    (h : (doAdd s k q t).2 = .alreadyScheduled) : (doAdd s k q t).1 = s := by
  simp only [doAdd, doSchedule, luaSchedule] at h ⊢
  simp only [Bool.false_eq_true, if_false] at h ⊢
  by_cases hx : scheduleExists s.r k = true <;> simp [hx] at h ⊢

/-- C05, acceptance.  As long as the record of `k` is never missing while messages of
`k` exist: if since the last cancel or current completion of `k` (or since the
beginning) nothing was accepted or started under `k`, then `add` reports SCHEDULED
and the new task, with the given request, is in the stream (if due) or in the
schedule (if not).  Partial: after `clear()`, or when a cancelled task was started
by a worker that already held it and then died, the code refuses instead; see
`C05_violated_after_clear` and `C05_violated_after_crash`. -/
theorem C05_add_accepted_for_settled_key_partial (cfg : Cfg) (ops : List Op) (k : Key)
    (q : Request) (t : Time)
    (hno : Throughout cfg (fun s => ¬ Orphaned s k) {} ops)
    (hset : settled (run cfg ops).log k = true) :
    (doAdd (run cfg ops) k q t).2 = .scheduled ∧
    ∃ g, Event.accepted ⟨k, q, g⟩ ∈ (doAdd (run cfg ops) k q t).1.log ∧
      (if q.when_ ≤ t then InStream (doAdd (run cfg ops) k q t).1 ⟨k, q, g⟩
       else InSchedule (doAdd (run cfg ops) k q t).1 ⟨k, q, g⟩) := by
  have hinv := SettledInv.runFrom (cfg := cfg) WF.init (OriginInv.run cfg [])
    (GenInv.init k) (SettledInv.init k) hno
  have hx : scheduleExists (run cfg ops).r k = false := hinv.free hset
  generalize run cfg ops = s at *
  by_cases hw : q.when_ ≤ t
  · simp only [doAdd, doSchedule, luaSchedule, hx, hw, if_true, decide_true, Bool.false_eq_true,
      if_false, schedulePlace_now]
    refine ⟨trivial, s.r.nextGen k, ?_, s.r.nextId, ?_⟩
    · simp [newMsg, Redis.genOf, queuedRun]
    · simp
  · simp only [doAdd, doSchedule, luaSchedule, hx, hw, decide_false, Bool.false_eq_true,
      if_false, schedulePlace_later]
    refine ⟨trivial, s.r.nextGen k, ?_, ?_, ?_⟩
    · simp [newMsg, Redis.genOf, scheduledRun]
    · simp
    · simp [zinsert_mem]

section example_C05
private def qa : Request := ⟨"f", "a", "b", 0, 1⟩
private def qb : Request := ⟨"g", "c", "d", 9, 1⟩
private def hist : List Op :=
  [.add "k" qb 0, .tick 9, .schedule 9, .poll "w" 1, .claim 0, .crash "w", .tick 20]
/-- A running task whose worker died: the hypotheses of the refusal hold. -/
example : EachStep ⟨10, 3⟩ (OrderlyStep "k") {} hist ∧
    outstanding (run ⟨10, 3⟩ hist).log "k" = some ⟨"k", qb, 1⟩ ∧
    HasRecord (run ⟨10, 3⟩ hist) "k" := by decide
/-- A retried, then completed task: the hypotheses of the acceptance hold. -/
example : Throughout ⟨10, 3⟩ (fun s => ¬ Orphaned s "k") {}
      [.add "k" qa 0, .poll "w" 1, .claim 0, .reschedule 0 0 2 0, .poll "w" 1, .claim 1,
       .finish 1 .completed none false] ∧
    settled (run ⟨10, 3⟩ [.add "k" qa 0, .poll "w" 1, .claim 0, .reschedule 0 0 2 0, .poll "w" 1,
      .claim 1, .finish 1 .completed none false]).log "k" = true := by decide

/-- The full statement of C05's refusal half, for every history. -/
def C05_refusal : Prop := ∀ (cfg : Cfg) (ops : List Op) (k : Key) (m : Msg) (q : Request) (t : Time),
  outstanding (run cfg ops).log k = some m → HasRecord (run cfg ops) k →
    doAdd (run cfg ops) k q t = (run cfg ops, .alreadyScheduled)

/-- The code violates it: a worker that finds an old, superseded message stricken
drops the `known` mark of the newer task (worker.py:1017-1019, 1000-1009), and the
next `add` is accepted as a duplicate. -/
theorem C05_violated_by_strike : ¬ C05_refusal := by
  intro h
  have := h ⟨10, 3⟩ [.add "k" qa 0, .poll "w" 1, .replace "k" qb 0, .strikeOut 0] "k"
    ⟨"k", qb, 2⟩ qa 0 (by decide) (by decide)
  have := congrArg Prod.snd this
  revert this
  decide

/-- The full statement of C05's acceptance half: nothing outstanding, nothing held. -/
def C05_acceptance : Prop := ∀ (cfg : Cfg) (ops : List Op) (k : Key) (q : Request) (t : Time),
  outstanding (run cfg ops).log k = none → ¬ SomeMessage (run cfg ops) k →
    (doAdd (run cfg ops) k q t).2 = .scheduled

/-- The code violates it after `clear()`: the record keeps its `known` mark until it
expires. -/
theorem C05_violated_after_clear : ¬ C05_acceptance := by
  intro h
  have := h ⟨10, 3⟩ [.add "k" qa 0, .clear] "k" qa 0 (by decide) (by decide)
  revert this
  decide

/-- The code violates it after a cancel that loses against a worker which already
holds the message, starts it anyway and dies: the record says running forever. -/
theorem C05_violated_after_crash : ¬ C05_acceptance := by
  intro h
  have := h ⟨0, 3⟩ [.add "k" qa 0, .poll "w" 1, .cancel "k", .claim 0, .crash "w"] "k" qa 0
    (by decide) (by decide)
  revert this
  decide
end example_C05

/-! ### C06 -/

/-- C06.  As long as the record of `k` is never missing while messages of `k` exist:
with `g` the current generation,
* at most one message in the stream and the schedule together carries `g`;
* every message of `k` anywhere has a generation of at most `g`;
* a worker that holds an older message and tries to start it starts nothing, and
  that message is gone afterwards. -/
theorem C06_one_current_message (cfg : Cfg) (ops : List Op) (k : Key)
    (hno : Throughout cfg (fun s => ¬ Orphaned s k) {} ops) (g : Gen)
    (hg : (run cfg ops).r.genOf k = some g) :
    ((run cfg ops).r.stream.filter (fun e => e.2.key = k ∧ e.2.gen = g)).length +
      (((run cfg ops).r.parked k).toList.filter (fun m => m.gen = g)).length ≤ 1 ∧
    (∀ m, Exists (run cfg ops) m → m.key = k → m.gen ≤ g) ∧
    (∀ p ∈ (run cfg ops).procs, p.msg.key = k → p.msg.gen < g → p.phase = .handed →
      (step cfg (run cfg ops) (.claim p.pid)).log = (run cfg ops).log ∧
      (∀ e ∈ (step cfg (run cfg ops) (.claim p.pid)).r.stream, e.1 ≠ p.id) ∧
      (∀ e ∈ (step cfg (run cfg ops) (.claim p.pid)).r.pending, e.id ≠ p.id) ∧
      (∀ x ∈ (step cfg (run cfg ops) (.claim p.pid)).procs, x.pid ≠ p.pid)) := by
  have hinv : GenInv (run cfg ops) k := GenInv.runFrom WF.init (GenInv.init k) hno
  have hw := WF.run cfg ops
  have hor := OriginInv.run cfg ops
  generalize run cfg ops = s at *
  refine ⟨?_, ?_, ?_⟩
  · have hs1 : (s.r.stream.filter (fun e => e.2.key = k ∧ e.2.gen = g)).length ≤ 1 := by
      have hsort : (s.r.stream.filter (fun e => e.2.key = k ∧ e.2.gen = g)).Pairwise
          (fun a b => a.1 < b.1) := hw.stream.sorted.filter _
      have hall : ∀ e ∈ s.r.stream.filter (fun e => e.2.key = k ∧ e.2.gen = g),
          e ∈ s.r.stream ∧ e.2.key = k ∧ e.2.gen = g := by
        intro e he; simpa using he
      generalize s.r.stream.filter (fun e => e.2.key = k ∧ e.2.gen = g) = l at *
      match l, hsort, hall with
      | [], _, _ => simp
      | [_], _, _ => simp
      | a :: b :: l, hsort, hall =>
        exfalso
        have h1 := hall a (by simp)
        have h2 := hall b (by simp)
        have := hinv.stream_unique a h1.1 b h2.1 h1.2.1 h2.2.1 (h1.2.2.trans h2.2.2.symm)
        have hlt := (List.pairwise_cons.1 hsort).1 b (by simp)
        omega
    cases hpk : s.r.parked k with
    | none => simpa using hs1
    | some m =>
      by_cases hmg : m.gen = g
      · have : s.r.stream.filter (fun e => e.2.key = k ∧ e.2.gen = g) = [] := by
          rw [List.filter_eq_nil_iff]
          intro e he hc
          simp only [decide_eq_true_eq] at hc
          exact hinv.parked_stream m hpk e he hc.1 (hc.2.trans hmg.symm)
        rw [this]; simp [hmg]
      · simpa [hmg] using hs1
  · rintro m (⟨id, hid⟩ | hpk | ⟨p, hp, rfl⟩) hk
    · exact hinv.stream_le g hg _ hid hk
    · subst hk; exact hinv.parked_le g hg _ hpk
    · exact hinv.procs_le g hg p hp hk
  · intro p hp hk hlt hph
    have hsup : isSuperseded s.r p.msg.key p.msg.gen = true := by
      have hpos := hor.pos _ (hor.procs p hp)
      simp only [isSuperseded, hk, hg, Bool.and_eq_true, decide_eq_true_eq]
      omega
    simp only [step, doClaim, proc?_of_mem hw hp, hph, if_true]
    rw [luaClaim_superseded _ _ _ _ _ hsup]
    refine ⟨rfl, ?_, ?_, ?_⟩
    · intro e he; simpa using (List.mem_filter.1 he).2
    · intro e he; simpa using (List.mem_filter.1 he).2
    · intro x hx; simpa using (List.mem_filter.1 hx).2

/-- Two generations of one key in existence at once: the older one held by a worker,
the newer one waiting. -/
example : Throughout ⟨10, 3⟩ (fun s => ¬ Orphaned s "k") {}
      [.add "k" ⟨"f", "", "", 0, 1⟩ 0, .poll "w" 1, .replace "k" ⟨"f", "x", "", 0, 1⟩ 0] ∧
    (run ⟨10, 3⟩ [.add "k" ⟨"f", "", "", 0, 1⟩ 0, .poll "w" 1,
      .replace "k" ⟨"f", "x", "", 0, 1⟩ 0]).r.genOf "k" = some 2 ∧
    (run ⟨10, 3⟩ [.add "k" ⟨"f", "", "", 0, 1⟩ 0, .poll "w" 1,
      .replace "k" ⟨"f", "x", "", 0, 1⟩ 0]).procs.any
        (fun p => p.msg.key = "k" ∧ p.msg.gen < 2 ∧ p.phase = .handed) := by decide

/-! ### C07 -/

theorem gen_mono {cfg : Cfg} {k : Key} {ops : List Op} : ∀ {s : Sys}, WF s → ∀ {g0 : Gen},
    (∃ g, s.r.genOf k = some g ∧ g0 ≤ g) →
    Throughout cfg (fun s => HasRecord s k) s ops →
    (∃ g, (runFrom cfg s ops).r.genOf k = some g ∧ g0 ≤ g) ∧
    ∀ pid id m t, Event.started pid id m t ∈ newEvents s (runFrom cfg s ops) → m.key = k →
      0 < m.gen → g0 ≤ m.gen := by
  induction ops with
  | nil =>
    intro s _ g0 hg _
    refine ⟨hg, ?_⟩
    intro pid id m t hm
    simp [newEvents] at hm
  | cons o ops ih =>
    intro s hw g0 hg ht
    obtain ⟨g, hg, hle⟩ := hg
    have hrec' : HasRecord (step cfg s o) k := by
      cases ops with
      | nil => exact ht.2
      | cons => exact ht.2.1
    have hg' : ∃ g, (step cfg s o).r.genOf k = some g ∧ g0 ≤ g := by
      rcases gen_step cfg hw o k with h | h | ⟨m, _, _, h3, h4⟩
      · simp [HasRecord, h] at hrec'
      · exact ⟨g, h.trans hg, hle⟩
      · refine ⟨_, h4, ?_⟩
        rw [h3, nextGen_eq, hg]; simp; omega
    obtain ⟨h1, h2⟩ := ih (hw.step o) hg' ht.2
    refine ⟨h1, ?_⟩
    intro pid id m t hm hk hpos
    have hsplit := newEvents_append cfg hw [o] ops
    rw [List.singleton_append] at hsplit
    rw [hsplit, List.mem_append] at hm
    rcases hm with hm | hm
    · exact h2 pid id m t hm hk hpos
    · have hspec := newEvents_spec cfg hw [o]
      obtain ⟨p, _, _, _, _, _, _, _, hsup⟩ := started_step cfg hw o hspec hm
      simp only [isSuperseded, hk, hg, Bool.and_eq_false_iff, decide_eq_false_iff_not] at hsup
      omega

/-- C07.  Take any history `pre` during which the record of `k` was never missing while
messages of `k` existed, then any step that makes the docket accept a new scheduling
`m` of `k` (replace, add or a retry), then any continuation throughout which the
record survives.  Then no message of `k` that existed before the new scheduling is
started in the continuation; and a worker holding one that tries to start it is
refused, with the stale message removed from the stream and from pending. -/
theorem C07_no_older_version_started (cfg : Cfg) (pre cont : List Op) (op : Op) (k : Key) (m : Msg)
    (hno : Throughout cfg (fun s => ¬ Orphaned s k) {} pre)
    (hacc : (step cfg (run cfg pre) op).log = .accepted m :: (run cfg pre).log) (hk : m.key = k)
    (hrec : Throughout cfg (fun s => HasRecord s k) (step cfg (run cfg pre) op) cont) :
    let s0 := run cfg pre
    let s1 := step cfg s0 op
    let s2 := runFrom cfg s1 cont
    (∀ pid id m' t, Event.started pid id m' t ∈ newEvents s1 s2 → m'.key = k → ¬ Exists s0 m') ∧
    (∀ p ∈ s2.procs, p.msg.key = k → Exists s0 p.msg → p.phase = .handed →
      (step cfg s2 (.claim p.pid)).log = s2.log ∧
      (∀ e ∈ (step cfg s2 (.claim p.pid)).r.stream, e.1 ≠ p.id) ∧
      (∀ e ∈ (step cfg s2 (.claim p.pid)).r.pending, e.id ≠ p.id)) := by
  intro s0 s1 s2
  have hw0 := WF.run cfg pre
  have hw1 : WF s1 := hw0.step op
  have hgen : GenInv s0 k := GenInv.runFrom WF.init (GenInv.init k) hno
  have hno0 : ¬ Orphaned s0 k := hno.last
  have hor2 : OriginInv s2 := by
    have := OriginInv.run cfg (pre ++ op :: cont)
    rwa [run, runFrom_append] at this
  -- messages in existence before are below the next generation
  have hlt : ∀ m', Exists s0 m' → m'.key = k → m'.gen < s0.r.nextGen k := by
    intro m' hex hk'
    cases hg : s0.r.genOf k with
    | none =>
      exfalso
      refine hno0 ⟨by simp [HasRecord, hg], ?_⟩
      rcases hex with ⟨id, hid⟩ | hpk | ⟨p, hp, rfl⟩
      · exact Or.inl ⟨_, hid, hk'⟩
      · subst hk'; exact Or.inr (Or.inl (by simp [hpk]))
      · exact Or.inr (Or.inr ⟨p, hp, hk'⟩)
    | some g =>
      have : m'.gen ≤ g := by
        rcases hex with ⟨id, hid⟩ | hpk | ⟨p, hp, rfl⟩
        · exact hgen.stream_le g hg _ hid hk'
        · subst hk'; exact hgen.parked_le g hg _ hpk
        · exact hgen.procs_le g hg p hp hk'
      rw [nextGen_eq, hg]; simp; omega
  have hrec1 : HasRecord s1 k := by
    cases cont with
    | nil => exact hrec
    | cons => exact hrec.1
  -- the new scheduling took the next generation
  have hg1 : ∃ g, s1.r.genOf k = some g ∧ s0.r.nextGen k ≤ g := by
    rcases gen_step cfg hw0 op k with h | h | ⟨m', _, _, h3, h4⟩
    · simp only [HasRecord] at hrec1; rw [show s1.r.genOf k = none from h] at hrec1; simp at hrec1
    · exfalso
      have := accepted_gen cfg hw0 op hacc
      rw [hk] at this
      rw [show s1.r.genOf k = s0.r.genOf k from h] at this
      have h5 := this.1
      have h6 := this.2
      rw [h6, nextGen_eq] at h5
      cases hg : s0.r.genOf k with
      | none => rw [hg] at h5; simp at h5
      | some g => rw [hg] at h5; simp at h5
    · exact ⟨_, h4, by rw [h3]; exact Nat.le_refl _⟩
  obtain ⟨hg2, hst⟩ := gen_mono hw1 hg1 hrec
  refine ⟨?_, ?_⟩
  · intro pid id m' t hm hk' hex
    have hm2 : Event.started pid id m' t ∈ s2.log := by
      rw [newEvents_spec cfg hw1 cont]; exact List.mem_append.2 (Or.inl hm)
    have := hst pid id m' t hm hk' (hor2.pos _ (hor2.started _ _ _ _ hm2))
    have := hlt m' hex hk'
    omega
  · intro p hp hkp hex hph
    have hw2 : WF s2 := hw1.runFrom cont
    obtain ⟨g, hg, hle⟩ := hg2
    have hsup : isSuperseded s2.r p.msg.key p.msg.gen = true := by
      have hpos := hor2.pos _ (hor2.procs p hp)
      have := hlt _ hex hkp
      simp only [isSuperseded, hkp, s2, hg, Bool.and_eq_true, decide_eq_true_eq]
      omega
    simp only [step, doClaim, proc?_of_mem hw2 hp, hph, if_true]
    rw [luaClaim_superseded _ _ _ _ _ hsup]
    refine ⟨rfl, ?_, ?_⟩
    · intro e he; simpa using (List.mem_filter.1 he).2
    · intro e he; simpa using (List.mem_filter.1 he).2

section example_C07
private def q1 : Request := ⟨"f", "old", "", 0, 1⟩
private def q2 : Request := ⟨"f", "new", "", 0, 1⟩
/-- The hypotheses hold with an older version held by a worker, and with the new
version started afterwards. -/
example :
    Throughout ⟨10, 3⟩ (fun s => ¬ Orphaned s "k") {} [.add "k" q1 0, .poll "w" 1] ∧
    (step ⟨10, 3⟩ (run ⟨10, 3⟩ [.add "k" q1 0, .poll "w" 1]) (.replace "k" q2 0)).log =
      .accepted ⟨"k", q2, 2⟩ :: (run ⟨10, 3⟩ [.add "k" q1 0, .poll "w" 1]).log ∧
    Throughout ⟨10, 3⟩ (fun s => HasRecord s "k")
      (step ⟨10, 3⟩ (run ⟨10, 3⟩ [.add "k" q1 0, .poll "w" 1]) (.replace "k" q2 0))
      [.poll "v" 1, .claim 1] ∧
    Event.started 1 2 ⟨"k", q2, 2⟩ 0 ∈
      (runFrom ⟨10, 3⟩ (step ⟨10, 3⟩ (run ⟨10, 3⟩ [.add "k" q1 0, .poll "w" 1])
        (.replace "k" q2 0)) [.poll "v" 1, .claim 1]).log ∧
    (⟨0, "w", 1, ⟨"k", q1, 1⟩, false, .handed⟩ : Proc) ∈
      (runFrom ⟨10, 3⟩ (step ⟨10, 3⟩ (run ⟨10, 3⟩ [.add "k" q1 0, .poll "w" 1])
        (.replace "k" q2 0)) [.poll "v" 1, .claim 1]).procs := by decide
end example_C07

/-! ### C08 -/

/-- The full statement of C08: the reschedule of a superseded execution leaves the
outstanding task of the key what it was. -/
def C08_statement : Prop :=
  ∀ (cfg : Cfg) (ops : List Op) (k : Key) (m : Msg) (p : Proc) (t a d : Nat),
    outstanding (run cfg ops).log k = some m → HasRecord (run cfg ops) k →
    p ∈ (run cfg ops).procs → p.msg.key = k → p.msg.gen < m.gen →
    outstanding (step cfg (run cfg ops) (.reschedule p.pid t a d)).log k = some m

/-- The code violates C08: the reschedule branch of `_schedule` (execution.py:113-158)
does not compare generations. -/
theorem C08_violated : ¬ C08_statement := by
  intro h
  have := h ⟨10, 3⟩ [.add "k" ⟨"f", "old", "", 0, 1⟩ 0, .poll "w" 1, .claim 0,
    .replace "k" ⟨"f", "new", "", 0, 1⟩ 0] "k" ⟨"k", ⟨"f", "new", "", 0, 1⟩, 2⟩
    ⟨0, "w", 1, ⟨"k", ⟨"f", "old", "", 0, 1⟩, 1⟩, false, .running⟩ 0 2 0
    (by decide) (by decide) (by decide) (by decide) (by decide)
  revert this
  decide

/-- How bad it is: after any such retry the replacement is never started again, as
long as the record survives. -/
theorem C08_replacement_never_started_after_retry (cfg : Cfg) (pre cont : List Op) (k : Key)
    (m m' : Msg) (pid t a d : Nat)
    (hno : Throughout cfg (fun s => ¬ Orphaned s k) {} pre)
    (hout : outstanding (run cfg pre).log k = some m) (hrec : HasRecord (run cfg pre) k)
    (hacc : (step cfg (run cfg pre) (.reschedule pid t a d)).log =
      .accepted m' :: (run cfg pre).log) (hk : m'.key = k)
    (hrec' : Throughout cfg (fun s => HasRecord s k)
      (step cfg (run cfg pre) (.reschedule pid t a d)) cont) :
    ∀ pid' id t', Event.started pid' id m t' ∉
      newEvents (step cfg (run cfg pre) (.reschedule pid t a d))
        (runFrom cfg (step cfg (run cfg pre) (.reschedule pid t a d)) cont) := by
  intro pid' id t' hm
  obtain ⟨hmk, hc⟩ := CarriedInv.run cfg pre k m hout
  refine (C07_no_older_version_started cfg pre cont _ k m' hno hacc hk hrec').1 pid' id m t' hm hmk ?_
  rcases (hc hrec).place with h | h
  · exact Or.inl h
  · exact Or.inr (Or.inl h.1)

/-- A client did not schedule, cancel or clear, and no execution rescheduled itself. -/
def NoReschedule : Op → Prop
  | .add .. | .replace .. | .cancel _ | .clear | .clearWrite | .reschedule .. => False
  | _ => True

/-- C08, the part that holds: nothing else an older execution (or any worker, or the
clock) does displaces the replacement: it stays outstanding until it is itself
finished.  Partial: the retry of an older execution is excluded. -/
theorem C08_only_retry_displaces_partial (cfg : Cfg) (ops : List Op) (k : Key) (m : Msg) (op : Op)
    (hno : Throughout cfg (fun s => ¬ Orphaned s k) {} ops)
    (hout : outstanding (run cfg ops).log k = some m) (hrec : HasRecord (run cfg ops) k)
    (hop : NoReschedule op) :
    outstanding (step cfg (run cfg ops) op).log k = some m ∨
    ∃ pid id st, (step cfg (run cfg ops) op).log = .finished pid id m st true :: (run cfg ops).log := by
  have hw := WF.run cfg ops
  have hor := OriginInv.run cfg ops
  have hgen : GenInv (run cfg ops) k := GenInv.runFrom WF.init (GenInv.init k) hno
  obtain ⟨hmk, hc⟩ := CarriedInv.run cfg ops k m hout
  have hc := hc hrec
  generalize run cfg ops = s at *
  have he := step_eff cfg s hw.queue op
  generalize Docket.step cfg s op = s' at he
  cases he with
  | addNow => exact hop.elim
  | addLater => exact hop.elim
  | replaceNow => exact hop.elim
  | replaceLater => exact hop.elim
  | cancel => exact hop.elim
  | clear op j js h =>
    rcases h with ⟨rfl, _⟩ | ⟨rfl, _⟩ <;> exact hop.elim
  | rescheduleNow => exact hop.elim
  | rescheduleLater => exact hop.elim
  | poll w n new hnew => left; rw [newHanded_outstanding]; exact hout
  | finish p st e w hp hph hs =>
    by_cases hk : p.msg.key = k
    · right
      have hg := current_of_not_superseded hgen hp hk (hor.pos _ (hor.procs p hp)) hs
      have hgm := hc.gen
      rw [hmk, hg] at hgm
      simp only [Option.some.injEq] at hgm
      have : p.msg = m := by
        rcases hc.place with ⟨id, hid⟩ | hsch
        · have h1 := hgen.procs_stream p hp _ hid hk hmk hgm
          exact ((hw.procs.1 p hp).2.2 _ hid h1.symm).symm
        · have := hsch.1
          rw [hmk] at this
          exact absurd hgm (hgen.parked_procs m this p hp hk)
      exact ⟨p.pid, p.id, st, by rw [this]⟩
    · left; simpa [outstanding, hk] using hout
  | _ => left; simpa [outstanding] using hout

/-- The hypotheses hold with the replaced version still running. -/
example : let ops : List Op := [.add "k" ⟨"f", "old", "", 0, 1⟩ 0, .poll "w" 1, .claim 0,
      .replace "k" ⟨"f", "new", "", 0, 1⟩ 0]
    Throughout ⟨10, 3⟩ (fun s => ¬ Orphaned s "k") {} ops ∧
    outstanding (run ⟨10, 3⟩ ops).log "k" = some ⟨"k", ⟨"f", "new", "", 0, 1⟩, 2⟩ ∧
    HasRecord (run ⟨10, 3⟩ ops) "k" := by decide

/-! ### C09 -/

/-- C09.  In every reachable state, an execution `p` whose key has a newer generation
finishes (completed, failed or cancelled; with or without error and result).  Then
every record, schedule entry, parked message, stored result and every other
execution is unchanged; the stream loses exactly the entry `p.id`, so every message
of another generation is still there; pending entries of other messages are
unchanged; and progress is unchanged for every other key and for this key if it was
started by a newer generation. -/
theorem C09_stale_completion (cfg : Cfg) (ops : List Op) (p : Proc) (g : Gen)
    (st : RunState) (e : Option String) (w : Bool)
    (hp : p ∈ (run cfg ops).procs) (hbegun : p.phase = .running)
    (hg : (run cfg ops).r.genOf p.msg.key = some g) (hold : p.msg.gen < g)
    (hst : st = .completed ∨ st = .failed ∨ st = .cancelled) :
    let s := run cfg ops
    let s' := step cfg s (.finish p.pid st e w)
    s'.r.runs = s.r.runs ∧ s'.r.queue = s.r.queue ∧ s'.r.parked = s.r.parked ∧
    s'.results = s.results ∧
    s'.procs = s.procs.filter (fun x => x.pid ≠ p.pid) ∧
    s'.r.stream = s.r.stream.filter (fun x => x.1 ≠ p.id) ∧
    s'.r.pending = s.r.pending.filter (fun x => x.id ≠ p.id) ∧
    (∀ id m, (id, m) ∈ s.r.stream → m ≠ p.msg → (id, m) ∈ s'.r.stream) ∧
    (∀ k, k ≠ p.msg.key → s'.r.progress k = s.r.progress k) ∧
    (∀ pr pg, s.r.progress p.msg.key = some pr → pr.gen = some pg → p.msg.gen < pg →
      s'.r.progress p.msg.key = s.r.progress p.msg.key) := by
  intro s s'
  have hw : WF s := WF.run cfg ops
  have hor : OriginInv s := OriginInv.run cfg ops
  have hsup : isSuperseded s.r p.msg.key p.msg.gen = true := by
    have hpos := hor.pos _ (hor.procs p hp)
    simp only [isSuperseded, s, hg, Bool.and_eq_true, decide_eq_true_eq]
    omega
  have hterm : st.terminal = true := by rcases hst with rfl | rfl | rfl <;> rfl
  have heq : s' = { s.dropProc p.pid with
      r := { s.r with
        pending := s.r.pending.filter (fun x => x.id ≠ p.id)
        stream := s.r.stream.filter (fun e => e.1 ≠ p.id)
        progress := supersededProgress s.r p.msg.key p.msg.gen
        published := ⟨p.msg.key, st⟩ :: s.r.published }
      log := .finished p.pid p.id p.msg st false :: s.log } := by
    simp only [s', step, doFinish, proc?_of_mem hw hp, hbegun, hterm]
    rw [luaTerminal_superseded _ _ _ _ _ _ _ _ hsup]
    simp
  rw [heq]
  refine ⟨rfl, rfl, rfl, rfl, rfl, rfl, rfl, ?_, ?_, ?_⟩
  · intro id m hm hne
    simp only [List.mem_filter, decide_eq_true_eq]
    exact ⟨hm, fun hc => hne ((hw.procs.1 p hp).2.2 _ hm hc)⟩
  · intro k hk
    simp only [supersededProgress]
    cases (s.r.progress p.msg.key).bind (·.gen) with
    | none => exact upd_other _ _ _ _ hk
    | some pg =>
      simp only
      split
      · exact upd_other _ _ _ _ hk
      · rfl
  · intro pr pg h1 h2 h3
    simp only [supersededProgress, h1, Option.bind_some, h2]
    rw [if_neg (by omega)]
    exact h1

/-- A replaced version finishing while its successor runs and reports progress. -/
example : let ops : List Op := [.add "k" ⟨"f", "old", "", 0, 1⟩ 0, .poll "w" 1, .claim 0,
      .replace "k" ⟨"f", "new", "", 0, 1⟩ 0, .poll "v" 1, .claim 1, .increment "k" 3]
    (⟨0, "w", 1, ⟨"k", ⟨"f", "old", "", 0, 1⟩, 1⟩, false, .running⟩ : Proc) ∈ (run ⟨10, 3⟩ ops).procs ∧
    (run ⟨10, 3⟩ ops).r.genOf "k" = some 2 ∧
    ∃ pr, (run ⟨10, 3⟩ ops).r.progress "k" = some pr ∧ pr.gen = some 2 ∧ pr.current = some 3 :=
  ⟨by decide, by decide, ⟨_, rfl, by decide, by decide⟩⟩

/-- C06, the newest is the current one.  In every reachable state, whenever a scheduling
(add, replace or retry) is accepted, the record exists afterwards and names exactly the
new message's generation, and the new message is in the stream or in the schedule. -/
theorem C06_newest_is_current (cfg : Cfg) (ops : List Op) (op : Op) (m : Msg)
    (hacc : (step cfg (run cfg ops) op).log = .accepted m :: (run cfg ops).log) :
    let s' := step cfg (run cfg ops) op
    s'.r.genOf m.key = some m.gen ∧ 0 < m.gen ∧ (InStream s' m ∨ InSchedule s' m) := by
  intro s'
  obtain ⟨h1, h2⟩ := accepted_gen cfg (WF.run cfg ops) op hacc
  have hr : s' = run cfg (ops ++ [op]) := by simp [s', run, runFrom_append]
  refine ⟨h1, by rw [h2]; exact nextGen_pos _ _, ?_⟩
  rw [hr]
  refine ((CarriedInv.run cfg (ops ++ [op]) m.key m ?_).2 ?_).place
  · rw [← hr, hacc]; simp [outstanding]
  · rw [← hr]; simp only [HasRecord, s', h1]; rfl

/-- A replacement and a retry, both accepted. -/
example : let ops : List Op := [.add "k" ⟨"f", "old", "", 0, 1⟩ 0, .poll "w" 1, .claim 0]
    (step ⟨10, 3⟩ (run ⟨10, 3⟩ ops) (.replace "k" ⟨"f", "new", "", 4, 1⟩ 0)).log =
      .accepted ⟨"k", ⟨"f", "new", "", 4, 1⟩, 2⟩ :: (run ⟨10, 3⟩ ops).log ∧
    (step ⟨10, 3⟩ (run ⟨10, 3⟩ ops) (.reschedule 0 4 2 0)).log =
      .accepted ⟨"k", ⟨"f", "old", "", 4, 2⟩, 2⟩ :: (run ⟨10, 3⟩ ops).log := by decide

/-- C07, the replacement takes over.  In every reachable state `replace` is accepted,
whatever is under the key.  Afterwards the new task is in the stream (if due) or in the
schedule (if not), nothing older of the key is left in the schedule, and what is left of
the key in the stream was there before and is not the message the record named. -/
theorem C07_replace_takes_over (cfg : Cfg) (ops : List Op) (k : Key) (q : Request) (t : Time)
    (ht : t ≤ (run cfg ops).r.now) :
    let s := run cfg ops
    let s' := step cfg s (.replace k q t)
    (doReplace s k q t).2 = .scheduled ∧
    ∃ g, s'.log = .accepted ⟨k, q, g⟩ :: s.log ∧
      (if q.when_ ≤ t then InStream s' ⟨k, q, g⟩ else InSchedule s' ⟨k, q, g⟩) ∧
      (∀ m, s'.r.parked k = some m → m = ⟨k, q, g⟩) ∧
      (∀ t', (k, t') ∈ s'.r.queue → t' = q.when_ ∧ t < q.when_) ∧
      (∀ e ∈ s'.r.stream, e.2.key = k → e.2 ≠ ⟨k, q, g⟩ →
        e ∈ s.r.stream ∧ s.r.streamIdOf k ≠ some e.1) := by
  intro s s'
  have hw : WF s := WF.run cfg ops
  have hdrop : ∀ e ∈ dropOwn s.r k, e ∈ s.r.stream ∧ s.r.streamIdOf k ≠ some e.1 := by
    intro e he
    refine ⟨mem_dropOwn he, ?_⟩
    intro hc
    simp only [dropOwn, hc, List.mem_filter] at he
    simp at he
  have hdone : (doReplace s k q t).2 = .scheduled := by
    simp [doReplace, doSchedule, luaSchedule]
  refine ⟨hdone, s.r.nextGen k, ?_⟩
  have he := step_eff cfg s hw.queue (.replace k q t)
  have hlog : s'.log ≠ s.log := by
    simp only [s', step, s, ht, if_true]
    simp [doReplace, doSchedule, luaSchedule]
  simp only [s'] at hlog ⊢
  generalize Docket.step cfg s (.replace k q t) = s' at he hlog
  cases he with
  | nop => exact absurd rfl hlog
  | replaceNow _ _ _ _ hq =>
    refine ⟨rfl, ?_, ?_, ?_, ?_⟩
    · rw [if_pos hq]; exact ⟨s.r.nextId, by simp⟩
    · intro m hm; simp at hm
    · intro t' h; simp at h
    · intro e he hk hne
      simp only [List.mem_append, List.mem_singleton] at he
      rcases he with he | rfl
      · exact hdrop e he
      · exact absurd rfl hne
  | replaceLater _ _ _ _ hq =>
    refine ⟨rfl, ?_, ?_, ?_, ?_⟩
    · rw [if_neg (by omega)]
      exact ⟨by simp, by simp [zinsert_mem]⟩
    · intro m hm; simpa using hm.symm
    · intro t' h
      simp only [zinsert_mem, List.mem_filter] at h
      refine ⟨?_, hq⟩
      rcases h with h | h
      · simpa using h
      · simp at h
    · intro e he _ _
      exact hdrop e he
  | clear op j js hop => rcases hop with ⟨h, _⟩ | ⟨h, _⟩ <;> cases h
  | prog op k f hop => rcases hop with ⟨_, h, _⟩ | ⟨_, h, _⟩ | ⟨_, h, _⟩ <;> cases h

end Docket
