import Verif.Props.C01_C04
import Verif.Retry.Solo
/-
C72: two executions of one key do not run at the same time.
-/
namespace Docket
open Redis

/-! ## Specification -/

/-- Two executions of `k` are running. -/
def TwoRun (s : Sys) (k : Key) : Prop :=
  ∃ p ∈ s.procs, ∃ q ∈ s.procs, p.pid ≠ q.pid ∧ p.phase = .running ∧ q.phase = .running ∧
    p.msg.key = k ∧ q.msg.key = k

instance (s : Sys) (k : Key) : Decidable (TwoRun s k) := by unfold TwoRun; infer_instance

/-- The full statement: never do two executions of one key run at the same time. -/
def C72_statement : Prop := ∀ (cfg : Cfg) (ops : List Op) (k : Key), ¬ TwoRun (run cfg ops) k

/-- What may be done to the task `k`: anything but replacing it, cancelling it, clearing the
docket, striking it out, and taking its message away from a worker that is alive. -/
def Calm (k : Key) (s : Sys) : Op → Prop
  | .replace k' _ _ | .cancel k' => k' ≠ k
  | .clear | .clearWrite => False
  | .strikeOut pid => ∀ p ∈ s.procs, p.pid = pid → p.msg.key ≠ k
  | .redeliver _ id => ∀ p ∈ s.procs, p.id = id → p.msg.key ≠ k
  | _ => True

instance (k : Key) (s : Sys) (op : Op) : Decidable (Calm k s op) := by
  cases op <;> unfold Calm <;> infer_instance

/-! ## Proof -/

/-- At most one message of `k` exists, at most one worker holds it, and `add` sees it. -/
structure Alone1 (s : Sys) (k : Key) : Prop where
  one : ∀ e ∈ s.r.stream, ∀ e' ∈ s.r.stream, e.2.key = k → e'.2.key = k → e.1 = e'.1
  parked : ∀ e ∈ s.r.stream, e.2.key = k → s.r.parked k = none
  held : ∀ p ∈ s.procs, p.msg.key = k → ∃ e ∈ s.r.stream, e.1 = p.id
  ids : ∀ p ∈ s.procs, ∀ q ∈ s.procs, p.msg.key = k → q.msg.key = k → p.id = q.id → p.pid = q.pid
  seen : ∀ e ∈ s.r.stream, e.2.key = k → s.r.knownOf k = true ∨ s.r.stateOf k = some .running
  known : (s.r.parked k).isSome → s.r.knownOf k = true

theorem Alone1.single {s : Sys} {k : Key} (hw : WF s) (h : Alone1 s k) {p q : Proc} (hp : p ∈ s.procs)
    (hq : q ∈ s.procs) (hpk : p.msg.key = k) (hqk : q.msg.key = k) : p.pid = q.pid := by
  obtain ⟨e, he, hep⟩ := h.held p hp hpk
  obtain ⟨e', he', heq⟩ := h.held q hq hqk
  have h1 := (hw.procs.1 p hp).2.2 e he hep
  have h2 := (hw.procs.1 q hq).2.2 e' he' heq
  have := h.one e he e' he' (by rw [h1]; exact hpk) (by rw [h2]; exact hqk)
  exact h.ids p hp q hq hpk hqk (by omega)

theorem Alone1.none {s : Sys} {k : Key} (hw : WF s) (h : Alone1 s k)
    (hx : scheduleExists s.r k = false) :
    (∀ e ∈ s.r.stream, e.2.key ≠ k) ∧ s.r.parked k = .none ∧ (∀ p ∈ s.procs, p.msg.key ≠ k) := by
  simp only [scheduleExists, Bool.or_eq_false_iff, beq_eq_false_iff_ne] at hx
  have h1 : ∀ e ∈ s.r.stream, e.2.key ≠ k := by
    intro e he hc
    rcases h.seen e he hc with h | h
    · rw [hx.1] at h; cases h
    · exact hx.2 h
  refine ⟨h1, ?_, ?_⟩
  · cases hp : s.r.parked k with
    | none => rfl
    | some m =>
      have := h.known (by simp [hp])
      rw [hx.1] at this; cases this
  · intro p hp hc
    obtain ⟨e, he, hep⟩ := h.held p hp hc
    have h2 := (hw.procs.1 p hp).2.2 e he hep
    exact h1 e he (by rw [h2]; exact hc)

/-- What the invariant looks at. -/
theorem Alone1.congr {s s' : Sys} {k : Key} (h : Alone1 s k)
    (hst : ∀ e ∈ s'.r.stream, e.2.key = k → e ∈ s.r.stream)
    (hpk : s'.r.parked k = s.r.parked k)
    (hpr : ∀ p ∈ s'.procs, p.msg.key = k → (∃ q ∈ s.procs, q.pid = p.pid ∧ q.id = p.id ∧ q.msg = p.msg))
    (hmem : ∀ p ∈ s'.procs, p.msg.key = k → ∀ e ∈ s.r.stream, e.1 = p.id → e ∈ s'.r.stream)
    (hrun : s'.r.runs k = s.r.runs k) : Alone1 s' k := by
  have hkn : s'.r.knownOf k = s.r.knownOf k := by simp only [knownOf, hrun]
  have hso : s'.r.stateOf k = s.r.stateOf k := by simp only [stateOf, hrun]
  refine ⟨?_, ?_, ?_, ?_, ?_, ?_⟩
  · intro e he e' he' h1 h2
    exact h.one e (hst e he h1) e' (hst e' he' h2) h1 h2
  · intro e he h1; rw [hpk]; exact h.parked e (hst e he h1) h1
  · intro p hp h1
    obtain ⟨q, hq, _, h3, h4⟩ := hpr p hp h1
    obtain ⟨e, he, h5⟩ := h.held q hq (by rw [h4]; exact h1)
    exact ⟨e, hmem p hp h1 e he (by rw [h5, h3]), by rw [h5, h3]⟩
  · intro p hp q hq h1 h2 h3
    obtain ⟨p', hp', a1, a2, a3⟩ := hpr p hp h1
    obtain ⟨q', hq', b1, b2, b3⟩ := hpr q hq h2
    have := h.ids p' hp' q' hq' (by rw [a3]; exact h1) (by rw [b3]; exact h2) (by omega)
    omega
  · intro e he h1; rw [hkn, hso]; exact h.seen e (hst e he h1) h1
  · rw [hpk, hkn]; exact h.known

theorem newProcs_inj {w : WorkerName} {red : Bool} {ms : List (MsgId × Msg)}
    (hs : ms.Pairwise (fun a b => a.1 < b.1)) : ∀ {pid : Nat} {p q : Proc},
    p ∈ newProcs pid w red ms → q ∈ newProcs pid w red ms → p.id = q.id → p.pid = q.pid := by
  induction ms with
  | nil => intro pid p q hp; cases hp
  | cons e ms ih =>
    intro pid p q hp hq hid
    rw [List.pairwise_cons] at hs
    simp only [newProcs, List.mem_cons] at hp hq
    rcases hp with rfl | hp
    · rcases hq with rfl | hq
      · rfl
      · have := hs.1 _ (mem_newProcs hq).1
        simp only at this hid
        omega
    · rcases hq with rfl | hq
      · have := hs.1 _ (mem_newProcs hp).1
        simp only at this hid
        omega
      · exact ih hs.2 hp hq hid

theorem numbered_inj {ms : List Msg} (hn : ms.Nodup) : ∀ {i : Nat} {e e' : MsgId × Msg},
    e ∈ numbered i ms → e' ∈ numbered i ms → e.2 = e'.2 → e.1 = e'.1 := by
  induction ms with
  | nil => intro i e e' h; cases h
  | cons m ms ih =>
    intro i e e' h h' heq
    rw [List.nodup_cons] at hn
    simp only [numbered, List.mem_cons] at h h'
    rcases h with rfl | h
    · rcases h' with rfl | h'
      · rfl
      · have := (mem_numbered h').2.2
        rw [← heq] at this
        exact absurd this hn.1
    · rcases h' with rfl | h'
      · have := (mem_numbered h).2.2
        rw [heq] at this
        exact absurd this hn.1
      · exact ih hn.2 h h' heq

/-- No message of `k` is anywhere. -/
theorem Alone1.empty {s : Sys} {k : Key} (h1 : ∀ e ∈ s.r.stream, e.2.key ≠ k) (h2 : s.r.parked k = .none)
    (h3 : ∀ p ∈ s.procs, p.msg.key ≠ k) : Alone1 s k :=
  ⟨fun e he _ _ h => absurd h (h1 e he), fun e he h => absurd h (h1 e he), fun p hp h => absurd h (h3 p hp),
    fun p hp _ _ h => absurd h (h3 p hp), fun e he h => absurd h (h1 e he), by simp [h2]⟩

/-- After its message is removed, nothing of `k` is left. -/
theorem Alone1.removed {s : Sys} {k : Key} (hw : WF s) (h : Alone1 s k) {p : Proc} (hp : p ∈ s.procs)
    (hk : p.msg.key = k) :
    (∀ e ∈ s.r.stream.filter (fun e => decide (e.1 ≠ p.id)), e.2.key ≠ k) ∧ s.r.parked k = .none ∧
    (∀ q ∈ s.procs.filter (fun x => decide (x.pid ≠ p.pid)), q.msg.key ≠ k) := by
  obtain ⟨e, he, hep⟩ := h.held p hp hk
  have h1 := (hw.procs.1 p hp).2.2 e he hep
  have h2 : e.2.key = k := by rw [h1]; exact hk
  refine ⟨?_, h.parked e he h2, ?_⟩
  · intro e' he' hc
    simp only [List.mem_filter, decide_eq_true_eq] at he'
    exact he'.2 (by rw [← hep]; exact h.one e' he'.1 e he hc h2)
  · intro q hq hc
    simp only [List.mem_filter, decide_eq_true_eq] at hq
    exact hq.2 (h.single hw hq.1 hp hc hk)

theorem Alone1.step {cfg : Cfg} {s : Sys} {k : Key} (hw : WF s) (h : Alone1 s k) (op : Op)
    (hc : Calm k s op) (hno : ¬ Orphaned (Docket.step cfg s op) k) : Alone1 (Docket.step cfg s op) k := by
  have he := step_eff cfg s hw.queue op
  have hw' : WF (Docket.step cfg s op) := hw.step op
  generalize Docket.step cfg s op = s' at he hno hw'
  have hlt := hw.stream.lt
  -- removing the message of an execution of another key
  have hother : ∀ p ∈ s.procs, p.msg.key ≠ k → ∀ e ∈ s.r.stream, e.2.key = k →
      e ∈ s.r.stream.filter (fun e => decide (e.1 ≠ p.id)) := by
    intro p hp hk e he hek
    simp only [List.mem_filter, decide_eq_true_eq]
    refine ⟨he, fun hc => hk ?_⟩
    rw [← (hw.procs.1 p hp).2.2 e he hc]; exact hek
  have hheld : ∀ p ∈ s.procs, p.msg.key = k → ∀ e ∈ s.r.stream, e.1 = p.id → e.2.key = k := by
    intro p hp hk e he hid
    rw [(hw.procs.1 p hp).2.2 e he hid]; exact hk
  have hfilp : ∀ (pid : Nat), ∀ p ∈ s.procs.filter (fun x => decide (x.pid ≠ pid)), p ∈ s.procs :=
    fun _ p hp => (List.mem_filter.1 hp).1
  cases he with
  | nop => exact h
  | tick d =>
    have hcase : s.r.runs k = (s.r.advance d).runs k ∨ (s.r.advance d).runs k = .none := by
      simp only [advance]
      cases hr : s.r.runs k with
      | none => exact Or.inl rfl
      | some v =>
        rw [Option.filter_some]
        by_cases hb : (match v.expireAt with | .none => true | some e => decide (s.r.now + d < e)) = true
        · exact Or.inl (if_pos hb).symm
        · exact Or.inr (if_neg hb)
    rcases hcase with hr | hr
    · exact h.congr (fun e he _ => he) rfl (fun p hp _ => ⟨p, hp, rfl, rfl, rfl⟩) (fun _ _ _ e he _ => he) hr.symm
    · have : ¬ SomeMessage s k := by
        intro hm
        exact hno ⟨by simp only [HasRecord, genOf, hr]; simp, hm⟩
      simp only [SomeMessage, not_or] at this
      refine Alone1.empty (fun e he hk => this.1 ⟨e, he, hk⟩) ?_ (fun p hp hk => this.2.2 ⟨p, hp, hk⟩)
      have := this.2.1
      cases hp : s.r.parked k with
      | none => exact hp
      | some m => rw [hp] at this; simp at this
  | addNow k' q t ht hwh hx =>
    by_cases hk : k' = k
    · subst hk
      obtain ⟨h1, h2, h3⟩ := h.none hw hx
      have hin : ∀ e ∈ s.r.stream ++ [(s.r.nextId, (⟨k', q, s.r.nextGen k'⟩ : Msg))], e.2.key = k' → e.1 = s.r.nextId := by
        intro e he hek
        rcases List.mem_append.1 he with he | he
        · exact absurd hek (h1 e he)
        · rw [List.mem_singleton.1 he]
      refine ⟨?_, fun _ _ _ => h2, fun p hp hpk => absurd hpk (h3 p hp), fun p hp _ _ hpk => absurd hpk (h3 p hp), ?_, ?_⟩
      · intro e he e' he' a b
        rw [hin e he a, hin e' he' b]
      · intro e _ _
        left; simp [knownOf, queuedRun]
      · intro hp; simp [knownOf, queuedRun]
    · refine h.congr ?_ rfl (fun p hp _ => ⟨p, hp, rfl, rfl, rfl⟩) (fun _ _ _ e he _ => List.mem_append_left _ he)
        (upd_other _ _ _ _ (fun hc => hk hc.symm))
      intro e he hek
      rcases List.mem_append.1 he with he | he
      · exact he
      · rw [List.mem_singleton.1 he] at hek; exact absurd hek hk
  | addLater k' q t ht hwh hx =>
    by_cases hk : k' = k
    · subst hk
      obtain ⟨h1, h2, h3⟩ := h.none hw hx
      refine ⟨fun e he _ _ a => absurd a (h1 e he), fun e he a => absurd a (h1 e he), fun p hp hpk => absurd hpk (h3 p hp), fun p hp _ _ hpk => absurd hpk (h3 p hp), fun e he a => absurd a (h1 e he), ?_⟩
      intro hp; simp [knownOf, scheduledRun]
    · exact h.congr (fun e he _ => he) (upd_other _ _ _ _ (fun hc => hk hc.symm)) (fun p hp _ => ⟨p, hp, rfl, rfl, rfl⟩)
        (fun _ _ _ e he _ => he) (upd_other _ _ _ _ (fun hc => hk hc.symm))
  | replaceNow k' q t ht hwh =>
    have hk : k' ≠ k := hc
    refine h.congr ?_ (upd_other _ _ _ _ (fun hc => hk hc.symm)) (fun p hp _ => ⟨p, hp, rfl, rfl, rfl⟩) ?_
        (upd_other _ _ _ _ (fun hc => hk hc.symm))
    · intro e he hek
      rcases List.mem_append.1 he with he | he
      · exact mem_dropOwn he
      · rw [List.mem_singleton.1 he] at hek; exact absurd hek hk
    · intro p hp hpk e he hid
      exact List.mem_append_left _ (mem_dropOwn_of_key hw he (by rw [hheld p hp hpk e he hid]; exact fun hc => hk hc.symm))
  | replaceLater k' q t ht hwh =>
    have hk : k' ≠ k := hc
    refine h.congr (fun e he _ => mem_dropOwn he) (upd_other _ _ _ _ (fun hc => hk hc.symm)) (fun p hp _ => ⟨p, hp, rfl, rfl, rfl⟩) ?_
        (upd_other _ _ _ _ (fun hc => hk hc.symm))
    intro p hp hpk e he hid
    exact mem_dropOwn_of_key hw he (by rw [hheld p hp hpk e he hid]; exact fun hc => hk hc.symm)
  | cancel k' =>
    have hk : k' ≠ k := hc
    refine h.congr (fun e he _ => mem_dropOwn he) (upd_other _ _ _ _ (fun hc => hk hc.symm)) (fun p hp _ => ⟨p, hp, rfl, rfl, rfl⟩) ?_
        (upd_other _ _ _ _ (fun hc => hk hc.symm))
    intro p hp hpk e he hid
    exact mem_dropOwn_of_key hw he (by rw [hheld p hp hpk e he hid]; exact fun hc => hk hc.symm)
  | cancelTtl k' hj =>
    by_cases hk : k' = k
    · subst hk
      by_cases httl : cfg.ttl > 0
      · have hrun : (upd s.r.runs k' (expiredRun cfg.ttl s.r k') k') =
            (s.r.runs k').map (fun h => { h with expireAt := some (s.r.now + cfg.ttl) }) := by
          rw [upd_same, expiredRun, if_pos httl]
        have hkn : knownOf { s.r with runs := upd s.r.runs k' (expiredRun cfg.ttl s.r k') } k' = s.r.knownOf k' := by
          simp only [knownOf, hrun]; cases s.r.runs k' <;> rfl
        have hso : stateOf { s.r with runs := upd s.r.runs k' (expiredRun cfg.ttl s.r k') } k' = s.r.stateOf k' := by
          simp only [stateOf, hrun]; cases s.r.runs k' <;> rfl
        exact ⟨h.one, h.parked, h.held, h.ids, fun e he hek => by rw [hkn, hso]; exact h.seen e he hek,
          fun hp => by rw [hkn]; exact h.known hp⟩
      · have hr : upd s.r.runs k' (expiredRun cfg.ttl s.r k') k' = .none := by
          rw [upd_same, expiredRun, if_neg httl]
        have : ¬ SomeMessage s k' := by
          intro hm
          exact hno ⟨by simp only [HasRecord, genOf, hr]; simp, hm⟩
        simp only [SomeMessage, not_or] at this
        refine Alone1.empty (fun e he hk => this.1 ⟨e, he, hk⟩) ?_ (fun p hp hk => this.2.2 ⟨p, hp, hk⟩)
        have := this.2.1
        cases hp : s.r.parked k' with
        | none => first | exact hp | rfl
        | some m => rw [hp] at this; simp at this
    · exact h.congr (fun e he _ => he) rfl (fun p hp _ => ⟨p, hp, rfl, rfl, rfl⟩) (fun _ _ _ e he _ => he)
        (upd_other _ _ _ _ (fun hc => hk hc.symm))
  | clear op j js hop =>
    rcases hop with ⟨rfl, _⟩ | ⟨rfl, _⟩ <;> exact hc.elim
  | clearRead => exact h.congr (fun e he _ => he) rfl (fun p hp _ => ⟨p, hp, rfl, rfl, rfl⟩) (fun _ _ _ e he _ => he) rfl
  | schedule t ht =>
    have hnum : ∀ e ∈ numbered s.r.nextId ((dueKeys s.r t).filterMap s.r.parked), e.2.key ∈ dueKeys s.r t ∧
        s.r.parked e.2.key = some e.2 := by
      intro e he
      obtain ⟨k', hk', hp⟩ := List.mem_filterMap.1 (mem_numbered he).2.2
      rw [hw.queue.key k' _ hp]
      exact ⟨hk', hp⟩
    by_cases hk : k ∈ dueKeys s.r t
    · obtain ⟨m, hm, _, hmk⟩ := dueKeys_parked hw.queue hk
      have hns : ∀ e ∈ s.r.stream, e.2.key ≠ k := by
        intro e he hek
        rw [h.parked e he hek] at hm; cases hm
      have hnp : ∀ p ∈ s.procs, p.msg.key ≠ k := by
        intro p hp hpk
        obtain ⟨e, he, hid⟩ := h.held p hp hpk
        exact hns e he (hheld p hp hpk e he hid)
      have hkn := h.known (by simp [hm])
      have hkn' : knownOf { s.r with runs := fun k => if k ∈ dueKeys s.r t then some { s.r.run k with state := some .queued } else s.r.runs k } k = true := by
        simp only [knownOf, hk, if_true] at hkn ⊢
        cases hr : s.r.runs k with
        | none => rw [hr] at hkn; cases hkn
        | some v => rw [hr] at hkn; simpa [Redis.run, hr] using hkn
      refine ⟨?_, fun _ _ _ => by simp [hk], fun p hp hpk => absurd hpk (hnp p hp), fun p hp _ _ hpk => absurd hpk (hnp p hp),
        fun _ _ _ => Or.inl hkn', fun _ => hkn'⟩
      intro e he e' he' a b
      rcases List.mem_append.1 he with he | he
      · exact absurd a (hns e he)
      · rcases List.mem_append.1 he' with he' | he'
        · exact absurd b (hns e' he')
        · have h1 := (hnum e he).2
          have h2 := (hnum e' he').2
          rw [a, hm] at h1
          rw [b, hm] at h2
          have hnd : ((dueKeys s.r t).filterMap s.r.parked).Nodup := by
            have hd := dueKeys_nodup hw.queue t
            refine List.Pairwise.filterMap _ ?_ hd
            intro a a' hne b hb b' hb' hbb
            subst hbb
            exact hne (by rw [← hw.queue.key a b hb, ← hw.queue.key a' b hb'])
          exact numbered_inj hnd he he' (by injection h1 with h1; injection h2 with h2; rw [← h1, ← h2])
    · refine h.congr ?_ (by simp [hk]) (fun p hp _ => ⟨p, hp, rfl, rfl, rfl⟩) (fun _ _ _ e he _ => List.mem_append_left _ he) (by simp [hk])
      intro e he hek
      rcases List.mem_append.1 he with he | he
      · exact he
      · have := (hnum e he).1
        rw [hek] at this; exact absurd this hk
  | poll w n new hnew =>
    have hin : ∀ e ∈ new, e ∈ s.r.stream ∧ s.r.lastDelivered < e.1 := by
      intro e he
      rw [hnew] at he
      have := List.mem_of_mem_take he
      simpa [List.mem_filter] using this
    have hsort : new.Pairwise (fun a b => a.1 < b.1) := by
      rw [hnew]
      exact (hw.stream.sorted.filter _).sublist (List.take_sublist _ _)
    refine ⟨h.one, h.parked, ?_, ?_, h.seen, h.known⟩
    · intro p hp hpk
      rcases List.mem_append.1 hp with hp | hp
      · exact h.held p hp hpk
      · exact ⟨_, (hin _ (mem_newProcs hp).1).1, rfl⟩
    · intro p hp q hq a b hid
      rcases List.mem_append.1 hp with hp | hp
      · rcases List.mem_append.1 hq with hq | hq
        · exact h.ids p hp q hq a b hid
        · have h1 := (hin _ (mem_newProcs hq).1).2
          have h2 := (hw.procs.1 p hp).1
          simp only at h1
          omega
      · rcases List.mem_append.1 hq with hq | hq
        · have h1 := (hin _ (mem_newProcs hp).1).2
          have h2 := (hw.procs.1 q hq).1
          simp only at h1
          omega
        · exact newProcs_inj hsort hp hq hid
  | redeliver w p e hp he hid hidle =>
    refine ⟨h.one, h.parked, ?_, ?_, h.seen, h.known⟩
    · intro x hx hxk
      rcases List.mem_append.1 hx with hx | hx
      · exact h.held x hx hxk
      · rw [List.mem_singleton.1 hx]; exact ⟨e, he, rfl⟩
    · intro x hx y hy a b hxy
      rcases List.mem_append.1 hx with hx | hx
      · rcases List.mem_append.1 hy with hy | hy
        · exact h.ids x hx y hy a b hxy
        · rw [List.mem_singleton.1 hy] at hxy
          exact absurd a (hc x hx hxy)
      · rcases List.mem_append.1 hy with hy | hy
        · rw [List.mem_singleton.1 hx] at hxy
          exact absurd b (hc y hy hxy.symm)
        · rw [List.mem_singleton.1 hx, List.mem_singleton.1 hy]
  | crash w =>
    exact h.congr (fun e he _ => he) rfl (fun p hp _ => ⟨p, (List.mem_filter.1 hp).1, rfl, rfl, rfl⟩) (fun _ _ _ e he _ => he) rfl
  | abandon pid =>
    exact h.congr (fun e he _ => he) rfl (fun p hp _ => ⟨p, (List.mem_filter.1 hp).1, rfl, rfl, rfl⟩) (fun _ _ _ e he _ => he) rfl
  | strikeOut p hp hph =>
    have hk : p.msg.key ≠ k := hc p hp rfl
    refine h.congr (fun e he _ => he) rfl ?_ (fun _ _ _ e he _ => he) (upd_other _ _ _ _ (fun hc => hk hc.symm))
    intro x hx _
    obtain ⟨y, hy, rfl⟩ := List.mem_map.1 hx
    exact ⟨y, hy, by split <;> rfl, by split <;> rfl, by split <;> rfl⟩
  | claimSuperseded p hp hph hs =>
    by_cases hk : p.msg.key = k
    · obtain ⟨h1, h2, h3⟩ := h.removed hw hp hk
      exact Alone1.empty h1 h2 h3
    · exact h.congr (fun e he _ => (List.mem_filter.1 he).1) rfl (fun x hx _ => ⟨x, hfilp _ x hx, rfl, rfl, rfl⟩)
        (fun x hx hxk e he hid => hother p hp hk e he (hheld x (hfilp _ x hx) hxk e he hid)) rfl
  | claim p hp hph hs =>
    have hprocs : ∀ x ∈ s.procs.map (fun x => if x.pid = p.pid then { x with phase := .running } else x),
        ∃ q ∈ s.procs, q.pid = x.pid ∧ q.id = x.id ∧ q.msg = x.msg := by
      intro x hx
      obtain ⟨y, hy, rfl⟩ := List.mem_map.1 hx
      exact ⟨y, hy, by split <;> rfl, by split <;> rfl, by split <;> rfl⟩
    by_cases hk : p.msg.key = k
    · obtain ⟨e, he, hid⟩ := h.held p hp hk
      have hpn := h.parked e he (hheld p hp hk e he hid)
      refine ⟨h.one, h.parked, ?_, ?_, ?_, ?_⟩
      · intro x hx hxk
        obtain ⟨y, hy, _, h2, h3⟩ := hprocs x hx
        obtain ⟨e, he, hid⟩ := h.held y hy (by rw [h3]; exact hxk)
        exact ⟨e, he, by rw [hid, h2]⟩
      · intro x hx y hy a b hxy
        obtain ⟨x', hx', a1, a2, a3⟩ := hprocs x hx
        obtain ⟨y', hy', b1, b2, b3⟩ := hprocs y hy
        have := h.ids x' hx' y' hy' (by rw [a3]; exact a) (by rw [b3]; exact b) (by omega)
        omega
      · intro _ _ _
        right; rw [hk]; simp [stateOf, claimedRun]
      · intro hp; simp only at hp; rw [hpn] at hp; cases hp
    · exact h.congr (fun e he _ => he) rfl (fun x hx _ => hprocs x hx) (fun _ _ _ e he _ => he)
        (upd_other _ _ _ _ (fun hc => hk hc.symm))
  | finish p st e w hp hph hs =>
    by_cases hk : p.msg.key = k
    · obtain ⟨h1, h2, h3⟩ := h.removed hw hp hk
      exact Alone1.empty h1 h2 h3
    · exact h.congr (fun e he _ => (List.mem_filter.1 he).1) rfl (fun x hx _ => ⟨x, hfilp _ x hx, rfl, rfl, rfl⟩)
        (fun x hx hxk e he hid => hother p hp hk e he (hheld x (hfilp _ x hx) hxk e he hid))
        (upd_other _ _ _ _ (fun hc => hk hc.symm))
  | finishSuperseded p st e w hp hph hs =>
    by_cases hk : p.msg.key = k
    · obtain ⟨h1, h2, h3⟩ := h.removed hw hp hk
      exact Alone1.empty h1 h2 h3
    · exact h.congr (fun e he _ => (List.mem_filter.1 he).1) rfl (fun x hx _ => ⟨x, hfilp _ x hx, rfl, rfl, rfl⟩)
        (fun x hx hxk e he hid => hother p hp hk e he (hheld x (hfilp _ x hx) hxk e he hid)) rfl
  | rescheduleNow p t a d q hp hph hq hd hwh =>
    by_cases hk : p.msg.key = k
    · obtain ⟨h1, h2, h3⟩ := h.removed hw hp hk
      have hin : ∀ e ∈ s.r.stream.filter (fun e => decide (e.1 ≠ p.id)) ++ [(s.r.nextId, (⟨p.msg.key, q, s.r.nextGen p.msg.key⟩ : Msg))],
          e.2.key = k → e.1 = s.r.nextId := by
        intro e he hek
        rcases List.mem_append.1 he with he | he
        · exact absurd hek (h1 e he)
        · rw [List.mem_singleton.1 he]
      refine ⟨?_, fun _ _ _ => h2, fun x hx hxk => absurd hxk (h3 x hx), fun x hx _ _ hxk => absurd hxk (h3 x hx), ?_, ?_⟩
      · intro e he e' he' a b
        rw [hin e he a, hin e' he' b]
      · intro _ _ _; left; rw [hk]; simp [knownOf, queuedRun]
      · intro _; rw [hk]; simp [knownOf, queuedRun]
    · refine h.congr ?_ rfl (fun x hx _ => ⟨x, hfilp _ x hx, rfl, rfl, rfl⟩)
        (fun x hx hxk e he hid => List.mem_append_left _ (hother p hp hk e he (hheld x (hfilp _ x hx) hxk e he hid)))
        (upd_other _ _ _ _ (fun hc => hk hc.symm))
      intro e he hek
      rcases List.mem_append.1 he with he | he
      · exact (List.mem_filter.1 he).1
      · rw [List.mem_singleton.1 he] at hek; exact absurd hek hk
  | rescheduleLater p t a d q hp hph hq hd hwh =>
    by_cases hk : p.msg.key = k
    · obtain ⟨h1, h2, h3⟩ := h.removed hw hp hk
      refine ⟨fun e he _ _ a => absurd a (h1 e he), fun e he a => absurd a (h1 e he), fun x hx hxk => absurd hxk (h3 x hx),
        fun x hx _ _ hxk => absurd hxk (h3 x hx), fun e he a => absurd a (h1 e he), ?_⟩
      intro _; rw [hk]; simp [knownOf, scheduledRun]
    · exact h.congr (fun e he _ => (List.mem_filter.1 he).1) (upd_other _ _ _ _ (fun hc => hk hc.symm))
        (fun x hx _ => ⟨x, hfilp _ x hx, rfl, rfl, rfl⟩)
        (fun x hx hxk e he hid => hother p hp hk e he (hheld x (hfilp _ x hx) hxk e he hid))
        (upd_other _ _ _ _ (fun hc => hk hc.symm))
  | _ => exact h.congr (fun e he _ => he) rfl (fun p hp _ => ⟨p, hp, rfl, rfl, rfl⟩) (fun _ _ _ e he _ => he) rfl

theorem Alone1.runFrom {cfg : Cfg} {k : Key} (ops : List Op) : ∀ {s : Sys}, WF s → Alone1 s k →
    EachStep cfg (Calm k) s ops → Throughout cfg (fun s => ¬ Orphaned s k) s ops →
    Alone1 (Docket.runFrom cfg s ops) k := by
  induction ops with
  | nil => intro s _ h _ _; exact h
  | cons o ops ih =>
    intro s hw h hc hno
    refine ih (hw.step o) (h.step hw o hc.1 ?_) hc.2 hno.2
    cases ops with
    | nil => exact hno.2
    | cons _ _ => exact hno.2.1

/-- **C72**.  As long as nobody replaces, cancels, clears or strikes out the task `k`, living
workers keep their leases on it (any worker may crash) and its record does not expire under
it: at every moment at most one worker holds a message of `k`, whether it runs already or
not.  So however often `k` is added, retried, redelivered after a crash or scheduled again
after its end, it never runs twice at the same time.
Partial: in each of the excluded cases the code does run two executions, see below. -/
theorem C72_one_at_a_time_partial (cfg : Cfg) (ops : List Op) (k : Key)
    (hcalm : EachStep cfg (Calm k) {} ops) (hrec : Throughout cfg (fun s => ¬ Orphaned s k) {} ops)
    (p q : Proc) (hp : p ∈ (run cfg ops).procs) (hq : q ∈ (run cfg ops).procs)
    (hpk : p.msg.key = k) (hqk : q.msg.key = k) : p = q := by
  have hw := WF.run cfg ops
  have h0 : Alone1 {} k := Alone1.empty (fun _ h => by cases h) rfl (fun _ h => by cases h)
  have h := Alone1.runFrom (cfg := cfg) ops WF.init h0 hcalm hrec
  exact pid_inj hw hp hq (Alone1.single hw h hp hq hpk hqk)

theorem C72_not_two_running_partial (cfg : Cfg) (ops : List Op) (k : Key)
    (hcalm : EachStep cfg (Calm k) {} ops) (hrec : Throughout cfg (fun s => ¬ Orphaned s k) {} ops) :
    ¬ TwoRun (run cfg ops) k := by
  rintro ⟨p, hp, q, hq, hne, _, _, hpk, hqk⟩
  exact hne (by rw [C72_one_at_a_time_partial cfg ops k hcalm hrec p q hp hq hpk hqk])

/-- A worker crashes, the task is redelivered, fails, is retried, refused twice, ends and is
added again. -/
example : let ops : List Op := [.add "k" ⟨"f", "", "", 0, 1⟩ 0, .poll "v" 1, .claim 0, .crash "v", .tick 5,
      .redeliver "w" 1, .claim 1, .add "k" ⟨"f", "", "", 0, 1⟩ 5, .reschedule 1 8 2 5, .tick 3, .schedule 8, .poll "w" 1,
      .claim 2, .add "k" ⟨"g", "", "", 0, 1⟩ 5, .finish 2 .completed none false, .add "k" ⟨"h", "", "", 0, 1⟩ 5, .poll "v" 1,
      .claim 3]
    EachStep ⟨10, 3⟩ (Calm "k") {} ops ∧ Throughout ⟨10, 3⟩ (fun s => ¬ Orphaned s "k") {} ops ∧
    (run ⟨10, 3⟩ ops).procs = [⟨3, "v", 3, ⟨"k", ⟨"h", "", "", 0, 1⟩, 3⟩, false, .running⟩] := by
  decide +kernel

/-- Violated: `replace` of a running task starts the new version beside the old one. -/
theorem C72_violated_replace : ¬ C72_statement := fun h => h ⟨10, 3⟩
  [.add "k" ⟨"f", "", "", 0, 1⟩ 0, .poll "w" 2, .claim 0, .replace "k" ⟨"f", "", "", 0, 1⟩ 0, .poll "w" 2, .claim 1] "k"
  (by decide +kernel)

/-- Violated: cancelling a running task only asks it to stop; the key can be added again, and
runs, while the cancelled execution is still cleaning up (or ignores the request). -/
theorem C72_violated_cancel : ¬ C72_statement := fun h => h ⟨10, 3⟩
  [.add "k" ⟨"f", "", "", 0, 1⟩ 0, .poll "w" 2, .claim 0, .cancel "k", .add "k" ⟨"f", "", "", 0, 1⟩ 0, .poll "w" 2, .claim 1] "k"
  (by decide +kernel)

/-- Violated: a worker that does not renew its lease in time, but lives on. -/
theorem C72_violated_lapse : ¬ C72_statement := fun h => h ⟨10, 3⟩
  [.add "k" ⟨"f", "", "", 0, 1⟩ 0, .poll "w" 1, .claim 0, .tick 3, .redeliver "v" 1, .claim 1] "k"
  (by decide +kernel)

/-- Violated, without anything unusual: a key that is added again within `execution_ttl` of
its last end keeps that expiry (nothing removes it).  If the task runs past it, its record is
gone, and the next `add` of the key is accepted and started beside it. -/
theorem C72_violated_expiry : ¬ C72_statement := fun h => h ⟨10, 3⟩
  [.add "k" ⟨"f", "", "", 0, 1⟩ 0, .poll "w" 1, .claim 0, .finish 0 .completed none false,
    .add "k" ⟨"f", "", "", 0, 1⟩ 0, .poll "w" 1, .claim 1, .tick 2, .renew "w" 2, .tick 2, .renew "w" 2, .tick 2,
    .renew "w" 2, .tick 2, .renew "w" 2, .tick 2, .renew "w" 2,
    .add "k" ⟨"f", "", "", 0, 1⟩ 10, .poll "w" 1, .claim 2] "k"
  (by decide +kernel)

/-- Violated: strikes that are lifted again.  A worker that strikes out an old message of the
key makes `add` forget the task that is waiting. -/
theorem C72_violated_strike : ¬ C72_statement := fun h => h ⟨10, 3⟩
  [.add "k" ⟨"f", "", "", 0, 1⟩ 0, .poll "w" 1, .strikeOut 0, .crash "w", .tick 3,
    .add "k" ⟨"f", "", "", 9, 1⟩ 3, .redeliver "v" 1, .strikeOut 1, .add "k" ⟨"f", "", "", 3, 1⟩ 3, .poll "u" 1, .claim 2,
    .tick 6, .schedule 9, .add "k" ⟨"f", "", "", 9, 1⟩ 9, .poll "t" 1, .poll "t" 1, .claim 4] "k"
  (by decide +kernel)

/-- Violated: `clear` lets the record of a running task expire. -/
theorem C72_violated_clear : ¬ C72_statement := fun h => h ⟨2, 3⟩
  [.add "k" ⟨"f", "", "", 0, 1⟩ 0, .poll "w" 1, .claim 0, .clear, .tick 2,
    .add "k" ⟨"f", "", "", 0, 1⟩ 2, .poll "w" 1, .claim 1] "k"
  (by decide +kernel)

end Docket
