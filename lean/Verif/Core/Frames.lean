import Verif.Core.Lease
import Verif.Core.Origin
/-
Stability facts: a key without messages stays without messages, what is handed out
after a clear was scheduled after it, records without expiry stay.
-/
namespace Docket
open Redis

/-- The operation schedules a new task under `k` on behalf of a client. -/
def Schedules (k : Key) : Op → Prop
  | .add k' _ _ | .replace k' _ _ => k' = k
  | _ => False

instance (k : Key) (op : Op) : Decidable (Schedules k op) := by
  cases op <;> unfold Schedules <;> infer_instance

/-- The started events of a step, as a decidable shape. -/
theorem NoMsg.step {cfg : Cfg} {s : Sys} {k : Key} (hw : WF s) (h : ¬ SomeMessage s k) (op : Op)
    (hop : ¬ Schedules k op) : ¬ SomeMessage (step cfg s op) k := by
  have he := step_eff cfg s hw.queue op
  generalize Docket.step cfg s op = s' at he
  have h1 : ∀ e ∈ s.r.stream, e.2.key ≠ k := fun e he hk => h (Or.inl ⟨e, he, hk⟩)
  have h2 : s.r.parked k = none := by
    cases hp : s.r.parked k with
    | none => rfl
    | some m => exact absurd (Or.inr (Or.inl (by simp [hp]))) h
  have h3 : ∀ p ∈ s.procs, p.msg.key ≠ k := fun p hp hk => h (Or.inr (Or.inr ⟨p, hp, hk⟩))
  have goal : ∀ s' : Sys, (∀ e ∈ s'.r.stream, e.2.key ≠ k) → s'.r.parked k = none →
      (∀ p ∈ s'.procs, p.msg.key ≠ k) → ¬ SomeMessage s' k := by
    rintro s' g1 g2 g3 (⟨e, he, hk⟩ | hp | ⟨p, hp, hk⟩)
    · exact g1 e he hk
    · simp [g2] at hp
    · exact g3 p hp hk
  have hsf : ∀ f : MsgId × Msg → Bool, ∀ e ∈ s.r.stream.filter f, e.2.key ≠ k :=
    fun _ e he => h1 e (List.mem_filter.1 he).1
  have hpf : ∀ f : Proc → Bool, ∀ p ∈ s.procs.filter f, p.msg.key ≠ k :=
    fun _ p hp => h3 p (List.mem_filter.1 hp).1
  have hd : ∀ k', ∀ e ∈ dropOwn s.r k', e.2.key ≠ k := fun _ e he => h1 e (mem_dropOwn he)
  have hadd : ∀ (st : List (MsgId × Msg)) (id : MsgId) (m : Msg), (∀ e ∈ st, e.2.key ≠ k) →
      m.key ≠ k → ∀ e ∈ st ++ [(id, m)], e.2.key ≠ k := by
    intro st id m hst hm e he
    simp only [List.mem_append, List.mem_singleton] at he
    rcases he with he | rfl
    · exact hst e he
    · exact hm
  have hpm : ∀ (pid : Nat) (ph : Phase), ∀ p ∈ s.procs.map (fun x =>
      if x.pid = pid then { x with phase := ph } else x), p.msg.key ≠ k := by
    intro pid ph p hp
    obtain ⟨x, hx, rfl⟩ := List.mem_map.1 hp
    have := h3 x hx
    split <;> simpa using this
  have hupd : ∀ k' v, k' ≠ k → upd s.r.parked k' v k = none := by
    intro k' v hk; rw [upd_other _ _ _ _ (Ne.symm hk)]; exact h2
  have hun : ∀ k', upd s.r.parked k' none k = none := by
    intro k'; simp only [upd]; split
    · rfl
    · exact h2
  cases he with
  | nop => exact h
  | addNow k' q => exact goal _ (hadd _ _ _ h1 hop) h2 h3
  | addLater k' q => exact goal _ h1 (hupd _ _ hop) h3
  | replaceNow k' q => exact goal _ (hadd _ _ _ (hd _) hop) (hun _) h3
  | replaceLater k' q => exact goal _ (hd _) (hupd _ _ hop) h3
  | cancel k' => exact goal _ (hd _) (hun _) h3
  | clear op j js hj =>
    refine goal _ ?_ ?_ h3
    · intro e he
      simp only at he
      split at he
      · simp at he
      · exact h1 e he
    · simp only
      split
      · rfl
      · exact h2
  | schedule t ht =>
    refine goal _ ?_ ?_ h3
    · intro e he
      simp only [List.mem_append] at he
      rcases he with he | he
      · exact h1 e he
      · have hm := (mem_numbered he).2.2
        rw [List.mem_filterMap] at hm
        obtain ⟨k', _, hp⟩ := hm
        intro hk
        have := hw.queue.key _ _ hp
        rw [hk] at this
        rw [← this, h2] at hp
        simp at hp
    · simp only
      split
      · rfl
      · exact h2
  | poll w n new hnew =>
    refine goal _ h1 h2 ?_
    intro p hp
    simp only [List.mem_append] at hp
    rcases hp with hp | hp
    · exact h3 p hp
    · have := (mem_newProcs hp).1
      rw [hnew] at this
      exact h1 _ (List.mem_filter.1 (List.mem_of_mem_take this)).1
  | redeliver w p e hp he =>
    refine goal _ h1 h2 ?_
    intro p hp
    simp only [List.mem_append, List.mem_singleton] at hp
    rcases hp with hp | rfl
    · exact h3 p hp
    · exact h1 e he
  | crash w => exact goal _ h1 h2 (hpf _)
  | abandon w => exact goal _ h1 h2 (hpf _)
  | strikeOut p hp => exact goal _ h1 h2 (hpm _ _)
  | claimSuperseded p hp => exact goal _ (hsf _) h2 (hpf _)
  | claim p hp => exact goal _ h1 h2 (hpm _ _)
  | finish p st e w hp => exact goal _ (hsf _) h2 (hpf _)
  | finishSuperseded p st e w hp => exact goal _ (hsf _) h2 (hpf _)
  | rescheduleNow p t a d q hp => exact goal _ (hadd _ _ _ (hsf _) (h3 p hp)) h2 (hpf _)
  | rescheduleLater p t a d q hp => exact goal _ (hsf _) (hupd _ _ (h3 p hp)) (hpf _)
  | _ => exact goal _ h1 h2 h3

theorem NoMsg.runFrom {cfg : Cfg} {k : Key} (ops : List Op) : ∀ {s : Sys}, WF s →
    ¬ SomeMessage s k → (∀ op ∈ ops, ¬ Schedules k op) →
    ¬ SomeMessage (runFrom cfg s ops) k ∧
    ∀ pid id m t, Event.started pid id m t ∈ newEvents s (runFrom cfg s ops) → m.key ≠ k := by
  induction ops with
  | nil => intro s _ h _; exact ⟨h, by simp [newEvents]⟩
  | cons o ops ih =>
    intro s hw h hops
    obtain ⟨h1, h2⟩ := ih (hw.step (cfg := cfg) o) (NoMsg.step hw h o (hops o (by simp)))
      (fun op hop => hops op (by simp [hop]))
    refine ⟨h1, ?_⟩
    intro pid id m t hm
    have hsplit := newEvents_append cfg hw [o] ops
    rw [List.singleton_append] at hsplit
    rw [hsplit, List.mem_append] at hm
    rcases hm with hm | hm
    · exact h2 pid id m t hm
    · obtain ⟨p, hp, _, _, _, rfl, _⟩ := started_step cfg hw o (newEvents_spec cfg hw [o]) hm
      intro hk
      exact h (Or.inr (Or.inr ⟨p, hp, hk⟩))

/-! What is deliverable was scheduled since `s0`. -/

structure FreshInv (s0 s : Sys) : Prop where
  log : ∃ l, s.log = l ++ s0.log
  stream : ∀ e ∈ s.r.stream, Event.accepted e.2 ∈ newEvents s0 s
  queue : ∀ k t, (k, t) ∈ s.r.queue → ∃ m, s.r.parked k = some m ∧
    Event.accepted m ∈ newEvents s0 s
  handed : ∀ pid id w b t m, Event.handed pid id w b t m ∈ newEvents s0 s →
    Event.accepted m ∈ newEvents s0 s

theorem newEvents_mono {s0 s s' : Sys} (h0 : ∃ l, s.log = l ++ s0.log) {l : List Event}
    (hl : s'.log = l ++ s.log) : newEvents s0 s' = l ++ newEvents s0 s := by
  obtain ⟨l0, h0⟩ := h0
  rw [newEvents_eq h0, newEvents_eq (l := l ++ l0)]
  rw [hl, h0]; simp

theorem FreshInv.step {cfg : Cfg} {s0 s : Sys} (hw : WF s) (h : FreshInv s0 s) (op : Op) :
    FreshInv s0 (step cfg s op) := by
  obtain ⟨l, hl⟩ := step_log cfg hw op
  have hne := newEvents_mono h.log hl
  have he := step_eff cfg s hw.queue op
  generalize Docket.step cfg s op = s' at he hl hne
  have hlog : ∃ l, s'.log = l ++ s0.log := by
    obtain ⟨l0, h0⟩ := h.log
    exact ⟨l ++ l0, by rw [hl, h0]; simp⟩
  have hold : ∀ ev ∈ newEvents s0 s, ev ∈ newEvents s0 s' := by
    intro ev hev; rw [hne]; exact List.mem_append.2 (Or.inr hev)
  have hnew : ∀ ev ∈ l, ev ∈ newEvents s0 s' := by
    intro ev hev; rw [hne]; exact List.mem_append.2 (Or.inl hev)
  -- assemble: what is new in each place
  have goal : (∀ e ∈ s'.r.stream, e ∈ s.r.stream ∨ Event.accepted e.2 ∈ newEvents s0 s') →
      (∀ k t, (k, t) ∈ s'.r.queue → ((k, t) ∈ s.r.queue ∧ s'.r.parked k = s.r.parked k) ∨
        ∃ m, s'.r.parked k = some m ∧ Event.accepted m ∈ newEvents s0 s') →
      (∀ pid id w b t m, Event.handed pid id w b t m ∈ l → ∃ i, (i, m) ∈ s.r.stream) →
      FreshInv s0 s' := by
    intro g1 g2 g3
    refine ⟨hlog, ?_, ?_, ?_⟩
    · intro e he
      rcases g1 e he with h1 | h1
      · exact hold _ (h.stream e h1)
      · exact h1
    · intro k t hk
      rcases g2 k t hk with ⟨h1, h2⟩ | h1
      · obtain ⟨m, h3, h4⟩ := h.queue k t h1
        exact ⟨m, h2.trans h3, hold _ h4⟩
      · exact h1
    · intro pid id w b t m hm
      rw [hne, List.mem_append] at hm
      rcases hm with hm | hm
      · obtain ⟨i, hi⟩ := g3 pid id w b t m hm
        exact hold _ (h.stream _ hi)
      · exact hold _ (h.handed pid id w b t m hm)
  have hself : ∀ e ∈ s.r.stream, e ∈ s.r.stream ∨ Event.accepted e.2 ∈ newEvents s0 s' :=
    fun _ h => Or.inl h
  have hsf : ∀ f : MsgId × Msg → Bool, ∀ e ∈ s.r.stream.filter f,
      e ∈ s.r.stream ∨ Event.accepted e.2 ∈ newEvents s0 s' :=
    fun _ e he => Or.inl (List.mem_filter.1 he).1
  have hd : ∀ k, ∀ e ∈ dropOwn s.r k, e ∈ s.r.stream ∨ Event.accepted e.2 ∈ newEvents s0 s' :=
    fun _ e he => Or.inl (mem_dropOwn he)
  have hq : ∀ k t, (k, t) ∈ s.r.queue → ((k, t) ∈ s.r.queue ∧ s.r.parked k = s.r.parked k) ∨
        ∃ m, s.r.parked k = some m ∧ Event.accepted m ∈ newEvents s0 s' :=
    fun _ _ h => Or.inl ⟨h, rfl⟩
  have hadd : ∀ (st : List (MsgId × Msg)) (id : MsgId) (m : Msg),
      (∀ e ∈ st, e ∈ s.r.stream ∨ Event.accepted e.2 ∈ newEvents s0 s') →
      Event.accepted m ∈ l → ∀ e ∈ st ++ [(id, m)],
        e ∈ s.r.stream ∨ Event.accepted e.2 ∈ newEvents s0 s' := by
    intro st id m hst hm e he
    simp only [List.mem_append, List.mem_singleton] at he
    rcases he with he | rfl
    · exact hst e he
    · exact Or.inr (hnew _ hm)
  have hqdel : ∀ k' v k t, (k, t) ∈ s.r.queue.filter (fun e => e.1 ≠ k') →
      ((k, t) ∈ s.r.queue ∧ upd s.r.parked k' v k = s.r.parked k) ∨
        ∃ m, upd s.r.parked k' v k = some m ∧ Event.accepted m ∈ newEvents s0 s' := by
    intro k' v k t hk
    simp only [List.mem_filter, decide_eq_true_eq] at hk
    exact Or.inl ⟨hk.1, upd_other _ _ _ _ hk.2⟩
  have hqput : ∀ k' m t', Event.accepted m ∈ l → ∀ k t,
      (k, t) ∈ zinsert k' t' (s.r.queue.filter (fun e => e.1 ≠ k')) →
      ((k, t) ∈ s.r.queue ∧ upd s.r.parked k' (some m) k = s.r.parked k) ∨
        ∃ m', upd s.r.parked k' (some m) k = some m' ∧ Event.accepted m' ∈ newEvents s0 s' := by
    intro k' m t' hm k t hk
    rw [zinsert_mem] at hk
    rcases hk with hk | hk
    · simp only [Prod.mk.injEq] at hk
      right
      exact ⟨m, by rw [hk.1]; exact upd_same _ _ _, hnew _ hm⟩
    · exact hqdel k' _ k t hk
  have hl1 : ∀ ev : Event, ev :: s.log = l ++ s.log → l = [ev] := by
    intro ev hev
    exact (List.append_cancel_right (as := [ev]) (bs := s.log) (by simpa using hev)).symm
  have hl0 : s.log = l ++ s.log → l = [] := by
    intro hev
    exact (List.append_cancel_right (as := []) (bs := s.log) (by simpa using hev)).symm
  cases he with
  | addNow k q =>
    have := hl1 _ hl; subst this
    exact goal (hadd _ _ _ hself (by simp)) hq (by simp)
  | addLater k q =>
    have := hl1 _ hl; subst this
    exact goal hself (hqput _ _ _ (by simp)) (by simp)
  | replaceNow k q =>
    have := hl1 _ hl; subst this
    exact goal (hadd _ _ _ (hd k) (by simp)) (hqdel k _) (by simp)
  | replaceLater k q =>
    have := hl1 _ hl; subst this
    exact goal (hd k) (hqput _ _ _ (by simp)) (by simp)
  | cancel k =>
    have := hl1 _ hl; subst this
    exact goal (hd k) (hqdel k _) (by simp)
  | clear op j js =>
    have := hl1 _ hl; subst this
    refine goal ?_ (by simp) (by simp)
    intro e he
    simp only at he
    split at he
    · simp at he
    · exact Or.inl he
  | schedule t ht =>
    have := hl0 hl; subst this
    refine goal ?_ ?_ (by simp)
    · intro e he
      simp only [List.mem_append] at he
      rcases he with he | he
      · exact Or.inl he
      · right
        have hm := (mem_numbered he).2.2
        rw [List.mem_filterMap] at hm
        obtain ⟨k, hk, hp⟩ := hm
        simp only [dueKeys, List.mem_map, List.mem_filter] at hk
        obtain ⟨⟨a, b⟩, ⟨h1, _⟩, rfl⟩ := hk
        obtain ⟨m, h3, h4⟩ := h.queue a b h1
        rw [hp] at h3
        simp only [Option.some.injEq] at h3
        subst h3
        exact hold _ h4
    · intro k t' hk
      simp only [List.mem_filter, decide_eq_true_eq] at hk
      refine Or.inl ⟨hk.1, ?_⟩
      simp only
      rw [if_neg]
      intro hdue
      obtain ⟨m, hm, hwh, _⟩ := dueKeys_parked hw.queue hdue
      obtain ⟨m', hm', hwh'⟩ := hw.queue.parked k t' hk.1
      rw [hm] at hm'
      simp only [Option.some.injEq] at hm'
      subst hm'
      omega
  | poll w n new hnw =>
    refine goal hself hq ?_
    intro pid id w' b t m hm
    have hl' : (newHanded s.nextPid w false s.r.now new).reverse = l :=
      List.append_cancel_right (bs := s.log) hl
    rw [← hl', List.mem_reverse] at hm
    obtain ⟨p', e, heq, he, _⟩ := mem_newHanded hm
    simp only [Event.handed.injEq] at heq
    rw [hnw] at he
    refine ⟨e.1, ?_⟩
    rw [heq.2.2.2.2.2]
    exact (List.mem_filter.1 (List.mem_of_mem_take he)).1
  | redeliver w p e hp he =>
    have := hl1 _ hl; subst this
    refine goal hself hq ?_
    intro pid id w' b t m hm
    simp only [List.mem_singleton, Event.handed.injEq] at hm
    exact ⟨e.1, by rw [hm.2.2.2.2.2]; exact he⟩
  | rescheduleNow p t a d q =>
    have := hl1 _ hl; subst this
    exact goal (hadd _ _ _ (hsf _) (by simp)) hq (by simp)
  | rescheduleLater p t a d q =>
    have := hl1 _ hl; subst this
    exact goal (hsf _) (hqput _ _ _ (by simp)) (by simp)
  | _ =>
    first
    | (have := hl0 hl; subst this; exact goal hself hq (by simp))
    | (have := hl0 hl; subst this; exact goal (hsf _) hq (by simp))
    | (have := hl1 _ hl; subst this; exact goal hself hq (by simp))
    | (have := hl1 _ hl; subst this; exact goal (hsf _) hq (by simp))

theorem FreshInv.runFrom {cfg : Cfg} {s0 : Sys} (ops : List Op) : ∀ {s : Sys}, WF s →
    FreshInv s0 s → FreshInv s0 (runFrom cfg s ops) := by
  induction ops with
  | nil => intro s _ h; exact h
  | cons o ops ih => intro s hw h; exact ih (hw.step o) (h.step hw o)

/-! Records without expiry. -/

/-- The event starts an expiry countdown of the record of `k`. -/
def Retires (k : Key) : Event → Prop
  | .cancelled k' => k' = k
  | .finished _ _ m _ true => m.key = k
  | .cleared => True
  | _ => False

structure LastsInv (s : Sys) (k : Key) : Prop where
  lasts : ∀ h, s.r.runs k = some h → h.expireAt = none
  job : k ∉ s.ttlJobs

/-- A record without expiry survives every step that does not retire the key, and a
record created by scheduling has no expiry. -/
theorem LastsInv.step {cfg : Cfg} {s : Sys} {k : Key} (hw : WF s) (h : LastsInv s k) (op : Op)
    {l : List Event} (hl : (step cfg s op).log = l ++ s.log) (hnr : ∀ e ∈ l, ¬ Retires k e) :
    LastsInv (step cfg s op) k ∧
    ((HasRecord s k ∨ ∃ m, Event.accepted m ∈ l ∧ m.key = k) → HasRecord (step cfg s op) k) := by
  have he := step_eff cfg s hw.queue op
  generalize Docket.step cfg s op = s' at he hl
  have hl1 : ∀ ev : Event, ev :: s.log = l ++ s.log → l = [ev] := by
    intro ev hev
    exact (List.append_cancel_right (as := [ev]) (bs := s.log) (by simpa using hev)).symm
  have hl0 : s.log = l ++ s.log → l = [] := by
    intro hev
    exact (List.append_cancel_right (as := []) (bs := s.log) (by simpa using hev)).symm
  have same : s'.r.runs k = s.r.runs k → s'.ttlJobs = s.ttlJobs →
      (∀ m, Event.accepted m ∈ l → m.key ≠ k) →
      LastsInv s' k ∧ ((HasRecord s k ∨ ∃ m, Event.accepted m ∈ l ∧ m.key = k) → HasRecord s' k) := by
    intro h1 h2 h3
    refine ⟨⟨fun v hv => h.lasts v (h1 ▸ hv), h2 ▸ h.job⟩, ?_⟩
    rintro (hr | ⟨m, hm, hk⟩)
    · simpa [HasRecord, Redis.genOf, h1] using hr
    · exact absurd hk (h3 m hm)
  have hrun : (s.r.run k).expireAt = none := by
    cases hr : s.r.runs k with
    | none => simp [Redis.run, hr]
    | some v => simp [Redis.run, hr, h.lasts v hr]
  have put : ∀ v : Run, s'.r.runs k = some v → v.expireAt = none → s'.ttlJobs = s.ttlJobs →
      v.gen.isSome → LastsInv s' k ∧
        ((HasRecord s k ∨ ∃ m, Event.accepted m ∈ l ∧ m.key = k) → HasRecord s' k) := by
    intro v h1 h2 h3 h4
    refine ⟨⟨fun x hx => ?_, h3 ▸ h.job⟩, fun _ => by simp [HasRecord, Redis.genOf, h1, h4]⟩
    rw [h1] at hx; simp only [Option.some.injEq] at hx; exact hx ▸ h2
  have putKeep : ∀ v : Run, s'.r.runs k = some v → v.expireAt = none → s'.ttlJobs = s.ttlJobs →
      v.gen = s.r.genOf k → (∀ m, Event.accepted m ∈ l → m.key ≠ k) → LastsInv s' k ∧
        ((HasRecord s k ∨ ∃ m, Event.accepted m ∈ l ∧ m.key = k) → HasRecord s' k) := by
    intro v h1 h2 h3 h4 h5
    refine ⟨⟨fun x hx => ?_, h3 ▸ h.job⟩, ?_⟩
    · rw [h1] at hx; simp only [Option.some.injEq] at hx; exact hx ▸ h2
    · rintro (hr | ⟨m, hm, hk⟩)
      · simpa [HasRecord, h1, h4, Redis.genOf] using hr
      · exact absurd hk (h5 m hm)
  cases he with
  | tick d =>
    have := hl0 hl; subst this
    refine same ?_ rfl (by simp)
    cases hr : s.r.runs k with
    | none => simp [advance, hr]
    | some v => simp [advance, hr, h.lasts v hr, Option.filter]
  | addNow k' q =>
    have := hl1 _ hl; subst this
    by_cases hk : k = k'
    · subst hk; exact put _ (upd_same _ _ _) hrun rfl rfl
    · exact same (upd_other _ _ _ _ hk) rfl (by simpa using Ne.symm hk)
  | addLater k' q =>
    have := hl1 _ hl; subst this
    by_cases hk : k = k'
    · subst hk; exact put _ (upd_same _ _ _) hrun rfl rfl
    · exact same (upd_other _ _ _ _ hk) rfl (by simpa using Ne.symm hk)
  | replaceNow k' q =>
    have := hl1 _ hl; subst this
    by_cases hk : k = k'
    · subst hk; exact put _ (upd_same _ _ _) hrun rfl rfl
    · exact same (upd_other _ _ _ _ hk) rfl (by simpa using Ne.symm hk)
  | replaceLater k' q =>
    have := hl1 _ hl; subst this
    by_cases hk : k = k'
    · subst hk; exact put _ (upd_same _ _ _) hrun rfl rfl
    · exact same (upd_other _ _ _ _ hk) rfl (by simpa using Ne.symm hk)
  | cancel k' =>
    have := hl1 _ hl; subst this
    have hk : k ≠ k' := fun hk => hnr _ (List.mem_singleton.2 rfl) (by simpa [Retires] using hk.symm)
    refine ⟨⟨fun v hv => h.lasts v ((upd_other _ _ _ _ hk).symm.trans hv), ?_⟩, ?_⟩
    · simp only [List.mem_cons, not_or]; exact ⟨hk, h.job⟩
    · rintro (hr | ⟨m, hm, _⟩)
      · simpa [HasRecord, Redis.genOf, upd_other _ _ _ _ hk] using hr
      · simp at hm
  | cancelTtl k' hk' =>
    have := hl0 hl; subst this
    have hk : k ≠ k' := fun hk => h.job (hk ▸ hk')
    refine ⟨⟨fun v hv => h.lasts v ((upd_other _ _ _ _ hk).symm.trans hv), ?_⟩, ?_⟩
    · exact fun hm => h.job (List.mem_of_mem_erase hm)
    · rintro (hr | ⟨m, hm, _⟩)
      · simpa [HasRecord, Redis.genOf, upd_other _ _ _ _ hk] using hr
      · simp at hm
  | clear op j js hj =>
    have := hl1 _ hl; subst this
    exact absurd trivial (hnr _ (List.mem_singleton.2 rfl))
  | schedule t ht =>
    have := hl0 hl; subst this
    by_cases hk : k ∈ dueKeys s.r t
    · exact putKeep { s.r.run k with state := some .queued } (by simp only [if_pos hk]) hrun rfl
        (run_gen _ _) (by simp)
    · exact same (by simp only [if_neg hk]) rfl (by simp)
  | poll w n new hnw =>
    refine same rfl rfl ?_
    intro m hm
    have hl' : (newHanded s.nextPid w false s.r.now new).reverse = l :=
      List.append_cancel_right (bs := s.log) hl
    rw [← hl', List.mem_reverse] at hm
    obtain ⟨p', e, heq, he, _⟩ := mem_newHanded hm
    simp at heq
  | strikeOut p hp =>
    have := hl1 _ hl; subst this
    by_cases hk : k = p.msg.key
    · subst hk
      rcases Option.eq_none_or_eq_some (s.r.runs p.msg.key) with hr | ⟨v, hr⟩
      · exact same (by simp [hr]) rfl (by simp)
      · exact putKeep { v with known := none, streamId := none } (by simp [hr]) (h.lasts v hr) rfl
          (by simp [Redis.genOf, hr]) (by simp)
    · exact same (upd_other _ _ _ _ hk) rfl (by simp)
  | claim p hp =>
    have := hl1 _ hl; subst this
    by_cases hk : k = p.msg.key
    · subst hk
      exact putKeep _ (upd_same _ _ _) hrun rfl (run_gen _ _) (by simp)
    · exact same (upd_other _ _ _ _ hk) rfl (by simp)
  | finish p st e w hp =>
    have := hl1 _ hl; subst this
    have hk : k ≠ p.msg.key :=
      fun hk => hnr _ (List.mem_singleton.2 rfl) (by simpa [Retires] using hk.symm)
    exact same (upd_other _ _ _ _ hk) rfl (by simp)
  | rescheduleNow p t a d q =>
    have := hl1 _ hl; subst this
    by_cases hk : k = p.msg.key
    · subst hk; exact put _ (upd_same _ _ _) hrun rfl rfl
    · exact same (upd_other _ _ _ _ hk) rfl (by simpa using Ne.symm hk)
  | rescheduleLater p t a d q =>
    have := hl1 _ hl; subst this
    by_cases hk : k = p.msg.key
    · subst hk; exact put _ (upd_same _ _ _) hrun rfl rfl
    · exact same (upd_other _ _ _ _ hk) rfl (by simpa using Ne.symm hk)
  | _ =>
    first
    | (have := hl0 hl; subst this; exact same rfl rfl (by simp))
    | (have := hl1 _ hl; subst this; exact same rfl rfl (by simp))

theorem LastsInv.runFrom {cfg : Cfg} {k : Key} (ops : List Op) : ∀ {s : Sys}, WF s →
    LastsInv s k → (∀ e ∈ newEvents s (runFrom cfg s ops), ¬ Retires k e) →
    LastsInv (runFrom cfg s ops) k ∧
    ((HasRecord s k ∨ ∃ m, Event.accepted m ∈ newEvents s (runFrom cfg s ops) ∧ m.key = k) →
      HasRecord (runFrom cfg s ops) k) := by
  induction ops with
  | nil => intro s _ h _; exact ⟨h, by simp [newEvents]⟩
  | cons o ops ih =>
    intro s hw h hnr
    have hsplit := newEvents_append cfg hw [o] ops
    rw [List.singleton_append] at hsplit
    have hl := newEvents_spec cfg hw [o]
    have h1 := h.step hw o (cfg := cfg) hl (fun e he => hnr e (by
      rw [hsplit]; exact List.mem_append.2 (Or.inr he)))
    have h2 := ih (hw.step o) h1.1 (fun e he => hnr e (by
      rw [hsplit]; exact List.mem_append.2 (Or.inl he)))
    refine ⟨h2.1, ?_⟩
    rintro (hr | ⟨m, hm, hk⟩)
    · exact h2.2 (Or.inl (h1.2 (Or.inl hr)))
    · rw [hsplit, List.mem_append] at hm
      rcases hm with hm | hm
      · exact h2.2 (Or.inr ⟨m, hm, hk⟩)
      · exact h2.2 (Or.inl (h1.2 (Or.inr ⟨m, hm, hk⟩)))

end Docket
