import Verif.Core.Frames
import Verif.Core.Frame
/-
What is left of a key after its last execution: the invariants behind C66.
-/
namespace Docket
open Redis

/-- Stored results live for at most the execution ttl. -/
def ResultsOK (cfg : Cfg) (s : Sys) : Prop :=
  ∀ k v, s.results k = some v → s.r.now < v.expireAt ∧ v.expireAt ≤ s.r.now + cfg.ttl

theorem ResultsOK.step {cfg : Cfg} {s : Sys} (hw : WF s) (h : ResultsOK cfg s) (op : Op) :
    ResultsOK cfg (step cfg s op) := by
  have he := step_eff cfg s hw.queue op
  generalize Docket.step cfg s op = s' at he
  cases he with
  | tick d =>
    intro k v hv
    rw [Option.filter_eq_some_iff] at hv
    have := h k v hv.1
    have h2 := hv.2
    simp only [decide_eq_true_eq] at h2
    simp only [Redis.advance]
    omega
  | store p data hp hph httl =>
    intro k v hv
    rcases upd_eq_some hv with ⟨_, hv⟩ | ⟨_, hv⟩
    · simp only [Option.some.injEq] at hv
      subst hv
      exact ⟨by simp only; omega, Nat.le_refl _⟩
    · exact h k v hv
  | _ => exact h

theorem ResultsOK.run (cfg : Cfg) (ops : List Op) : ResultsOK cfg (run cfg ops) := by
  have : ∀ (ops : List Op) (s : Sys), WF s → ResultsOK cfg s → ResultsOK cfg (runFrom cfg s ops) := by
    intro ops
    induction ops with
    | nil => intro s _ h; exact h
    | cons o ops ih => intro s hw h; exact ih _ (hw.step o) (h.step hw o)
  refine this _ _ WF.init ?_
  intro k v hv
  simp at hv

/-- Nothing of `k` is left but a record and a stored result, both about to expire. -/
structure Fading (k : Key) (T : Time) (s : Sys) : Prop where
  record : ∀ v, s.r.runs k = some v → ∃ e, v.expireAt = some e ∧ s.r.now < e ∧ e ≤ T
  result : ∀ v, s.results k = some v → s.r.now < v.expireAt ∧ v.expireAt ≤ T
  progress : s.r.progress k = none
  message : ¬ SomeMessage s k
  jobs : ∀ j ∈ s.clearJobs, k ∉ j.scheduledKeys ∧ k ∉ j.streamKeys

theorem Fading.notQueued {k : Key} {T : Time} {s : Sys} (hw : WF s) (h : Fading k T s) (t : Time) :
    (k, t) ∉ s.r.queue := by
  intro hq
  obtain ⟨m, hm, _⟩ := hw.queue.parked k t hq
  exact h.message (Or.inr (Or.inl (by simp [hm])))

theorem Fading.notDue {k : Key} {T : Time} {s : Sys} (hw : WF s) (h : Fading k T s) (t : Time) :
    k ∉ dueKeys s.r t := by
  intro hd
  simp only [dueKeys, List.mem_map, List.mem_filter] at hd
  obtain ⟨⟨k', t'⟩, ⟨h1, _⟩, rfl⟩ := hd
  exact h.notQueued hw t' h1

theorem Fading.step {cfg : Cfg} {k : Key} {T : Time} {s : Sys} (hw : WF s) (h : Fading k T s)
    (op : Op) (hop : keyOf s op ≠ some k) : Fading k T (step cfg s op) := by
  have hsch : ¬ Schedules k op := by
    intro hs
    cases op <;> simp only [Schedules] at hs <;> subst hs <;> exact hop rfl
  have hmsg := NoMsg.step (cfg := cfg) hw h.message op hsch
  have he := step_eff cfg s hw.queue op
  generalize Docket.step cfg s op = s' at he hmsg
  have same : ∀ s' : Sys, ¬ SomeMessage s' k → s'.r.runs k = s.r.runs k →
      s'.results k = s.results k → s'.r.progress k = s.r.progress k → s'.r.now = s.r.now →
      (∀ j ∈ s'.clearJobs, j ∈ s.clearJobs) → Fading k T s' := by
    intro s' h0 h1 h2 h3 h4 h5
    exact ⟨by rw [h1, h4]; exact h.record, by rw [h2, h4]; exact h.result, by rw [h3]; exact h.progress,
      h0, fun j hj => h.jobs j (h5 j hj)⟩
  have hpid : ∀ {p : Proc}, p ∈ s.procs → (s.proc? p.pid).map (·.msg.key) = some p.msg.key := by
    intro p hp; rw [proc?_of_mem hw hp]; rfl
  have hne : ∀ {p : Proc}, p ∈ s.procs → k ≠ p.msg.key := by
    intro p hp hk
    exact h.message (Or.inr (Or.inr ⟨p, hp, hk.symm⟩))
  cases he with
  | tick d =>
    refine ⟨?_, ?_, h.progress, hmsg, h.jobs⟩
    · intro v hv
      simp only [Redis.advance, Option.filter_eq_some_iff] at hv
      obtain ⟨e, h1, h2, h3⟩ := h.record v hv.1
      have h4 := hv.2
      rw [h1] at h4
      simp only [decide_eq_true_eq] at h4
      exact ⟨e, h1, h4, h3⟩
    · intro v hv
      rw [Option.filter_eq_some_iff] at hv
      have := h.result v hv.1
      have h4 := hv.2
      simp only [decide_eq_true_eq] at h4
      exact ⟨h4, this.2⟩
  | addNow k' =>
    have hk : k ≠ k' := fun hc => hop (by simp [keyOf, hc])
    exact same _ hmsg (upd_other _ _ _ _ hk) rfl rfl rfl (fun _ h => h)
  | addLater k' =>
    have hk : k ≠ k' := fun hc => hop (by simp [keyOf, hc])
    exact same _ hmsg (upd_other _ _ _ _ hk) rfl rfl rfl (fun _ h => h)
  | replaceNow k' =>
    have hk : k ≠ k' := fun hc => hop (by simp [keyOf, hc])
    exact same _ hmsg (upd_other _ _ _ _ hk) rfl rfl rfl (fun _ h => h)
  | replaceLater k' =>
    have hk : k ≠ k' := fun hc => hop (by simp [keyOf, hc])
    exact same _ hmsg (upd_other _ _ _ _ hk) rfl rfl rfl (fun _ h => h)
  | cancel k' =>
    have hk : k ≠ k' := fun hc => hop (by simp [keyOf, hc])
    exact same _ hmsg (upd_other _ _ _ _ hk) rfl (upd_other _ _ _ _ hk) rfl (fun _ h => h)
  | cancelTtl k' =>
    have hk : k ≠ k' := fun hc => hop (by simp [keyOf, hc])
    exact same _ hmsg (upd_other _ _ _ _ hk) rfl rfl rfl (fun _ h => h)
  | clear op j js hj =>
    have hkey : k ∉ j.scheduledKeys ∧ k ∉ j.streamKeys := by
      rcases hj with ⟨_, rfl, _⟩ | ⟨_, hj⟩
      · simp only [Docket.clearRead, List.mem_map]
        refine ⟨?_, ?_⟩
        · rintro ⟨⟨k', t⟩, hq, rfl⟩; exact h.notQueued hw t hq
        · rintro ⟨e, he, hk⟩; exact h.message (Or.inl ⟨e, he, hk⟩)
      · exact h.jobs j (by rw [hj]; simp)
    refine same _ hmsg ?_ rfl rfl rfl ?_
    · simp [hkey.1, hkey.2]
    · intro j' hj'
      rcases hj with ⟨_, _, h3⟩ | ⟨_, h3⟩
      · rw [← h3]; exact hj'
      · rw [h3]; exact List.mem_cons_of_mem _ hj'
  | clearRead =>
    refine ⟨h.record, h.result, h.progress, hmsg, ?_⟩
    intro j hj
    simp only [List.mem_append, List.mem_singleton] at hj
    rcases hj with hj | rfl
    · exact h.jobs j hj
    · simp only [Docket.clearRead, List.mem_map]
      refine ⟨?_, ?_⟩
      · rintro ⟨⟨k', t⟩, hq, rfl⟩; exact h.notQueued hw t hq
      · rintro ⟨e, he, hk⟩; exact h.message (Or.inl ⟨e, he, hk⟩)
  | schedule t ht =>
    have := h.notDue hw t
    exact same _ hmsg (by simp [this]) rfl rfl rfl (fun _ h => h)
  | strikeOut p hp => exact same _ hmsg (upd_other _ _ _ _ (hne hp)) rfl rfl rfl (fun _ h => h)
  | claim p hp =>
    exact same _ hmsg (upd_other _ _ _ _ (hne hp)) rfl (upd_other _ _ _ _ (hne hp)) rfl (fun _ h => h)
  | store p data hp => exact same _ hmsg rfl (upd_other _ _ _ _ (hne hp)) rfl rfl (fun _ h => h)
  | finish p st e w hp =>
    exact same _ hmsg (upd_other _ _ _ _ (hne hp)) rfl (upd_other _ _ _ _ (hne hp)) rfl (fun _ h => h)
  | finishSuperseded p st e w hp =>
    refine same _ hmsg rfl rfl ?_ rfl (fun _ h => h)
    simp only [supersededProgress]
    cases (s.r.progress p.msg.key).bind (·.gen) with
    | none => exact upd_other _ _ _ _ (hne hp)
    | some pg =>
      simp only
      split
      · exact upd_other _ _ _ _ (hne hp)
      · rfl
  | rescheduleNow p t a d q hp => exact same _ hmsg (upd_other _ _ _ _ (hne hp)) rfl rfl rfl (fun _ h => h)
  | rescheduleLater p t a d q hp => exact same _ hmsg (upd_other _ _ _ _ (hne hp)) rfl rfl rfl (fun _ h => h)
  | prog op k' f hf =>
    have hk : k ≠ k' := by
      intro hc
      rcases hf with ⟨n, rfl, _⟩ | ⟨n, rfl, _⟩ | ⟨m, rfl, _⟩ <;> exact hop (by simp [keyOf, hc])
    exact same _ hmsg rfl rfl (upd_other _ _ _ _ hk) rfl (fun _ h => h)
  | _ => exact same _ hmsg rfl rfl rfl rfl (fun _ h => h)

theorem Fading.runFrom {cfg : Cfg} {k : Key} {T : Time} (ops : List Op) : ∀ {s : Sys}, WF s →
    Fading k T s → EachStep cfg (fun s op => keyOf s op ≠ some k) s ops →
    Fading k T (runFrom cfg s ops) := by
  induction ops with
  | nil => intro s _ h _; exact h
  | cons o ops ih => intro s hw h hs; exact ih (hw.step o) (h.step hw o hs.1) hs.2

end Docket
