import Verif.Core.Gens
import Verif.Core.Origin
/-
The invariant behind C05: an outstanding task is known or running.
-/
namespace Docket
open Redis

/-- The step does not strike a task of `k`, does not reschedule an execution of `k`
that was superseded, and the record of `k` is not missing while messages of `k` exist. -/
def OrderlyStep (k : Key) (s : Sys) : Op → Prop
  | .strikeOut pid => ¬ Orphaned s k ∧ ∀ p ∈ s.procs, p.pid = pid → p.msg.key ≠ k
  | .reschedule pid _ _ _ => ¬ Orphaned s k ∧
      ∀ p ∈ s.procs, p.pid = pid → p.msg.key = k → s.r.genOf k = some p.msg.gen
  | _ => ¬ Orphaned s k

instance (k : Key) (s : Sys) : ∀ op, Decidable (OrderlyStep k s op) := by
  intro op; cases op <;> unfold OrderlyStep <;> infer_instance

theorem OrderlyStep.notOrphaned {k : Key} {s : Sys} {op : Op} (h : OrderlyStep k s op) :
    ¬ Orphaned s k := by
  cases op <;> first | exact h | exact h.1

structure KnownInv (s : Sys) (k : Key) : Prop where
  queue : ∀ t, (k, t) ∈ s.r.queue → ∃ m, s.r.parked k = some m ∧ outstanding s.log k = some m
  busy : ∀ m, outstanding s.log k = some m → HasRecord s k →
    s.r.knownOf k = true ∨ s.r.stateOf k = some .running
  known : ∀ t, (k, t) ∈ s.r.queue → HasRecord s k → s.r.knownOf k = true

theorem KnownInv.queue_fresh {s : Sys} {k : Key} (h : KnownInv s k) (hc : CarriedInv s)
    (hgen : GenInv s k) (hno : ¬ Orphaned s k) {p : Proc} (hp : p ∈ s.procs)
    (hk : p.msg.key = k) (hg : s.r.genOf k = some p.msg.gen) (t : Time) : (k, t) ∉ s.r.queue := by
  intro hq
  obtain ⟨m, h1, h2⟩ := h.queue t hq
  obtain ⟨h3, h4⟩ := hc k m h2
  have := (h4 (by simp [HasRecord, hg])).gen
  rw [h3, hg] at this
  simp only [Option.some.injEq] at this
  exact hgen.parked_procs m h1 p hp hk this

/-- A claim that is not refused is of the current generation. -/
theorem current_of_not_superseded {s : Sys} {k : Key} (hgen : GenInv s k) {p : Proc}
    (hp : p ∈ s.procs) (hk : p.msg.key = k) (hpos : 0 < p.msg.gen)
    (hs : isSuperseded s.r p.msg.key p.msg.gen = false) : s.r.genOf k = some p.msg.gen := by
  rw [hk] at hs
  simp only [isSuperseded, Bool.and_eq_false_iff, decide_eq_false_iff_not] at hs
  rcases hs with hs | hs
  · omega
  · cases hg : s.r.genOf k with
    | none => rw [hg] at hs; simp at hs
    | some g =>
      rw [hg] at hs
      simp only [decide_eq_false_iff_not] at hs
      have := hgen.procs_le g hg p hp hk
      have : g = p.msg.gen := by omega
      rw [this]

theorem KnownInv.congr {s s' : Sys} {k : Key} (h : KnownInv s k)
    (hq : ∀ t, (k, t) ∈ s'.r.queue → (k, t) ∈ s.r.queue)
    (hp : s'.r.parked k = s.r.parked k)
    (ho : outstanding s'.log k = outstanding s.log k)
    (hr : s'.r.runs k = s.r.runs k) : KnownInv s' k where
  queue := by intro t ht; rw [hp, ho]; exact h.queue t (hq t ht)
  busy := by
    intro m hm hrec
    rw [ho] at hm
    have := h.busy m hm (by simpa [HasRecord, Redis.genOf, hr] using hrec)
    simpa [Redis.knownOf, Redis.stateOf, hr] using this
  known := by
    intro t ht hrec
    have := h.known t (hq t ht) (by simpa [HasRecord, Redis.genOf, hr] using hrec)
    simpa [Redis.knownOf, hr] using this

theorem zinsert_other {k k' : Key} {t t' : Time} {q : List (Key × Time)} (hk : k ≠ k')
    (h : (k, t) ∈ zinsert k' t' (q.filter (fun e => e.1 ≠ k'))) : (k, t) ∈ q := by
  rw [zinsert_mem] at h
  rcases h with h | h
  · simp only [Prod.mk.injEq] at h; exact absurd h.1 hk
  · exact (List.mem_filter.1 h).1

/-- Scheduling `k` (with any record that says known) makes it outstanding and known. -/
theorem KnownInv.schedule {s' : Sys} {k : Key} {m : Msg} {l : List Event} (v : Run)
    (hl : s'.log = .accepted m :: l) (hmk : m.key = k)
    (hr : s'.r.runs k = some v) (hv : v.known.isSome)
    (hq : ∀ t, (k, t) ∈ s'.r.queue → s'.r.parked k = some m) : KnownInv s' k := by
  have ho : outstanding s'.log k = some m := by rw [hl]; simp [outstanding, hmk]
  have hkn : s'.r.knownOf k = true := by simp [Redis.knownOf, hr, hv]
  exact ⟨fun t ht => ⟨m, hq t ht, ho⟩, fun _ _ _ => Or.inl hkn, fun _ _ _ => hkn⟩

theorem KnownInv.step {cfg : Cfg} {s : Sys} {k : Key} (hw : WF s) (hc : CarriedInv s)
    (hor : OriginInv s) (hgen : GenInv s k) (h : KnownInv s k) (op : Op)
    (hord : OrderlyStep k s op) : KnownInv (step cfg s op) k := by
  have he := step_eff cfg s hw.queue op
  have hno := hord.notOrphaned
  generalize Docket.step cfg s op = s' at he
  have hqf : ∀ k' t, (k, t) ∈ s.r.queue.filter (fun e => e.1 ≠ k') → (k, t) ∈ s.r.queue :=
    fun _ _ h => (List.mem_filter.1 h).1
  have hqn : ∀ k' t, k = k' → (k, t) ∉ s.r.queue.filter (fun e => e.1 ≠ k') := by
    intro k' t hk hm
    have := (List.mem_filter.1 hm).2
    simp [hk] at this
  -- a record with its fields kept, or dropped entirely
  have hrec : ∀ {s' : Sys}, (s'.r.runs k = none ∨ ∃ v v', s.r.runs k = some v ∧
        s'.r.runs k = some v' ∧ v'.gen = v.gen ∧ v'.known = v.known ∧ v'.state = v.state) →
      (∀ t, (k, t) ∈ s'.r.queue → (k, t) ∈ s.r.queue) →
      (∀ t, (k, t) ∈ s'.r.queue → s'.r.parked k = s.r.parked k) →
      outstanding s'.log k = outstanding s.log k → KnownInv s' k := by
    intro s' hcase hq hp ho
    refine ⟨?_, ?_, ?_⟩
    · intro t ht; rw [hp t ht, ho]; exact h.queue t (hq t ht)
    · intro m hm hr
      rcases hcase with h0 | ⟨v, v', h1, h2, h3, h4, h5⟩
      · simp [HasRecord, Redis.genOf, h0] at hr
      · rw [ho] at hm
        have := h.busy m hm (by simpa [HasRecord, Redis.genOf, h1, h2, h3] using hr)
        simpa [Redis.knownOf, Redis.stateOf, h1, h2, h4, h5] using this
    · intro t ht hr
      rcases hcase with h0 | ⟨v, v', h1, h2, h3, h4, h5⟩
      · simp [HasRecord, Redis.genOf, h0] at hr
      · have := h.known t (hq t ht) (by simpa [HasRecord, Redis.genOf, h1, h2, h3] using hr)
        simpa [Redis.knownOf, h1, h2, h4] using this
  have hexp : expiredRun cfg.ttl s.r k = none ∨ ∃ v v', s.r.runs k = some v ∧
        expiredRun cfg.ttl s.r k = some v' ∧ v'.gen = v.gen ∧ v'.known = v.known ∧
        v'.state = v.state := by
    cases hx : expiredRun cfg.ttl s.r k with
    | none => exact Or.inl rfl
    | some v' =>
      obtain ⟨_, v, h1, rfl⟩ := expiredRun_eq_some hx
      exact Or.inr ⟨v, _, h1, rfl, rfl, rfl, rfl⟩
  cases he with
  | nop => exact h
  | tick d =>
    refine hrec ?_ (fun _ h => h) (fun _ _ => rfl) rfl
    simp only [advance]
    cases hr : s.r.runs k with
    | none => exact Or.inl rfl
    | some v =>
      cases hx : Option.filter (fun h => match h.expireAt with
        | none => true
        | some e => decide (s.r.now + d < e)) (some v) with
      | none => exact Or.inl rfl
      | some v' =>
        rw [Option.filter_eq_some_iff] at hx
        have : v = v' := by simpa using hx.1
        subst this
        exact Or.inr ⟨v, v, rfl, rfl, rfl, rfl, rfl⟩
  | addNow k' q t ht hwh hx =>
    by_cases hk : k = k'
    · subst hk
      have hnq : ∀ t, (k, t) ∉ s.r.queue := by
        intro t hq
        by_cases hr : HasRecord s k
        · have := h.known t hq hr
          simp [scheduleExists, this] at hx
        · obtain ⟨m, h1, _⟩ := h.queue t hq
          exact hno ⟨hr, Or.inr (Or.inl (by simp [h1]))⟩
      exact KnownInv.schedule _ rfl rfl (upd_same _ _ _) rfl
        (fun t ht => absurd ht (hnq t))
    · refine h.congr (fun _ h => h) rfl ?_ (upd_other _ _ _ _ hk)
      simp [outstanding, Ne.symm hk]
  | addLater k' q t ht hwh hx =>
    by_cases hk : k = k'
    · subst hk
      exact KnownInv.schedule _ rfl rfl (upd_same _ _ _) rfl (fun t ht => upd_same _ _ _)
    · refine h.congr (fun t ht => zinsert_other hk ht) (upd_other _ _ _ _ hk) ?_
        (upd_other _ _ _ _ hk)
      simp [outstanding, Ne.symm hk]
  | replaceNow k' q t ht hwh =>
    by_cases hk : k = k'
    · subst hk
      exact KnownInv.schedule _ rfl rfl (upd_same _ _ _) rfl
        (fun t ht => absurd ht (hqn k t rfl))
    · refine h.congr (fun t ht => hqf k' t ht) (upd_other _ _ _ _ hk) ?_
        (upd_other _ _ _ _ hk)
      simp [outstanding, Ne.symm hk]
  | replaceLater k' q t ht hwh =>
    by_cases hk : k = k'
    · subst hk
      exact KnownInv.schedule _ rfl rfl (upd_same _ _ _) rfl (fun t ht => upd_same _ _ _)
    · refine h.congr (fun t ht => zinsert_other hk ht) (upd_other _ _ _ _ hk) ?_
        (upd_other _ _ _ _ hk)
      simp [outstanding, Ne.symm hk]
  | cancel k' =>
    by_cases hk : k = k'
    · subst hk
      refine ⟨fun t ht => absurd ht (hqn k t rfl), ?_, fun t ht => absurd ht (hqn k t rfl)⟩
      intro m hm; simp [outstanding] at hm
    · refine h.congr (fun t ht => hqf k' t ht) (upd_other _ _ _ _ hk) ?_
        (upd_other _ _ _ _ hk)
      simp [outstanding, Ne.symm hk]
  | cancelTtl k' hk' =>
    by_cases hk : k = k'
    · subst hk
      refine hrec ?_ (fun _ h => h) (fun _ _ => rfl) rfl
      simp only [upd_same]
      exact hexp
    · exact h.congr (fun _ h => h) rfl rfl (upd_other _ _ _ _ hk)
  | clear op j js hop =>
    refine ⟨?_, ?_, ?_⟩
    · intro t ht; simp at ht
    · intro m hm; simp [outstanding] at hm
    · intro t ht; simp at ht
  | clearRead => exact h.congr (fun _ h => h) rfl rfl rfl
  | schedule t ht =>
    by_cases hk : k ∈ dueKeys s.r t
    · have hnq : ∀ t', (k, t') ∉ s.r.queue.filter (fun e => ¬ e.2 ≤ t) := by
        intro t' hm
        simp only [List.mem_filter, decide_eq_true_eq] at hm
        obtain ⟨m, h1, h2⟩ := hw.queue.parked _ _ hm.1
        obtain ⟨m', h3, h4, _⟩ := dueKeys_parked hw.queue hk
        rw [h1] at h3
        simp only [Option.some.injEq] at h3
        subst h3
        omega
      refine ⟨fun t' ht' => absurd ht' (hnq t'), ?_, fun t' ht' => absurd ht' (hnq t')⟩
      intro m hm hr
      have hrec' : HasRecord s k := by
        simp only [HasRecord, Redis.genOf, if_pos hk, Option.bind_some, run_gen] at hr
        exact hr
      have hq : ∃ t', (k, t') ∈ s.r.queue := by
        simp only [dueKeys, List.mem_map, List.mem_filter] at hk
        obtain ⟨⟨a, b⟩, ⟨h1, _⟩, rfl⟩ := hk
        exact ⟨b, h1⟩
      obtain ⟨t', hq⟩ := hq
      have := h.known t' hq hrec'
      left
      simp only [Redis.knownOf, if_pos hk, Option.bind_some]
      simp only [Redis.knownOf, Redis.run] at this ⊢
      cases hr : s.r.runs k with
      | none => rw [hr] at this; simp at this
      | some v => rw [hr] at this; simpa using this
    · refine h.congr (fun t' ht' => (List.mem_filter.1 ht').1) ?_ rfl ?_
      · simp only [if_neg hk]
      · simp only [if_neg hk]
  | poll w n new hnew =>
    exact h.congr (fun _ h => h) rfl (newHanded_outstanding _ _ _ _ _ _ _) rfl
  | redeliver w p e => exact h.congr (fun _ h => h) rfl rfl rfl
  | forget id hm => exact h.congr (fun _ h => h) rfl rfl rfl
  | renew w id => exact h.congr (fun _ h => h) rfl rfl rfl
  | crash w => exact h.congr (fun _ h => h) rfl rfl rfl
  | abandon pid => exact h.congr (fun _ h => h) rfl rfl rfl
  | strikeOut p hp hph =>
    have hk : k ≠ p.msg.key := fun hk => hord.2 p hp rfl hk.symm
    exact h.congr (fun _ h => h) rfl rfl (upd_other _ _ _ _ hk)
  | claimSuperseded p hp hph hs => exact h.congr (fun _ h => h) rfl rfl rfl
  | claim p hp hph hs =>
    by_cases hk : k = p.msg.key
    · have hg := current_of_not_superseded hgen hp hk.symm (hor.pos _ (hor.procs p hp)) hs
      have hnq := h.queue_fresh hc hgen hno hp hk.symm hg
      refine ⟨fun t ht => absurd ht (hnq t), ?_, fun t ht => absurd ht (hnq t)⟩
      intro m hm hr
      right
      rw [hk]
      simp [Redis.stateOf, claimedRun]
    · exact h.congr (fun _ h => h) rfl rfl (upd_other _ _ _ _ hk)
  | store p data => exact h.congr (fun _ h => h) rfl rfl rfl
  | finish p st e w hp hph hs =>
    by_cases hk : k = p.msg.key
    · have hg := current_of_not_superseded hgen hp hk.symm (hor.pos _ (hor.procs p hp)) hs
      have hnq := h.queue_fresh hc hgen hno hp hk.symm hg
      refine ⟨fun t ht => absurd ht (hnq t), ?_, fun t ht => absurd ht (hnq t)⟩
      intro m hm
      simp [outstanding, hk] at hm
    · refine h.congr (fun _ h => h) rfl ?_ (upd_other _ _ _ _ hk)
      simp [outstanding, Ne.symm hk]
  | finishSuperseded p st e w hp hph hs => exact h.congr (fun _ h => h) rfl rfl rfl
  | rescheduleNow p t a d q hp hph hq hd hwh =>
    by_cases hk : k = p.msg.key
    · have hg := hord.2 p hp rfl hk.symm
      have hnq := h.queue_fresh hc hgen hno hp hk.symm hg
      refine KnownInv.schedule (m := ⟨p.msg.key, q, s.r.nextGen p.msg.key⟩) _ rfl hk.symm
        (by rw [hk]; exact upd_same _ _ _) rfl (fun t ht => absurd ht (hnq t))
    · refine h.congr (fun _ h => h) rfl ?_ (upd_other _ _ _ _ hk)
      simp [outstanding, Ne.symm hk]
  | rescheduleLater p t a d q hp hph hq hd hwh =>
    by_cases hk : k = p.msg.key
    · refine KnownInv.schedule (m := ⟨p.msg.key, q, s.r.nextGen p.msg.key⟩) _ rfl hk.symm
        (by rw [hk]; exact upd_same _ _ _) rfl (fun t ht => by rw [hk]; exact upd_same _ _ _)
    · refine h.congr (fun t ht => zinsert_other hk ht) (upd_other _ _ _ _ hk) ?_
        (upd_other _ _ _ _ hk)
      simp [outstanding, Ne.symm hk]
  | prog op k' f => exact h.congr (fun _ h => h) rfl rfl rfl

/-- All invariants together, along an orderly history. -/
theorem KnownInv.runFrom {cfg : Cfg} {s : Sys} {k : Key} {ops : List Op} (hw : WF s)
    (hc : CarriedInv s) (hor : OriginInv s) (hgen : GenInv s k) (h : KnownInv s k)
    (ho : EachStep cfg (OrderlyStep k) s ops) : KnownInv (runFrom cfg s ops) k := by
  induction ops generalizing s with
  | nil => exact h
  | cons o ops ih =>
    exact ih (hw.step o) (hc.step hw o) (hor.step hw o)
      (hgen.step hw ho.1.notOrphaned o) (h.step hw hc hor hgen o ho.1) ho.2

theorem KnownInv.init (k : Key) : KnownInv {} k := by
  constructor <;> simp [outstanding]

end Docket
