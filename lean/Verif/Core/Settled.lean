import Verif.Core.Known
/-
The invariant behind the second half of C05: a key that is settled (nothing
accepted or started since it was last cancelled or finished) is free for `add`.
-/
namespace Docket
open Redis

/-- Read off the history (newest first): since the key was last cancelled or finished
by a current execution (or since the beginning), nothing was accepted or started
under it. -/
def settled : List Event → Key → Bool
  | [], _ => true
  | .accepted m :: l, k => if m.key = k then false else settled l k
  | .started _ _ m _ :: l, k => if m.key = k then false else settled l k
  | .cancelled k' :: l, k => if k' = k then true else settled l k
  | .finished _ _ m _ true :: l, k => if m.key = k then true else settled l k
  | _ :: l, k => settled l k

structure SettledInv (s : Sys) (k : Key) : Prop where
  free : settled s.log k = true → scheduleExists s.r k = false
  /-- an execution that has begun and is current is no longer marked known -/
  begun : ∀ p ∈ s.procs, p.msg.key = k → p.phase ≠ .handed → s.r.genOf k = some p.msg.gen →
    s.r.knownOf k = false

theorem newHanded_settled (pid : Nat) (w : WorkerName) (red : Bool) (t : Time)
    (ms : List (MsgId × Msg)) (l : List Event) (k : Key) :
    settled ((newHanded pid w red t ms).reverse ++ l) k = settled l k := by
  induction ms generalizing pid l with
  | nil => simp [newHanded]
  | cons e es ih =>
    simp only [newHanded, List.reverse_cons, List.append_assoc, List.singleton_append]
    rw [ih]; simp [settled]

theorem exists_congr {r r' : Redis} {k : Key} (h : r'.runs k = r.runs k) :
    scheduleExists r' k = scheduleExists r k := by
  simp [scheduleExists, Redis.knownOf, Redis.stateOf, h]

theorem exists_none {r : Redis} {k : Key} (h : r.runs k = none) :
    scheduleExists r k = false := by
  simp [scheduleExists, Redis.knownOf, Redis.stateOf, h]

theorem exists_some {r : Redis} {k : Key} {v : Run} (h : r.runs k = some v) :
    scheduleExists r k = (v.known.isSome || v.state == some .running) := by
  simp [scheduleExists, Redis.knownOf, Redis.stateOf, h]

theorem exists_expired {ttl : Nat} {r r' : Redis} {k : Key} (h : r'.runs k = expiredRun ttl r k)
    (h0 : scheduleExists r k = false) : scheduleExists r' k = false := by
  cases hx : expiredRun ttl r k with
  | none => exact exists_none (h.trans hx)
  | some v =>
    obtain ⟨_, v0, h1, rfl⟩ := expiredRun_eq_some hx
    rw [exists_some (h.trans hx)]
    rw [exists_some h1] at h0
    exact h0

theorem SettledInv.free_step {cfg : Cfg} {s : Sys} {k : Key} (hw : WF s) (hor : OriginInv s)
    (hgen : GenInv s k) (h : SettledInv s k) (op : Op) :
    settled (step cfg s op).log k = true → scheduleExists (step cfg s op).r k = false := by
  have he := step_eff cfg s hw.queue op
  generalize Docket.step cfg s op = s' at he
  intro hs
  cases he with
  | nop => exact h.free hs
  | tick d =>
    have h0 := h.free hs
    cases hr : (s.r.advance d).runs k with
    | none => exact exists_none hr
    | some v =>
      have : s.r.runs k = some v := by
        simp only [advance, Option.filter_eq_some_iff] at hr
        exact hr.1
      rw [exists_some hr]
      rwa [exists_some this] at h0
  | addNow k' q t ht hwh hx =>
    by_cases hk : k' = k
    · simp [settled, hk] at hs
    · rw [exists_congr (r := s.r) (upd_other _ _ _ _ (Ne.symm hk))]
      exact h.free (by simpa [settled, hk] using hs)
  | addLater k' q t ht hwh hx =>
    by_cases hk : k' = k
    · simp [settled, hk] at hs
    · rw [exists_congr (r := s.r) (upd_other _ _ _ _ (Ne.symm hk))]
      exact h.free (by simpa [settled, hk] using hs)
  | replaceNow k' q t ht hwh =>
    by_cases hk : k' = k
    · simp [settled, hk] at hs
    · rw [exists_congr (r := s.r) (upd_other _ _ _ _ (Ne.symm hk))]
      exact h.free (by simpa [settled, hk] using hs)
  | replaceLater k' q t ht hwh =>
    by_cases hk : k' = k
    · simp [settled, hk] at hs
    · rw [exists_congr (r := s.r) (upd_other _ _ _ _ (Ne.symm hk))]
      exact h.free (by simpa [settled, hk] using hs)
  | cancel k' =>
    by_cases hk : k' = k
    · subst hk
      rw [exists_some (v := cancelRun s.r k') (upd_same _ _ _)]
      simp only [cancelRun]
      split
      · rename_i h1
        have : (s.r.run k').state = some .completed := by
          simp only [Redis.stateOf, Option.bind_eq_some_iff] at h1
          obtain ⟨a, h1, h2⟩ := h1
          simp [Redis.run, h1, h2]
        simp [this]
      · rename_i h1
        have : (s.r.run k').state = some .failed := by
          simp only [Redis.stateOf, Option.bind_eq_some_iff] at h1
          obtain ⟨a, h1, h2⟩ := h1
          simp [Redis.run, h1, h2]
        simp [this]
      · rename_i h1
        have : (s.r.run k').state = some .cancelled := by
          simp only [Redis.stateOf, Option.bind_eq_some_iff] at h1
          obtain ⟨a, h1, h2⟩ := h1
          simp [Redis.run, h1, h2]
        simp [this]
      · simp
    · rw [exists_congr (r := s.r) (upd_other _ _ _ _ (Ne.symm hk))]
      exact h.free (by simpa [settled, hk] using hs)
  | cancelTtl k' hk' =>
    by_cases hk : k = k'
    · subst hk
      exact exists_expired (upd_same _ _ _) (h.free hs)
    · rw [exists_congr (r := s.r) (upd_other _ _ _ _ hk)]
      exact h.free hs
  | clear op j js hop =>
    have h0 := h.free (by simpa [settled] using hs)
    by_cases hk : k ∈ j.scheduledKeys ∨ k ∈ j.streamKeys
    · exact exists_expired (r := s.r) (ttl := cfg.ttl) (by simp only [if_pos hk]) h0
    · rw [exists_congr (r := s.r) (by simp only [if_neg hk])]
      exact h0
  | clearRead => exact h.free hs
  | schedule t ht =>
    have h0 := h.free hs
    by_cases hk : k ∈ dueKeys s.r t
    · rw [exists_some (v := { s.r.run k with state := some .queued }) (by simp only [if_pos hk])]
      simp only [scheduleExists, Bool.or_eq_false_iff] at h0
      have : (s.r.run k).known.isSome = false := by
        have := h0.1
        simp only [Redis.knownOf, Redis.run] at this ⊢
        cases hr : s.r.runs k with
        | none => rfl
        | some v => rw [hr] at this; simpa using this
      simp [this]
    · rw [exists_congr (r := s.r) (by simp only [if_neg hk])]
      exact h0
  | poll w n new hnew =>
    simp only [newHanded_settled] at hs
    exact h.free hs
  | redeliver w p e => exact h.free (by simpa [settled] using hs)
  | forget id hm => exact h.free hs
  | renew w id => exact h.free (by simpa [settled] using hs)
  | crash w => exact h.free hs
  | abandon pid => exact h.free hs
  | strikeOut p hp hph =>
    have h0 := h.free (by simpa [settled] using hs)
    by_cases hk : k = p.msg.key
    · cases hr : s.r.runs k with
      | none =>
        exact exists_none (by subst hk; simp only [upd_same, hr]; rfl)
      | some v =>
        rw [exists_some (v := { v with known := none, streamId := none })
          (by subst hk; simp only [upd_same, hr]; rfl)]
        rw [exists_some hr] at h0
        simp only [Bool.or_eq_false_iff] at h0
        simp [h0.2]
    · rw [exists_congr (r := s.r) (upd_other _ _ _ _ hk)]
      exact h0
  | claimSuperseded p hp hph hs' => exact h.free hs
  | claim p hp hph hs' =>
    by_cases hk : p.msg.key = k
    · simp [settled, hk] at hs
    · rw [exists_congr (r := s.r) (upd_other _ _ _ _ (Ne.symm hk))]
      exact h.free (by simpa [settled, hk] using hs)
  | store p data => exact h.free hs
  | finish p st e w hp hph hs' =>
    by_cases hk : p.msg.key = k
    · subst hk
      by_cases httl : cfg.ttl > 0
      · -- the record is terminal; `known` was dropped when it was claimed or struck
        have hg := current_of_not_superseded hgen hp rfl (hor.pos _ (hor.procs p hp)) hs'
        have hkn := h.begun p hp rfl (by rcases hph with h | h <;> simp [h.1]) hg
        have hterm : st ≠ .running := by
          rcases hph with ⟨_, h⟩ | ⟨_, h⟩
          · intro hc; simp [hc, RunState.terminal] at h
          · simp [h]
        rw [exists_some (v := terminalRun cfg.ttl s.r p.msg.key st e
          (if w then some p.msg.key else none)) (by simp only [upd_same, if_pos httl])]
        have hk0 : (s.r.run p.msg.key).known.isSome = false := by
          simp only [Redis.knownOf, Redis.run] at hkn ⊢
          cases hr : s.r.runs p.msg.key with
          | none => rfl
          | some v => rw [hr] at hkn; simpa using hkn
        simp [terminalRun, hk0, hterm]
      · exact exists_none (by simp [httl])
    · rw [exists_congr (r := s.r) (upd_other _ _ _ _ (Ne.symm hk))]
      exact h.free (by simpa [settled, hk] using hs)
  | finishSuperseded p st e w hp hph hs' => exact h.free (by simpa [settled] using hs)
  | rescheduleNow p t a d q hp hph hq hd hwh =>
    by_cases hk : p.msg.key = k
    · simp [settled, hk] at hs
    · rw [exists_congr (r := s.r) (upd_other _ _ _ _ (Ne.symm hk))]
      exact h.free (by simpa [settled, hk] using hs)
  | rescheduleLater p t a d q hp hph hq hd hwh =>
    by_cases hk : p.msg.key = k
    · simp [settled, hk] at hs
    · rw [exists_congr (r := s.r) (upd_other _ _ _ _ (Ne.symm hk))]
      exact h.free (by simpa [settled, hk] using hs)
  | prog op k' f => exact h.free hs

theorem known_congr {r r' : Redis} {k : Key} (h : r'.runs k = r.runs k) :
    r'.knownOf k = r.knownOf k := by simp [Redis.knownOf, h]

theorem SettledInv.begun_step {cfg : Cfg} {s : Sys} {k : Key} (hw : WF s)
    (hgen : GenInv s k) (hno : ¬ Orphaned s k) (h : SettledInv s k) (op : Op) :
    ∀ p ∈ (Docket.step cfg s op).procs, p.msg.key = k → p.phase ≠ .handed →
      (Docket.step cfg s op).r.genOf k = some p.msg.gen →
      (Docket.step cfg s op).r.knownOf k = false := by
  have he := step_eff cfg s hw.queue op
  generalize Docket.step cfg s op = s' at he
  intro x hx hxk hxp hxg
  -- the generation after scheduling is above every execution's
  have hlt : ∀ p ∈ s.procs, p.msg.key = k → p.msg.gen < s.r.nextGen k := by
    intro p hp hk
    cases hg : s.r.genOf k with
    | none => exact absurd ⟨by simp [HasRecord, hg], Or.inr (Or.inr ⟨p, hp, hk⟩)⟩ hno
    | some g => have := hgen.procs_le g hg p hp hk; rw [nextGen_eq, hg]; simp; omega
  have hsame : s'.r.runs k = s.r.runs k → x ∈ s.procs → s'.r.knownOf k = false := by
    intro h1 h2
    rw [known_congr h1]
    exact h.begun x h2 hxk hxp (by simpa [Redis.genOf, h1] using hxg)
  -- records that keep generation and `known`
  have hkeep : ∀ v v' : Run, s.r.runs k = some v → s'.r.runs k = some v' → v'.gen = v.gen →
      (v'.known = v.known ∨ v'.known = none) → x ∈ s.procs → s'.r.knownOf k = false := by
    intro v v' h1 h2 h3 h4 h5
    rcases h4 with h4 | h4
    · have := h.begun x h5 hxk hxp (by simpa [Redis.genOf, h1, h2, h3] using hxg)
      simpa [Redis.knownOf, h1, h2, h4] using this
    · simp [Redis.knownOf, h2, h4]
  have hnone : s'.r.runs k = none → s'.r.knownOf k = false := by
    intro h1; simp [Redis.knownOf, h1]
  have hexp : s'.r.runs k = expiredRun cfg.ttl s.r k → x ∈ s.procs → s'.r.knownOf k = false := by
    intro h1 h2
    cases hx : expiredRun cfg.ttl s.r k with
    | none => exact hnone (h1.trans hx)
    | some v' =>
      obtain ⟨_, v, h3, rfl⟩ := expiredRun_eq_some hx
      exact hkeep v _ h3 (h1.trans hx) rfl (Or.inl rfl) h2
  -- scheduling `k`
  have hsched : ∀ v : Run, s'.r.runs k = some v → v.gen = some (s.r.nextGen k) → x ∈ s.procs →
      s'.r.knownOf k = false := by
    intro v h1 h2 h3
    have := hlt x h3 hxk
    simp only [Redis.genOf, h1, Option.bind_some, h2, Option.some.injEq] at hxg
    omega
  cases he with
  | nop => exact h.begun x hx hxk hxp hxg
  | tick d =>
    cases hr : (s.r.advance d).runs k with
    | none => exact hnone hr
    | some v =>
      have : s.r.runs k = some v := by
        simp only [advance, Option.filter_eq_some_iff] at hr
        exact hr.1
      exact hkeep v v this hr rfl (Or.inl rfl) hx
  | addNow k' q t ht hwh hx' =>
    by_cases hk : k = k'
    · subst hk; exact hsched _ (upd_same _ _ _) rfl hx
    · exact hsame (upd_other _ _ _ _ hk) hx
  | addLater k' q t ht hwh hx' =>
    by_cases hk : k = k'
    · subst hk; exact hsched _ (upd_same _ _ _) rfl hx
    · exact hsame (upd_other _ _ _ _ hk) hx
  | replaceNow k' q t ht hwh =>
    by_cases hk : k = k'
    · subst hk; exact hsched _ (upd_same _ _ _) rfl hx
    · exact hsame (upd_other _ _ _ _ hk) hx
  | replaceLater k' q t ht hwh =>
    by_cases hk : k = k'
    · subst hk; exact hsched _ (upd_same _ _ _) rfl hx
    · exact hsame (upd_other _ _ _ _ hk) hx
  | cancel k' =>
    by_cases hk : k = k'
    · subst hk
      simp only [Redis.knownOf, upd_same, Option.bind_some, cancelRun]
      split <;> rfl
    · exact hsame (upd_other _ _ _ _ hk) hx
  | cancelTtl k' hk' =>
    by_cases hk : k = k'
    · subst hk; exact hexp (upd_same _ _ _) hx
    · exact hsame (upd_other _ _ _ _ hk) hx
  | clear op j js hop =>
    by_cases hk : k ∈ j.scheduledKeys ∨ k ∈ j.streamKeys
    · exact hexp (by simp only [if_pos hk]) hx
    · exact hsame (by simp only [if_neg hk]) hx
  | clearRead => exact hsame rfl hx
  | schedule t ht =>
    by_cases hk : k ∈ dueKeys s.r t
    · cases hr : s.r.runs k with
      | none => simp [Redis.knownOf, if_pos hk, Redis.run, hr]
      | some v =>
        exact hkeep v { v with state := some .queued } hr
          (by simp only [if_pos hk, Redis.run, hr, Option.getD_some]) rfl (Or.inl rfl) hx
    · exact hsame (by simp only [if_neg hk]) hx
  | poll w n new hnew =>
    simp only [List.mem_append] at hx
    rcases hx with hx | hx
    · exact hsame rfl hx
    · exact absurd (mem_newProcs hx).2.1 hxp
  | redeliver w p e =>
    simp only [List.mem_append, List.mem_singleton] at hx
    rcases hx with hx | rfl
    · exact hsame rfl hx
    · exact absurd rfl hxp
  | forget id hm => exact hsame rfl hx
  | renew w id => exact hsame rfl hx
  | crash w => exact hsame rfl (List.mem_filter.1 hx).1
  | abandon pid => exact hsame rfl (List.mem_filter.1 hx).1
  | strikeOut p hp hph =>
    obtain ⟨x0, h0, rfl⟩ := List.mem_map.1 hx
    by_cases hk : k = p.msg.key
    · subst hk
      simp only [Redis.knownOf, upd_same]
      cases s.r.runs p.msg.key <;> rfl
    · rw [known_congr (r := s.r) (upd_other _ _ _ _ hk)]
      by_cases hpid : x0.pid = p.pid
      · rw [if_pos hpid] at hxk
        have hpp := hw.procs.2
        have : x0 = p := by
          have h1 := proc?_of_mem hw h0
          have h2 := proc?_of_mem hw hp
          rw [hpid, h2] at h1
          exact (Option.some.inj h1).symm
        subst this
        exact absurd hxk.symm hk
      · rw [if_neg hpid] at hxk hxp hxg
        exact h.begun x0 h0 hxk hxp (by simpa [Redis.genOf, upd_other _ _ _ _ hk] using hxg)
  | claimSuperseded p hp hph hs' => exact hsame rfl (List.mem_filter.1 hx).1
  | claim p hp hph hs' =>
    obtain ⟨x0, h0, rfl⟩ := List.mem_map.1 hx
    by_cases hk : k = p.msg.key
    · subst hk
      simp [Redis.knownOf, claimedRun]
    · rw [known_congr (r := s.r) (upd_other _ _ _ _ hk)]
      by_cases hpid : x0.pid = p.pid
      · rw [if_pos hpid] at hxk
        have : x0 = p := by
          have h1 := proc?_of_mem hw h0
          have h2 := proc?_of_mem hw hp
          rw [hpid, h2] at h1
          exact (Option.some.inj h1).symm
        subst this
        exact absurd hxk.symm hk
      · rw [if_neg hpid] at hxk hxp hxg
        exact h.begun x0 h0 hxk hxp (by simpa [Redis.genOf, upd_other _ _ _ _ hk] using hxg)
  | store p data => exact hsame rfl hx
  | finish p st e w hp hph hs' =>
    have hx0 := (List.mem_filter.1 hx).1
    by_cases hk : k = p.msg.key
    · by_cases httl : cfg.ttl > 0
      · cases hr : s.r.runs k with
        | none =>
          subst hk
          simp [Redis.knownOf, if_pos httl, terminalRun, Redis.run, hr]
        | some v =>
          refine hkeep v (terminalRun cfg.ttl s.r p.msg.key st e
            (if w then some p.msg.key else none)) hr ?_ ?_ ?_ hx0
          · subst hk; simp only [upd_same, if_pos httl]
          · subst hk; simp [terminalRun, Redis.run, hr]
          · left; subst hk; simp [terminalRun, Redis.run, hr]
      · exact hnone (by subst hk; simp [httl])
    · exact hsame (upd_other _ _ _ _ hk) hx0
  | finishSuperseded p st e w hp hph hs' => exact hsame rfl (List.mem_filter.1 hx).1
  | rescheduleNow p t a d q hp hph hq hd hwh =>
    by_cases hk : k = p.msg.key
    · subst hk; exact hsched _ (upd_same _ _ _) rfl (List.mem_filter.1 hx).1
    · exact hsame (upd_other _ _ _ _ hk) (List.mem_filter.1 hx).1
  | rescheduleLater p t a d q hp hph hq hd hwh =>
    by_cases hk : k = p.msg.key
    · subst hk; exact hsched _ (upd_same _ _ _) rfl (List.mem_filter.1 hx).1
    · exact hsame (upd_other _ _ _ _ hk) (List.mem_filter.1 hx).1
  | prog op k' f => exact hsame rfl hx

theorem SettledInv.runFrom {cfg : Cfg} {s : Sys} {k : Key} {ops : List Op} (hw : WF s)
    (hor : OriginInv s) (hgen : GenInv s k) (h : SettledInv s k)
    (hno : Throughout cfg (fun s => ¬ Orphaned s k) s ops) : SettledInv (runFrom cfg s ops) k := by
  induction ops generalizing s with
  | nil => exact h
  | cons o ops ih =>
    exact ih (hw.step o) (hor.step hw o) (hgen.step hw hno.1 o)
      ⟨h.free_step hw hor hgen o, h.begun_step hw hgen hno.1 o⟩ hno.2

theorem SettledInv.init (k : Key) : SettledInv {} k :=
  ⟨fun _ => rfl, by simp⟩

end Docket
