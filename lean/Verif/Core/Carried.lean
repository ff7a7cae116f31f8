import Verif.Core.WFStep
import Verif.Core.Spec
/-
The invariant behind C01 and C02: the outstanding task of a key whose record
survives is current and is in the stream or in the schedule.
-/
namespace Docket
open Redis

structure Carried (s : Sys) (m : Msg) : Prop where
  gen : s.r.genOf m.key = some m.gen
  pos : 0 < m.gen
  place : InStream s m ∨ InSchedule s m

def CarriedInv (s : Sys) : Prop :=
  ∀ k m, outstanding s.log k = some m → m.key = k ∧ (HasRecord s k → Carried s m)

theorem not_superseded_of_gen {r : Redis} {k : Key} {g : Gen} (h : r.genOf k = some g) :
    isSuperseded r k g = false := by
  simp [isSuperseded, h]

theorem genOf_upd_same (r : Redis) (k : Key) (h : Run) :
    Redis.genOf { r with runs := upd r.runs k (some h) } k = h.gen := by
  simp [Redis.genOf]

theorem run_gen (r : Redis) (k : Key) : (r.run k).gen = r.genOf k := by
  simp only [Redis.run, Redis.genOf]; cases r.runs k <;> rfl

theorem cancelRun_gen (r : Redis) (k : Key) : (cancelRun r k).gen = r.genOf k := by
  simp only [cancelRun]; split <;> simp [run_gen]

theorem mem_dropOwn_of_key {s : Sys} (h : WF s) {k : Key} {e : MsgId × Msg}
    (he : e ∈ s.r.stream) (hk : e.2.key ≠ k) : e ∈ dropOwn s.r k := by
  simp only [dropOwn]
  cases hsid : s.r.streamIdOf k with
  | none => exact he
  | some id =>
    simp only [List.mem_filter, decide_eq_true_eq]
    refine ⟨he, fun hc => hk ?_⟩
    simp only [Redis.streamIdOf] at hsid
    cases hr : s.r.runs k with
    | none => rw [hr] at hsid; simp at hsid
    | some r0 =>
      rw [hr] at hsid
      exact (h.sid k r0 id hr hsid).2 e he hc

/-- Where a message is, for a Redis that changed only elsewhere. -/
theorem Carried.of {s s' : Sys} {m : Msg} (h : Carried s m)
    (hg : s'.r.genOf m.key = s.r.genOf m.key)
    (hst : ∀ id, (id, m) ∈ s.r.stream → InStream s' m ∨ InSchedule s' m)
    (hsc : InSchedule s m → InStream s' m ∨ InSchedule s' m) : Carried s' m := by
  refine ⟨by rw [hg]; exact h.gen, h.pos, ?_⟩
  rcases h.place with ⟨id, hid⟩ | h2
  · exact hst id hid
  · exact hsc h2

theorem HasRecord.back {s s' : Sys} {k : Key} (hr : HasRecord s' k)
    (h : s'.r.genOf k = s.r.genOf k) : HasRecord s k := by simpa [HasRecord, h] using hr

theorem newHanded_outstanding (pid : Nat) (w : WorkerName) (red : Bool) (t : Time)
    (ms : List (MsgId × Msg)) (l : List Event) (k : Key) :
    outstanding ((newHanded pid w red t ms).reverse ++ l) k = outstanding l k := by
  have : ∀ (es : List Event), (∀ ev ∈ es, ∃ p i m, ev = .handed p i w red t m) →
      outstanding (es ++ l) k = outstanding l k := by
    intro es
    induction es with
    | nil => intro _; rfl
    | cons ev es ih =>
      intro h
      obtain ⟨p, i, m, rfl⟩ := h ev (by simp)
      simp only [List.cons_append, outstanding]
      exact ih (fun e he => h e (by simp [he]))
  apply this
  intro ev hev
  obtain ⟨p, e, h, _⟩ := mem_newHanded (List.mem_reverse.1 hev)
  exact ⟨p, e.1, e.2, h⟩

theorem nextGen_pos (r : Redis) (k : Key) : 0 < r.nextGen k := by simp [Redis.nextGen]

/-- Removing a stale entry does not remove the current message. -/
theorem Carried.kept {s : Sys} {m : Msg} {id : MsgId} {p : Proc} (hw : WF s) (hp : p ∈ s.procs)
    (hm : (id, m) ∈ s.r.stream) (hne : p.msg ≠ m) :
    (id, m) ∈ s.r.stream.filter (fun e => e.1 ≠ p.id) := by
  simp only [List.mem_filter, decide_eq_true_eq]
  refine ⟨hm, fun hc => hne ?_⟩
  exact ((hw.procs.1 p hp).2.2 _ hm hc).symm

theorem mem_zinsert_filter {k : Key} {t : Time} {q : List (Key × Time)} {e : Key × Time}
    (he : e ∈ q) (hne : e.1 ≠ k) : e ∈ zinsert k t (q.filter (fun e => e.1 ≠ k)) := by
  rw [zinsert_mem]; right; simp [List.mem_filter, he, hne]

theorem CarriedInv.step {cfg : Cfg} {s : Sys} (hw : WF s) (h : CarriedInv s) (op : Op) :
    CarriedInv (step cfg s op) := by
  have he := step_eff cfg s hw.queue op
  generalize Docket.step cfg s op = s' at he
  intro k m ho
  cases he with
  | nop => exact h k m ho
  | tick d =>
    obtain ⟨h1, h2⟩ := h k m ho
    refine ⟨h1, fun hr => ?_⟩
    have hg : (s.r.advance d).genOf k = none ∨ (s.r.advance d).genOf k = s.r.genOf k := by
      simp only [Redis.genOf, advance]
      cases s.r.runs k with
      | none => simp
      | some r0 => simp only [Option.filter]; split <;> simp
    rcases hg with hg | hg
    · simp [HasRecord, hg] at hr
    · have := h2 (by simpa [HasRecord, hg] using hr)
      exact this.of (by rw [h1]; exact hg) (fun id hid => Or.inl ⟨id, hid⟩) Or.inr
  | addNow k' q t ht hwh hx =>
    simp only [outstanding] at ho
    split at ho
    · rename_i hk
      simp only [Option.some.injEq] at ho
      subst ho
      refine ⟨hk, fun _ => ⟨?_, nextGen_pos _ _, Or.inl ⟨s.r.nextId, by simp⟩⟩⟩
      simp [Redis.genOf, queuedRun]
    · rename_i hk
      obtain ⟨h1, h2⟩ := h k m ho
      subst h1
      have hg : Redis.genOf { s.r with runs := upd s.r.runs k' (some (queuedRun s.r k' q)) } m.key
          = s.r.genOf m.key := by simp [Redis.genOf, upd, Ne.symm hk]
      refine ⟨rfl, fun hr => (h2 (hr.back hg)).of hg
        (fun id hid => Or.inl ⟨id, by simp [hid]⟩) (fun h3 => Or.inr h3)⟩
  | addLater k' q t ht hwh hx =>
    simp only [outstanding] at ho
    split at ho
    · rename_i hk
      simp only [Option.some.injEq] at ho
      subst ho
      refine ⟨hk, fun _ => ⟨?_, nextGen_pos _ _, Or.inr ⟨?_, ?_⟩⟩⟩
      · simp [Redis.genOf, scheduledRun]
      · simp
      · simp [zinsert_mem]
    · rename_i hk
      obtain ⟨h1, h2⟩ := h k m ho
      subst h1
      have hg : Redis.genOf { s.r with runs := upd s.r.runs k' (some (scheduledRun s.r k' q)) } m.key
          = s.r.genOf m.key := by simp [Redis.genOf, upd, Ne.symm hk]
      refine ⟨rfl, fun hr => (h2 (hr.back hg)).of hg
        (fun id hid => Or.inl ⟨id, hid⟩) (fun h3 => Or.inr ⟨?_, ?_⟩)⟩
      · simp [upd, Ne.symm hk, h3.1]
      · exact mem_zinsert_filter h3.2 (Ne.symm hk)
  | replaceNow k' q t ht hwh =>
    simp only [outstanding] at ho
    split at ho
    · rename_i hk
      simp only [Option.some.injEq] at ho
      subst ho
      refine ⟨hk, fun _ => ⟨?_, nextGen_pos _ _, Or.inl ⟨s.r.nextId, by simp⟩⟩⟩
      simp [Redis.genOf, queuedRun]
    · rename_i hk
      obtain ⟨h1, h2⟩ := h k m ho
      subst h1
      have hg : Redis.genOf { s.r with runs := upd s.r.runs k' (some (queuedRun s.r k' q)) } m.key
          = s.r.genOf m.key := by simp [Redis.genOf, upd, Ne.symm hk]
      refine ⟨rfl, fun hr => (h2 (hr.back hg)).of hg
        (fun id hid => Or.inl ⟨id, ?_⟩) (fun h3 => Or.inr ⟨?_, ?_⟩)⟩
      · simp only [List.mem_append]
        exact Or.inl (mem_dropOwn_of_key hw hid (Ne.symm hk))
      · simp [upd, Ne.symm hk, h3.1]
      · simp [List.mem_filter, h3.2, Ne.symm hk]
  | replaceLater k' q t ht hwh =>
    simp only [outstanding] at ho
    split at ho
    · rename_i hk
      simp only [Option.some.injEq] at ho
      subst ho
      refine ⟨hk, fun _ => ⟨?_, nextGen_pos _ _, Or.inr ⟨?_, ?_⟩⟩⟩
      · simp [Redis.genOf, scheduledRun]
      · simp
      · simp [zinsert_mem]
    · rename_i hk
      obtain ⟨h1, h2⟩ := h k m ho
      subst h1
      have hg : Redis.genOf { s.r with runs := upd s.r.runs k' (some (scheduledRun s.r k' q)) } m.key
          = s.r.genOf m.key := by simp [Redis.genOf, upd, Ne.symm hk]
      refine ⟨rfl, fun hr => (h2 (hr.back hg)).of hg
        (fun id hid => Or.inl ⟨id, mem_dropOwn_of_key hw hid (Ne.symm hk)⟩)
        (fun h3 => Or.inr ⟨?_, ?_⟩)⟩
      · simp [upd, Ne.symm hk, h3.1]
      · exact mem_zinsert_filter h3.2 (Ne.symm hk)
  | cancel k' =>
    simp only [outstanding] at ho
    split at ho
    · simp at ho
    · rename_i hk
      obtain ⟨h1, h2⟩ := h k m ho
      subst h1
      have hg : Redis.genOf { s.r with runs := upd s.r.runs k' (some (cancelRun s.r k')) } m.key
          = s.r.genOf m.key := by simp [Redis.genOf, upd, Ne.symm hk]
      refine ⟨rfl, fun hr => (h2 (hr.back hg)).of hg
        (fun id hid => Or.inl ⟨id, mem_dropOwn_of_key hw hid (Ne.symm hk)⟩)
        (fun h3 => Or.inr ⟨?_, ?_⟩)⟩
      · simp [upd, Ne.symm hk, h3.1]
      · simp [List.mem_filter, h3.2, Ne.symm hk]
  | cancelTtl k' hk' =>
    obtain ⟨h1, h2⟩ := h k m ho
    subst h1
    refine ⟨rfl, fun hr => ?_⟩
    have hg : Redis.genOf { s.r with runs := upd s.r.runs k' (expiredRun cfg.ttl s.r k') } m.key
        = none ∨ Redis.genOf { s.r with runs := upd s.r.runs k' (expiredRun cfg.ttl s.r k') } m.key
        = s.r.genOf m.key := by
      by_cases hk : m.key = k'
      · subst hk
        simp only [Redis.genOf, upd_same, expiredRun]
        split
        · right; cases s.r.runs m.key <;> rfl
        · left; rfl
      · right; simp [Redis.genOf, upd, hk]
    rcases hg with hg | hg
    · simp only [HasRecord] at hr; rw [hg] at hr; simp at hr
    · exact (h2 (hr.back hg)).of hg (fun id hid => Or.inl ⟨id, hid⟩) Or.inr
  | clear op j js hop => simp [outstanding] at ho
  | clearRead =>
    obtain ⟨h1, h2⟩ := h k m ho
    exact ⟨h1, fun hr => (h2 hr).of rfl (fun id hid => Or.inl ⟨id, hid⟩) Or.inr⟩
  | schedule t ht =>
    obtain ⟨h1, h2⟩ := h k m ho
    subst h1
    refine ⟨rfl, fun hr => ?_⟩
    have hg : Option.bind (if m.key ∈ dueKeys s.r t then
          some { s.r.run m.key with state := some .queued } else s.r.runs m.key) (·.gen)
        = s.r.genOf m.key := by
      split
      · simp [run_gen]
      · rfl
    refine (h2 (hr.back hg)).of hg
      (fun id hid => Or.inl ⟨id, by simp [hid]⟩) (fun h3 => ?_)
    by_cases hd : m.req.when_ ≤ t
    · left
      have hk : m.key ∈ dueKeys s.r t := by
        simp only [dueKeys, List.mem_map, List.mem_filter, decide_eq_true_eq]
        exact ⟨_, ⟨h3.2, hd⟩, rfl⟩
      have hm : m ∈ (dueKeys s.r t).filterMap s.r.parked := by
        rw [List.mem_filterMap]; exact ⟨_, hk, h3.1⟩
      obtain ⟨id, hid⟩ := numbered_of_mem (i := s.r.nextId) hm
      exact ⟨id, by simp [hid]⟩
    · right
      refine ⟨?_, by simp [List.mem_filter, h3.2]; omega⟩
      simp only
      rw [if_neg, h3.1]
      intro hk
      obtain ⟨m', h4, h5, _⟩ := dueKeys_parked hw.queue hk
      rw [h3.1] at h4
      simp only [Option.some.injEq] at h4
      subst h4
      exact hd h5
  | poll w n new hnew =>
    simp only [newHanded_outstanding] at ho
    obtain ⟨h1, h2⟩ := h k m ho
    exact ⟨h1, fun hr => (h2 hr).of rfl (fun id hid => Or.inl ⟨id, hid⟩) Or.inr⟩
  | redeliver w p e =>
    obtain ⟨h1, h2⟩ := h k m ho
    exact ⟨h1, fun hr => (h2 hr).of rfl (fun id hid => Or.inl ⟨id, hid⟩) Or.inr⟩
  | forget id hm =>
    obtain ⟨h1, h2⟩ := h k m ho
    exact ⟨h1, fun hr => (h2 hr).of rfl (fun id hid => Or.inl ⟨id, hid⟩) Or.inr⟩
  | renew w id =>
    obtain ⟨h1, h2⟩ := h k m ho
    exact ⟨h1, fun hr => (h2 hr).of rfl (fun id hid => Or.inl ⟨id, hid⟩) Or.inr⟩
  | crash w =>
    obtain ⟨h1, h2⟩ := h k m ho
    exact ⟨h1, fun hr => (h2 hr).of rfl (fun id hid => Or.inl ⟨id, hid⟩) Or.inr⟩
  | abandon pid =>
    obtain ⟨h1, h2⟩ := h k m ho
    exact ⟨h1, fun hr => (h2 hr).of rfl (fun id hid => Or.inl ⟨id, hid⟩) Or.inr⟩
  | strikeOut p hp hph =>
    obtain ⟨h1, h2⟩ := h k m ho
    subst h1
    have hg : Redis.genOf { s.r with runs := upd s.r.runs p.msg.key ((s.r.runs p.msg.key).map
          (fun h => { h with known := none, streamId := none })) } m.key = s.r.genOf m.key := by
      by_cases hk : m.key = p.msg.key
      · rw [hk]; simp only [Redis.genOf, upd_same]; cases s.r.runs p.msg.key <;> rfl
      · simp [Redis.genOf, upd, hk]
    exact ⟨rfl, fun hr => (h2 (hr.back hg)).of hg
      (fun id hid => Or.inl ⟨id, hid⟩) Or.inr⟩
  | claimSuperseded p hp hph hs =>
    obtain ⟨h1, h2⟩ := h k m ho
    subst h1
    refine ⟨rfl, fun hr => ?_⟩
    have hc := h2 hr
    refine hc.of rfl (fun id hid => Or.inl ⟨id, ?_⟩) Or.inr
    apply Carried.kept hw hp hid
    rintro rfl
    rw [not_superseded_of_gen hc.gen] at hs
    simp at hs
  | claim p hp hph hs =>
    obtain ⟨h1, h2⟩ := h k m ho
    subst h1
    have hg : Redis.genOf { s.r with
          runs := upd s.r.runs p.msg.key (some (claimedRun s.r p.msg.key p.worker)) } m.key
        = s.r.genOf m.key := by
      by_cases hk : m.key = p.msg.key
      · rw [hk]; simp [claimedRun, genOf_upd_same, run_gen]
      · simp [Redis.genOf, upd, hk]
    exact ⟨rfl, fun hr => (h2 (hr.back hg)).of hg
      (fun id hid => Or.inl ⟨id, hid⟩) Or.inr⟩
  | store p data =>
    obtain ⟨h1, h2⟩ := h k m ho
    exact ⟨h1, fun hr => (h2 hr).of rfl (fun id hid => Or.inl ⟨id, hid⟩) Or.inr⟩
  | finish p st e w hp hph hs =>
    simp only [outstanding] at ho
    split at ho
    · simp at ho
    · rename_i hk
      obtain ⟨h1, h2⟩ := h k m ho
      subst h1
      have hg : ∀ v, Redis.genOf { s.r with runs := upd s.r.runs p.msg.key v } m.key
          = s.r.genOf m.key := by intro v; simp [Redis.genOf, upd, Ne.symm hk]
      exact ⟨rfl, fun hr => (h2 (hr.back (hg _))).of (hg _)
        (fun id hid => Or.inl ⟨id, Carried.kept hw hp hid (fun hc => hk (by rw [hc]))⟩) Or.inr⟩
  | finishSuperseded p st e w hp hph hs =>
    simp only [outstanding] at ho
    obtain ⟨h1, h2⟩ := h k m ho
    subst h1
    refine ⟨rfl, fun hr => ?_⟩
    have hc := h2 hr
    refine hc.of rfl (fun id hid => Or.inl ⟨id, ?_⟩) Or.inr
    apply Carried.kept hw hp hid
    rintro rfl
    rw [not_superseded_of_gen hc.gen] at hs
    simp at hs
  | rescheduleNow p t a d q hp hph hq hd hwh =>
    simp only [outstanding] at ho
    split at ho
    · rename_i hk
      simp only [Option.some.injEq] at ho
      subst ho
      refine ⟨hk, fun _ => ⟨?_, nextGen_pos _ _, Or.inl ⟨s.r.nextId, by simp⟩⟩⟩
      simp [Redis.genOf, queuedRun]
    · rename_i hk
      obtain ⟨h1, h2⟩ := h k m ho
      subst h1
      have hg : ∀ v, Redis.genOf { s.r with runs := upd s.r.runs p.msg.key v } m.key
          = s.r.genOf m.key := by intro v; simp [Redis.genOf, upd, Ne.symm hk]
      refine ⟨rfl, fun hr => (h2 (hr.back (hg _))).of (hg _)
        (fun id hid => Or.inl ⟨id, ?_⟩) (fun h3 => Or.inr h3)⟩
      simp only [List.mem_append]
      exact Or.inl (Carried.kept hw hp hid (fun hc => hk (by rw [hc])))
  | rescheduleLater p t a d q hp hph hq hd hwh =>
    simp only [outstanding] at ho
    split at ho
    · rename_i hk
      simp only [Option.some.injEq] at ho
      subst ho
      refine ⟨hk, fun _ => ⟨?_, nextGen_pos _ _, Or.inr ⟨?_, ?_⟩⟩⟩
      · simp [Redis.genOf, scheduledRun]
      · simp
      · simp [zinsert_mem]
    · rename_i hk
      obtain ⟨h1, h2⟩ := h k m ho
      subst h1
      have hg : ∀ v, Redis.genOf { s.r with runs := upd s.r.runs p.msg.key v } m.key
          = s.r.genOf m.key := by intro v; simp [Redis.genOf, upd, Ne.symm hk]
      refine ⟨rfl, fun hr => (h2 (hr.back (hg _))).of (hg _)
        (fun id hid => Or.inl ⟨id, Carried.kept hw hp hid (fun hc => hk (by rw [hc]))⟩)
        (fun h3 => Or.inr ⟨?_, ?_⟩)⟩
      · simp [upd, Ne.symm hk, h3.1]
      · exact mem_zinsert_filter h3.2 (Ne.symm hk)
  | prog op k' f =>
    obtain ⟨h1, h2⟩ := h k m ho
    exact ⟨h1, fun hr => (h2 hr).of rfl (fun id hid => Or.inl ⟨id, hid⟩) Or.inr⟩

theorem CarriedInv.init : CarriedInv {} := by intro k m h; simp [outstanding] at h

theorem CarriedInv.run (cfg : Cfg) (ops : List Op) : CarriedInv (run cfg ops) := by
  have : ∀ s, WF s → CarriedInv s → CarriedInv (runFrom cfg s ops) := by
    induction ops with
    | nil => intro s _ h; exact h
    | cons o ops ih => intro s hw h; exact ih _ (hw.step o) (h.step hw o)
  exact this _ WF.init CarriedInv.init

end Docket
