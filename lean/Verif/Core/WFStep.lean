import Verif.Core.Eff
/-
Well-formedness is preserved by every step, hence holds in every reachable state.
-/
namespace Docket
open Redis

theorem mem_dropOwn {r : Redis} {k : Key} {e : MsgId × Msg} (h : e ∈ dropOwn r k) : e ∈ r.stream := by
  simp only [dropOwn] at h
  split at h
  · exact (List.mem_filter.1 h).1
  · exact h

theorem StreamOK.dropOwn {r : Redis} (h : StreamOK r.nextId r.stream r.lastDelivered r.pending)
    (k : Key) : StreamOK r.nextId (dropOwn r k) r.lastDelivered r.pending := by
  simp only [Docket.dropOwn]
  split
  · exact h.del _
  · exact h

theorem ProcsOK.hand {st : List (MsgId × Msg)} {ld ld' : MsgId} {ps : List Proc} {np : Nat}
    (h : ProcsOK st ld ps np) (hsorted : st.Pairwise (fun a b => a.1 < b.1))
    (new : List (MsgId × Msg)) (w : WorkerName) (red : Bool) (hle : ld ≤ ld')
    (hnew : ∀ e ∈ new, e ∈ st ∧ e.1 ≤ ld') :
    ProcsOK st ld' (ps ++ newProcs np w red new) (np + new.length) := by
  refine ⟨?_, ?_⟩
  · intro p hp
    simp only [List.mem_append] at hp
    rcases hp with hp | hp
    · obtain ⟨h1, h2, h3⟩ := h.1 p hp
      exact ⟨by omega, by omega, h3⟩
    · obtain ⟨h1, _, _, _, _, h5⟩ := mem_newProcs hp
      obtain ⟨h6, h7⟩ := hnew _ h1
      refine ⟨h7, h5, fun e he hid => ?_⟩
      by_cases hne : e = (p.id, p.msg)
      · rw [hne]
      · exfalso
        have := List.pairwise_iff_getElem.1 hsorted
        obtain ⟨i, hi, rfl⟩ := List.getElem_of_mem he
        obtain ⟨j, hj, hj'⟩ := List.getElem_of_mem h6
        rcases Nat.lt_trichotomy i j with hlt | heq | hgt
        · have := this i j hi hj hlt; rw [hj'] at this; simp only at this; omega
        · subst heq; exact hne hj'
        · have := this j i hj hi hgt; rw [hj'] at this; simp only at this; omega
  · rw [List.map_append, newProcs_pids, List.nodup_append]
    refine ⟨h.2, List.nodup_range', ?_⟩
    intro a ha b hb
    obtain ⟨p, hp, rfl⟩ := List.mem_map.1 ha
    have := (h.1 p hp).2.1
    simp only [List.mem_range'_1] at hb
    omega

theorem upd_eq_some {α : Type} {f : Key → Option α} {k k' : Key} {v : Option α} {x : α}
    (h : upd f k v k' = some x) : (k' = k ∧ v = some x) ∨ (k' ≠ k ∧ f k' = some x) := by
  simp only [upd] at h
  split at h
  · exact Or.inl ⟨by assumption, h⟩
  · exact Or.inr ⟨by assumption, h⟩

theorem run_streamId {r : Redis} {k : Key} {id : MsgId} (h : (r.run k).streamId = some id) :
    ∃ h0, r.runs k = some h0 ∧ h0.streamId = some id := by
  simp only [Redis.run] at h
  cases hr : r.runs k with
  | none => rw [hr] at h; simp at h
  | some h0 => rw [hr] at h; exact ⟨h0, rfl, h⟩

theorem SidOK.add {r : Redis} (h : SidOK r.nextId r.stream r.runs)
    (hs : StreamOK r.nextId r.stream r.lastDelivered r.pending) {st : List (MsgId × Msg)}
    (hst : ∀ e ∈ st, e ∈ r.stream) (k : Key) (q : Request) (g : Gen) (run : Run)
    (hrun : run.streamId = some r.nextId) :
    SidOK (r.nextId + 1) (st ++ [(r.nextId, ⟨k, q, g⟩)]) (upd r.runs k (some run)) := by
  intro k' h' id hk hid
  rcases upd_eq_some hk with ⟨rfl, h1⟩ | ⟨hne, h1⟩
  · simp only [Option.some.injEq] at h1
    subst h1
    rw [hrun] at hid
    simp only [Option.some.injEq] at hid
    subst hid
    refine ⟨by omega, fun e he heq => ?_⟩
    simp only [List.mem_append, List.mem_singleton] at he
    rcases he with he | rfl
    · have := hs.lt e (hst e he); omega
    · rfl
  · obtain ⟨h2, h3⟩ := h k' h' id h1 hid
    refine ⟨by omega, fun e he heq => ?_⟩
    simp only [List.mem_append, List.mem_singleton] at he
    rcases he with he | rfl
    · exact h3 e (hst e he) heq
    · simp only at heq; omega

theorem SidOK.sub {n : MsgId} {st st' : List (MsgId × Msg)} {runs runs' : Key → Option Run}
    (h : SidOK n st runs) (hst : ∀ e ∈ st', e ∈ st)
    (hr : ∀ k h' id, runs' k = some h' → h'.streamId = some id →
      ∃ h0, runs k = some h0 ∧ h0.streamId = some id) : SidOK n st' runs' :=
  h.mono (Nat.le_refl _) (fun e he => Or.inl (hst e he)) hr

/-- Changing one record without giving it a new stream id. -/
theorem sid_upd {r : Redis} {k : Key} {v : Option Run}
    (hv : ∀ h', v = some h' → ∀ id, h'.streamId = some id → (r.run k).streamId = some id) :
    ∀ k' h' id, upd r.runs k v k' = some h' → h'.streamId = some id →
      ∃ h0, r.runs k' = some h0 ∧ h0.streamId = some id := by
  intro k' h' id hk hid
  rcases upd_eq_some hk with ⟨rfl, h1⟩ | ⟨_, h1⟩
  · exact run_streamId (hv h' h1 id hid)
  · exact ⟨h', h1, hid⟩

theorem expiredRun_eq_some {ttl : Nat} {r : Redis} {k : Key} {h : Run}
    (he : expiredRun ttl r k = some h) :
    0 < ttl ∧ ∃ h0, r.runs k = some h0 ∧ h = { h0 with expireAt := some (r.now + ttl) } := by
  simp only [expiredRun] at he
  split at he
  · rename_i ht
    refine ⟨ht, ?_⟩
    cases hr : r.runs k with
    | none => rw [hr] at he; simp at he
    | some h0 => rw [hr] at he; simp only [Option.map_some, Option.some.injEq] at he
                 exact ⟨h0, rfl, he.symm⟩
  · simp at he

theorem cancelRun_streamId (r : Redis) (k : Key) : (cancelRun r k).streamId = none := by
  simp only [cancelRun]
  split <;> rfl

theorem WF.step {cfg : Cfg} {s : Sys} (h : WF s) (op : Op) : WF (step cfg s op) := by
  have he := step_eff cfg s h.queue op
  generalize Docket.step cfg s op = s' at he
  obtain ⟨hs, hp, hi, hq⟩ := h
  cases he with
  | nop => exact ⟨hs, hp, hi, hq⟩
  | tick d =>
    refine ⟨hs, hp, hi.sub (fun e he => he) ?_, hq⟩
    intro k h' id hk hid
    simp only [advance, Option.filter_eq_some_iff] at hk
    exact ⟨h', hk.1, hid⟩
  | addNow k q t =>
    refine ⟨hs.add _, hp.mono ?_ (List.Sublist.refl _), hi.add hs (fun e he => he) _ _ _ _ rfl, hq⟩
    intro e he
    simp only [List.mem_append, List.mem_singleton] at he
    rcases he with he | rfl
    · exact Or.inl he
    · exact Or.inr hs.ldlt
  | addLater k q t =>
    refine ⟨hs, hp, hi.sub (fun e he => he) (sid_upd ?_), hq.put _ _ _⟩
    intro h' hh id hid
    simp only [Option.some.injEq] at hh
    subst hh
    exact hid
  | replaceNow k q t =>
    refine ⟨(hs.dropOwn k).add _, hp.mono ?_ (List.Sublist.refl _),
      hi.add hs (fun e he => mem_dropOwn he) _ _ _ _ rfl, hq.del k⟩
    intro e he
    simp only [List.mem_append, List.mem_singleton] at he
    rcases he with he | rfl
    · exact Or.inl (mem_dropOwn he)
    · exact Or.inr hs.ldlt
  | replaceLater k q t =>
    refine ⟨hs.dropOwn k, hp.mono (fun e he => Or.inl (mem_dropOwn he)) (List.Sublist.refl _),
      hi.sub (fun e he => mem_dropOwn he) (sid_upd ?_), hq.put _ _ _⟩
    intro h' hh id hid
    simp only [Option.some.injEq] at hh
    subst hh
    exact hid
  | cancel k =>
    refine ⟨hs.dropOwn k, hp.mono (fun e he => Or.inl (mem_dropOwn he)) (List.Sublist.refl _),
      hi.sub (fun e he => mem_dropOwn he) (sid_upd ?_), hq.del k⟩
    intro h' hh id hid
    simp only [Option.some.injEq] at hh
    subst hh
    simp [cancelRun_streamId] at hid
  | cancelTtl k =>
    refine ⟨hs, hp, hi.sub (fun e he => he) (sid_upd ?_), hq⟩
    intro h' hh id hid
    obtain ⟨_, h0, h1, rfl⟩ := expiredRun_eq_some hh
    simpa [Redis.run, h1] using hid
  | clear op j js =>
    have hsub : ∀ e ∈ (if j.streamCount > 0 then [] else s.r.stream), e ∈ s.r.stream := by
      intro e he
      split at he
      · simp at he
      · exact he
    refine ⟨?_, hp.mono (fun e he => Or.inl (hsub e he)) (List.Sublist.refl _),
      hi.sub hsub ?_, hq.clear _⟩
    · simp only
      split
      · exact hs.trim
      · exact hs
    · intro k' h' id hk hid
      simp only at hk
      split at hk
      · obtain ⟨_, h0, h1, rfl⟩ := expiredRun_eq_some hk
        exact ⟨h0, h1, hid⟩
      · exact ⟨h', hk, hid⟩
  | clearRead => exact ⟨hs, hp, hi, hq⟩
  | schedule t ht =>
    have hmem : ∀ e ∈ s.r.stream ++ numbered s.r.nextId ((dueKeys s.r t).filterMap s.r.parked),
        e ∈ s.r.stream ∨ s.r.nextId ≤ e.1 := by
      intro e he
      simp only [List.mem_append] at he
      rcases he with he | he
      · exact Or.inl he
      · exact Or.inr (mem_numbered he).1
    refine ⟨hs.addMany _, hp.mono ?_ (List.Sublist.refl _), hi.mono ?_ hmem ?_, ?_⟩
    · intro e he
      rcases hmem e he with h1 | h1
      · exact Or.inl h1
      · have := hs.ldlt; exact Or.inr (by omega)
    · simp
    · intro k' h' id hk hid
      simp only at hk
      split at hk
      · simp only [Option.some.injEq] at hk
        subst hk
        exact run_streamId hid
      · exact ⟨h', hk, hid⟩
    · refine ⟨?_, List.Sublist.nodup (List.Sublist.map _ List.filter_sublist) hq.nodup,
        hq.sorted.filter _, ?_⟩
      · intro k m hm
        simp only at hm
        split at hm
        · simp at hm
        · exact hq.key k m hm
      · intro k t' hm
        simp only [List.mem_filter, decide_eq_true_eq] at hm
        obtain ⟨m, h1, h2⟩ := hq.parked k t' hm.1
        refine ⟨m, ?_, h2⟩
        simp only
        rw [if_neg, h1]
        intro hk
        obtain ⟨m', h3, h4, _⟩ := dueKeys_parked hq hk
        rw [h1] at h3
        simp only [Option.some.injEq] at h3
        subst h3
        exact hm.2 (by show t' ≤ t; omega)
  | poll w n new hnew =>
    subst hnew
    obtain ⟨h1, h2, h3⟩ := take_filter_last (n := n) (ld := s.r.lastDelivered) hs.sorted
    exact ⟨hs.read w s.r.now n, hp.hand hs.sorted _ w false h1
      (fun e he => ⟨(h2 e he).2.2, (h2 e he).2.1⟩), hi, hq⟩
  | redeliver w p e hpm hem hid hidle =>
    refine ⟨hs.reassign _ _ _, ?_, hi, hq⟩
    have := hp.hand hs.sorted [e] w true (Nat.le_refl _) (by
      intro e' he'
      simp only [List.mem_singleton] at he'
      subst he'
      exact ⟨hem, by rw [← hid]; exact hs.pend p hpm⟩)
    simpa [newProcs] using this
  | forget id hm => exact ⟨hs.ack_missing id hm, hp, hi, hq⟩
  | renew w id => exact ⟨hs.reassign _ _ _, hp, hi, hq⟩
  | crash w => exact ⟨hs, hp.mono (fun e he => Or.inl he) List.filter_sublist, hi, hq⟩
  | abandon pid => exact ⟨hs, hp.mono (fun e he => Or.inl he) List.filter_sublist, hi, hq⟩
  | strikeOut p hpm hph =>
    refine ⟨hs, hp.phase _ _, hi.sub (fun e he => he) (sid_upd ?_), hq⟩
    intro h' hh id hid
    cases hr : s.r.runs p.msg.key with
    | none => rw [hr] at hh; simp at hh
    | some h0 =>
      rw [hr] at hh
      simp only [Option.map_some, Option.some.injEq] at hh
      subst hh
      simp at hid
  | claimSuperseded p hpm hph hsup =>
    exact ⟨hs.ackdel _, hp.mono (fun e he => Or.inl (List.mem_filter.1 he).1) List.filter_sublist,
      hi.sub (fun e he => (List.mem_filter.1 he).1) (fun k h' id h1 h2 => ⟨h', h1, h2⟩), hq⟩
  | claim p hpm hph hsup =>
    refine ⟨hs, hp.phase _ _, hi.sub (fun e he => he) (sid_upd ?_), hq⟩
    intro h' hh id hid
    simp only [Option.some.injEq] at hh
    subst hh
    simp [claimedRun] at hid
  | store p data => exact ⟨hs, hp, hi, hq⟩
  | finish p st e w hpm hph hsup =>
    refine ⟨hs.ackdel _, hp.mono (fun e he => Or.inl (List.mem_filter.1 he).1) List.filter_sublist,
      hi.sub (fun e he => (List.mem_filter.1 he).1) (sid_upd ?_), hq⟩
    intro h' hh id hid
    split at hh
    · simp only [Option.some.injEq] at hh
      subst hh
      exact hid
    · simp at hh
  | finishSuperseded p st e w hpm hph hsup =>
    exact ⟨hs.ackdel _, hp.mono (fun e he => Or.inl (List.mem_filter.1 he).1) List.filter_sublist,
      hi.sub (fun e he => (List.mem_filter.1 he).1) (fun k h' id h1 h2 => ⟨h', h1, h2⟩), hq⟩
  | rescheduleNow p t a d q hpm hph hqq hd hw =>
    refine ⟨(hs.ackdel _).add _, hp.mono ?_ List.filter_sublist,
      hi.add hs (fun e he => (List.mem_filter.1 he).1) _ _ _ _ rfl, hq⟩
    intro e he
    simp only [List.mem_append, List.mem_singleton] at he
    rcases he with he | rfl
    · exact Or.inl (List.mem_filter.1 he).1
    · exact Or.inr hs.ldlt
  | rescheduleLater p t a d q hpm hph hqq hd hw =>
    refine ⟨hs.ackdel _, hp.mono (fun e he => Or.inl (List.mem_filter.1 he).1) List.filter_sublist,
      hi.sub (fun e he => (List.mem_filter.1 he).1) (sid_upd ?_), hq.put _ _ _⟩
    intro h' hh id hid
    simp only [Option.some.injEq] at hh
    subst hh
    simp at hid
  | prog op k f => exact ⟨hs, hp, hi, hq⟩

theorem WF.init : WF {} := by
  refine ⟨⟨?_, ?_, ?_, ?_, ?_, ?_⟩, ⟨?_, ?_⟩, ?_, ⟨?_, ?_, ?_, ?_⟩⟩ <;> simp [SidOK]

theorem WF.runFrom {cfg : Cfg} {s : Sys} (h : WF s) (ops : List Op) : WF (runFrom cfg s ops) := by
  induction ops generalizing s with
  | nil => exact h
  | cons o ops ih => exact ih (h.step o)

theorem WF.run (cfg : Cfg) (ops : List Op) : WF (run cfg ops) := WF.init.runFrom ops

/-- Two stream entries with the same id are the same entry. -/
theorem StreamOK.unique {n : MsgId} {st : List (MsgId × Msg)} {ld : MsgId} {pe : List Pend}
    (h : StreamOK n st ld pe) {e e' : MsgId × Msg} (he : e ∈ st) (he' : e' ∈ st) (hid : e.1 = e'.1) :
    e = e' := by
  have := List.pairwise_iff_getElem.1 h.sorted
  obtain ⟨i, hi, rfl⟩ := List.getElem_of_mem he
  obtain ⟨j, hj, rfl⟩ := List.getElem_of_mem he'
  rcases Nat.lt_trichotomy i j with hlt | heq | hgt
  · have := this i j hi hj hlt; omega
  · subst heq; rfl
  · have := this j i hj hi hgt; omega

end Docket
