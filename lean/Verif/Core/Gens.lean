import Verif.Core.Log
/-
Generations: per key, every message in existence has a generation not above the
record's, and each generation exists in one place only.
-/
namespace Docket
open Redis

/-- The invariant for one key, on the parts of the state it speaks about. -/
structure GenOK (k : Key) (go : Option Gen) (st : List (MsgId × Msg)) (pk : Option Msg)
    (ps : List Proc) : Prop where
  stream_le : ∀ g, go = some g → ∀ e ∈ st, e.2.key = k → e.2.gen ≤ g
  parked_le : ∀ g, go = some g → ∀ m, pk = some m → m.gen ≤ g
  procs_le : ∀ g, go = some g → ∀ p ∈ ps, p.msg.key = k → p.msg.gen ≤ g
  stream_unique : ∀ e ∈ st, ∀ e' ∈ st, e.2.key = k → e'.2.key = k → e.2.gen = e'.2.gen → e.1 = e'.1
  parked_stream : ∀ m, pk = some m → ∀ e ∈ st, e.2.key = k → e.2.gen ≠ m.gen
  parked_procs : ∀ m, pk = some m → ∀ p ∈ ps, p.msg.key = k → p.msg.gen ≠ m.gen
  procs_stream : ∀ p ∈ ps, ∀ e ∈ st, p.msg.key = k → e.2.key = k → p.msg.gen = e.2.gen → p.id = e.1
  procs_procs : ∀ p ∈ ps, ∀ p' ∈ ps, p.msg.key = k → p'.msg.key = k → p.msg.gen = p'.msg.gen →
    p.id = p'.id

/-- Messages only disappear, or are copied from the stream into worker memory. -/
theorem GenOK.sub {k : Key} {go go' : Option Gen} {st st' : List (MsgId × Msg)}
    {pk pk' : Option Msg} {ps ps' : List Proc} (h : GenOK k go st pk ps)
    (hg : ∀ g, go' = some g → go = some g)
    (hst : ∀ e ∈ st', e ∈ st)
    (hpk : ∀ m, pk' = some m → pk = some m)
    (hps : ∀ p' ∈ ps', (∃ p ∈ ps, p.id = p'.id ∧ p.msg = p'.msg) ∨ (p'.id, p'.msg) ∈ st) :
    GenOK k go' st' pk' ps' where
  stream_le := fun g hg' e he => h.stream_le g (hg g hg') e (hst e he)
  parked_le := fun g hg' m hm => h.parked_le g (hg g hg') m (hpk m hm)
  procs_le := by
    intro g hg' p hp hk
    rcases hps p hp with ⟨p0, h0, _, h2⟩ | h1
    · rw [← h2] at hk ⊢; exact h.procs_le g (hg g hg') p0 h0 hk
    · exact h.stream_le g (hg g hg') _ h1 hk
  stream_unique := fun e he e' he' => h.stream_unique e (hst e he) e' (hst e' he')
  parked_stream := fun m hm e he => h.parked_stream m (hpk m hm) e (hst e he)
  parked_procs := by
    intro m hm p hp hk
    rcases hps p hp with ⟨p0, h0, _, h2⟩ | h1
    · rw [← h2] at hk ⊢; exact h.parked_procs m (hpk m hm) p0 h0 hk
    · exact h.parked_stream m (hpk m hm) _ h1 hk
  procs_stream := by
    intro p hp e he hk hk' hgen
    rcases hps p hp with ⟨p0, h0, h1, h2⟩ | h1
    · rw [← h2] at hk hgen; rw [← h1]; exact h.procs_stream p0 h0 e (hst e he) hk hk' hgen
    · exact h.stream_unique _ h1 e (hst e he) hk hk' hgen
  procs_procs := by
    intro p hp p' hp' hk hk' hgen
    rcases hps p hp with ⟨p0, h0, h1, h2⟩ | h1 <;>
      rcases hps p' hp' with ⟨p0', h0', h1', h2'⟩ | h1'
    · rw [← h2, ← h2'] at hgen; rw [← h2] at hk; rw [← h2'] at hk'; rw [← h1, ← h1']
      exact h.procs_procs p0 h0 p0' h0' hk hk' hgen
    · rw [← h2] at hgen hk; rw [← h1]
      exact h.procs_stream p0 h0 _ h1' hk hk' hgen
    · rw [← h2'] at hgen hk'; rw [← h1']
      exact (h.procs_stream p0' h0' _ h1 hk' hk hgen.symm).symm
    · exact h.stream_unique _ h1 _ h1' hk hk' hgen

/-- A message with a generation above all others is appended to the stream. -/
theorem GenOK.addStream {k : Key} {go : Option Gen} {st : List (MsgId × Msg)}
    {pk : Option Msg} {ps : List Proc} (h : GenOK k go st pk ps) (id : MsgId) (m : Msg)
    (hs : ∀ e ∈ st, e.2.key = k → e.2.gen < m.gen)
    (hp : ∀ p ∈ ps, p.msg.key = k → p.msg.gen < m.gen)
    (hk : ∀ m', pk = some m' → m'.gen < m.gen) :
    GenOK k (some m.gen) (st ++ [(id, m)]) pk ps where
  stream_le := by
    intro g hg e he hek
    simp only [Option.some.injEq] at hg
    simp only [List.mem_append, List.mem_singleton] at he
    rcases he with he | rfl
    · have := hs e he hek; omega
    · simp only; omega
  parked_le := by intro g hg m' hm; simp only [Option.some.injEq] at hg; have := hk m' hm; omega
  procs_le := by intro g hg p hp' hpk; simp only [Option.some.injEq] at hg; have := hp p hp' hpk; omega
  stream_unique := by
    intro e he e' he' hek hek' hgen
    simp only [List.mem_append, List.mem_singleton] at he he'
    rcases he with he | rfl <;> rcases he' with he' | rfl
    · exact h.stream_unique e he e' he' hek hek' hgen
    · have := hs e he hek; simp only at hgen; omega
    · have := hs e' he' hek'; simp only at hgen; omega
    · rfl
  parked_stream := by
    intro m' hm e he hek
    simp only [List.mem_append, List.mem_singleton] at he
    rcases he with he | rfl
    · exact h.parked_stream m' hm e he hek
    · have := hk m' hm; simp only; omega
  parked_procs := h.parked_procs
  procs_stream := by
    intro p hp' e he hpk hek hgen
    simp only [List.mem_append, List.mem_singleton] at he
    rcases he with he | rfl
    · exact h.procs_stream p hp' e he hpk hek hgen
    · have := hp p hp' hpk; simp only at hgen; omega
  procs_procs := h.procs_procs

/-- A message with a generation above all others is parked. -/
theorem GenOK.addParked {k : Key} {go : Option Gen} {st : List (MsgId × Msg)}
    {pk : Option Msg} {ps : List Proc} (h : GenOK k go st pk ps) (m : Msg)
    (hs : ∀ e ∈ st, e.2.key = k → e.2.gen < m.gen)
    (hp : ∀ p ∈ ps, p.msg.key = k → p.msg.gen < m.gen) :
    GenOK k (some m.gen) st (some m) ps where
  stream_le := by intro g hg e he hek; simp only [Option.some.injEq] at hg; have := hs e he hek; omega
  parked_le := by
    intro g hg m' hm; simp only [Option.some.injEq] at hg hm; subst hm; omega
  procs_le := by intro g hg p hp' hpk; simp only [Option.some.injEq] at hg; have := hp p hp' hpk; omega
  stream_unique := h.stream_unique
  parked_stream := by
    intro m' hm e he hek; simp only [Option.some.injEq] at hm; subst hm; have := hs e he hek; omega
  parked_procs := by
    intro m' hm p hp' hpk; simp only [Option.some.injEq] at hm; subst hm; have := hp p hp' hpk; omega
  procs_stream := h.procs_stream
  procs_procs := h.procs_procs

/-- The parked message moves to the end of the stream (among messages of other keys). -/
theorem GenOK.move {k : Key} {go : Option Gen} {st : List (MsgId × Msg)}
    {ps : List Proc} {m : Msg} (h : GenOK k go st (some m) ps)
    (new : List (MsgId × Msg)) (hnew : ∀ e ∈ new, e.2.key = k → e.2 = m)
    (huniq : ∀ e ∈ new, ∀ e' ∈ new, e.2.key = k → e'.2.key = k → e.1 = e'.1) :
    GenOK k go (st ++ new) none ps where
  stream_le := by
    intro g hg e he hek
    simp only [List.mem_append] at he
    rcases he with he | he
    · exact h.stream_le g hg e he hek
    · rw [hnew e he hek]; exact h.parked_le g hg m rfl
  parked_le := by intro g hg m' hm; simp at hm
  procs_le := h.procs_le
  stream_unique := by
    intro e he e' he' hek hek' hgen
    simp only [List.mem_append] at he he'
    rcases he with he | he <;> rcases he' with he' | he'
    · exact h.stream_unique e he e' he' hek hek' hgen
    · rw [hnew e' he' hek'] at hgen; exact absurd hgen (h.parked_stream m rfl e he hek)
    · rw [hnew e he hek] at hgen; exact absurd hgen.symm (h.parked_stream m rfl e' he' hek')
    · exact huniq e he e' he' hek hek'
  parked_stream := by intro m' hm; simp at hm
  parked_procs := by intro m' hm; simp at hm
  procs_stream := by
    intro p hp e he hpk hek hgen
    simp only [List.mem_append] at he
    rcases he with he | he
    · exact h.procs_stream p hp e he hpk hek hgen
    · rw [hnew e he hek] at hgen; exact absurd hgen (h.parked_procs m rfl p hp hpk)
  procs_procs := h.procs_procs

def GenInv (s : Sys) (k : Key) : Prop :=
  GenOK k (s.r.genOf k) s.r.stream (s.r.parked k) s.procs

theorem GenOK.addOther {k : Key} {go : Option Gen} {st : List (MsgId × Msg)}
    {pk : Option Msg} {ps : List Proc} (h : GenOK k go st pk ps) (new : List (MsgId × Msg))
    (hne : ∀ e ∈ new, e.2.key ≠ k) : GenOK k go (st ++ new) pk ps where
  stream_le := by
    intro g hg e he hek
    simp only [List.mem_append] at he
    rcases he with he | he
    · exact h.stream_le g hg e he hek
    · exact absurd hek (hne e he)
  parked_le := h.parked_le
  procs_le := h.procs_le
  stream_unique := by
    intro e he e' he' hek hek' hgen
    simp only [List.mem_append] at he he'
    rcases he with he | he
    · rcases he' with he' | he'
      · exact h.stream_unique e he e' he' hek hek' hgen
      · exact absurd hek' (hne e' he')
    · exact absurd hek (hne e he)
  parked_stream := by
    intro m hm e he hek
    simp only [List.mem_append] at he
    rcases he with he | he
    · exact h.parked_stream m hm e he hek
    · exact absurd hek (hne e he)
  parked_procs := h.parked_procs
  procs_stream := by
    intro p hp e he hpk hek hgen
    simp only [List.mem_append] at he
    rcases he with he | he
    · exact h.procs_stream p hp e he hpk hek hgen
    · exact absurd hek (hne e he)
  procs_procs := h.procs_procs

theorem numbered_unique {i : MsgId} {ms : List Msg} (hn : ms.Nodup) {e e' : MsgId × Msg}
    (he : e ∈ numbered i ms) (he' : e' ∈ numbered i ms) (h : e.2 = e'.2) : e.1 = e'.1 := by
  induction ms generalizing i with
  | nil => simp [numbered] at he
  | cons a ms ih =>
    simp only [List.nodup_cons] at hn
    simp only [numbered, List.mem_cons] at he he'
    rcases he with rfl | he <;> rcases he' with rfl | he'
    · rfl
    · simp only at h; subst h; exact absurd (mem_numbered he').2.2 hn.1
    · simp only at h; subst h; exact absurd (mem_numbered he).2.2 hn.1
    · exact ih hn.2 he he'

theorem phase_procs {s : Sys} (pid : Nat) (ph : Phase) :
    ∀ p' ∈ s.procs.map (fun x => if x.pid = pid then { x with phase := ph } else x),
      (∃ p ∈ s.procs, p.id = p'.id ∧ p.msg = p'.msg) ∨ (p'.id, p'.msg) ∈ s.r.stream := by
  intro p' hp'
  obtain ⟨x, hx, rfl⟩ := List.mem_map.1 hp'
  exact Or.inl ⟨x, hx, by split <;> rfl, by split <;> rfl⟩

theorem filter_procs {s : Sys} (f : Proc → Bool) :
    ∀ p' ∈ s.procs.filter f,
      (∃ p ∈ s.procs, p.id = p'.id ∧ p.msg = p'.msg) ∨ (p'.id, p'.msg) ∈ s.r.stream :=
  fun p' hp' => Or.inl ⟨p', (List.mem_filter.1 hp').1, rfl, rfl⟩

theorem self_procs {s : Sys} :
    ∀ p' ∈ s.procs,
      (∃ p ∈ s.procs, p.id = p'.id ∧ p.msg = p'.msg) ∨ (p'.id, p'.msg) ∈ s.r.stream :=
  fun p' hp' => Or.inl ⟨p', hp', rfl, rfl⟩

theorem genOf_upd_other (r : Redis) (k k' : Key) (v : Option Run) (h : k ≠ k') :
    (upd r.runs k' v k).bind (·.gen) = r.genOf k := by
  simp [Redis.genOf, upd, h]

theorem GenInv.step {cfg : Cfg} {s : Sys} {k : Key} (hw : WF s) (h : GenInv s k)
    (hno : ¬ Orphaned s k) (op : Op) : GenInv (step cfg s op) k := by
  have he := step_eff cfg s hw.queue op
  generalize Docket.step cfg s op = s' at he
  -- everything of `k` is below the next generation
  have hlt : (∀ e ∈ s.r.stream, e.2.key = k → e.2.gen < s.r.nextGen k) ∧
      (∀ p ∈ s.procs, p.msg.key = k → p.msg.gen < s.r.nextGen k) ∧
      (∀ m, s.r.parked k = some m → m.gen < s.r.nextGen k) := by
    rw [nextGen_eq]
    cases hg : s.r.genOf k with
    | none =>
      have hns : ¬ SomeMessage s k := fun hc => hno ⟨by simp [HasRecord, hg], hc⟩
      refine ⟨fun e he hk => ?_, fun p hp hk => ?_, fun m hm => ?_⟩
      · exact absurd (Or.inl ⟨e, he, hk⟩) hns
      · exact absurd (Or.inr (Or.inr ⟨p, hp, hk⟩)) hns
      · exact absurd (Or.inr (Or.inl (by simp [hm]))) hns
    | some g =>
      simp only [Option.getD_some]
      refine ⟨fun e he hk => ?_, fun p hp hk => ?_, fun m hm => ?_⟩
      · have := h.stream_le g hg e he hk; omega
      · have := h.procs_le g hg p hp hk; omega
      · have := h.parked_le g hg m hm; omega
  have hdropS : ∀ k', ∀ e ∈ dropOwn s.r k', e ∈ s.r.stream := fun _ _ h => mem_dropOwn h
  have hfilS : ∀ id : MsgId, ∀ e ∈ s.r.stream.filter (fun e => e.1 ≠ id), e ∈ s.r.stream :=
    fun _ _ h => (List.mem_filter.1 h).1
  have hupdP : ∀ k' m, upd s.r.parked k' none k = some m → s.r.parked k = some m := by
    intro k' m hm
    rcases upd_eq_some hm with ⟨_, h1⟩ | ⟨_, h1⟩
    · simp at h1
    · exact h1
  have hid : ∀ g, s.r.genOf k = some g → s.r.genOf k = some g := fun _ h => h
  have hpid : ∀ m, s.r.parked k = some m → s.r.parked k = some m := fun _ h => h
  have hsid : ∀ e ∈ s.r.stream, e ∈ s.r.stream := fun _ h => h
  cases he with
  | nop => exact h
  | tick d =>
    refine GenOK.sub h ?_ hsid hpid self_procs
    intro g hg
    simp only [Redis.genOf, advance] at hg ⊢
    rw [Option.bind_eq_some_iff] at hg ⊢
    obtain ⟨r0, hr, hg⟩ := hg
    rw [Option.filter_eq_some_iff] at hr
    exact ⟨r0, hr.1, hg⟩
  | addNow k' q t ht hwh hx =>
    by_cases hk : k = k'
    · subst hk
      have := GenOK.addStream h s.r.nextId ⟨k, q, s.r.nextGen k⟩ hlt.1 hlt.2.1 hlt.2.2
      simpa [GenInv, Redis.genOf, queuedRun] using this
    · have := GenOK.addOther h [(s.r.nextId, ⟨k', q, s.r.nextGen k'⟩)]
        (by simp; exact fun h => hk h.symm)
      simpa [GenInv, Redis.genOf, upd, hk] using this
  | addLater k' q t ht hwh hx =>
    by_cases hk : k = k'
    · subst hk
      have := GenOK.addParked h ⟨k, q, s.r.nextGen k⟩ hlt.1 hlt.2.1
      simpa [GenInv, Redis.genOf, scheduledRun] using this
    · simpa [GenInv, Redis.genOf, upd, hk] using h
  | replaceNow k' q t ht hwh =>
    have h0 := GenOK.sub h hid (hdropS k') (hupdP k') self_procs
    by_cases hk : k = k'
    · subst hk
      have := GenOK.addStream h0 s.r.nextId ⟨k, q, s.r.nextGen k⟩
        (fun e he => hlt.1 e (hdropS k e he)) hlt.2.1 (by simp)
      simpa [GenInv, Redis.genOf, queuedRun] using this
    · have := GenOK.addOther h0 [(s.r.nextId, ⟨k', q, s.r.nextGen k'⟩)]
        (by simp; exact fun h => hk h.symm)
      simpa [GenInv, Redis.genOf, upd, hk] using this
  | replaceLater k' q t ht hwh =>
    have h0 := GenOK.sub h hid (hdropS k') (hupdP k') self_procs
    by_cases hk : k = k'
    · subst hk
      have := GenOK.addParked h0 ⟨k, q, s.r.nextGen k⟩
        (fun e he => hlt.1 e (hdropS k e he)) hlt.2.1
      simpa [GenInv, Redis.genOf, scheduledRun] using this
    · simpa [GenInv, Redis.genOf, upd, hk] using h0
  | cancel k' =>
    refine GenOK.sub h ?_ (hdropS k') (hupdP k') (self_procs (s := s))
    intro g hg
    by_cases hk : k = k'
    · subst hk
      simpa [Redis.genOf, cancelRun_gen] using hg
    · simpa [Redis.genOf, upd, hk] using hg
  | cancelTtl k' hk' =>
    refine GenOK.sub h ?_ hsid hpid self_procs
    intro g hg
    by_cases hk : k = k'
    · subst hk
      simp only [Redis.genOf, upd_same] at hg ⊢
      cases hr : expiredRun cfg.ttl s.r k with
      | none => rw [hr] at hg; simp at hg
      | some h' =>
        obtain ⟨_, h0, h1, rfl⟩ := expiredRun_eq_some hr
        rw [hr] at hg
        rw [h1]
        exact hg
    · simpa [Redis.genOf, upd, hk] using hg
  | clear op j js hop =>
    refine GenOK.sub h ?_ ?_ ?_ (self_procs (s := s))
    · intro g hg
      simp only [Redis.genOf] at hg ⊢
      split at hg
      · cases hr : expiredRun cfg.ttl s.r k with
        | none => rw [hr] at hg; simp at hg
        | some h' =>
          obtain ⟨_, h0, h1, rfl⟩ := expiredRun_eq_some hr
          rw [hr] at hg
          rw [h1]
          exact hg
      · exact hg
    · intro e he
      simp only at he
      split at he
      · simp at he
      · exact he
    · intro m hm
      simp only at hm
      split at hm
      · simp at hm
      · exact hm
  | clearRead => exact h
  | schedule t ht =>
    have hgen : Option.bind (if k ∈ dueKeys s.r t then
          some { s.r.run k with state := some .queued } else s.r.runs k) (·.gen)
        = s.r.genOf k := by
      split
      · simp [run_gen]
      · rfl
    simp only [GenInv, Redis.genOf] at hgen ⊢
    rw [hgen]
    by_cases hk : k ∈ dueKeys s.r t
    · obtain ⟨m, hm, _, hmk⟩ := dueKeys_parked hw.queue hk
      rw [if_pos hk]
      have h' : GenOK k (s.r.genOf k) s.r.stream (some m) s.procs := by rw [← hm]; exact h
      have hmem : ∀ e ∈ numbered s.r.nextId ((dueKeys s.r t).filterMap s.r.parked),
          s.r.parked e.2.key = some e.2 ∧ e.2 ∈ (dueKeys s.r t).filterMap s.r.parked := by
        intro e he
        have h1 := (mem_numbered he).2.2
        have h2 := h1
        rw [List.mem_filterMap] at h1
        obtain ⟨k', _, h3⟩ := h1
        rw [hw.queue.key _ _ h3]
        exact ⟨h3, h2⟩
      refine h'.move _ ?_ ?_
      · intro e he hek
        have := (hmem e he).1
        rw [hek, hm] at this
        simpa using this.symm
      · intro e he e' he' hek hek'
        have h1 := (hmem e he).1
        have h2 := (hmem e' he').1
        rw [hek, hm] at h1
        rw [hek', hm] at h2
        refine numbered_unique ?_ he he' ?_
        · have hn := dueKeys_nodup hw.queue t
          have : ∀ (ks : List Key), ks.Nodup → (ks.filterMap s.r.parked).Nodup := by
            intro ks
            induction ks with
            | nil => simp
            | cons a ks ih =>
              intro hn
              simp only [List.nodup_cons] at hn
              simp only [List.filterMap_cons]
              cases hp : s.r.parked a with
              | none => exact ih hn.2
              | some ma =>
                simp only [List.nodup_cons]
                refine ⟨?_, ih hn.2⟩
                intro hc
                rw [List.mem_filterMap] at hc
                obtain ⟨b, hb, hb'⟩ := hc
                have e1 := hw.queue.key _ _ hp
                have e2 := hw.queue.key _ _ hb'
                rw [e1] at e2
                subst e2
                exact hn.1 hb
          exact this _ hn
        · simp only [Option.some.injEq] at h1 h2
          rw [← h1, ← h2]
    · rw [if_neg hk]
      refine GenOK.addOther h _ ?_
      intro e he hek
      have h1 := (mem_numbered he).2.2
      rw [List.mem_filterMap] at h1
      obtain ⟨k', hk', h3⟩ := h1
      have := hw.queue.key _ _ h3
      rw [hek] at this
      subst this
      exact hk hk'
  | poll w n new hnew =>
    refine GenOK.sub h hid hsid hpid ?_
    intro p' hp'
    simp only [List.mem_append] at hp'
    rcases hp' with hp' | hp'
    · exact self_procs p' hp'
    · right
      have := (mem_newProcs hp').1
      rw [hnew] at this
      exact (List.mem_filter.1 (List.mem_of_mem_take this)).1
  | redeliver w p e hp he' hid' hidle =>
    refine GenOK.sub h hid hsid hpid ?_
    intro p' hp'
    simp only [List.mem_append, List.mem_singleton] at hp'
    rcases hp' with hp' | rfl
    · exact self_procs p' hp'
    · exact Or.inr he'
  | forget id hm => exact h
  | renew w id => exact h
  | crash w => exact GenOK.sub h hid hsid hpid (filter_procs _)
  | abandon pid => exact GenOK.sub h hid hsid hpid (filter_procs _)
  | strikeOut p hp hph =>
    refine GenOK.sub h ?_ hsid hpid (phase_procs _ _)
    intro g hg
    by_cases hk : k = p.msg.key
    · subst hk
      simp only [Redis.genOf, upd_same] at hg ⊢
      cases hr : s.r.runs p.msg.key with
      | none => rw [hr] at hg; simp at hg
      | some h0 => rw [hr] at hg; exact hg
    · simpa [Redis.genOf, upd, hk] using hg
  | claimSuperseded p hp hph hs => exact GenOK.sub h hid (hfilS _) hpid (filter_procs _)
  | claim p hp hph hs =>
    refine GenOK.sub h ?_ hsid hpid (phase_procs _ _)
    intro g hg
    by_cases hk : k = p.msg.key
    · subst hk
      simpa [Redis.genOf, claimedRun, run_gen] using hg
    · simpa [Redis.genOf, upd, hk] using hg
  | store p data => exact h
  | finish p st e w hp hph hs =>
    refine GenOK.sub h ?_ (hfilS _) hpid (filter_procs _)
    intro g hg
    by_cases hk : k = p.msg.key
    · subst hk
      simp only [Redis.genOf, upd_same] at hg
      split at hg
      · simpa [terminalRun, run_gen] using hg
      · simp at hg
    · simpa [Redis.genOf, upd, hk] using hg
  | finishSuperseded p st e w hp hph hs => exact GenOK.sub h hid (hfilS _) hpid (filter_procs _)
  | rescheduleNow p t a d q hp hph hq hd hwh =>
    have h0 := GenOK.sub h hid (hfilS p.id) hpid (filter_procs (fun x => x.pid ≠ p.pid))
    by_cases hk : k = p.msg.key
    · have := GenOK.addStream h0 s.r.nextId ⟨k, q, s.r.nextGen k⟩
        (fun e he => hlt.1 e (hfilS _ e he))
        (fun x hx => hlt.2.1 x (List.mem_filter.1 hx).1) hlt.2.2
      rw [← hk]
      simpa [GenInv, Redis.genOf, queuedRun] using this
    · have := GenOK.addOther h0 [(s.r.nextId, ⟨p.msg.key, q, s.r.nextGen p.msg.key⟩)]
        (by simp; exact fun h => hk h.symm)
      simpa [GenInv, Redis.genOf, upd, hk] using this
  | rescheduleLater p t a d q hp hph hq hd hwh =>
    have h0 := GenOK.sub h hid (hfilS p.id) hpid (filter_procs (fun x => x.pid ≠ p.pid))
    by_cases hk : k = p.msg.key
    · have := GenOK.addParked h0 ⟨k, q, s.r.nextGen k⟩
        (fun e he => hlt.1 e (hfilS _ e he))
        (fun x hx => hlt.2.1 x (List.mem_filter.1 hx).1)
      rw [← hk]
      simpa [GenInv, Redis.genOf, scheduledRun] using this
    · simpa [GenInv, Redis.genOf, upd, hk] using h0
  | prog op k' f => exact h

theorem GenInv.init (k : Key) : GenInv {} k := by
  constructor <;> simp

theorem GenInv.runFrom {cfg : Cfg} {s : Sys} {k : Key} {ops : List Op} (hw : WF s)
    (h : GenInv s k) (hno : Throughout cfg (fun s => ¬ Orphaned s k) s ops) :
    GenInv (runFrom cfg s ops) k := by
  induction ops generalizing s with
  | nil => exact h
  | cons o ops ih => exact ih (hw.step o) (h.step hw hno.1 o) hno.2

theorem Throughout.last {cfg : Cfg} {P : Sys → Prop} {s : Sys} {ops : List Op}
    (h : Throughout cfg P s ops) : P (runFrom cfg s ops) := by
  induction ops generalizing s with
  | nil => exact h
  | cons o ops ih => exact ih h.2

end Docket
