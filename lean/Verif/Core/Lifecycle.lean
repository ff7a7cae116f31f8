import Verif.Core.Known
/-
The invariant behind C17: where the current message of a key is, and what the record
says about it.
-/
namespace Docket
open Redis

/-- The step does not cancel `k` while a worker holds a message of `k` or while a stream
message of `k` is not the one its record names, and does not hand out a message of `k`
that some worker still holds. -/
def QuietStep (k : Key) (s : Sys) : Op → Prop
  | .cancel k' => k' = k → (∀ p ∈ s.procs, p.msg.key ≠ k) ∧
      ∀ e ∈ s.r.stream, e.2.key = k → s.r.streamIdOf k = some e.1
  | .redeliver _ id => ∀ p ∈ s.procs, p.msg.key = k → p.id ≠ id
  | _ => True

instance (k : Key) (s : Sys) : ∀ op, Decidable (QuietStep k s op) := by
  intro op; cases op <;> unfold QuietStep <;> infer_instance

structure LifeInv (s : Sys) (k : Key) : Prop where
  parked : ∀ m, s.r.parked k = some m → s.r.genOf k = some m.gen →
    s.r.stateOf k = some .scheduled
  stream : ∀ e ∈ s.r.stream, e.2.key = k → s.r.genOf k = some e.2.gen →
    s.r.stateOf k = some .queued ∨ s.r.stateOf k = some .running
  held : ∀ p ∈ s.procs, p.msg.key = k → s.r.genOf k = some p.msg.gen →
    s.r.stateOf k = some .queued ∨ s.r.stateOf k = some .running
  running : ∀ p ∈ s.procs, p.msg.key = k → p.phase = .running → s.r.genOf k = some p.msg.gen →
    s.r.stateOf k = some .running
  unique : ∀ p ∈ s.procs, ∀ p' ∈ s.procs, p.msg.key = k → p.id = p'.id → p = p'

/-- Messages and executions only disappear, and the record is untouched or gone. -/
theorem LifeInv.sub {s s' : Sys} {k : Key} (h : LifeInv s k)
    (hr : s'.r.genOf k = none ∨
      (s'.r.genOf k = s.r.genOf k ∧ s'.r.stateOf k = s.r.stateOf k))
    (hpk : ∀ m, s'.r.parked k = some m → s.r.parked k = some m)
    (hst : ∀ e ∈ s'.r.stream, e.2.key = k → e ∈ s.r.stream)
    (hps : ∀ p ∈ s'.procs, p ∈ s.procs) : LifeInv s' k := by
  have key : ∀ {g}, s'.r.genOf k = some g → s.r.genOf k = some g ∧ s'.r.stateOf k = s.r.stateOf k := by
    intro g hg
    rcases hr with h0 | ⟨h1, h2⟩
    · rw [h0] at hg; cases hg
    · exact ⟨h1 ▸ hg, h2⟩
  constructor
  · intro m hm hg
    obtain ⟨h1, h2⟩ := key hg
    rw [h2]; exact h.parked m (hpk m hm) h1
  · intro e he hk hg
    obtain ⟨h1, h2⟩ := key hg
    rw [h2]; exact h.stream e (hst e he hk) hk h1
  · intro p hp hk hg
    obtain ⟨h1, h2⟩ := key hg
    rw [h2]; exact h.held p (hps p hp) hk h1
  · intro p hp hk hph hg
    obtain ⟨h1, h2⟩ := key hg
    rw [h2]; exact h.running p (hps p hp) hk hph h1
  · intro p hp p' hp'
    exact h.unique p (hps p hp) p' (hps p' hp')

theorem runs_congr {s s' : Sys} {k : Key} (h : s'.r.runs k = s.r.runs k) :
    s'.r.genOf k = s.r.genOf k ∧ s'.r.stateOf k = s.r.stateOf k := by
  simp [Redis.genOf, Redis.stateOf, h]

/-- Executions change phase, none is added. -/
theorem LifeInv.phase {s : Sys} {k : Key} (h : LifeInv s k) (pid : Nat) (ph : Phase) :
    ∀ p ∈ s.procs.map (fun x => if x.pid = pid then { x with phase := ph } else x),
      ∀ p' ∈ s.procs.map (fun x => if x.pid = pid then { x with phase := ph } else x),
      p.msg.key = k → p.id = p'.id → p = p' := by
  intro p hp p' hp' hk hid
  obtain ⟨x, hx, rfl⟩ := List.mem_map.1 hp
  obtain ⟨x', hx', rfl⟩ := List.mem_map.1 hp'
  have e1 : (if x.pid = pid then { x with phase := ph } else x).msg = x.msg := by split <;> rfl
  have e2 : (if x.pid = pid then { x with phase := ph } else x).id = x.id := by split <;> rfl
  have e3 : (if x'.pid = pid then { x' with phase := ph } else x').id = x'.id := by split <;> rfl
  rw [e1] at hk
  rw [e2, e3] at hid
  rw [h.unique x hx x' hx' hk hid]

/-- A new message of `k` with a new generation was accepted. -/
theorem LifeInv.fresh {s s' : Sys} {k : Key} (h : LifeInv s k) (hgen : GenInv s k)
    (hno : ¬ Orphaned s k)
    (hg : s'.r.genOf k = some (s.r.nextGen k))
    (hst : s'.r.stateOf k = some .queued ∧ (∀ m, s'.r.parked k = some m → s.r.parked k = some m) ∨
      s'.r.stateOf k = some .scheduled ∧ ∀ e ∈ s'.r.stream, e.2.key = k → e ∈ s.r.stream)
    (hps : ∀ p ∈ s'.procs, p ∈ s.procs) : LifeInv s' k := by
  have hlt : ∀ g, s.r.genOf k = some g → g < s.r.nextGen k := by
    intro g hg; simp [nextGen_eq, hg]
  have hp : ∀ p ∈ s.procs, p.msg.key = k → s.r.nextGen k ≠ p.msg.gen := by
    intro p hp hk heq
    cases hc : s.r.genOf k with
    | none => exact hno ⟨by simp [HasRecord, hc], Or.inr (Or.inr ⟨p, hp, hk⟩)⟩
    | some g =>
      have := hgen.procs_le g hc p hp hk
      have := hlt g hc
      omega
  have hs : ∀ e ∈ s.r.stream, e.2.key = k → s.r.nextGen k ≠ e.2.gen := by
    intro e he hk heq
    cases hc : s.r.genOf k with
    | none => exact hno ⟨by simp [HasRecord, hc], Or.inl ⟨e, he, hk⟩⟩
    | some g =>
      have := hgen.stream_le g hc e he hk
      have := hlt g hc
      omega
  have hpk : ∀ m, s.r.parked k = some m → s.r.nextGen k ≠ m.gen := by
    intro m hm heq
    cases hc : s.r.genOf k with
    | none => exact hno ⟨by simp [HasRecord, hc], Or.inr (Or.inl (by simp [hm]))⟩
    | some g =>
      have := hgen.parked_le g hc m hm
      have := hlt g hc
      omega
  constructor
  · intro m hm hgm
    rw [hg, Option.some.injEq] at hgm
    rcases hst with ⟨_, h2⟩ | ⟨h1, _⟩
    · exact absurd hgm (hpk m (h2 m hm))
    · exact h1
  · intro e he hk hge
    rw [hg, Option.some.injEq] at hge
    rcases hst with ⟨h1, _⟩ | ⟨_, h2⟩
    · exact Or.inl h1
    · exact absurd hge (hs e (h2 e he hk) hk)
  · intro p hp' hk hge
    rw [hg, Option.some.injEq] at hge
    exact absurd hge (hp p (hps p hp') hk)
  · intro p hp' hk _ hge
    rw [hg, Option.some.injEq] at hge
    exact absurd hge (hp p (hps p hp') hk)
  · intro p hp1 p' hp'
    exact h.unique p (hps p hp1) p' (hps p' hp')

theorem mem_filter_of {α : Type} {l : List α} {f : α → Bool} {x : α} (h : x ∈ l.filter f) : x ∈ l :=
  (List.mem_filter.1 h).1

theorem LifeInv.step {cfg : Cfg} {s : Sys} {k : Key} (hw : WF s) (hc : CarriedInv s)
    (hor : OriginInv s) (hgen : GenInv s k) (hkn : KnownInv s k) (h : LifeInv s k) (op : Op)
    (hord : OrderlyStep k s op) (hqs : QuietStep k s op) : LifeInv (step cfg s op) k := by
  have he := step_eff cfg s hw.queue op
  have hno := hord.notOrphaned
  generalize Docket.step cfg s op = s' at he
  have hexp : ∀ {s' : Sys}, s'.r.runs k = expiredRun cfg.ttl s.r k → (s'.r.genOf k = none ∨
      (s'.r.genOf k = s.r.genOf k ∧ s'.r.stateOf k = s.r.stateOf k)) := by
    intro s' hs'
    cases hx : expiredRun cfg.ttl s.r k with
    | none => left; simp [Redis.genOf, hs', hx]
    | some v' =>
      obtain ⟨_, v, h1, rfl⟩ := expiredRun_eq_some hx
      right; simp [Redis.genOf, Redis.stateOf, hs', hx, h1]
  have hun : ∀ k' m, upd s.r.parked k' none k = some m → s.r.parked k = some m := by
    intro k' m hm
    by_cases hk : k = k'
    · subst hk; rw [upd_same] at hm; cases hm
    · rwa [upd_other _ _ _ _ hk] at hm
  have happ : ∀ {k' : Key} {st : List (MsgId × Msg)} {id : MsgId} {m : Msg}, k ≠ k' → m.key = k' →
      (∀ e ∈ st, e ∈ s.r.stream) →
      ∀ e ∈ st ++ [(id, m)], e.2.key = k → e ∈ s.r.stream := by
    intro k' st id m hk hm hst e he hek
    simp only [List.mem_append, List.mem_singleton] at he
    rcases he with he | rfl
    · exact hst e he
    · exact absurd (hek.symm.trans hm) hk
  have hself : s.r.genOf k = none ∨ (s.r.genOf k = s.r.genOf k ∧ s.r.stateOf k = s.r.stateOf k) :=
    Or.inr ⟨rfl, rfl⟩
  cases he with
  | nop => exact h
  | tick d =>
    refine h.sub ?_ (fun _ h => h) (fun _ h _ => h) (fun _ h => h)
    simp only [advance, Redis.genOf, Redis.stateOf]
    rcases Option.eq_none_or_eq_some (s.r.runs k) with hr | ⟨v, hr⟩
    · left; simp [hr]
    · cases hx : Option.filter (fun h => match h.expireAt with
        | none => true
        | some e => decide (s.r.now + d < e)) (some v) with
      | none => left; rw [hr]; exact congrArg (Option.bind · Run.gen) hx
      | some v' =>
        have h2 := hx
        rw [Option.filter_eq_some_iff] at hx
        have : v = v' := by simpa using hx.1
        subst this
        right; rw [hr]
        exact ⟨congrArg (Option.bind · Run.gen) h2, congrArg (Option.bind · Run.state) h2⟩
  | addNow k' q t ht hwh hx =>
    by_cases hk : k = k'
    · subst hk
      exact h.fresh hgen hno (genOf_upd_same _ _ _) (Or.inl ⟨by simp [Redis.stateOf, queuedRun],
        fun _ h => h⟩) (fun _ h => h)
    · exact h.sub (Or.inr (runs_congr (upd_other _ _ _ _ hk))) (fun _ h => h)
        (happ hk rfl (fun _ h => h)) (fun _ h => h)
  | addLater k' q t ht hwh hx =>
    by_cases hk : k = k'
    · subst hk
      exact h.fresh hgen hno (genOf_upd_same _ _ _) (Or.inr ⟨by simp [Redis.stateOf, scheduledRun],
        fun _ h _ => h⟩) (fun _ h => h)
    · exact h.sub (Or.inr (runs_congr (upd_other _ _ _ _ hk)))
        (fun m hm => (upd_other _ _ _ _ hk).symm.trans hm) (fun _ h _ => h) (fun _ h => h)
  | replaceNow k' q t ht hwh =>
    by_cases hk : k = k'
    · subst hk
      exact h.fresh hgen hno (genOf_upd_same _ _ _) (Or.inl ⟨by simp [Redis.stateOf, queuedRun],
        hun k⟩) (fun _ h => h)
    · exact h.sub (Or.inr (runs_congr (upd_other _ _ _ _ hk))) (hun k')
        (happ hk rfl (fun _ h => mem_dropOwn h)) (fun _ h => h)
  | replaceLater k' q t ht hwh =>
    by_cases hk : k = k'
    · subst hk
      exact h.fresh hgen hno (genOf_upd_same _ _ _) (Or.inr ⟨by simp [Redis.stateOf, scheduledRun],
        fun _ h _ => mem_dropOwn h⟩) (fun _ h => h)
    · exact h.sub (Or.inr (runs_congr (upd_other _ _ _ _ hk)))
        (fun m hm => (upd_other _ _ _ _ hk).symm.trans hm) (fun _ h _ => mem_dropOwn h)
        (fun _ h => h)
  | cancel k' =>
    by_cases hk : k = k'
    · subst hk
      obtain ⟨h1, h2⟩ := hqs rfl
      constructor
      · intro m hm; simp at hm
      · intro e he hk
        have h3 := h2 e (mem_dropOwn he) hk
        simp only [dropOwn, h3, List.mem_filter, decide_eq_true_eq] at he
        exact absurd rfl he.2
      · intro p hp hk; exact absurd hk (h1 p hp)
      · intro p hp hk; exact absurd hk (h1 p hp)
      · exact h.unique
    · exact h.sub (Or.inr (runs_congr (upd_other _ _ _ _ hk))) (hun k')
        (fun _ h _ => mem_dropOwn h) (fun _ h => h)
  | cancelTtl k' hk' =>
    by_cases hk : k = k'
    · subst hk
      exact h.sub (hexp (upd_same _ _ _)) (fun _ h => h) (fun _ h _ => h) (fun _ h => h)
    · exact h.sub (Or.inr (runs_congr (upd_other _ _ _ _ hk))) (fun _ h => h) (fun _ h _ => h)
        (fun _ h => h)
  | clear op j js hop =>
    refine h.sub ?_ ?_ ?_ (fun _ h => h)
    · by_cases hk : k ∈ j.scheduledKeys ∨ k ∈ j.streamKeys
      · exact hexp (if_pos hk)
      · exact Or.inr (runs_congr (if_neg hk))
    · intro m hm
      simp only at hm
      split at hm
      · cases hm
      · exact hm
    · intro e he _
      simp only at he
      split at he
      · cases he
      · exact he
  | clearRead => exact h.sub hself (fun _ h => h) (fun _ h _ => h) (fun _ h => h)
  | schedule t ht =>
    by_cases hk : k ∈ dueKeys s.r t
    · obtain ⟨m0, hm0, _, hm0k⟩ := dueKeys_parked hw.queue hk
      have hrecord : HasRecord s k := by
        cases hr : s.r.genOf k with
        | none => exact absurd ⟨by simp [HasRecord, hr], Or.inr (Or.inl (by simp [hm0]))⟩ hno
        | some g => simp [HasRecord, hr]
      have hq : ∃ t', (k, t') ∈ s.r.queue := by
        simp only [dueKeys, List.mem_map, List.mem_filter] at hk
        obtain ⟨⟨a, b⟩, ⟨h1, _⟩, rfl⟩ := hk
        exact ⟨b, h1⟩
      obtain ⟨t', hq⟩ := hq
      obtain ⟨m1, hm1, hout⟩ := hkn.queue t' hq
      have hmm : m1 = m0 := Option.some.inj (hm1.symm.trans hm0)
      subst hmm
      have hcur := ((hc k m1 hout).2 hrecord).gen
      rw [hm0k] at hcur
      have hg' : ∀ g, (({ s.r.run k with state := some RunState.queued } : Run)).gen = some g →
          s.r.genOf k = some g := by
        intro g hg; rw [← run_gen]; exact hg
      constructor
      · intro m hm hg
        simp only [if_pos hk] at hm
        cases hm
      · intro e he hek hg
        left
        simp [Redis.stateOf, hk]
      · intro p hp hpk hg
        left
        simp [Redis.stateOf, hk]
      · intro p hp hpk hph hg
        simp only [Redis.genOf, if_pos hk, Option.bind_some] at hg
        have := hg' _ hg
        rw [hcur, Option.some.injEq] at this
        exact absurd this.symm (hgen.parked_procs m1 hm1 p hp hpk)
      · exact h.unique
    · refine h.sub (Or.inr (runs_congr (if_neg hk))) ?_ ?_ (fun _ h => h)
      · intro m hm
        simp only [if_neg hk] at hm
        exact hm
      · intro e he hek
        simp only [List.mem_append] at he
        rcases he with he | he
        · exact he
        · have hmem := (mem_numbered he).2.2
          simp only [List.mem_filterMap] at hmem
          obtain ⟨k2, hk2, hp2⟩ := hmem
          have := hw.queue.key _ _ hp2
          rw [← this, hek] at hk2
          exact absurd hk2 hk
  | poll w n new hnew =>
    have hsub : ∀ e ∈ new, e ∈ s.r.stream ∧ s.r.lastDelivered < e.1 := by
      intro e he
      rw [hnew] at he
      have := List.mem_filter.1 (List.mem_of_mem_take he)
      exact ⟨this.1, by simpa using this.2⟩
    have hinj : ∀ p ∈ newProcs s.nextPid w false new, ∀ p' ∈ newProcs s.nextPid w false new,
        p.id = p'.id → p = p' := by
      have hn : (new.map (·.1)).Nodup := by
        have hs := hw.stream.sorted
        have : new.Pairwise (fun a b => a.1 < b.1) := by
          rw [hnew]
          exact (hs.filter _).take
        rw [List.Nodup, List.pairwise_map]
        exact this.imp (fun h => Nat.ne_of_lt h)
      clear hnew hsub
      generalize s.nextPid = np
      induction new generalizing np with
      | nil => simp [newProcs]
      | cons e es ih =>
        simp only [List.map_cons, List.nodup_cons] at hn
        have hne : ∀ p ∈ newProcs (np + 1) w false es, p.id ≠ e.1 := by
          intro p hp hid
          exact hn.1 (List.mem_map.2 ⟨_, (mem_newProcs hp).1, hid⟩)
        intro p hp p' hp' hid
        simp only [newProcs, List.mem_cons] at hp hp'
        rcases hp with rfl | hp <;> rcases hp' with rfl | hp'
        · rfl
        · exact absurd hid.symm (hne p' hp')
        · exact absurd hid (hne p hp)
        · exact ih hn.2 _ p hp p' hp' hid
    constructor
    · exact h.parked
    · exact h.stream
    · intro p hp hk hg
      simp only [List.mem_append] at hp
      rcases hp with hp | hp
      · exact h.held p hp hk hg
      · exact h.stream _ (hsub _ (mem_newProcs hp).1).1 hk hg
    · intro p hp hk hph hg
      simp only [List.mem_append] at hp
      rcases hp with hp | hp
      · exact h.running p hp hk hph hg
      · rw [(mem_newProcs hp).2.1] at hph; cases hph
    · intro p hp p' hp' hk hid
      simp only [List.mem_append] at hp hp'
      rcases hp with hp | hp <;> rcases hp' with hp' | hp'
      · exact h.unique p hp p' hp' hk hid
      · have h1 := (hw.procs.1 p hp).1
        have h2 := (hsub _ (mem_newProcs hp').1).2
        simp only at h2; omega
      · have h1 := (hw.procs.1 p' hp').1
        have h2 := (hsub _ (mem_newProcs hp).1).2
        simp only at h2; omega
      · exact hinj p hp p' hp' hid
  | redeliver w pe e hpe hes hid hidle =>
    constructor
    · exact h.parked
    · exact h.stream
    · intro p hp hk hg
      simp only [List.mem_append, List.mem_singleton] at hp
      rcases hp with hp | rfl
      · exact h.held p hp hk hg
      · exact h.stream _ hes hk hg
    · intro p hp hk hph hg
      simp only [List.mem_append, List.mem_singleton] at hp
      rcases hp with hp | rfl
      · exact h.running p hp hk hph hg
      · cases hph
    · intro p hp p' hp' hk hid'
      simp only [List.mem_append, List.mem_singleton] at hp hp'
      rcases hp with hp | rfl <;> rcases hp' with hp' | rfl
      · exact h.unique p hp p' hp' hk hid'
      · exact absurd hid' (hqs p hp hk)
      · have hm := (hw.procs.1 p' hp').2.2 e hes hid'
        simp only at hk hid'
        exact absurd hid'.symm (hqs p' hp' (by rw [← hm]; exact hk))
      · rfl
  | forget id hm => exact h.sub hself (fun _ h => h) (fun _ h _ => h) (fun _ h => h)
  | renew w id => exact h.sub hself (fun _ h => h) (fun _ h _ => h) (fun _ h => h)
  | crash w => exact h.sub hself (fun _ h => h) (fun _ h _ => h) (fun _ h => mem_filter_of h)
  | abandon pid => exact h.sub hself (fun _ h => h) (fun _ h _ => h) (fun _ h => mem_filter_of h)
  | strikeOut p hp hph =>
    have hk : k ≠ p.msg.key := fun hk => hord.2 p hp rfl hk.symm
    have hrc := runs_congr (s := s) (s' := { s with
        r := { s.r with runs := upd s.r.runs p.msg.key ((s.r.runs p.msg.key).map
          (fun h => { h with known := none, streamId := none })) } }) (k := k)
      (upd_other _ _ _ _ hk)
    have hback : ∀ x ∈ s.procs.map (fun x => if x.pid = p.pid then
        { x with phase := Phase.stricken } else x), ∃ y ∈ s.procs, y.msg = x.msg ∧
          (x.phase = .running → y.phase = .running) := by
      intro x hx
      obtain ⟨y, hy, rfl⟩ := List.mem_map.1 hx
      refine ⟨y, hy, ?_, ?_⟩
      · split <;> rfl
      · split
        · intro h; cases h
        · exact id
    constructor
    · intro m hm hg; rw [hrc.2]; exact h.parked m hm (hrc.1 ▸ hg)
    · intro e he hek hg; rw [hrc.2]; exact h.stream e he hek (hrc.1 ▸ hg)
    · intro x hx hxk hg
      obtain ⟨y, hy, hm, _⟩ := hback x hx
      rw [hrc.2]; rw [← hm] at hxk hg; exact h.held y hy hxk (hrc.1 ▸ hg)
    · intro x hx hxk hph' hg
      obtain ⟨y, hy, hm, hr⟩ := hback x hx
      rw [hrc.2]; rw [← hm] at hxk hg; exact h.running y hy hxk (hr hph') (hrc.1 ▸ hg)
    · exact h.phase p.pid .stricken
  | claimSuperseded p hp hph hs =>
    exact h.sub hself (fun _ h => h) (fun _ h _ => mem_filter_of h) (fun _ h => mem_filter_of h)
  | claim p hp hph hs =>
    by_cases hk : k = p.msg.key
    · have hg := current_of_not_superseded hgen hp hk.symm (hor.pos _ (hor.procs p hp)) hs
      have hst : (Redis.stateOf { s.r with
          runs := upd s.r.runs p.msg.key (some (claimedRun s.r p.msg.key p.worker)) } k) =
          some .running := by rw [hk]; simp [Redis.stateOf, claimedRun]
      constructor
      · intro m hm hgm
        have h1 : s.r.genOf k = some m.gen := by
          rw [hk] at hgm ⊢
          simp only [Redis.genOf, upd_same, Option.bind_some, claimedRun] at hgm
          rw [← run_gen]; exact hgm
        rw [hg, Option.some.injEq] at h1
        exact absurd h1 (hgen.parked_procs m hm p hp hk.symm)
      · intro _ _ _ _; exact Or.inr hst
      · intro _ _ _ _; exact Or.inr hst
      · intro _ _ _ _ _; exact hst
      · exact h.phase p.pid .running
    · have hrc := runs_congr (s := s) (s' := { s with
          r := { s.r with
            runs := upd s.r.runs p.msg.key (some (claimedRun s.r p.msg.key p.worker)) } }) (k := k)
        (upd_other _ _ _ _ hk)
      have hback : ∀ x ∈ s.procs.map (fun x => if x.pid = p.pid then
          { x with phase := Phase.running } else x), x.msg.key = k → ∃ y ∈ s.procs, y.msg = x.msg ∧
            (x.phase = .running → y.phase = .running) := by
        intro x hx hxk
        obtain ⟨y, hy, rfl⟩ := List.mem_map.1 hx
        refine ⟨y, hy, ?_, ?_⟩
        · split <;> rfl
        · split
          · rename_i hpid
            have h1 := proc?_of_mem hw hy
            have h2 := proc?_of_mem hw hp
            rw [hpid, h2] at h1
            have := Option.some.inj h1
            subst this
            simp only [if_pos] at hxk
            exact absurd hxk.symm hk
          · exact id
      constructor
      · intro m hm hg; exact hrc.2.trans (h.parked m hm (hrc.1 ▸ hg))
      · intro e he hek hg
        have := h.stream e he hek (hrc.1 ▸ hg)
        rw [← hrc.2] at this; exact this
      · intro x hx hxk hg
        obtain ⟨y, hy, hm, _⟩ := hback x hx hxk
        rw [← hm] at hxk hg
        have := h.held y hy hxk (hrc.1 ▸ hg)
        rw [← hrc.2] at this; exact this
      · intro x hx hxk hph' hg
        obtain ⟨y, hy, hm, hr⟩ := hback x hx hxk
        rw [← hm] at hxk hg
        exact hrc.2.trans (h.running y hy hxk (hr hph') (hrc.1 ▸ hg))
      · exact h.phase p.pid .running
  | store p data => exact h.sub hself (fun _ h => h) (fun _ h _ => h) (fun _ h => h)
  | finish p st e w hp hph hs =>
    by_cases hk : k = p.msg.key
    · have hg := current_of_not_superseded hgen hp hk.symm (hor.pos _ (hor.procs p hp)) hs
      have hback : ∀ g, (Redis.genOf { s.r with
          runs := upd s.r.runs p.msg.key (if cfg.ttl > 0 then some (terminalRun cfg.ttl s.r
            p.msg.key st e (if w then some p.msg.key else none)) else none) } k) = some g →
          g = p.msg.gen := by
        intro g hgg
        rw [hk] at hgg hg
        simp only [Redis.genOf, upd_same] at hgg
        split at hgg
        · simp only [Option.bind_some, terminalRun] at hgg
          rw [run_gen, hg] at hgg
          exact (Option.some.inj hgg).symm
        · cases hgg
      constructor
      · intro m hm hgm
        exact absurd (hback _ hgm).symm (hgen.parked_procs m hm p hp hk.symm)
      · intro x hx hxk hgx
        have h1 := List.mem_filter.1 hx
        have := hgen.procs_stream p hp x h1.1 hk.symm hxk (hback _ hgx).symm
        simp [this] at h1
      · intro x hx hxk hgx
        have h1 := List.mem_filter.1 hx
        have h2 := hgen.procs_procs p hp x h1.1 hk.symm hxk (hback _ hgx).symm
        have := h.unique p hp x h1.1 hk.symm h2
        simp [this] at h1
      · intro x hx hxk _ hgx
        have h1 := List.mem_filter.1 hx
        have h2 := hgen.procs_procs p hp x h1.1 hk.symm hxk (hback _ hgx).symm
        have := h.unique p hp x h1.1 hk.symm h2
        simp [this] at h1
      · intro x hx x' hx'
        exact h.unique x (mem_filter_of hx) x' (mem_filter_of hx')
    · exact h.sub (Or.inr (runs_congr (upd_other _ _ _ _ hk))) (fun _ h => h)
        (fun _ h _ => mem_filter_of h) (fun _ h => mem_filter_of h)
  | finishSuperseded p st e w hp hph hs =>
    exact h.sub hself (fun _ h => h) (fun _ h _ => mem_filter_of h) (fun _ h => mem_filter_of h)
  | rescheduleNow p t a d q hp hph hq hd hwh =>
    by_cases hk : k = p.msg.key
    · have hg := hord.2 p hp rfl hk.symm
      refine h.fresh hgen hno ?_ (Or.inl ⟨?_, fun _ h => h⟩) (fun _ h => mem_filter_of h)
      · rw [hk]; exact genOf_upd_same _ _ _
      · rw [hk]; simp [Redis.stateOf, queuedRun]
    · exact h.sub (Or.inr (runs_congr (upd_other _ _ _ _ hk))) (fun _ h => h)
        (happ hk rfl (fun _ h => mem_filter_of h)) (fun _ h => mem_filter_of h)
  | rescheduleLater p t a d q hp hph hq hd hwh =>
    by_cases hk : k = p.msg.key
    · have hg := hord.2 p hp rfl hk.symm
      refine h.fresh hgen hno ?_ (Or.inr ⟨?_, fun _ h _ => mem_filter_of h⟩)
        (fun _ h => mem_filter_of h)
      · rw [hk]; exact genOf_upd_same _ _ _
      · rw [hk]; simp [Redis.stateOf, scheduledRun]
    · exact h.sub (Or.inr (runs_congr (upd_other _ _ _ _ hk)))
        (fun m hm => (upd_other _ _ _ _ hk).symm.trans hm)
        (fun _ h _ => mem_filter_of h) (fun _ h => mem_filter_of h)
  | prog op k' f => exact h.sub hself (fun _ h => h) (fun _ h _ => h) (fun _ h => h)

/-- All invariants of C05 and C17 along an orderly and quiet history. -/
structure CalmInv (s : Sys) (k : Key) : Prop where
  wf : WF s
  carried : CarriedInv s
  origin : OriginInv s
  gens : GenInv s k
  known : KnownInv s k
  life : LifeInv s k

theorem CalmInv.init (k : Key) : CalmInv {} k :=
  ⟨WF.init, CarriedInv.init, OriginInv.run ⟨0, 0⟩ [], GenInv.init k, KnownInv.init k,
    by constructor <;> simp⟩

/-- The step is orderly and quiet for `k`. -/
def CalmStep (k : Key) (s : Sys) (op : Op) : Prop := OrderlyStep k s op ∧ QuietStep k s op

instance (k : Key) (s : Sys) (op : Op) : Decidable (CalmStep k s op) := by
  unfold CalmStep; infer_instance

theorem CalmInv.step {cfg : Cfg} {s : Sys} {k : Key} (h : CalmInv s k) (op : Op)
    (hc : CalmStep k s op) : CalmInv (step cfg s op) k :=
  ⟨h.wf.step op, h.carried.step h.wf op, h.origin.step h.wf op,
    h.gens.step h.wf hc.1.notOrphaned op,
    h.known.step h.wf h.carried h.origin h.gens op hc.1,
    h.life.step h.wf h.carried h.origin h.gens h.known op hc.1 hc.2⟩

theorem CalmInv.runFrom {cfg : Cfg} {k : Key} (ops : List Op) : ∀ {s : Sys}, CalmInv s k →
    EachStep cfg (CalmStep k) s ops → CalmInv (runFrom cfg s ops) k := by
  induction ops with
  | nil => intro s h _; exact h
  | cons o ops ih => intro s h hc; exact ih (h.step o hc.1) hc.2

end Docket
