import Verif.Core.Log
/-
Where messages come from: every message in existence was accepted, every
execution in progress was handed out and started.
-/
namespace Docket
open Redis

structure OriginInv (s : Sys) : Prop where
  stream : ∀ e ∈ s.r.stream, Event.accepted e.2 ∈ s.log
  parked : ∀ k m, s.r.parked k = some m → Event.accepted m ∈ s.log
  procs : ∀ p ∈ s.procs, Event.accepted p.msg ∈ s.log
  handed : ∀ pid id w b t m, Event.handed pid id w b t m ∈ s.log → Event.accepted m ∈ s.log
  started : ∀ pid id m t, Event.started pid id m t ∈ s.log → Event.accepted m ∈ s.log
  pos : ∀ m, Event.accepted m ∈ s.log → 0 < m.gen
  isHanded : ∀ p ∈ s.procs, ∃ t, Event.handed p.pid p.id p.worker p.redelivered t p.msg ∈ s.log
  running : ∀ p ∈ s.procs, p.phase = .running → ∃ t, Event.started p.pid p.id p.msg t ∈ s.log
  stricken : ∀ p ∈ s.procs, p.phase = .stricken → Event.struck p.pid p.msg ∈ s.log
  finished : ∀ pid id m st c, Event.finished pid id m st c ∈ s.log →
    st.terminal = true ∧ ((∃ t, Event.started pid id m t ∈ s.log) ∨
      (st = .cancelled ∧ Event.struck pid m ∈ s.log))

theorem mem_newHanded_of_newProcs {pid : Nat} {w : WorkerName} {red : Bool} {t : Time}
    {ms : List (MsgId × Msg)} {p : Proc} (h : p ∈ newProcs pid w red ms) :
    Event.handed p.pid p.id p.worker p.redelivered t p.msg ∈ newHanded pid w red t ms := by
  induction ms generalizing pid with
  | nil => simp [newProcs] at h
  | cons e es ih =>
    simp only [newProcs, List.mem_cons] at h
    simp only [newHanded, List.mem_cons]
    rcases h with rfl | h
    · exact Or.inl rfl
    · exact Or.inr (ih h)

/-- Steps that add events but no messages and only shrink the sets of messages. -/
theorem OriginInv.sub {s s' : Sys} (h : OriginInv s) (l : List Event)
    (hl : s'.log = l ++ s.log)
    (hst : ∀ e ∈ s'.r.stream, e ∈ s.r.stream ∨ Event.accepted e.2 ∈ s'.log)
    (hpk : ∀ k m, s'.r.parked k = some m → s.r.parked k = some m ∨ Event.accepted m ∈ s'.log)
    (hps : ∀ p ∈ s'.procs, p ∈ s.procs ∨ (Event.accepted p.msg ∈ s'.log ∧
      (∃ t, Event.handed p.pid p.id p.worker p.redelivered t p.msg ∈ s'.log) ∧
      (p.phase = .running → ∃ t, Event.started p.pid p.id p.msg t ∈ s'.log) ∧
      (p.phase = .stricken → Event.struck p.pid p.msg ∈ s'.log)))
    (hh : ∀ pid id w b t m, Event.handed pid id w b t m ∈ l → Event.accepted m ∈ s'.log)
    (hs : ∀ pid id m t, Event.started pid id m t ∈ l → Event.accepted m ∈ s'.log)
    (ha : ∀ m, Event.accepted m ∈ l → 0 < m.gen)
    (hf : ∀ pid id m st c, Event.finished pid id m st c ∈ l →
      st.terminal = true ∧ ((∃ t, Event.started pid id m t ∈ s'.log) ∨
        (st = .cancelled ∧ Event.struck pid m ∈ s'.log))) :
    OriginInv s' := by
  have hmem : ∀ ev, ev ∈ s.log → ev ∈ s'.log := by intro ev h; rw [hl]; simp [h]
  have hcase : ∀ ev, ev ∈ s'.log → ev ∈ l ∨ ev ∈ s.log := by
    intro ev h; rw [hl] at h; simpa using h
  constructor
  · intro e he
    rcases hst e he with h1 | h1
    · exact hmem _ (h.stream e h1)
    · exact h1
  · intro k m hm
    rcases hpk k m hm with h1 | h1
    · exact hmem _ (h.parked k m h1)
    · exact h1
  · intro p hp
    rcases hps p hp with h1 | h1
    · exact hmem _ (h.procs p h1)
    · exact h1.1
  · intro pid id w b t m hm
    rcases hcase _ hm with h1 | h1
    · exact hh _ _ _ _ _ _ h1
    · exact hmem _ (h.handed _ _ _ _ _ _ h1)
  · intro pid id m t hm
    rcases hcase _ hm with h1 | h1
    · exact hs _ _ _ _ h1
    · exact hmem _ (h.started _ _ _ _ h1)
  · intro m hm
    rcases hcase _ hm with h1 | h1
    · exact ha _ h1
    · exact h.pos _ h1
  · intro p hp
    rcases hps p hp with h1 | h1
    · obtain ⟨t, ht⟩ := h.isHanded p h1; exact ⟨t, hmem _ ht⟩
    · exact h1.2.1
  · intro p hp hph
    rcases hps p hp with h1 | h1
    · obtain ⟨t, ht⟩ := h.running p h1 hph; exact ⟨t, hmem _ ht⟩
    · exact h1.2.2.1 hph
  · intro p hp hph
    rcases hps p hp with h1 | h1
    · exact hmem _ (h.stricken p h1 hph)
    · exact h1.2.2.2 hph
  · intro pid id m st c hm
    rcases hcase _ hm with h1 | h1
    · exact hf _ _ _ _ _ h1
    · obtain ⟨h2, h3⟩ := h.finished _ _ _ _ _ h1
      refine ⟨h2, ?_⟩
      rcases h3 with ⟨t, ht⟩ | ⟨h4, h5⟩
      · exact Or.inl ⟨t, hmem _ ht⟩
      · exact Or.inr ⟨h4, hmem _ h5⟩

theorem OriginInv.step {cfg : Cfg} {s : Sys} (hw : WF s) (h : OriginInv s) (op : Op) :
    OriginInv (step cfg s op) := by
  have he := step_eff cfg s hw.queue op
  generalize Docket.step cfg s op = s' at he
  have hupdP : ∀ k' k m, upd s.r.parked k' none k = some m → s.r.parked k = some m := by
    intro k' k m hm
    rcases upd_eq_some hm with ⟨_, h1⟩ | ⟨_, h1⟩
    · simp at h1
    · exact h1
  have hfilS : ∀ id : MsgId, ∀ e ∈ s.r.stream.filter (fun e => e.1 ≠ id), e ∈ s.r.stream :=
    fun _ _ h => (List.mem_filter.1 h).1
  cases he with
  | nop => exact h
  | tick d =>
    exact h.sub [] rfl (fun e he => Or.inl he) (fun k m hm => Or.inl hm)
      (fun p hp => Or.inl hp) (by simp) (by simp) (by simp) (by simp)
  | addNow k q t ht hwh hx =>
    refine h.sub [_] rfl ?_ (fun k m hm => Or.inl hm)
      (fun p hp => Or.inl hp) (by simp) (by simp) ?_ (by simp)
    · intro e he
      simp only [List.mem_append, List.mem_singleton] at he
      rcases he with he | rfl
      · exact Or.inl he
      · simp
    · simp [nextGen_pos]
  | addLater k q t ht hwh hx =>
    refine h.sub [_] rfl (fun e he => Or.inl he) ?_
      (fun p hp => Or.inl hp) (by simp) (by simp) ?_ (by simp)
    · intro k' m hm
      rcases upd_eq_some hm with ⟨_, h1⟩ | ⟨_, h1⟩
      · simp only [Option.some.injEq] at h1; subst h1; simp
      · exact Or.inl h1
    · simp [nextGen_pos]
  | replaceNow k q t ht hwh =>
    refine h.sub [_] rfl ?_ (fun k' m hm => Or.inl (hupdP _ _ _ hm))
      (fun p hp => Or.inl hp) (by simp) (by simp) ?_ (by simp)
    · intro e he
      simp only [List.mem_append, List.mem_singleton] at he
      rcases he with he | rfl
      · exact Or.inl (mem_dropOwn he)
      · simp
    · simp [nextGen_pos]
  | replaceLater k q t ht hwh =>
    refine h.sub [_] rfl (fun e he => Or.inl (mem_dropOwn he)) ?_
      (fun p hp => Or.inl hp) (by simp) (by simp) ?_ (by simp)
    · intro k' m hm
      rcases upd_eq_some hm with ⟨_, h1⟩ | ⟨_, h1⟩
      · simp only [Option.some.injEq] at h1; subst h1; simp
      · exact Or.inl h1
    · simp [nextGen_pos]
  | cancel k =>
    exact h.sub [_] rfl (fun e he => Or.inl (mem_dropOwn he)) (fun k' m hm => Or.inl (hupdP _ _ _ hm))
      (fun p hp => Or.inl hp) (by simp) (by simp) (by simp) (by simp)
  | cancelTtl k =>
    exact h.sub [] rfl (fun e he => Or.inl he) (fun k m hm => Or.inl hm)
      (fun p hp => Or.inl hp) (by simp) (by simp) (by simp) (by simp)
  | clear op j js hop =>
    refine h.sub [_] rfl ?_ ?_
      (fun p hp => Or.inl hp) (by simp) (by simp) (by simp) (by simp)
    · intro e he
      simp only at he
      split at he
      · simp at he
      · exact Or.inl he
    · intro k m hm
      simp only at hm
      split at hm
      · simp at hm
      · exact Or.inl hm
  | clearRead =>
    exact h.sub [] rfl (fun e he => Or.inl he) (fun k m hm => Or.inl hm)
      (fun p hp => Or.inl hp) (by simp) (by simp) (by simp) (by simp)
  | schedule t ht =>
    refine h.sub [] rfl ?_ ?_
      (fun p hp => Or.inl hp) (by simp) (by simp) (by simp) (by simp)
    · intro e he
      simp only [List.mem_append] at he
      rcases he with he | he
      · exact Or.inl he
      · have h1 := (mem_numbered he).2.2
        rw [List.mem_filterMap] at h1
        obtain ⟨k, _, hk⟩ := h1
        exact Or.inr (h.parked _ _ hk)
    · intro k m hm
      simp only at hm
      split at hm
      · simp at hm
      · exact Or.inl hm
  | poll w n new hnew =>
    have hin : ∀ e ∈ new, e ∈ s.r.stream := by
      intro e he
      rw [hnew] at he
      exact (List.mem_filter.1 (List.mem_of_mem_take he)).1
    refine h.sub (newHanded s.nextPid w false s.r.now new).reverse rfl
      (fun e he => Or.inl he) (fun k m hm => Or.inl hm) ?_ ?_ ?_ ?_ ?_
    · intro p hp
      simp only [List.mem_append] at hp
      rcases hp with hp | hp
      · exact Or.inl hp
      · right
        have h1 := mem_newProcs hp
        refine ⟨?_, ⟨s.r.now, ?_⟩, ?_, ?_⟩
        · simp only [List.mem_append]; exact Or.inr (h.stream _ (hin _ h1.1))
        · simp only [List.mem_append, List.mem_reverse]
          exact Or.inl (mem_newHanded_of_newProcs hp)
        · intro hc; rw [h1.2.1] at hc; simp at hc
        · intro hc; rw [h1.2.1] at hc; simp at hc
    · intro pid id w' b t m hm
      obtain ⟨p, e, heq, he, _⟩ := mem_newHanded (List.mem_reverse.1 hm)
      simp only [Event.handed.injEq] at heq
      obtain ⟨_, _, _, _, _, rfl⟩ := heq
      simp only [List.mem_append]; exact Or.inr (h.stream _ (hin _ he))
    · intro pid id m t hm
      obtain ⟨p, e, heq, he, _⟩ := mem_newHanded (List.mem_reverse.1 hm)
      simp at heq
    · intro m hm
      obtain ⟨p, e, heq, he, _⟩ := mem_newHanded (List.mem_reverse.1 hm)
      simp at heq
    · intro pid id m st c hm
      obtain ⟨p, e, heq, he, _⟩ := mem_newHanded (List.mem_reverse.1 hm)
      simp at heq
  | redeliver w p e hp hem hid hidle =>
    refine h.sub [_] rfl (fun e he => Or.inl he) (fun k m hm => Or.inl hm) ?_ ?_
      (by simp) (by simp) (by simp)
    · intro p hp
      simp only [List.mem_append, List.mem_singleton] at hp
      rcases hp with hp | rfl
      · exact Or.inl hp
      · right
        exact ⟨by simp [h.stream _ hem], ⟨s.r.now, by simp⟩, by simp, by simp⟩
    · intro pid id w' b t m hm
      simp only [List.mem_singleton, Event.handed.injEq] at hm
      obtain ⟨_, _, _, _, _, rfl⟩ := hm
      simp [h.stream _ hem]
  | forget id hm =>
    exact h.sub [] rfl (fun e he => Or.inl he) (fun k m hm => Or.inl hm)
      (fun p hp => Or.inl hp) (by simp) (by simp) (by simp) (by simp)
  | renew w id =>
    exact h.sub [_] rfl (fun e he => Or.inl he) (fun k m hm => Or.inl hm)
      (fun p hp => Or.inl hp) (by simp) (by simp) (by simp) (by simp)
  | crash w =>
    exact h.sub [] rfl (fun e he => Or.inl he) (fun k m hm => Or.inl hm)
      (fun p hp => Or.inl (List.mem_filter.1 hp).1) (by simp) (by simp) (by simp) (by simp)
  | abandon pid =>
    exact h.sub [] rfl (fun e he => Or.inl he) (fun k m hm => Or.inl hm)
      (fun p hp => Or.inl (List.mem_filter.1 hp).1) (by simp) (by simp) (by simp) (by simp)
  | strikeOut p hp hph =>
    refine h.sub [_] rfl (fun e he => Or.inl he) (fun k m hm => Or.inl hm) ?_
      (by simp) (by simp) (by simp) (by simp)
    intro p' hp'
    obtain ⟨x, hx, rfl⟩ := List.mem_map.1 hp'
    split
    · rename_i hpid
      right
      have : x = p := by
        have h1 := proc?_of_mem hw hx
        have h2 := proc?_of_mem hw hp
        rw [hpid, h2] at h1
        simpa using h1.symm
      subst this
      refine ⟨by simp [h.procs _ hx], ?_, by simp, by simp⟩
      obtain ⟨t, ht⟩ := h.isHanded _ hx
      exact ⟨t, by simp [ht]⟩
    · exact Or.inl hx
  | claimSuperseded p hp hph hs =>
    exact h.sub [] rfl (fun e he => Or.inl (hfilS _ e he)) (fun k m hm => Or.inl hm)
      (fun p hp => Or.inl (List.mem_filter.1 hp).1) (by simp) (by simp) (by simp) (by simp)
  | claim p hp hph hs =>
    refine h.sub [_] rfl (fun e he => Or.inl he) (fun k m hm => Or.inl hm) ?_
      (by simp) ?_ (by simp) (by simp)
    · intro p' hp'
      obtain ⟨x, hx, rfl⟩ := List.mem_map.1 hp'
      split
      · rename_i hpid
        right
        have : x = p := by
          have h1 := proc?_of_mem hw hx
          have h2 := proc?_of_mem hw hp
          rw [hpid, h2] at h1
          simpa using h1.symm
        subst this
        refine ⟨by simp [h.procs _ hx], ?_, ?_, by simp⟩
        · obtain ⟨t, ht⟩ := h.isHanded _ hx
          exact ⟨t, by simp [ht]⟩
        · intro _; exact ⟨s.r.now, by simp⟩
      · exact Or.inl hx
    · intro pid id m t hm
      simp only [List.mem_singleton, Event.started.injEq] at hm
      obtain ⟨_, _, rfl, _⟩ := hm
      simp [h.procs p hp]
  | store p data =>
    exact h.sub [] rfl (fun e he => Or.inl he) (fun k m hm => Or.inl hm)
      (fun p hp => Or.inl hp) (by simp) (by simp) (by simp) (by simp)
  | finish p st e w hp hph hs =>
    refine h.sub [_] rfl (fun e he => Or.inl (hfilS _ e he)) (fun k m hm => Or.inl hm)
      (fun p hp => Or.inl (List.mem_filter.1 hp).1) (by simp) (by simp) (by simp) ?_
    intro pid id m st' c hm
    simp only [List.mem_singleton, Event.finished.injEq] at hm
    obtain ⟨rfl, rfl, rfl, rfl, rfl⟩ := hm
    rcases hph with ⟨h1, h2⟩ | ⟨h1, h2⟩
    · obtain ⟨t, ht⟩ := h.running p hp h1
      exact ⟨h2, Or.inl ⟨t, by simp [ht]⟩⟩
    · subst h2
      exact ⟨rfl, Or.inr ⟨rfl, by simp [h.stricken p hp h1]⟩⟩
  | finishSuperseded p st e w hp hph hs =>
    refine h.sub [_] rfl (fun e he => Or.inl (hfilS _ e he)) (fun k m hm => Or.inl hm)
      (fun p hp => Or.inl (List.mem_filter.1 hp).1) (by simp) (by simp) (by simp) ?_
    intro pid id m st' c hm
    simp only [List.mem_singleton, Event.finished.injEq] at hm
    obtain ⟨rfl, rfl, rfl, rfl, rfl⟩ := hm
    rcases hph with ⟨h1, h2⟩ | ⟨h1, h2⟩
    · obtain ⟨t, ht⟩ := h.running p hp h1
      exact ⟨h2, Or.inl ⟨t, by simp [ht]⟩⟩
    · subst h2
      exact ⟨rfl, Or.inr ⟨rfl, by simp [h.stricken p hp h1]⟩⟩
  | rescheduleNow p t a d q hp hph hq hd hwh =>
    refine h.sub [_] rfl ?_ (fun k' m hm => Or.inl hm)
      (fun p hp => Or.inl (List.mem_filter.1 hp).1) (by simp) (by simp) ?_ (by simp)
    · intro e he
      simp only [List.mem_append, List.mem_singleton] at he
      rcases he with he | rfl
      · exact Or.inl (hfilS _ e he)
      · simp
    · simp [nextGen_pos]
  | rescheduleLater p t a d q hp hph hq hd hwh =>
    refine h.sub [_] rfl (fun e he => Or.inl (hfilS _ e he)) ?_
      (fun p hp => Or.inl (List.mem_filter.1 hp).1) (by simp) (by simp) ?_ (by simp)
    · intro k' m hm
      rcases upd_eq_some hm with ⟨_, h1⟩ | ⟨_, h1⟩
      · simp only [Option.some.injEq] at h1; subst h1; simp
      · exact Or.inl h1
    · simp [nextGen_pos]
  | prog op k f =>
    exact h.sub [] rfl (fun e he => Or.inl he) (fun k m hm => Or.inl hm)
      (fun p hp => Or.inl hp) (by simp) (by simp) (by simp) (by simp)

theorem OriginInv.run (cfg : Cfg) (ops : List Op) : OriginInv (run cfg ops) := by
  have : ∀ s, WF s → OriginInv s → OriginInv (runFrom cfg s ops) := by
    induction ops with
    | nil => intro s _ h; exact h
    | cons o ops ih => intro s hw h; exact ih _ (hw.step o) (h.step hw o)
  refine this _ WF.init ?_
  constructor <;> simp

/-- What a step does to the generation of a key. -/
theorem gen_step (cfg : Cfg) {s : Sys} (hw : WF s) (op : Op) (k : Key) :
    (step cfg s op).r.genOf k = none ∨ (step cfg s op).r.genOf k = s.r.genOf k ∨
      ∃ m, (step cfg s op).log = .accepted m :: s.log ∧ m.key = k ∧ m.gen = s.r.nextGen k ∧
        (step cfg s op).r.genOf k = some m.gen := by
  have he := step_eff cfg s hw.queue op
  generalize Docket.step cfg s op = s' at he
  have hacc : ∀ k' v, v.gen = some (s.r.nextGen k') → ∀ q : Request,
      (upd s.r.runs k' (some v) k).bind (·.gen) = s.r.genOf k ∨
      ∃ m, Event.accepted ⟨k', q, s.r.nextGen k'⟩ :: s.log = .accepted m :: s.log ∧ m.key = k ∧
        m.gen = s.r.nextGen k ∧ (upd s.r.runs k' (some v) k).bind (·.gen) = some m.gen := by
    intro k' v hv q
    by_cases hk : k = k'
    · subst hk
      exact Or.inr ⟨_, rfl, rfl, rfl, by simp [hv]⟩
    · exact Or.inl (by simp [Redis.genOf, upd, hk])
  have hexp : (expiredRun cfg.ttl s.r k).bind (·.gen) = none ∨
      (expiredRun cfg.ttl s.r k).bind (·.gen) = s.r.genOf k := by
    simp only [expiredRun, Redis.genOf]
    split
    · right; cases s.r.runs k <;> rfl
    · left; rfl
  cases he with
  | nop => exact Or.inr (Or.inl rfl)
  | tick d =>
    simp only [Redis.genOf, advance]
    cases s.r.runs k with
    | none => simp
    | some r0 => simp only [Option.filter]; split <;> simp
  | addNow k' q => exact Or.inr (hacc k' _ rfl q)
  | addLater k' q => exact Or.inr (hacc k' _ rfl q)
  | replaceNow k' q => exact Or.inr (hacc k' _ rfl q)
  | replaceLater k' q => exact Or.inr (hacc k' _ rfl q)
  | cancel k' =>
    right; left
    by_cases hk : k = k'
    · subst hk; simp only [Redis.genOf, upd_same, Option.bind_some]; exact cancelRun_gen _ _
    · simp [Redis.genOf, upd, hk]
  | cancelTtl k' =>
    by_cases hk : k = k'
    · subst hk
      rcases hexp with h | h
      · left; simpa [Redis.genOf] using h
      · right; left; simpa [Redis.genOf] using h
    · right; left; simp [Redis.genOf, upd, hk]
  | clear op j js =>
    simp only [Redis.genOf]
    split
    · rcases hexp with h | h
      · left; exact h
      · right; left; exact h
    · right; left; rfl
  | clearRead => exact Or.inr (Or.inl rfl)
  | schedule t ht =>
    right; left
    simp only [Redis.genOf]
    split
    · simpa [Redis.genOf] using run_gen s.r k
    · rfl
  | poll => exact Or.inr (Or.inl rfl)
  | redeliver => exact Or.inr (Or.inl rfl)
  | forget => exact Or.inr (Or.inl rfl)
  | renew => exact Or.inr (Or.inl rfl)
  | crash => exact Or.inr (Or.inl rfl)
  | abandon => exact Or.inr (Or.inl rfl)
  | strikeOut p =>
    right; left
    by_cases hk : k = p.msg.key
    · rw [hk]; simp only [Redis.genOf, upd_same]; cases s.r.runs p.msg.key <;> rfl
    · simp [Redis.genOf, upd, hk]
  | claimSuperseded => exact Or.inr (Or.inl rfl)
  | claim p =>
    right; left
    by_cases hk : k = p.msg.key
    · rw [hk]; simpa [Redis.genOf, claimedRun] using run_gen s.r p.msg.key
    · simp [Redis.genOf, upd, hk]
  | store => exact Or.inr (Or.inl rfl)
  | finish p st e w =>
    by_cases hk : k = p.msg.key
    · by_cases ht : cfg.ttl > 0
      · right; left
        rw [hk]; simpa [Redis.genOf, terminalRun, ht] using run_gen s.r p.msg.key
      · left; rw [hk]; simp [Redis.genOf, ht]
    · right; left; simp [Redis.genOf, upd, hk]
  | finishSuperseded => exact Or.inr (Or.inl rfl)
  | rescheduleNow p t a d q => exact Or.inr (hacc p.msg.key _ rfl q)
  | rescheduleLater p t a d q => exact Or.inr (hacc p.msg.key _ rfl q)
  | prog => exact Or.inr (Or.inl rfl)

/-- An accepted scheduling takes the next generation and becomes the current one. -/
theorem accepted_gen (cfg : Cfg) {s : Sys} (hw : WF s) (op : Op) {m : Msg}
    (hl : (step cfg s op).log = .accepted m :: s.log) :
    (step cfg s op).r.genOf m.key = some m.gen ∧ m.gen = s.r.nextGen m.key := by
  have he := step_eff cfg s hw.queue op
  generalize Docket.step cfg s op = s' at he hl
  have hself : s.log ≠ .accepted m :: s.log := by
    intro h; have := congrArg List.length h; simp at this
  cases he with
  | poll w n new hnew =>
    have h1 : (newHanded s.nextPid w false s.r.now new).reverse = [Event.accepted m] :=
      List.append_cancel_right (bs := s.log) hl
    have h2 : Event.accepted m ∈ newHanded s.nextPid w false s.r.now new := by
      rw [← List.mem_reverse, h1]; simp
    obtain ⟨_, _, h3, _⟩ := mem_newHanded h2
    simp at h3
  | addNow k' q =>
    simp only [List.cons.injEq, Event.accepted.injEq, and_true] at hl
    subst hl; simp [Redis.genOf, queuedRun]
  | addLater k' q =>
    simp only [List.cons.injEq, Event.accepted.injEq, and_true] at hl
    subst hl; simp [Redis.genOf, scheduledRun]
  | replaceNow k' q =>
    simp only [List.cons.injEq, Event.accepted.injEq, and_true] at hl
    subst hl; simp [Redis.genOf, queuedRun]
  | replaceLater k' q =>
    simp only [List.cons.injEq, Event.accepted.injEq, and_true] at hl
    subst hl; simp [Redis.genOf, scheduledRun]
  | rescheduleNow p t a d q =>
    simp only [List.cons.injEq, Event.accepted.injEq, and_true] at hl
    subst hl; simp [Redis.genOf, queuedRun]
  | rescheduleLater p t a d q =>
    simp only [List.cons.injEq, Event.accepted.injEq, and_true] at hl
    subst hl; simp [Redis.genOf, scheduledRun]
  | _ => first | exact absurd hl hself | simp at hl

/-- Only a claim that is not superseded starts a task. -/
theorem started_step (cfg : Cfg) {s : Sys} (hw : WF s) (op : Op) {l : List Event}
    (hl : (step cfg s op).log = l ++ s.log) {pid id : Nat} {m : Msg} {t : Time}
    (hm : Event.started pid id m t ∈ l) :
    ∃ p ∈ s.procs, op = .claim p.pid ∧ p.pid = pid ∧ p.id = id ∧ p.msg = m ∧ p.phase = .handed ∧
      t = s.r.now ∧ isSuperseded s.r m.key m.gen = false := by
  have he := step_eff cfg s hw.queue op
  generalize Docket.step cfg s op = s' at he hl
  have hnil : s.log = l ++ s.log → False := by
    intro h
    have : l = [] := by simpa using congrArg List.length h
    subst this; simp at hm
  have hone : ∀ ev, ev :: s.log = l ++ s.log → l = [ev] := by
    intro ev h
    have h1 : [ev] ++ s.log = l ++ s.log := h
    exact (List.append_cancel_right h1).symm
  cases he with
  | claim p hp hph hs =>
    rw [hone _ hl] at hm
    simp only [List.mem_singleton, Event.started.injEq] at hm
    obtain ⟨rfl, rfl, rfl, rfl⟩ := hm
    exact ⟨p, hp, rfl, rfl, rfl, rfl, hph, rfl, hs⟩
  | poll w n new hnew =>
    have h1 := List.append_cancel_right hl
    rw [← h1, List.mem_reverse] at hm
    obtain ⟨p, e, heq, _⟩ := mem_newHanded hm
    simp at heq
  | _ => first
    | exact (hnil hl).elim
    | (rw [hone _ hl] at hm; simp at hm)

end Docket
