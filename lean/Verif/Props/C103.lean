import Verif.Worker.Reseed
import Verif.Props.C53
import Verif.Props.C90

/-! # C103: an automatic task does not stay lost -/

namespace Docket.Reseed
open Docket.Seed

/-! ## Specification -/

/-- The docket has no record of the task waiting, being queued or running. -/
def Lost (s : Sys) (k : Key) : Prop := s.r.knownOf k = false ∧ s.r.stateOf k ≠ some .running

instance decLost (s : Sys) (k : Key) : Decidable (Lost s k) := by unfold Lost; infer_instance

/-- The loop wakes up at most `late` after its time, and a round takes at most `round`. -/
def Punctual (late round : Nat) (s : State) : Prop :=
  match s.pc with
  | .sleeping u => s.sys.r.now ≤ u + late
  | .asking t | .reading t _ | .looking t _ | .adding t _ => s.sys.r.now ≤ t + round
  | .over => True

instance decPunctual (late round : Nat) (s : State) : Decidable (Punctual late round s) := by
  unfold Punctual; split <;> infer_instance

/-- Every state on the way satisfies `P`, including the first and the last. -/
def Along (cfg : Cfg) (interval : Nat) (stricken : Fn → Bool) (P : State → Prop) : State → List Ev → Prop
  | s, [] => P s
  | s, e :: es => P s ∧ Along cfg interval stricken P (step cfg interval stricken s e) es

instance decAlong (cfg : Cfg) (interval : Nat) (stricken : Fn → Bool) (P : State → Prop) [DecidablePred P] :
    ∀ s es, Decidable (Along cfg interval stricken P s es)
  | s, [] => by unfold Along; infer_instance
  | s, e :: es =>
    have := decAlong cfg interval stricken P (step cfg interval stricken s e) es
    by unfold Along; infer_instance

/-- How many requests failed (or found the lock taken). -/
def failures (es : List Ev) : Nat := es.count (.go .failed)

/-! ## Proof -/

theorem along_first {cfg : Cfg} {interval : Nat} {stricken : Fn → Bool} {P : State → Prop} {s : State} {es : List Ev}
    (h : Along cfg interval stricken P s es) : P s := by
  cases es with
  | nil => exact h
  | cons e es => exact h.1

theorem lost_iff (s : Sys) (k : Key) : Lost s k ↔ isLive s k = false := by
  simp [Lost, isLive]

/-- What is always so. -/
structure Basic (interval : Nat) (t : Tasks) (s : State) : Prop where
  wf : WF s.sys
  tasks : s.tasks = t
  pc : match s.pc with
    | .sleeping u => u ≤ s.sys.r.now + interval
    | .asking t0 | .reading t0 _ | .looking t0 _ | .adding t0 _ => t0 ≤ s.sys.r.now
    | .over => s.stopping = true

theorem now_add (cfg : Cfg) {s : Sys} (hw : WF s) (k : Key) (q : Request) (t : Nat) :
    (Docket.step cfg s (.add k q t)).r.now = s.r.now := now_step cfg hw _ (fun _ h => nomatch h)

theorem Basic.step {cfg : Cfg} {interval : Nat} {stricken : Fn → Bool} {t : Tasks} (hn : (t.map (·.1)).Nodup)
    (ho : OwnNames t) {s : State} (h : Basic interval t s) (e : Ev) (hs : s.stopping = false) :
    Basic interval t (step cfg interval stricken s e) := by
  obtain ⟨sys, tasks, pc, stopping⟩ := s
  obtain ⟨hw, ht, hpc⟩ := h
  simp only at hw ht hpc hs
  subst ht hs
  cases e with
  | op o =>
    have hmono : sys.r.now ≤ (Docket.step cfg sys o).r.now := now_le_run cfg [o] hw
    refine ⟨hw.step o, rfl, ?_⟩
    simp only [Reseed.step]
    cases pc <;> simp only at hpc ⊢ <;> first | omega | exact hpc
  | stop =>
    refine ⟨hw, rfl, ?_⟩
    cases pc <;> simp only [Reseed.step] at hpc ⊢ <;> first | omega | rfl
  | go a =>
    simp only [Reseed.step, go]
    have hrest : Basic interval tasks (rest interval ⟨sys, tasks, pc, false⟩) := ⟨hw, rfl, Nat.le_refl _⟩
    cases pc with
    | sleeping u =>
      simp only [Bool.false_eq_true, if_false]
      split
      · exact ⟨hw, rfl, Nat.le_refl _⟩
      · exact ⟨hw, rfl, hpc⟩
    | asking t0 =>
      simp only
      split
      · exact ⟨hw, rfl, hpc⟩
      · exact hrest
    | reading t0 i =>
      simp only
      split
      · exact hrest
      · split
        · exact ⟨hw, rfl, hpc⟩
        · split
          · split
            · exact ⟨hw, rfl, hpc⟩
            · exact ⟨hw, rfl, hpc⟩
          · exact hrest
    | looking t0 i =>
      simp only
      split
      · exact hrest
      · split
        · split
          · exact ⟨hw, rfl, hpc⟩
          · exact ⟨hw, rfl, hpc⟩
        · exact hrest
    | adding t0 i =>
      simp only
      split
      · exact hrest
      · next n f hf =>
        split
        · exact ⟨hw, rfl, hpc⟩
        · next when_ hauto =>
          have hset : tasks.set f.name f = tasks :=
            set_own hn (ho n f (List.mem_of_getElem? hf) (by rw [hauto]; rfl))
          rw [hset]
          split
          · by_cases hst : stricken f = true
            · simp only [hst, if_true]
              exact ⟨hw, rfl, hpc⟩
            · have hst : stricken f = false := by simpa using hst
              simp only [hst, Bool.false_eq_true, if_false, if_true]
              refine ⟨hw.step (cfg := cfg) (.add f.name (request f when_) sys.r.now), rfl, ?_⟩
              simp only
              rw [now_add cfg hw]
              exact hpc
          · exact hrest
    | over => exact absurd hpc (by simp)

theorem stopping_step (cfg : Cfg) (interval : Nat) (stricken : Fn → Bool) (s : State) (e : Ev) (he : e ≠ .stop) :
    (step cfg interval stricken s e).stopping = s.stopping := by
  cases e with
  | op o => rfl
  | stop => exact absurd rfl he
  | go a =>
    simp only [step, go, rest]
    repeat' split
    all_goals rfl

theorem Basic.runFrom {cfg : Cfg} {interval : Nat} {stricken : Fn → Bool} {t : Tasks} (hn : (t.map (·.1)).Nodup)
    (ho : OwnNames t) (es : List Ev) : ∀ {s : State}, Basic interval t s → s.stopping = false → .stop ∉ es →
    Basic interval t (runFrom cfg interval stricken s es) ∧ (runFrom cfg interval stricken s es).stopping = false := by
  induction es with
  | nil => exact fun h hs _ => ⟨h, hs⟩
  | cons e es ih =>
    intro s h hs hne
    simp only [List.mem_cons, not_or] at hne
    exact ih (h.step hn ho e hs) ((stopping_step _ _ _ _ _ (Ne.symm hne.1)).trans hs) hne.2

theorem Basic.start (cfg : Cfg) (interval : Nat) (t : Tasks) (hist : List Op) :
    Basic interval t (start cfg interval t hist) :=
  ⟨WF.run cfg hist, rfl, Nat.le_refl _⟩

/-- An added task is not lost. -/
theorem not_lost_added (cfg : Cfg) (s : Sys) (k : Key) (q : Request) (h : Lost s k) :
    ¬ Lost (Docket.step cfg s (.add k q s.r.now)) k := by
  have hx : scheduleExists s.r k = false := (lost_iff s k).1 h
  rw [lost_iff]
  have e : Docket.step cfg s (.add k q s.r.now) = (doAdd s k q s.r.now).1 := by
    simp [Docket.step]
  rw [e]
  intro hl
  have hl : scheduleExists (doAdd s k q s.r.now).1.r k = false := hl
  by_cases hw : q.when_ ≤ s.r.now
  · simp only [doAdd, doSchedule, luaSchedule, hx, hw, decide_true, Bool.false_eq_true, if_false, schedulePlace_now] at hl
    simp [scheduleExists, Redis.knownOf, queuedRun] at hl
  · simp only [doAdd, doSchedule, luaSchedule, hx, hw, decide_false, Bool.false_eq_true, if_false, schedulePlace_later] at hl
    simp [scheduleExists, Redis.knownOf, scheduledRun] at hl

/-- While the task is lost: how far the loop can have come, `j` being the task's place in the
registry and `T` a bound on the time. -/
def Due (interval late T T0 j : Nat) (s : State) : Prop :=
  match s.pc with
  | .sleeping u => u ≤ T + interval
  | .asking t => t ≤ T + interval + late
  | .reading t i => t ≤ T0 ∨ t ≤ T + interval + late ∧ i ≤ j
  | .looking t i => t ≤ T0 ∨ t ≤ T + interval + late ∧ i ≤ j
  | .adding t i => t ≤ T0 ∨ t ≤ T + interval + late ∧ i ≤ j
  | .over => False

theorem healed_aux (cfg : Cfg) (interval late round : Nat) (stricken : Fn → Bool) (t : Tasks)
    (hn : (t.map (·.1)).Nodup) (ho : OwnNames t) (n : String) (f : Fn) (j : Nat) (hj : t[j]? = some (n, f))
    (hauto : f.auto.isSome) (hstr : stricken f = false) (T0 : Nat) (es : List Ev) :
    ∀ (s : State) (T : Nat), Basic interval t s → s.stopping = false → .stop ∉ es → T0 + round ≤ T →
    Due interval late T T0 j s →
    Along cfg interval stricken (fun s => Punctual late round s ∧ Lost s.sys f.name) s es →
    (runFrom cfg interval stricken s es).sys.r.now ≤ T + (failures es + 1) * (interval + late + round) := by
  induction es with
  | nil =>
    intro s T hb hs _ hT hd hal
    have hp := hal.1
    have e : (failures [] + 1) * (interval + late + round) = interval + late + round := by simp [failures]
    rw [e]
    show s.sys.r.now ≤ _
    unfold Punctual at hp
    unfold Due at hd
    revert hp hd
    cases s.pc <;> intro hp hd <;> simp only at hp hd <;> omega
  | cons e es ih =>
    intro s T hb hs hne hT hd hal
    simp only [List.mem_cons, not_or] at hne
    have hb' := hb.step (cfg := cfg) (stricken := stricken) hn ho e hs
    have hs' := (stopping_step cfg interval stricken s e (Ne.symm hne.1)).trans hs
    have hal' := hal.2
    obtain ⟨hpun, hlost⟩ := hal.1
    -- a step that fails nothing
    have keep : Due interval late T T0 j (Reseed.step cfg interval stricken s e) →
        (Reseed.runFrom cfg interval stricken (Reseed.step cfg interval stricken s e) es).sys.r.now ≤
          T + (failures (e :: es) + 1) * (interval + late + round) := by
      intro hd'
      refine Nat.le_trans (ih _ T hb' hs' hne.2 hT hd' hal') ?_
      refine Nat.add_le_add_left (Nat.mul_le_mul_right _ (Nat.succ_le_succ ?_)) _
      unfold failures
      rw [List.count_cons]
      omega
    -- a failure that sends the loop back to sleep
    have fail : e = .go .failed → (Reseed.step cfg interval stricken s e).pc = .sleeping (s.sys.r.now + interval) →
        s.sys.r.now ≤ T + interval + late + round →
        (Reseed.runFrom cfg interval stricken (Reseed.step cfg interval stricken s e) es).sys.r.now ≤
          T + (failures (e :: es) + 1) * (interval + late + round) := by
      intro he hpc hnow
      have hd' : Due interval late (T + (interval + late + round)) T0 j (Reseed.step cfg interval stricken s e) := by
        unfold Due; rw [hpc]; simp only; omega
      refine Nat.le_trans (ih _ _ hb' hs' hne.2 (by omega) hd' hal') ?_
      subst he
      have : failures (.go .failed :: es) = failures es + 1 := by simp [failures]
      rw [this, Nat.add_mul (failures es + 1) 1]
      omega
    cases e with
    | stop => exact absurd rfl hne.1
    | op o => exact keep (by unfold Due at hd ⊢; exact hd)
    | go a =>
      obtain ⟨sys, tasks, pc, stopping⟩ := s
      obtain ⟨hw, ht, hpc⟩ := hb
      simp only at ht hs
      subst ht hs
      unfold Punctual at hpun
      unfold Due at hd
      simp only at hlost
      cases pc with
      | over => exact absurd hd (by simp)
      | sleeping u =>
        simp only at hd hpun
        refine keep ?_
        by_cases hu : u ≤ sys.r.now
        · simp only [Reseed.step, go, Bool.false_eq_true, if_false, Due, hu, if_true]
          omega
        · simp only [Reseed.step, go, Bool.false_eq_true, if_false, Due, hu]
          omega
      | asking t0 =>
        simp only at hd hpun
        cases a with
        | ok =>
          refine keep ?_
          simp only [Reseed.step, go, if_true, Due]
          exact Or.inr ⟨hd, Nat.zero_le _⟩
        | failed => exact fail rfl (by simp [Reseed.step, go, rest]) (by simp only; omega)
      | reading t0 i =>
        simp only at hd hpun
        have hnow : sys.r.now ≤ T + interval + late + round := by omega
        cases hi : tasks[i]? with
        | none =>
          -- the end of the registry: only in a round that began before
          have hold : t0 ≤ T0 := by
            rcases hd with h | ⟨_, h⟩
            · exact h
            · have h1 := List.getElem?_eq_none_iff.1 hi
              have h2 := (List.getElem?_eq_some_iff.1 hj).1
              omega
          refine keep ?_
          simp only [Reseed.step, go, hi, rest, Due]
          omega
        | some x =>
          obtain ⟨n', g⟩ := x
          cases hga : g.auto with
          | none =>
            refine keep ?_
            simp only [Reseed.step, go, hi, hga, Due]
            rcases hd with h | ⟨h, hij⟩
            · exact Or.inl h
            · refine Or.inr ⟨h, ?_⟩
              rcases Nat.lt_or_eq_of_le hij with h | rfl
              · exact h
              · rw [hj] at hi; cases hi; rw [hga] at hauto; cases hauto
          | some w0 =>
            cases a with
            | failed => exact fail rfl (by simp [Reseed.step, go, hi, hga, rest]) hnow
            | ok =>
              refine keep ?_
              simp only [Reseed.step, go, hi, hga, if_true]
              split
              · next hk =>
                simp only [Due]
                rcases hd with h | ⟨h, hij⟩
                · exact Or.inl h
                · refine Or.inr ⟨h, ?_⟩
                  rcases Nat.lt_or_eq_of_le hij with h | rfl
                  · exact h
                  · rw [hj] at hi; cases hi; rw [hlost.1] at hk; cases hk
              · simp only [Due]; exact hd
      | looking t0 i =>
        simp only at hd hpun
        have hnow : sys.r.now ≤ T + interval + late + round := by omega
        cases hi : tasks[i]? with
        | none =>
          have hold : t0 ≤ T0 := by
            rcases hd with h | ⟨_, h⟩
            · exact h
            · have h1 := List.getElem?_eq_none_iff.1 hi
              have h2 := (List.getElem?_eq_some_iff.1 hj).1
              omega
          refine keep ?_
          simp only [Reseed.step, go, hi, rest, Due]
          omega
        | some x =>
          obtain ⟨n', g⟩ := x
          cases a with
          | failed => exact fail rfl (by simp [Reseed.step, go, hi, rest]) hnow
          | ok =>
            refine keep ?_
            simp only [Reseed.step, go, hi, if_true]
            split
            · next hk =>
              simp only [Due]
              rcases hd with h | ⟨h, hij⟩
              · exact Or.inl h
              · refine Or.inr ⟨h, ?_⟩
                rcases Nat.lt_or_eq_of_le hij with h | rfl
                · exact h
                · rw [hj] at hi; cases hi; exact absurd hk hlost.2
            · simp only [Due]; exact hd
      | adding t0 i =>
        simp only at hd hpun
        have hnow : sys.r.now ≤ T + interval + late + round := by omega
        cases hi : tasks[i]? with
        | none =>
          have hold : t0 ≤ T0 := by
            rcases hd with h | ⟨_, h⟩
            · exact h
            · have h1 := List.getElem?_eq_none_iff.1 hi
              have h2 := (List.getElem?_eq_some_iff.1 hj).1
              omega
          refine keep ?_
          simp only [Reseed.step, go, hi, rest, Due]
          omega
        | some x =>
          obtain ⟨n', g⟩ := x
          cases hga : g.auto with
          | none =>
            refine keep ?_
            simp only [Reseed.step, go, hi, hga, Due]
            rcases hd with h | ⟨h, hij⟩
            · exact Or.inl h
            · refine Or.inr ⟨h, ?_⟩
              rcases Nat.lt_or_eq_of_le hij with h | rfl
              · exact h
              · rw [hj] at hi; cases hi; rw [hga] at hauto; cases hauto
          | some w0 =>
            have hset : tasks.set g.name g = tasks :=
              set_own hn (ho n' g (List.mem_of_getElem? hi) (by rw [hga]; rfl))
            cases a with
            | failed => exact fail rfl (by simp [Reseed.step, go, hi, hga, rest]) hnow
            | ok =>
              by_cases hij : i = j
              · -- the task itself is added: it is no longer lost
                subst hij
                rw [hj] at hi
                cases hi
                have hl' := (along_first hal').2
                simp only [Reseed.step, go, hj, hga, hset, hstr, if_true, Bool.false_eq_true, if_false] at hl'
                exact absurd hl' (not_lost_added cfg sys f.name _ hlost)
              · refine keep ?_
                have hd' : t0 ≤ T0 ∨ t0 ≤ T + interval + late ∧ i + 1 ≤ j := by omega
                simp only [Reseed.step, go, hi, hga, hset, if_true]
                by_cases hst : stricken g = true
                · simp only [hst, if_true, Due]; exact hd'
                · simp only [hst, Bool.false_eq_true, if_false, if_true, Due]; exact hd'

/-- **C103**, partial: an automatic task that is not struck stays lost for at most one interval
of the loop, the time it oversleeps, and two rounds; and another interval, delay and round for
every request that fails or finds another worker sowing.  Assumed: functions are registered under
their own names (`C53_violated_alias`, `C53_violated_same_name`), and the worker is not told to
stop.  `Lost` goes by the record: a record that speaks of a task that is not there is another
matter (`C103_violated_cleared`, `C103_violated_forever`). -/
theorem C103_healed_partial (cfg : Cfg) (interval late round : Nat) (stricken : Fn → Bool) (t : Tasks)
    (hn : (t.map (·.1)).Nodup) (ho : OwnNames t) (n : String) (f : Fn) (hm : (n, f) ∈ t)
    (hauto : f.auto.isSome) (hstr : stricken f = false) (hist : List Op) (past es : List Ev) (hstop : .stop ∉ past ++ es)
    (hal : Along cfg interval stricken (fun s => Punctual late round s ∧ Lost s.sys f.name)
      (run cfg interval stricken t hist past) es) :
    (run cfg interval stricken t hist (past ++ es)).sys.r.now ≤
      (run cfg interval stricken t hist past).sys.r.now + round + (failures es + 1) * (interval + late + round) := by
  simp only [List.mem_append, not_or] at hstop
  obtain ⟨j, hjl, hj⟩ := List.getElem_of_mem hm
  obtain ⟨hb, hs⟩ := Basic.runFrom (cfg := cfg) (stricken := stricken) hn ho past (Basic.start cfg interval t hist) rfl hstop.1
  have happ : run cfg interval stricken t hist (past ++ es) =
      runFrom cfg interval stricken (run cfg interval stricken t hist past) es := by
    simp [run, runFrom]
  rw [happ]
  change Basic interval t (run cfg interval stricken t hist past) at hb
  change (run cfg interval stricken t hist past).stopping = false at hs
  generalize run cfg interval stricken t hist past = s at *
  refine healed_aux cfg interval late round stricken t hn ho n f j (by rw [List.getElem?_eq_getElem hjl, hj]) hauto hstr
    s.sys.r.now es s _ hb hs hstop.2 (Nat.le_refl _) ?_ hal
  have hpc := hb.pc
  have hso := hs
  unfold Due
  revert hpc
  cases hp : s.pc <;> intro hpc <;> simp only at hpc ⊢
  · omega
  · omega
  · exact Or.inl hpc
  · exact Or.inl hpc
  · exact Or.inl hpc
  · rw [hs] at hpc; cases hpc

/-! ### By what has happened, rather than by the record -/

/-- One step of the loop, or of the others, is at most one step on the docket. -/
theorem sys_step (cfg : Cfg) (interval : Nat) (stricken : Fn → Bool) (s : State) (e : Ev) :
    (step cfg interval stricken s e).sys = s.sys ∨ ∃ o, (step cfg interval stricken s e).sys = Docket.step cfg s.sys o := by
  cases e with
  | op o => exact Or.inr ⟨o, rfl⟩
  | stop => exact Or.inl rfl
  | go a =>
    obtain ⟨sys, tasks, pc, stopping⟩ := s
    cases pc with
    | adding t0 i =>
      simp only [step, go]
      split
      · exact Or.inl rfl
      · next n f hf =>
        split
        · exact Or.inl rfl
        · next w0 hw0 =>
          split
          · by_cases hst : stricken f = true
            · simp only [hst, if_true]
              split <;> exact Or.inl rfl
            · have hst : stricken f = false := by simpa using hst
              simp only [hst, Bool.false_eq_true, if_false]
              split <;> exact Or.inr ⟨.add f.name (request f w0) sys.r.now, rfl⟩
          · exact Or.inl rfl
    | _ =>
      left
      simp only [step, go, rest]
      repeat' split
      all_goals rfl

/-- What the history says of the key agrees with its record. -/
structure Hist (s : Sys) (k : Key) : Prop where
  wf : WF s
  origin : OriginInv s
  gens : GenInv s k
  settled : SettledInv s k

theorem Hist.step {cfg : Cfg} {interval : Nat} {stricken : Fn → Bool} {s : State} {k : Key} (h : Hist s.sys k)
    (hno : ¬ Orphaned s.sys k) (e : Ev) (hno' : ¬ Orphaned (step cfg interval stricken s e).sys k) :
    Hist (step cfg interval stricken s e).sys k := by
  rcases sys_step cfg interval stricken s e with he | ⟨o, he⟩
  · rw [he]; exact h
  · rw [he] at hno' ⊢
    exact ⟨h.wf.step o, h.origin.step h.wf o, h.gens.step h.wf hno o,
      SettledInv.runFrom (ops := [o]) h.wf h.origin h.gens h.settled ⟨hno, hno'⟩⟩

theorem Along.mono {cfg : Cfg} {interval : Nat} {stricken : Fn → Bool} {P Q : State → Prop} (h : ∀ s, P s → Q s)
    {es : List Ev} : ∀ {s : State}, Along cfg interval stricken P s es → Along cfg interval stricken Q s es := by
  induction es with
  | nil => exact fun hp => h _ hp
  | cons e es ih => exact fun hp => ⟨h _ hp.1, ih hp.2⟩

theorem Along.and {cfg : Cfg} {interval : Nat} {stricken : Fn → Bool} {P Q : State → Prop}
    {es : List Ev} : ∀ {s : State}, Along cfg interval stricken P s es → Along cfg interval stricken Q s es →
    Along cfg interval stricken (fun s => P s ∧ Q s) s es := by
  induction es with
  | nil => exact fun hp hq => ⟨hp, hq⟩
  | cons e es ih => exact fun hp hq => ⟨⟨hp.1, hq.1⟩, ih hp.2 hq.2⟩

theorem along_append {cfg : Cfg} {interval : Nat} {stricken : Fn → Bool} {P : State → Prop} {b : List Ev} (a : List Ev) :
    ∀ {s : State}, Along cfg interval stricken P s (a ++ b) ↔
      Along cfg interval stricken P s a ∧ Along cfg interval stricken P (runFrom cfg interval stricken s a) b := by
  induction a with
  | nil => exact fun {s} => ⟨fun h => ⟨along_first h, h⟩, fun h => h.2⟩
  | cons e a ih =>
    intro s
    show P s ∧ Along cfg interval stricken P (step cfg interval stricken s e) (a ++ b) ↔
      (P s ∧ Along cfg interval stricken P (step cfg interval stricken s e) a) ∧
      Along cfg interval stricken P (runFrom cfg interval stricken (step cfg interval stricken s e) a) b
    rw [ih, and_assoc]

theorem Hist.along {cfg : Cfg} {interval : Nat} {stricken : Fn → Bool} {k : Key} {es : List Ev} :
    ∀ {s : State}, Hist s.sys k → Along cfg interval stricken (fun s => ¬ Orphaned s.sys k) s es →
    Along cfg interval stricken (fun s => Hist s.sys k) s es := by
  induction es with
  | nil => exact fun h _ => h
  | cons e es ih => exact fun h hno => ⟨h, ih (h.step hno.1 e (along_first hno.2)) hno.2⟩

/-- **C103** by what has happened: while the last that was heard of the task is that it was
cancelled, or that an execution of it came to an end and scheduled no other (as when a worker
that did not know the function had it), the clock gets no further than that.  Assumed, as for
`C103_healed_partial`, and that the record of the task does not vanish while a message of it
remains (`C66`, `C21`). -/
theorem C103_severed_partial (cfg : Cfg) (interval late round : Nat) (stricken : Fn → Bool) (t : Tasks)
    (hn : (t.map (·.1)).Nodup) (ho : OwnNames t) (n : String) (f : Fn) (hm : (n, f) ∈ t)
    (hauto : f.auto.isSome) (hstr : stricken f = false) (hist : List Op) (past es : List Ev) (hstop : .stop ∉ past ++ es)
    (hh : Throughout cfg (fun s => ¬ Orphaned s f.name) {} hist)
    (hno : Along cfg interval stricken (fun s => ¬ Orphaned s.sys f.name) (start cfg interval t hist) (past ++ es))
    (hal : Along cfg interval stricken (fun s => Punctual late round s ∧ settled s.sys.log f.name = true)
      (run cfg interval stricken t hist past) es) :
    (run cfg interval stricken t hist (past ++ es)).sys.r.now ≤
      (run cfg interval stricken t hist past).sys.r.now + round + (failures es + 1) * (interval + late + round) := by
  refine C103_healed_partial cfg interval late round stricken t hn ho n f hm hauto hstr hist past es hstop ?_
  have h0 : Hist (start cfg interval t hist).sys f.name :=
    ⟨WF.run cfg hist, OriginInv.run cfg hist, GenInv.runFrom WF.init (GenInv.init f.name) hh,
      SettledInv.runFrom WF.init (OriginInv.run cfg []) (GenInv.init f.name) (SettledInv.init f.name) hh⟩
  have h1 := ((along_append past).1 (h0.along hno)).2
  refine (Along.and hal h1).mono ?_
  rintro s ⟨⟨hp, hset⟩, hx⟩
  exact ⟨hp, (lost_iff _ _).2 (hx.settled.free hset)⟩

/-! ### The loop disturbs nothing -/

/-- **C103**: whatever the loop does, a task that is waiting, queued or running, and every task
whose key is not the name of an automatic function that is not struck, is left entirely as it
is. -/
theorem C103_harmless (cfg : Cfg) (interval : Nat) (stricken : Fn → Bool) (s : State) (a : Answer) (k : Key)
    (h : ¬ Lost s.sys k ∨ ∀ n f, (n, f) ∈ s.tasks → f.auto.isSome → stricken f = false → f.name ≠ k) :
    SameFor k s.sys (step cfg interval stricken s (.go a)).sys := by
  obtain ⟨sys, tasks, pc, stopping⟩ := s
  cases pc with
  | adding t0 i =>
    simp only [step, go]
    split
    · exact .refl k _
    · next n f hf =>
      split
      · exact .refl k _
      · next w0 hw0 =>
        split
        · by_cases hst : stricken f = true
          · simp only [hst, if_true]
            split <;> exact .refl k _
          · have hst : stricken f = false := by simpa using hst
            simp only [hst, Bool.false_eq_true, if_false]
            have hadd : SameFor k sys (Docket.step cfg sys (.add f.name (request f w0) sys.r.now)) := by
              have e : Docket.step cfg sys (.add f.name (request f w0) sys.r.now) =
                (doAdd sys f.name (request f w0) sys.r.now).1 := by simp [Docket.step]
              rw [e]
              by_cases hk : f.name = k
              · rcases h with h | h
                · subst hk
                  rw [doAdd_live _ _ _ _ (by rw [lost_iff] at h; simpa using h)]
                  exact .refl _ _
                · exact absurd hk (h n f (List.mem_of_getElem? hf) (by rw [hw0]; rfl) hst)
              · exact doAdd_other _ _ _ _ _ hk
            split <;> exact hadd
        · exact .refl k _
  | _ =>
    simp only [step, go, rest]
    repeat' split
    all_goals exact .refl k _

/-- **C103**: what the loop puts on the docket is a first attempt of an automatic function of the
registry that is not struck, under its name, without arguments, at the time it declares. -/
theorem C103_as_declared (cfg : Cfg) (interval : Nat) (stricken : Fn → Bool) (s : State) (a : Answer) (m : Msg)
    (h : InStream (step cfg interval stricken s (.go a)).sys m ∨ InSchedule (step cfg interval stricken s (.go a)).sys m) :
    (InStream s.sys m ∨ InSchedule s.sys m) ∨
    ∃ n f when_, (n, f) ∈ s.tasks ∧ f.auto = some when_ ∧ stricken f = false ∧ m.key = f.name ∧
      m.req = ⟨f.name, "", "", when_, 1⟩ := by
  obtain ⟨sys, tasks, pc, stopping⟩ := s
  revert h
  cases pc with
  | adding t0 i =>
    simp only [step, go]
    split
    · exact Or.inl
    · next n f hf =>
      split
      · exact Or.inl
      · next w0 hw0 =>
        split
        · by_cases hst : stricken f = true
          · simp only [hst, if_true]
            split <;> exact Or.inl
          · have hst : stricken f = false := by simpa using hst
            simp only [hst, Bool.false_eq_true, if_false]
            have hadd : InStream (Docket.step cfg sys (.add f.name (request f w0) sys.r.now)) m ∨
                InSchedule (Docket.step cfg sys (.add f.name (request f w0) sys.r.now)) m →
                (InStream sys m ∨ InSchedule sys m) ∨
                ∃ n f when_, (n, f) ∈ tasks ∧ f.auto = some when_ ∧ stricken f = false ∧ m.key = f.name ∧
                  m.req = ⟨f.name, "", "", when_, 1⟩ := by
              have e : Docket.step cfg sys (.add f.name (request f w0) sys.r.now) =
                (doAdd sys f.name (request f w0) sys.r.now).1 := by simp [Docket.step]
              rw [e]
              intro h
              by_cases hk : m.key = f.name
              · rcases doAdd_msgs _ _ _ _ m hk h with h | h
                · exact Or.inl h
                · exact Or.inr ⟨n, f, w0, List.mem_of_getElem? hf, hw0, hst, hk, h⟩
              · left
                have hs := (doAdd_other sys f.name m.key (request f w0) sys.r.now (Ne.symm hk)).symm
                rcases h with h | h
                · exact Or.inl (hs.inStream rfl h)
                · exact Or.inr (hs.inSchedule rfl h)
            split <;> exact hadd
        · exact Or.inl
  | _ =>
    simp only [step, go, rest]
    repeat' split
    all_goals exact Or.inl

/-- What the others do. -/
def others (es : List Ev) : List Op := es.filterMap fun e => match e with | .op o => some o | _ => none

/-- **C103**: a loop that waits when the worker is told to stop (or has ended) does nothing more: the
docket is what the others make of it. -/
theorem C103_stops (cfg : Cfg) (interval : Nat) (stricken : Fn → Bool) (es : List Ev) : ∀ (s : State), s.stopping = true →
    (s.pc = .over ∨ ∃ u, s.pc = .sleeping u) →
    (runFrom cfg interval stricken s es).sys = Docket.runFrom cfg s.sys (others es) := by
  induction es with
  | nil => exact fun _ _ _ => rfl
  | cons e es ih =>
    intro s hs hp
    cases e with
    | op o => exact ih (step cfg interval stricken s (.op o)) hs hp
    | stop => exact ih (step cfg interval stricken s .stop) rfl hp
    | go a =>
      have e1 : step cfg interval stricken s (.go a) = { s with pc := .over } := by
        rcases hp with hp | ⟨u, hp⟩
        · simp only [step, go, hp]; rw [← hp]
        · simp only [step, go, hp, hs, if_true]
      have : (runFrom cfg interval stricken s (.go a :: es)) = runFrom cfg interval stricken { s with pc := .over } es := by
        show runFrom cfg interval stricken (step cfg interval stricken s (.go a)) es = _
        rw [e1]
      rw [this]
      exact ih _ hs (Or.inl rfl)

/-! ## The hypotheses are met -/

example : (run ⟨900, 3⟩ 60 (fun _ => false) sampleTasks [] [.op (.tick 60), .stop]).stopping = true ∧
    (run ⟨900, 3⟩ 60 (fun _ => false) sampleTasks [] [.op (.tick 60), .stop]).pc = .sleeping 60 := by decide +kernel

/-- An old worker that does not know the function gets the task and is done with it: nothing
is left, the loop finds out a minute later, one attempt having failed, and sows it again. -/
def oldWorker : List Op :=
  [.add "tick" ⟨"tick", "", "", 0, 1⟩ 0, .poll "old" 1, .claim 0, .finish 0 .failed (some "unknown") false]

def night : List Ev :=
  [.op (.tick 60), .go .ok, .go .failed, .op (.tick 60), .go .ok, .go .ok, .go .ok, .go .ok]

example : (sampleTasks.map (·.1)).Nodup ∧ (∀ e ∈ sampleTasks, e.2.auto.isSome → sampleTasks.get e.2.name = some e.2) ∧
    ("tick", fa) ∈ sampleTasks ∧ fa.auto.isSome := by decide
example : Throughout ⟨900, 3⟩ (fun s => ¬ Orphaned s fa.name) {} oldWorker := by decide +kernel
example : Along ⟨900, 3⟩ 60 (fun _ => false) (fun s => Punctual 5 10 s ∧ Lost s.sys "tick")
    (start ⟨900, 3⟩ 60 sampleTasks oldWorker) night := by decide +kernel
example : Along ⟨900, 3⟩ 60 (fun _ => false) (fun s => Punctual 5 10 s ∧ settled s.sys.log "tick" = true)
    (start ⟨900, 3⟩ 60 sampleTasks oldWorker) night := by decide +kernel
example : Along ⟨900, 3⟩ 60 (fun _ => false) (fun s => ¬ Orphaned s.sys "tick")
    (start ⟨900, 3⟩ 60 sampleTasks oldWorker) night := by decide +kernel
example : (run ⟨900, 3⟩ 60 (fun _ => false) sampleTasks oldWorker (night ++ [.go .ok])).sys.r.stream.map (·.2.key) = ["tick"] := by
  decide +kernel

/-! ## The full statement and where it fails -/

/-- C103 in terms of what there is: no message of the task waits and none is being executed. -/
def C103_statement : Prop :=
  ∀ (cfg : Cfg) (interval late round : Nat) (t : Tasks), (t.map (·.1)).Nodup → OwnNames t →
    ∀ n f, (n, f) ∈ t → f.auto.isSome → ∀ (hist : List Op) (es : List Ev), .stop ∉ es →
    Along cfg interval (fun _ => false) (fun s => Punctual late round s ∧ ¬ Waiting s.sys f.name)
      (start cfg interval t hist) es →
    (run cfg interval (fun _ => false) t hist es).sys.r.now ≤
      (start cfg interval t hist).sys.r.now + round + (failures es + 1) * (interval + late + round)

theorem not_waiting {s : Sys} {k : Key} (h : s.r.stream.all (fun e => e.2.key ≠ k) = true)
    (h' : s.r.queue.all (fun e => e.1 ≠ k) = true) : ¬ Waiting s k := by
  rintro ⟨m, ⟨id, hm⟩ | ⟨_, hm⟩, hk⟩
  · have := List.all_eq_true.1 h _ hm
    simp [hk] at this
  · have := List.all_eq_true.1 h' _ hm
    simp [hk] at this

/-- One round of the loop every minute, and nothing else. -/
def minute : List Ev := [.op (.tick 60), .go .ok, .go .ok, .go .ok, .go .ok]

def minutes (n : Nat) : List Ev := (List.replicate n minute).flatten

/-- The state of a docket whose record of the task says that it is known, for ever, and which
has no message of it. -/
structure Stuck (s : State) : Prop where
  tasks : s.tasks = [("tick", fa)]
  pc : s.pc = .sleeping (s.sys.r.now + 60)
  going : s.stopping = false
  record : ∃ h, s.sys.r.runs "tick" = some h ∧ h.known.isSome = true ∧ h.expireAt = none
  stream : s.sys.r.stream = []
  queue : s.sys.r.queue = []

theorem Stuck.minute {cfg : Cfg} {s : State} (h : Stuck s) :
    Stuck (runFrom cfg 60 (fun _ => false) s minute) ∧
    (runFrom cfg 60 (fun _ => false) s minute).sys.r.now = s.sys.r.now + 60 ∧
    Along cfg 60 (fun _ => false) (fun s => Punctual 0 0 s ∧ ¬ Waiting s.sys "tick") s minute := by
  obtain ⟨sys, tasks, pc, stopping⟩ := s
  obtain ⟨ht, hpc, hs, ⟨r, hr, hk, hx⟩, hst, hq⟩ := h
  simp only at ht hpc hs hr hst hq
  subst ht hpc hs
  have hr' : (Docket.step cfg sys (.tick 60)).r.runs "tick" = some r := by
    simp [Docket.step, Redis.advance, hr, hx]
  have hkn : (Docket.step cfg sys (.tick 60)).r.knownOf "tick" = true := by
    simp [Redis.knownOf, hr', hk]
  have hnow : (Docket.step cfg sys (.tick 60)).r.now = sys.r.now + 60 := rfl
  have hst' : (Docket.step cfg sys (.tick 60)).r.stream = [] := hst
  have hq' : (Docket.step cfg sys (.tick 60)).r.queue = [] := hq
  have hnw : ¬ Waiting sys "tick" := not_waiting (by rw [hst]; rfl) (by rw [hq]; rfl)
  have hnw' : ¬ Waiting (Docket.step cfg sys (.tick 60)) "tick" := not_waiting (by rw [hst']; rfl) (by rw [hq']; rfl)
  have e1 : Reseed.step cfg 60 (fun _ => false) ⟨sys, [("tick", fa)], .sleeping (sys.r.now + 60), false⟩ (.op (.tick 60)) =
      ⟨Docket.step cfg sys (.tick 60), [("tick", fa)], .sleeping (sys.r.now + 60), false⟩ := rfl
  generalize Docket.step cfg sys (.tick 60) = sys' at *
  have e2 : Reseed.step cfg 60 (fun _ => false) ⟨sys', [("tick", fa)], .sleeping (sys.r.now + 60), false⟩ (.go .ok) =
      ⟨sys', [("tick", fa)], .asking sys'.r.now, false⟩ := by simp [Reseed.step, go, hnow]
  have e3 : Reseed.step cfg 60 (fun _ => false) ⟨sys', [("tick", fa)], .asking sys'.r.now, false⟩ (.go .ok) =
      ⟨sys', [("tick", fa)], .reading sys'.r.now 0, false⟩ := by simp [Reseed.step, go]
  have e4 : Reseed.step cfg 60 (fun _ => false) ⟨sys', [("tick", fa)], .reading sys'.r.now 0, false⟩ (.go .ok) =
      ⟨sys', [("tick", fa)], .reading sys'.r.now 1, false⟩ := by simp [Reseed.step, go, fa, hkn]
  have e5 : Reseed.step cfg 60 (fun _ => false) ⟨sys', [("tick", fa)], .reading sys'.r.now 1, false⟩ (.go .ok) =
      ⟨sys', [("tick", fa)], .sleeping (sys'.r.now + 60), false⟩ := by simp [Reseed.step, go, rest]
  have hrun : runFrom cfg 60 (fun _ => false) ⟨sys, [("tick", fa)], .sleeping (sys.r.now + 60), false⟩ Reseed.minute =
      ⟨sys', [("tick", fa)], .sleeping (sys'.r.now + 60), false⟩ := by
    simp only [runFrom, Reseed.minute, List.foldl, e1, e2, e3, e4, e5]
  rw [hrun]
  refine ⟨⟨rfl, rfl, rfl, ⟨r, hr', hk, hx⟩, hst', hq'⟩, hnow, ?_⟩
  simp only [Along, Reseed.minute, e1, e2, e3, e4, e5]
  refine ⟨⟨?_, hnw⟩, ⟨?_, hnw'⟩, ⟨?_, hnw'⟩, ⟨?_, hnw'⟩, ⟨?_, hnw'⟩, ?_, hnw'⟩ <;> simp only [Punctual] <;> omega

theorem Stuck.minutes {cfg : Cfg} (n : Nat) : ∀ {s : State}, Stuck s →
    (runFrom cfg 60 (fun _ => false) s (minutes n)).sys.r.now = s.sys.r.now + 60 * n ∧
    Along cfg 60 (fun _ => false) (fun s => Punctual 0 0 s ∧ ¬ Waiting s.sys "tick") s (minutes n) := by
  induction n with
  | zero =>
    intro s h
    refine ⟨rfl, ?_, not_waiting (by rw [h.stream]; rfl) (by rw [h.queue]; rfl)⟩
    simp only [Punctual, h.pc]
    omega
  | succ n ih =>
    intro s h
    obtain ⟨h1, h2, h3⟩ := h.minute (cfg := cfg)
    obtain ⟨h4, h5⟩ := ih h1
    have e : Reseed.minutes (n + 1) = Reseed.minute ++ Reseed.minutes n := by
      simp [Reseed.minutes, List.replicate_succ]
    rw [e]
    refine ⟨?_, (along_append _).2 ⟨h3, h5⟩⟩
    have : runFrom cfg 60 (fun _ => false) s (Reseed.minute ++ Reseed.minutes n) =
        runFrom cfg 60 (fun _ => false) (runFrom cfg 60 (fun _ => false) s Reseed.minute) (Reseed.minutes n) := by
      simp [runFrom]
    rw [this, h4, h2]
    omega

theorem no_stop (n : Nat) : .stop ∉ minutes n := by
  simp [minutes, minute, List.mem_flatten, List.mem_replicate]

/-- The task is added while `clear()` is at work: after the keys to clear were read and before
the docket is emptied. -/
def race : List Op :=
  [.add "mail" ⟨"mail", "", "", 0, 1⟩ 0, .clearRead, .add "tick" ⟨"tick", "", "", 0, 1⟩ 0, .clearWrite]

theorem stuck_race : Stuck (start ⟨900, 3⟩ 60 [("tick", fa)] race) :=
  ⟨rfl, rfl, rfl, ⟨_, rfl, rfl, rfl⟩, rfl, rfl⟩

/-- C103 without naming a bound: after any history there is one. -/
def C103_some_time : Prop :=
  ∀ (cfg : Cfg) (interval late round : Nat) (t : Tasks), (t.map (·.1)).Nodup → OwnNames t →
    ∀ n f, (n, f) ∈ t → f.auto.isSome → ∀ (hist : List Op), ∃ bound : Nat, ∀ es : List Ev, .stop ∉ es →
    failures es = 0 →
    Along cfg interval (fun _ => false) (fun s => Punctual late round s ∧ ¬ Waiting s.sys f.name)
      (start cfg interval t hist) es →
    (run cfg interval (fun _ => false) t hist es).sys.r.now ≤ bound

theorem own : OwnNames [("tick", fa)] := by
  intro n f hm _
  simp only [List.mem_singleton] at hm
  cases hm
  rfl

theorem no_failures (n : Nat) : failures (minutes n) = 0 := by
  unfold failures
  rw [List.count_eq_zero]
  simp [minutes, minute, List.mem_flatten, List.mem_replicate]

/-- **C103, violated**: an automatic task that is added (by a worker that starts, or by its own
execution) while `clear()` is at work can be removed while its record goes on saying that it is
known, and does not expire: it is never sown again, however long the loop goes on. -/
theorem C103_violated_forever : ¬ C103_some_time := by
  intro h
  obtain ⟨b, hb⟩ := h ⟨900, 3⟩ 60 0 0 [("tick", fa)] (by decide) own "tick" fa (by simp) rfl race
  obtain ⟨h1, h2⟩ := stuck_race.minutes (cfg := ⟨900, 3⟩) (b + 1)
  have h3 := hb (minutes (b + 1)) (no_stop _) (no_failures _) h2
  change (runFrom ⟨900, 3⟩ 60 (fun _ => false) (start ⟨900, 3⟩ 60 [("tick", fa)] race) (minutes (b + 1))).sys.r.now ≤ b at h3
  omega

/-- **C103, violated**: after `clear()` an automatic task is gone, and the record that says it is
known keeps the loop from sowing it until the record expires (here after 900 seconds; the loop
comes by every 60). -/
theorem C103_violated_cleared : ¬ C103_statement := by
  intro h
  have hal : Along ⟨900, 3⟩ 60 (fun _ => false)
      (fun s => Punctual 0 0 s ∧ (s.sys.r.stream.all (fun e => e.2.key ≠ "tick") = true ∧ s.sys.r.queue.all (fun e => e.1 ≠ "tick") = true))
      (start ⟨900, 3⟩ 60 [("tick", fa)] [.add "tick" ⟨"tick", "", "", 5, 1⟩ 0, .clear]) (minutes 14) := by
    decide +kernel
  have := h ⟨900, 3⟩ 60 0 0 [("tick", fa)] (by decide) own "tick" fa (by simp) rfl
    [.add "tick" ⟨"tick", "", "", 5, 1⟩ 0, .clear] (minutes 14) (no_stop _)
    (hal.mono fun s hs => ⟨hs.1, not_waiting hs.2.1 hs.2.2⟩)
  rw [no_failures] at this
  revert this
  decide +kernel

end Docket.Reseed
