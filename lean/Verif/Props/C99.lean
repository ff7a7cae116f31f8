import Verif.Limits.Gates
/-
C99: A task under several admission rules is dropped only on account of other tasks.

A small specification: deliveries are remembered with their time and what became of them; the
property and all its causes are stated in terms of the rules declared and of this history.
-/
namespace Docket.Gates
open Cooldown (windowMs)

/-! ### Which answers make which verdict -/

theorem put_ne_nil (d : List (Nat × Answer)) (p : Nat) (a : Answer) : put d p a ≠ [] := by
  unfold put
  split
  · rename_i h
    intro hc
    rw [List.map_eq_nil_iff] at hc
    subst hc
    simp at h
  · simp

theorem foldl_failures_nil {as : List (Nat × Answer)} {d : List (Nat × Answer)} :
    as.foldl (fun d a => if a.2 = .pass then d else put d a.1 a.2) d = [] ↔
      d = [] ∧ ∀ a ∈ as, a.2 = .pass := by
  induction as generalizing d with
  | nil => simp
  | cons a as ih =>
    simp only [List.foldl_cons, ih, List.mem_cons, forall_eq_or_imp]
    by_cases h : a.2 = .pass
    · simp [h]
    · simp [h, put_ne_nil]

theorem failures_nil {as : List (Nat × Answer)} : failures as = [] ↔ ∀ a ∈ as, a.2 = .pass := by
  simp [failures, foldl_failures_nil]

theorem verdict_runs {fs : List (Nat × Answer)} : verdict fs = .runs ↔ fs = [] := by
  match fs with
  | [] => simp [verdict]
  | (_, .comeBack d) :: _ => simp [verdict]
  | (_, .drop) :: _ => simp [verdict]
  | (_, .wait) :: _ => simp [verdict]
  | (p, .pass) :: fs =>
    simp only [verdict, List.cons_ne_nil, iff_false]
    split
    · simp
    · assumption
  | (p, .error) :: fs =>
    simp only [verdict, List.cons_ne_nil, iff_false]
    split
    · simp
    · assumption

theorem fate_runs {as : List (Nat × Answer)} : fate as = .runs ↔ ∀ a ∈ as, a.2 = .pass := by
  rw [← failures_nil, ← verdict_runs]
  unfold fate
  constructor
  · intro h
    split at h
    · cases h
    · split at h
      · cases h
      · exact h
  · intro h
    rw [h]
    simp only
    rw [verdict_runs, failures_nil] at h
    rw [if_neg]
    intro hc
    rw [List.any_eq_true] at hc
    obtain ⟨a, ha, hw⟩ := hc
    rw [h a ha] at hw
    simp at hw

theorem mem_put {d : List (Nat × Answer)} {p : Nat} {a : Answer} {e : Nat × Answer}
    (h : e ∈ put d p a) : e ∈ d ∨ e = (p, a) := by
  unfold put at h
  split at h
  · rw [List.mem_map] at h
    obtain ⟨x, hx, he⟩ := h
    split at he
    · exact Or.inr he.symm
    · exact Or.inl (he ▸ hx)
  · simpa using h

theorem mem_failures {as : List (Nat × Answer)} {e : Nat × Answer} (h : e ∈ failures as) :
    e ∈ as ∧ e.2 ≠ .pass := by
  suffices ∀ (as d : List (Nat × Answer)),
      e ∈ as.foldl (fun d a => if a.2 = .pass then d else put d a.1 a.2) d →
      e ∈ d ∨ (e ∈ as ∧ e.2 ≠ .pass) by
    rcases this as [] h with h | h
    · cases h
    · exact h
  intro as
  induction as with
  | nil => intro d h; exact Or.inl h
  | cons a as ih =>
    intro d h
    simp only [List.foldl_cons] at h
    rcases ih _ h with h1 | h1
    · by_cases hp : a.2 = .pass
      · rw [if_pos hp] at h1; exact Or.inl h1
      · rw [if_neg hp] at h1
        rcases mem_put h1 with h2 | h2
        · exact Or.inl h2
        · subst h2; exact Or.inr ⟨List.mem_cons_self, hp⟩
    · exact Or.inr ⟨List.mem_cons_of_mem _ h1.1, h1.2⟩

/-- The answer behind a verdict. -/
def Answer.verdict : Answer → Verdict
  | .pass => .runs
  | .comeBack d => .comesBack d
  | .drop => .dropped
  | .wait => .waits
  | .error => .fails

theorem verdict_from {fs : List (Nat × Answer)} (hp : ∀ e ∈ fs, e.2 ≠ .pass) (hn : fs ≠ []) :
    ∃ e ∈ fs, e.2.verdict = verdict fs := by
  match fs with
  | [] => exact absurd rfl hn
  | (p, .comeBack d) :: fs => exact ⟨_, List.mem_cons_self, rfl⟩
  | (p, .drop) :: fs => exact ⟨_, List.mem_cons_self, rfl⟩
  | (p, .wait) :: fs => exact ⟨_, List.mem_cons_self, rfl⟩
  | (p, .pass) :: fs => exact absurd rfl (hp _ List.mem_cons_self)
  | (p, .error) :: fs =>
    simp only [verdict]
    split
    · exact ⟨_, List.mem_cons_self, rfl⟩
    · rename_i v hv
      have hne : fs ≠ [] := fun hc => hv (verdict_runs.2 hc)
      obtain ⟨e, he, h⟩ := verdict_from (fs := fs) (fun e he => hp e (List.mem_cons_of_mem _ he)) hne
      exact ⟨e, List.mem_cons_of_mem _ he, h⟩

theorem verdict_answer {as : List (Nat × Answer)} (hn : verdict (failures as) ≠ .runs) :
    ∃ e ∈ as, e.2.verdict = verdict (failures as) := by
  have hne : failures as ≠ [] := fun hc => hn (verdict_runs.2 hc)
  obtain ⟨e, he, h⟩ := verdict_from (fun e he => (mem_failures he).2) hne
  exact ⟨e, (mem_failures he).1, h⟩

/-- The fate of a task is that of some rule's answer. -/
theorem fate_answer {as : List (Nat × Answer)} (hn : fate as ≠ .runs) :
    ∃ e ∈ as, e.2.verdict = fate as := by
  have hv : verdict (failures as) ≠ .runs := by
    intro hc
    rw [verdict_runs, failures_nil] at hc
    exact hn (fate_runs.2 hc)
  obtain ⟨e, he, h⟩ := verdict_answer hv
  unfold fate
  split
  · rename_i d hd; exact ⟨e, he, h.trans hd⟩
  · split
    · rename_i hw
      rw [List.any_eq_true] at hw
      obtain ⟨x, hx, hxw⟩ := hw
      exact ⟨x, hx, by rw [decide_eq_true_eq] at hxw; rw [hxw]; rfl⟩
    · exact ⟨e, he, h⟩

/-- On different parameters no failure replaces another. -/
theorem failures_distinct {as : List (Nat × Answer)} (hd : as.Pairwise (fun a b => a.1 ≠ b.1)) :
    failures as = as.filter (fun a => a.2 ≠ .pass) := by
  suffices ∀ (as d : List (Nat × Answer)), as.Pairwise (fun a b => a.1 ≠ b.1) →
      (∀ a ∈ as, ∀ e ∈ d, e.1 ≠ a.1) →
      as.foldl (fun d a => if a.2 = .pass then d else put d a.1 a.2) d =
        d ++ as.filter (fun a => a.2 ≠ .pass) by
    simpa [failures] using this as [] hd (by simp)
  intro as
  induction as with
  | nil => intro d _ _; simp
  | cons a as ih =>
    intro d hp hdis
    rw [List.pairwise_cons] at hp
    simp only [List.foldl_cons]
    by_cases h : a.2 = .pass
    · rw [if_pos h, ih d hp.2 (fun b hb => hdis b (List.mem_cons_of_mem _ hb)),
        List.filter_cons_of_neg (by simp [h])]
    · rw [if_neg h]
      have hput : put d a.1 a.2 = d ++ [a] := by
        unfold put
        rw [if_neg]
        intro hc
        rw [List.any_eq_true] at hc
        obtain ⟨e, he, hx⟩ := hc
        exact hdis a List.mem_cons_self e he (by simpa using hx)
      rw [hput, ih (d ++ [a]) hp.2 ?_, List.filter_cons_of_pos (by simp [h])]
      · simp
      · intro b hb e he
        rcases List.mem_append.1 he with h1 | h1
        · exact hdis b (List.mem_cons_of_mem _ hb) e h1
        · rw [List.mem_singleton] at h1
          subst h1
          exact hp.1 b hb

theorem verdict_refused {fs : List (Nat × Answer)} {e : Nat × Answer} (he : e ∈ fs)
    (hr : e.2.verdict.refused = true) : (verdict fs).refused = true := by
  induction fs with
  | nil => cases he
  | cons x fs ih =>
    obtain ⟨p, a⟩ := x
    cases a with
    | comeBack d => rfl
    | drop => rfl
    | wait => rfl
    | pass =>
      rcases List.mem_cons.1 he with h | h
      · subst h; cases hr
      · have h2 := ih h
        simp only [verdict]
        split
        · rename_i hv; rw [hv] at h2; cases h2
        · exact h2
    | error =>
      rcases List.mem_cons.1 he with h | h
      · subst h; cases hr
      · have h2 := ih h
        simp only [verdict]
        split
        · rename_i hv; rw [hv] at h2; cases h2
        · exact h2

/-- On different parameters, a task that was refused by nobody was told so. -/
theorem fate_unrefused {as : List (Nat × Answer)} (hd : as.Pairwise (fun a b => a.1 ≠ b.1))
    (hr : (verdict (failures as)).refused = false) : fate as = .runs ∨ fate as = .fails := by
  by_cases hf : fate as = .runs
  · exact Or.inl hf
  · right
    obtain ⟨e, he, hv⟩ := fate_answer hf
    cases ha : e.2 with
    | pass => rw [ha] at hv; exact absurd hv.symm hf
    | error => rw [ha] at hv; exact hv.symm
    | _ =>
      have hm : e ∈ failures as := by
        rw [failures_distinct hd]
        exact List.mem_filter.2 ⟨he, by simp [ha]⟩
      have := verdict_refused hm (by rw [ha]; rfl)
      rw [hr] at this; cases this


/-! ### What the rules keep -/

theorem runFrom_snoc (s : St) (ops : List Op) (op : Op) : runFrom s (ops ++ [op]) = step (runFrom s ops) op := by
  simp [runFrom]

theorem run_snoc (rules : List Rule) (ops : List Op) (op : Op) :
    run rules (ops ++ [op]) = step (run rules ops) op := runFrom_snoc _ _ _

theorem run_append (rules : List Rule) (ops more : List Op) :
    run rules (ops ++ more) = runFrom (run rules ops) more := runFrom_append _ _ _

/-- Induction from the end. -/
theorem ops_induction {P : List Op → Prop} (h0 : P []) (h1 : ∀ ops op, P ops → P (ops ++ [op])) :
    ∀ ops, P ops := by
  intro ops
  rw [← List.reverse_reverse ops]
  generalize ops.reverse = l
  induction l with
  | nil => exact h0
  | cons a l ih => rw [List.reverse_cons]; exact h1 _ _ ih

theorem step_rules (s : St) (op : Op) : (step s op).rules.map (·.1) = s.rules.map (·.1) := by
  cases op with
  | tick d => rfl
  | deliver k free => simp [step, List.map_map, Function.comp_def]

theorem run_rules (rules : List Rule) (ops : List Op) : (run rules ops).rules.map (·.1) = rules := by
  induction ops using ops_induction with
  | h0 => simp [run, runFrom, start, List.map_map, Function.comp_def]
  | h1 ops op ih => rw [run_snoc, step_rules, ih]

theorem past (rules : List Rule) (ops : List Op) :
    ∀ x ∈ (run rules ops).log, x.time ≤ (run rules ops).clock := by
  induction ops using ops_induction with
  | h0 => intro x hx; cases hx
  | h1 ops op ih =>
    rw [run_snoc]
    cases op with
    | tick d => intro x hx; exact Nat.le_trans (ih x hx) (Nat.le_add_right _ _)
    | deliver k free =>
      intro x hx
      rcases List.mem_cons.1 hx with rfl | hx
      · exact Nat.le_refl _
      · exact ih x hx

/-- A cooldown. -/
structure CoolInv (us : Nat) (log : List Entry) (g : Mem) : Prop where
  set : ∀ e, g.cool.keys "" = some e → ∃ x ∈ log, x.time + windowMs us = e
  seen : ∀ x ∈ log, ∃ e, g.cool.keys "" = some e ∧ x.time < e

/-- A rate limit (rules on different parameters). -/
structure RateInv (log : List Entry) (g : Mem) : Prop where
  held : ∀ t ∈ g.lim.entries, t.1.2 = t.2 ∧ ∃ x ∈ log, x.key = t.1.1 ∧ x.time = t.2 ∧
    (x.verdict = .runs ∨ x.verdict = .fails)
  once : (g.lim.entries.map (·.1)).Nodup

/-- A debounce. -/
structure DebInv (settle : Nat) (log : List Entry) (g : Mem) : Prop where
  winner : ∀ w e, g.deb.winner = some (w, e) → ∃ x ∈ log, x.key = w
  fresh : ∀ w e, g.deb.winner = some (w, e) → ∃ x ∈ log, x.time + settle * 10 = e

theorem cool_enter {clock : Nat} {free : Bool} {k : Key} {now us : Nat} {g : Mem} (hus : windowMs us ≠ 0) :
    (g.cool.keys "" = none ∨ ∃ e, g.cool.keys "" = some e ∧ e ≤ clock) ∧
      (enter clock free k now (.cooldown us) g).2 = .pass ∧
      (enter clock free k now (.cooldown us) g).1.cool.keys "" = some (clock + windowMs us) ∨
    (∃ e, g.cool.keys "" = some e ∧ clock < e) ∧
      (enter clock free k now (.cooldown us) g).2 = .drop ∧
      (enter clock free k now (.cooldown us) g).1.cool.keys "" = g.cool.keys "" := by
  by_cases hp : ∃ e, g.cool.keys "" = some e ∧ clock < e
  · right
    obtain ⟨e, he, hlt⟩ := hp
    have hpr : Cooldown.St.present { g.cool with clock := clock } "" = true := by
      simp [Cooldown.St.present, he, hlt]
    have ha : Cooldown.attempt { g.cool with clock := clock } "" us = ({ g.cool with clock := clock }, .dropped) := by
      simp [Cooldown.attempt, hus, hpr]
    refine ⟨⟨e, he, hlt⟩, ?_, ?_⟩ <;> simp [enter, ha, coolAnswer]
  · left
    have hpr : Cooldown.St.present { g.cool with clock := clock } "" = false := by
      cases hk : g.cool.keys "" with
      | none => simp [Cooldown.St.present, hk]
      | some e =>
        have : ¬ clock < e := fun hc => hp ⟨e, hk, hc⟩
        simp [Cooldown.St.present, hk, this]
    refine ⟨?_, ?_, ?_⟩
    · cases hk : g.cool.keys "" with
      | none => exact Or.inl rfl
      | some e => exact Or.inr ⟨e, rfl, Nat.le_of_not_lt fun hc => hp ⟨e, hk, hc⟩⟩
    · simp [enter, Cooldown.attempt, hus, hpr, coolAnswer]
    · simp [enter, Cooldown.attempt, hus, hpr, upd]

theorem CoolInv.deliver {us : Nat} {log : List Entry} {g : Mem} (h : CoolInv us log g) (hus : windowMs us ≠ 0)
    {clock : Nat} {free : Bool} {k : Key} {v f : Verdict} (hpast : ∀ x ∈ log, x.time ≤ clock) :
    CoolInv us (⟨k, clock, f⟩ :: log)
      (exit k clock v (.cooldown us) (enter clock free k clock (.cooldown us) g)) := by
  show CoolInv us (⟨k, clock, f⟩ :: log) (enter clock free k clock (.cooldown us) g).1
  rcases cool_enter (clock := clock) (free := free) (k := k) (now := clock) (g := g) hus with
    ⟨_, _, hk⟩ | ⟨⟨e, he, hlt⟩, _, hk⟩
  · refine ⟨?_, ?_⟩
    · intro e he
      rw [hk] at he
      injection he with he
      exact ⟨_, List.mem_cons_self, he⟩
    · intro x hx
      refine ⟨_, hk, ?_⟩
      have : x.time ≤ clock := by
        rcases List.mem_cons.1 hx with rfl | hx
        · exact Nat.le_refl _
        · exact hpast x hx
      omega
  · refine ⟨?_, ?_⟩
    · intro e' he'
      rw [hk] at he'
      obtain ⟨x, hx, h1⟩ := h.set e' he'
      exact ⟨x, List.mem_cons_of_mem _ hx, h1⟩
    · intro x hx
      refine ⟨e, hk.trans he, ?_⟩
      rcases List.mem_cons.1 hx with rfl | hx
      · exact hlt
      · have := hpast x hx; omega

theorem deb_enter {clock : Nat} {free : Bool} {k : Key} {now settle : Nat} {g : Mem} {w : Key} {e : Nat}
    (hs : settle ≠ 0)
    (h : (enter clock free k now (.debounce settle) g).1.deb.winner = some (w, e)) :
    (w = k ∨ ∃ e', g.deb.winner = some (w, e')) ∧ e = clock + settle * 10 := by
  simp only [enter, Debounce.script] at h
  split at h
  · rename_i hg
    split at h
    · rename_i hz
      simp only [Debounce.ttl] at hz
      omega
    · simp only [Option.some.injEq, Prod.mk.injEq] at h
      exact ⟨Or.inl h.1.symm, h.2.symm⟩
  · rename_i w' hg
    obtain ⟨e0, h0, _⟩ := Debounce.get_some hg
    split at h
    · rename_i hw
      split at h
      · simp at h
      · simp only [Debounce.pexpire, hg, Option.map_some, Option.some.injEq, Prod.mk.injEq] at h
        exact ⟨Or.inl (h.1.symm.trans hw), h.2.symm⟩
    · simp only [Debounce.pexpire, hg, Option.map_some, Option.some.injEq, Prod.mk.injEq] at h
      refine ⟨Or.inr ⟨e0, ?_⟩, h.2.symm⟩
      rw [← h.1]; exact h0

theorem DebInv.deliver {settle : Nat} {log : List Entry} {g : Mem} (h : DebInv settle log g) (hs : settle ≠ 0)
    {clock : Nat} {free : Bool} {k : Key} {v f : Verdict} :
    DebInv settle (⟨k, clock, f⟩ :: log)
      (exit k clock v (.debounce settle) (enter clock free k clock (.debounce settle) g)) := by
  show DebInv settle (⟨k, clock, f⟩ :: log) (enter clock free k clock (.debounce settle) g).1
  refine ⟨?_, ?_⟩
  · intro w e he
    rcases (deb_enter hs he).1 with rfl | ⟨e', h0⟩
    · exact ⟨_, List.mem_cons_self, rfl⟩
    · obtain ⟨x, hx, hk⟩ := h.winner w e' h0
      exact ⟨x, List.mem_cons_of_mem _ hx, hk⟩
  · intro w e he
    exact ⟨_, List.mem_cons_self, (deb_enter hs he).2.symm⟩

theorem insert_fst_nodup {m : Rate.Member} {t : Nat} {es : List (Rate.Member × Nat)}
    (hm : m ∉ es.map (·.1)) (h : (es.map (·.1)).Nodup) : ((Rate.insert m t es).map (·.1)).Nodup := by
  induction es with
  | nil => simp [Rate.insert]
  | cons e es ih =>
    simp only [List.map_cons, List.mem_cons, not_or, List.nodup_cons] at hm h
    simp only [Rate.insert]
    split
    · simp only [List.map_cons, List.nodup_cons]
      refine ⟨?_, ih hm.2 h.2⟩
      intro hc
      rw [List.mem_map] at hc
      obtain ⟨x, hx, hxe⟩ := hc
      rcases Rate.mem_insert.1 hx with rfl | hx
      · exact hm.1 hxe
      · exact h.1 (List.mem_map.2 ⟨x, hx, hxe⟩)
    · simp only [List.map_cons, List.nodup_cons, List.mem_cons, not_or]
      exact ⟨⟨hm.1, hm.2⟩, h.1, h.2⟩

theorem filter_fst_nodup {es : List (Rate.Member × Nat)} {p : Rate.Member × Nat → Bool}
    (h : (es.map (·.1)).Nodup) : ((es.filter p).map (·.1)).Nodup :=
  h.sublist (List.filter_sublist.map _)

theorem zadd_fst_nodup {m : Rate.Member} {t : Nat} {es : List (Rate.Member × Nat)}
    (h : (es.map (·.1)).Nodup) : ((Rate.zadd m t es).map (·.1)).Nodup := by
  refine insert_fst_nodup ?_ (filter_fst_nodup h)
  intro hc
  rw [List.mem_map] at hc
  obtain ⟨x, hx, he⟩ := hc
  have := (List.mem_filter.1 hx).2
  simp [he] at this

theorem script_ways (cfg : Rate.Cfg) (l : Rate.Lim) (m : Rate.Member) (now : Nat) :
    ((Rate.prune cfg now l.live).length < cfg.limit ∧ Rate.script cfg l m now =
      ({ l with entries := Rate.zadd m now (Rate.prune cfg now l.live)
                expireAt := some (l.clock + cfg.per * 2) }, .proceed)) ∨
    (cfg.limit ≤ (Rate.prune cfg now l.live).length ∧ ∃ out, out ≠ .proceed ∧ Rate.script cfg l m now =
      ({ l with entries := Rate.prune cfg now l.live }, out) ∧
      (0 < cfg.limit → ∃ d, out = .blocked d)) := by
  by_cases hlen : (Rate.prune cfg now l.live).length < cfg.limit
  · left
    refine ⟨hlen, ?_⟩
    simp only [Rate.script, if_pos hlen]
  · right
    refine ⟨Nat.le_of_not_lt hlen, ?_⟩
    cases hes : Rate.prune cfg now l.live with
    | nil =>
      refine ⟨.scriptError, by simp, ?_, ?_⟩
      · simp only [Rate.script, if_neg hlen]
        rw [hes]
      · intro h; rw [hes] at hlen; simp only [List.length_nil] at hlen; omega
    | cons e es =>
      refine ⟨.blocked (Nat.max 1 (e.2 + cfg.per - now)), by simp, ?_, fun _ => ⟨_, rfl⟩⟩
      simp only [Rate.script, if_neg hlen]
      rw [hes]

/-- What is left of a rate limit's entries after a delivery. -/
theorem rate_enter {clock : Nat} {free : Bool} {k : Key} {now : Nat} {cfg : Rate.Cfg} {drop : Bool} {g : Mem}
    {v : Verdict} (hn : (g.lim.entries.map (·.1)).Nodup) :
    (∀ t ∈ (exit k now v (.rate cfg drop) (enter clock free k now (.rate cfg drop) g)).lim.entries,
      t ∈ g.lim.entries ∨ (t = ((k, now), now) ∧ v.refused = false)) ∧
    ((exit k now v (.rate cfg drop) (enter clock free k now (.rate cfg drop) g)).lim.entries.map (·.1)).Nodup := by
  obtain ⟨l, hl0⟩ : ∃ l : Rate.Lim, l = { g.lim with clock := clock } := ⟨_, rfl⟩
  have hle : l.entries = g.lim.entries := by rw [hl0]
  have henter : enter clock free k now (.rate cfg drop) g = ({ g with lim := (Rate.script cfg l (k, now) now).1 },
      rateAnswer drop (Rate.script cfg l (k, now) now).2) := by rw [hl0]; rfl
  rw [henter]
  have hl := Rate.live_sublist l
  rw [← hle] at hn ⊢
  have hes : ((Rate.prune cfg now l.live).map (·.1)).Nodup := filter_fst_nodup (hn.sublist (hl.map _))
  have hsub : ∀ t ∈ Rate.prune cfg now l.live, t ∈ l.entries :=
    fun t ht => hl.subset (List.mem_filter.1 ht).1
  rcases script_ways cfg l (k, now) now with ⟨hlen, hs⟩ | ⟨hlen, out, ho, hs, _⟩
  · rw [hs]
    simp only [exit, rateAnswer]
    by_cases hr : v.refused = true
    · rw [if_pos ⟨hr, trivial⟩]
      simp only [Rate.zrem]
      obtain ⟨l2, hl2⟩ : ∃ l2 : Rate.Lim, l2 = { l with
        entries := Rate.zadd (k, now) now (Rate.prune cfg now l.live)
        expireAt := some (l.clock + cfg.per * 2) } := ⟨_, rfl⟩
      have h2 := Rate.live_sublist l2
      rw [← hl2]
      have he2 : l2.entries = Rate.zadd (k, now) now (Rate.prune cfg now l.live) := by rw [hl2]
      rw [he2] at h2
      refine ⟨?_, filter_fst_nodup ((zadd_fst_nodup hes).sublist (h2.map _))⟩
      intro t ht
      obtain ⟨h3, h4⟩ := List.mem_filter.1 ht
      rcases Rate.mem_zadd.1 (h2.subset h3) with h6 | h6
      · rw [h6] at h4; simp at h4
      · exact Or.inl (hsub t h6.1)
    · rw [if_neg (fun hc => hr hc.1)]
      refine ⟨?_, zadd_fst_nodup hes⟩
      intro t ht
      rcases Rate.mem_zadd.1 ht with h6 | h6
      · exact Or.inr ⟨h6, by simpa using hr⟩
      · exact Or.inl (hsub t h6.1)
  · have ha : rateAnswer drop out ≠ .pass := by
      cases out with
      | proceed => exact absurd rfl ho
      | blocked d => cases drop <;> simp [rateAnswer]
      | scriptError => simp [rateAnswer]
    rw [hs]
    simp only [exit]
    rw [if_neg (fun hc => ha hc.2)]
    exact ⟨fun t ht => Or.inl (hsub t ht), hes⟩

theorem RateInv.deliver {log : List Entry} {g : Mem} (h : RateInv log g)
    {cfg : Rate.Cfg} {drop : Bool} {clock : Nat} {free : Bool} {k : Key} {v f : Verdict}
    (hf : v.refused = false → f = .runs ∨ f = .fails) :
    RateInv (⟨k, clock, f⟩ :: log)
      (exit k clock v (.rate cfg drop) (enter clock free k clock (.rate cfg drop) g)) := by
  obtain ⟨h1, h2⟩ := rate_enter (clock := clock) (free := free) (k := k) (now := clock) (cfg := cfg)
    (drop := drop) (v := v) h.once
  refine ⟨?_, h2⟩
  intro t ht
  rcases h1 t ht with h3 | ⟨rfl, hr⟩
  · obtain ⟨h4, x, hx, h5⟩ := h.held t h3
    exact ⟨h4, x, List.mem_cons_of_mem _ hx, h5⟩
  · exact ⟨rfl, _, List.mem_cons_self, rfl, rfl, hf hr⟩

/-- The settings make sense: a rate limit lets somebody through, and a window is not empty. -/
def Kind.sensible : Kind → Prop
  | .rate cfg _ => 0 < cfg.limit
  | .cooldown us => 1000 ≤ us
  | .debounce settle => 0 < settle
  | .slot => True

/-- The rules are declared on different parameters. -/
def Apart (rules : List Rule) : Prop := rules.Pairwise (fun a b => a.param ≠ b.param)

theorem answers_apart {s : St} (h : Apart (s.rules.map (·.1))) (k : Key) (free : Bool) :
    (answers s k free).Pairwise (fun a b => a.1 ≠ b.1) := by
  unfold answers
  unfold Apart at h
  rw [List.pairwise_map] at h ⊢
  exact h

/-- What is known of a rule's memory. -/
def MemInv (log : List Entry) (c : Rule × Mem) : Prop :=
  match c.1.kind with
  | .rate _ _ => True
  | .cooldown us => windowMs us ≠ 0 → CoolInv us log c.2
  | .debounce settle => settle ≠ 0 → DebInv settle log c.2
  | .slot => True

theorem mem_inv (rules : List Rule) (ops : List Op) :
    ∀ c ∈ (run rules ops).rules, MemInv (run rules ops).log c := by
  induction ops using ops_induction with
  | h0 =>
    intro c hc
    simp only [run, runFrom, List.foldl_nil, start, List.mem_map] at hc
    obtain ⟨r, _, rfl⟩ := hc
    unfold MemInv
    split
    · trivial
    · intro _; exact ⟨fun e he => by simp at he, fun x hx => by cases hx⟩
    · intro _; exact ⟨fun w e he => by simp at he, fun w e he => by simp at he⟩
    · trivial
  | h1 ops op ih =>
    rw [run_snoc]
    cases op with
    | tick d => exact ih
    | deliver k free =>
      intro c' hc'
      simp only [step, List.mem_map] at hc'
      obtain ⟨c, hc, rfl⟩ := hc'
      have h1 := ih c hc
      unfold MemInv at h1 ⊢
      simp only
      cases hk : c.1.kind with
      | rate cfg drop => trivial
      | slot => trivial
      | cooldown us =>
        rw [hk] at h1
        intro hus
        exact (h1 hus).deliver hus (past rules ops)
      | debounce settle =>
        rw [hk] at h1
        intro hs
        exact (h1 hs).deliver hs

theorem rate_inv {rules : List Rule} (ha : Apart rules) (ops : List Op) :
    ∀ c ∈ (run rules ops).rules, ∀ cfg drop, c.1.kind = .rate cfg drop → RateInv (run rules ops).log c.2 := by
  induction ops using ops_induction with
  | h0 =>
    intro c hc cfg drop _
    simp only [run, runFrom, List.foldl_nil, start, List.mem_map] at hc
    obtain ⟨r, _, rfl⟩ := hc
    exact ⟨fun t ht => (by cases ht), List.nodup_nil⟩
  | h1 ops op ih =>
    rw [run_snoc]
    cases op with
    | tick d => exact ih
    | deliver k free =>
      intro c' hc' cfg drop hk
      simp only [step, List.mem_map] at hc'
      obtain ⟨c, hc, rfl⟩ := hc'
      simp only at hk ⊢
      rw [hk]
      refine (ih c hc cfg drop hk).deliver (fun hr => fate_unrefused ?_ hr)
      exact answers_apart (by rw [run_rules]; exact ha) k free


/-! ### The property -/

/-- The settings of all rules make sense. -/
def Sensible (rules : List Rule) : Prop := ∀ r ∈ rules, r.kind.sensible

/-- The property: a task is dropped only on account of another task, which was not dropped itself:
it has run, waits, or is to come back. -/
def C99_statement : Prop :=
  ∀ (rules : List Rule), Apart rules → Sensible rules → ∀ (ops : List Op) (k : Key) (free : Bool) (t : Nat),
    (run rules (ops ++ [.deliver k free])).log = ⟨k, t, .dropped⟩ :: (run rules ops).log →
    ∃ x ∈ (run rules ops).log, x.key ≠ k ∧ x.verdict ≠ .dropped ∧ x.verdict ≠ .fails

/-- The deliveries within the last `per` after which the function was called, or which failed. -/
def ranWithin (per clock : Nat) (log : List Entry) : List Entry :=
  log.filter (fun x => decide (clock < x.time + per ∧ (x.verdict = .runs ∨ x.verdict = .fails)))

theorem rate_count {rules : List Rule} (ha : Apart rules) {ops : List Op} {c : Rule × Mem}
    (hc : c ∈ (run rules ops).rules) {cfg : Rate.Cfg} {drop : Bool} (hk : c.1.kind = .rate cfg drop)
    {clock : Nat} :
    (Rate.prune cfg clock (Rate.Lim.live { c.2.lim with clock := clock })).length ≤
      (ranWithin cfg.per clock (run rules ops).log).length := by
  have hi := rate_inv ha ops c hc cfg drop hk
  obtain ⟨l, hl0⟩ : ∃ l : Rate.Lim, l = { c.2.lim with clock := clock } := ⟨_, rfl⟩
  have hle : l.entries = c.2.lim.entries := by rw [hl0]
  rw [← hl0]
  have hl := Rate.live_sublist l
  rw [hle] at hl
  have hes : ((Rate.prune cfg clock l.live).map (·.1)).Nodup := filter_fst_nodup (hi.once.sublist (hl.map _))
  have := Rate.nodup_subset_length hes
    (b := (ranWithin cfg.per clock (run rules ops).log).map (fun x => (x.key, x.time))) (by
      intro m hm
      rw [List.mem_map] at hm ⊢
      obtain ⟨t, ht, rfl⟩ := hm
      obtain ⟨h1, h2⟩ := List.mem_filter.1 ht
      obtain ⟨h3, x, hx, h4, h5, h6⟩ := hi.held t (hl.subset h1)
      refine ⟨x, ?_, ?_⟩
      · refine List.mem_filter.2 ⟨hx, ?_⟩
        rw [decide_eq_true_eq] at h2 ⊢
        exact ⟨by omega, h6⟩
      · rw [h4, h5, ← h3])
  simpa using this

theorem deliver_log (s : St) (k : Key) (free : Bool) :
    (step s (.deliver k free)).log = ⟨k, s.clock, fate (answers s k free)⟩ :: s.log := rfl

theorem log_verdict {rules : List Rule} {ops : List Op} {k : Key} {free : Bool} {t : Nat} {v : Verdict}
    {rest : List Entry} (h : (run rules (ops ++ [.deliver k free])).log = ⟨k, t, v⟩ :: rest) :
    fate (answers (run rules ops) k free) = v ∧ t = (run rules ops).clock := by
  rw [run_snoc, deliver_log] at h
  simp only [List.cons.injEq, Entry.mk.injEq, true_and] at h
  exact ⟨h.1.2, h.1.1.symm⟩

theorem mem_rules {rules : List Rule} {ops : List Op} {c : Rule × Mem} (hc : c ∈ (run rules ops).rules) :
    c.1 ∈ rules := by
  have := List.mem_map_of_mem (f := (·.1)) hc
  rw [run_rules] at this
  exact this

theorem of_mem_rules {rules : List Rule} {ops : List Op} {r : Rule} (hr : r ∈ rules) :
    ∃ c ∈ (run rules ops).rules, c.1 = r := by
  rw [← run_rules rules ops, List.mem_map] at hr
  exact hr

/-- The rule behind a fate. -/
theorem fate_rule {s : St} {k : Key} {free : Bool} (h : fate (answers s k free) ≠ .runs) :
    ∃ c ∈ s.rules, (enter s.clock free k s.clock c.1.kind c.2).2.verdict = fate (answers s k free) := by
  obtain ⟨e, he, hv⟩ := fate_answer h
  rw [answers, List.mem_map] at he
  obtain ⟨c, hc, rfl⟩ := he
  exact ⟨c, hc, hv⟩

theorem rate_refuses {rules : List Rule} (ha : Apart rules) {ops : List Op} {c : Rule × Mem}
    (hc : c ∈ (run rules ops).rules) {cfg : Rate.Cfg} {drop free : Bool} {k : Key} (hk : c.1.kind = .rate cfg drop)
    (hr : (enter (run rules ops).clock free k (run rules ops).clock c.1.kind c.2).2 ≠ .pass) :
    cfg.limit ≤ (ranWithin cfg.per (run rules ops).clock (run rules ops).log).length := by
  have h1 := rate_count ha hc hk (clock := (run rules ops).clock)
  rcases script_ways cfg { c.2.lim with clock := (run rules ops).clock } (k, (run rules ops).clock)
    (run rules ops).clock with ⟨_, hs⟩ | ⟨hlen, _⟩
  · rw [hk] at hr
    simp only [enter, hs, rateAnswer, ne_eq, not_true_eq_false] at hr
  · exact Nat.le_trans hlen h1

theorem deb_drops {clock : Nat} {free : Bool} {k : Key} {now settle : Nat} {g : Mem}
    (h : (enter clock free k now (.debounce settle) g).2 = .drop) :
    ∃ w e, g.deb.winner = some (w, e) ∧ w ≠ k ∧ clock < e := by
  simp only [enter, Debounce.script] at h
  split at h
  · split at h <;> cases h
  · rename_i w hg
    obtain ⟨e, he, hlt⟩ := Debounce.get_some hg
    split at h
    · split at h <;> cases h
    · rename_i hne
      exact ⟨w, e, he, hne, hlt⟩

theorem deb_passes {clock : Nat} {free : Bool} {k : Key} {now settle : Nat} {g : Mem}
    (h : (enter clock free k now (.debounce settle) g).2 = .pass) :
    ∃ e, g.deb.winner = some (k, e) := by
  simp only [enter, Debounce.script] at h
  split at h
  · split at h <;> cases h
  · rename_i w hg
    obtain ⟨e, he, hlt⟩ := Debounce.get_some hg
    split at h
    · rename_i hw; exact ⟨e, hw ▸ he⟩
    · cases h

/-- C99, causes.  A dropped task was dropped by one of its rules, and for the reason the rule
gives: by a cooldown because some delivery took place less than a window ago, by a rate limit
because its places are taken by tasks that were let run (or failed) within its window (a task that
was turned away holds none), by a debounce because another task is awaited. -/
theorem C99_cause (rules : List Rule) (ha : Apart rules) (hs : Sensible rules) (ops : List Op) (k : Key)
    (free : Bool) (t : Nat)
    (h : (run rules (ops ++ [.deliver k free])).log = ⟨k, t, .dropped⟩ :: (run rules ops).log) :
    (∃ p us, ⟨p, .cooldown us⟩ ∈ rules ∧ ∃ x ∈ (run rules ops).log, x.time ≤ t ∧ t < x.time + us / 1000) ∨
    (∃ p cfg, ⟨p, .rate cfg true⟩ ∈ rules ∧ cfg.limit ≤ (ranWithin cfg.per t (run rules ops).log).length) ∨
    (∃ p settle, ⟨p, .debounce settle⟩ ∈ rules ∧ (∃ x ∈ (run rules ops).log, x.key ≠ k) ∧
      ∃ x ∈ (run rules ops).log, x.time ≤ t ∧ t < x.time + settle * 10) := by
  obtain ⟨hv, rfl⟩ := log_verdict h
  obtain ⟨c, hc, hcv⟩ := fate_rule (by rw [hv]; simp)
  rw [hv] at hcv
  have hd : (enter (run rules ops).clock free k (run rules ops).clock c.1.kind c.2).2 = .drop := by
    cases ha : (enter (run rules ops).clock free k (run rules ops).clock c.1.kind c.2).2 <;>
      rw [ha] at hcv <;> first | rfl | cases hcv
  have hm := mem_rules hc
  have hsk := hs _ hm
  have hinv := mem_inv rules ops c hc
  cases hk : c.1.kind with
  | slot =>
    rw [hk] at hd
    simp only [enter] at hd
    split at hd <;> cases hd
  | rate cfg drop =>
    right; left
    have := rate_refuses ha hc (k := k) (free := free) hk (by rw [hd]; simp)
    cases drop with
    | true => exact ⟨c.1.param, cfg, hk ▸ hm, this⟩
    | false =>
      rw [hk] at hd
      exfalso
      simp only [enter] at hd
      cases hout : (Rate.script cfg { c.2.lim with clock := (run rules ops).clock } (k, (run rules ops).clock)
        (run rules ops).clock).2 <;> rw [hout] at hd <;> simp [rateAnswer] at hd
  | cooldown us =>
    left
    rw [hk] at hd hsk
    simp only [Kind.sensible] at hsk
    have hw : windowMs us ≠ 0 := by unfold windowMs; omega
    unfold MemInv at hinv
    rw [hk] at hinv
    have hinv := hinv hw
    rcases cool_enter (clock := (run rules ops).clock) (free := free) (k := k) (now := (run rules ops).clock)
      (g := c.2) hw with ⟨_, hp, _⟩ | ⟨⟨e, he, hlt⟩, _, _⟩
    · rw [hp] at hd; cases hd
    · obtain ⟨x, hx, hxe⟩ := hinv.set e he
      refine ⟨c.1.param, us, hk ▸ hm, x, hx, past rules ops x hx, ?_⟩
      simp only [windowMs] at hxe
      omega
  | debounce settle =>
    right; right
    rw [hk] at hd hsk
    simp only [Kind.sensible] at hsk
    have hw : settle ≠ 0 := by omega
    unfold MemInv at hinv
    rw [hk] at hinv
    have hinv := hinv hw
    obtain ⟨w, e, he, hne, hlt⟩ := deb_drops hd
    obtain ⟨x, hx, hxk⟩ := hinv.winner w e he
    obtain ⟨y, hy, hye⟩ := hinv.fresh w e he
    exact ⟨c.1.param, settle, hk ▸ hm, ⟨x, hx, by rw [hxk]; exact hne⟩, y, hy, past rules ops y hy, by omega⟩

/-- C99 without rules that remember no names.  A task whose rules are rate limits that make it come
back, a debounce and a concurrency limit is dropped only when another task has been seen, in every
history: whatever came back, waited, was retried or redelivered. -/
theorem C99_without_cooldown_partial (rules : List Rule) (ha : Apart rules) (hs : Sensible rules)
    (hr : ∀ r ∈ rules, (∀ us, r.kind ≠ .cooldown us) ∧ ∀ cfg, r.kind ≠ .rate cfg true)
    (ops : List Op) (k : Key) (free : Bool) (t : Nat)
    (h : (run rules (ops ++ [.deliver k free])).log = ⟨k, t, .dropped⟩ :: (run rules ops).log) :
    ∃ x ∈ (run rules ops).log, x.key ≠ k := by
  rcases C99_cause rules ha hs ops k free t h with ⟨p, us, hm, _⟩ | ⟨p, cfg, hm, _⟩ | ⟨p, settle, _, hx, _⟩
  · exact absurd rfl ((hr _ hm).1 us)
  · exact absurd rfl ((hr _ hm).2 cfg)
  · exact hx

/-- A rule with sensible settings does not fail. -/
theorem enter_no_error {clock : Nat} {free : Bool} {k : Key} {now : Nat} {kind : Kind} {g : Mem}
    (hs : kind.sensible) : (enter clock free k now kind g).2 ≠ .error := by
  cases kind with
  | slot => simp only [enter]; split <;> simp
  | rate cfg drop =>
    simp only [Kind.sensible] at hs
    rcases script_ways cfg { g.lim with clock := clock } (k, now) now with ⟨_, h⟩ | ⟨_, out, _, h, hb⟩
    · simp only [enter, h, rateAnswer]; simp
    · obtain ⟨d, rfl⟩ := hb hs
      simp only [enter, h, rateAnswer]
      cases drop <;> simp
  | cooldown us =>
    simp only [Kind.sensible] at hs
    have hw : windowMs us ≠ 0 := by unfold windowMs; omega
    rcases cool_enter (clock := clock) (free := free) (k := k) (now := now) (g := g) hw with
      ⟨_, h, _⟩ | ⟨_, h, _⟩ <;> rw [h] <;> simp
  | debounce settle =>
    simp only [Kind.sensible] at hs
    simp only [enter, Debounce.script]
    split
    · split
      · rename_i hz; unfold Debounce.ttl at hz; omega
      · simp [debAnswer]
    · split
      · split <;> simp [debAnswer]
      · simp [debAnswer]

/-- C99, failures.  No task fails on account of its rules if their settings make sense: at least
one place, a window of a millisecond or more, a settling time that is not nothing. -/
theorem C99_no_failure (rules : List Rule) (hs : Sensible rules) (ops : List Op) :
    ∀ x ∈ (run rules ops).log, x.verdict ≠ .fails := by
  induction ops using ops_induction with
  | h0 => intro x hx; cases hx
  | h1 ops op ih =>
    rw [run_snoc]
    cases op with
    | tick d => exact ih
    | deliver k free =>
      rw [deliver_log]
      intro x hx
      rcases List.mem_cons.1 hx with rfl | hx
      · simp only
        intro hf
        obtain ⟨c, hc, hv⟩ := fate_rule (s := run rules ops) (k := k) (free := free) (by rw [hf]; simp)
        rw [hf] at hv
        have hne := enter_no_error (clock := (run rules ops).clock) (free := free) (k := k)
          (now := (run rules ops).clock) (g := c.2) (hs _ (mem_rules hc))
        cases ha : (enter (run rules ops).clock free k (run rules ops).clock c.1.kind c.2).2 <;>
          rw [ha] at hv hne <;> first | exact hne rfl | cases hv
      · exact ih x hx

/-! ### A single rule -/

/-- What a single rule remembers is of tasks it let through, or told to come back. -/
def SingleInv (log : List Entry) (c : Rule × Mem) : Prop :=
  match c.1.kind with
  | .cooldown us => windowMs us ≠ 0 → ∀ e, c.2.cool.keys "" = some e →
      ∃ x ∈ log, x.time + windowMs us = e ∧ x.verdict = .runs
  | .debounce settle => settle ≠ 0 → ∀ w e, c.2.deb.winner = some (w, e) →
      ∃ x ∈ log, x.key = w ∧ ∃ d, x.verdict = .comesBack d
  | _ => True

theorem fate_single (p : Nat) (a : Answer) : fate [(p, a)] = a.verdict := by
  cases a <;> rfl

theorem single_inv (r : Rule) (ops : List Op) :
    ∃ g, (run [r] ops).rules = [(r, g)] ∧ SingleInv (run [r] ops).log (r, g) := by
  induction ops using ops_induction with
  | h0 =>
    refine ⟨{}, rfl, ?_⟩
    unfold SingleInv
    split
    · intro _ e he; simp at he
    · intro _ w e he; simp at he
    · trivial
  | h1 ops op ih =>
    obtain ⟨g, hg, hi⟩ := ih
    rw [run_snoc]
    generalize hs : run [r] ops = s at hg hi
    cases op with
    | tick d => exact ⟨g, hg, hi⟩
    | deliver k free =>
      have hans : answers s k free = [(r.param, (enter s.clock free k s.clock r.kind g).2)] := by
        simp [answers, hg]
      have hrules : (step s (.deliver k free)).rules = [(r, exit k s.clock
          (verdict (failures (answers s k free))) r.kind (enter s.clock free k s.clock r.kind g))] := by
        simp [step, hg]
      refine ⟨_, hrules, ?_⟩
      rw [deliver_log, hans, fate_single]
      unfold SingleInv at hi ⊢
      simp only at hi ⊢
      cases hk : r.kind with
      | rate cfg drop => trivial
      | slot => trivial
      | cooldown us =>
        rw [hk] at hi
        intro hus e he
        have hi := hi hus
        have he : (enter s.clock free k s.clock (.cooldown us) g).1.cool.keys "" = some e := he
        rcases cool_enter (clock := s.clock) (free := free) (k := k) (now := s.clock) (g := g) hus with
          ⟨_, hp, hset⟩ | ⟨_, _, hset⟩
        · rw [hset] at he
          injection he with he
          exact ⟨_, List.mem_cons_self, he, by rw [hp]; rfl⟩
        · rw [hset] at he
          obtain ⟨x, hx, h1⟩ := hi e he
          exact ⟨x, List.mem_cons_of_mem _ hx, h1⟩
      | debounce settle =>
        rw [hk] at hi
        intro hse w e he
        have hi := hi hse
        have he : (enter s.clock free k s.clock (.debounce settle) g).1.deb.winner = some (w, e) := he
        by_cases hold : ∃ e', g.deb.winner = some (w, e')
        · obtain ⟨e', h0⟩ := hold
          obtain ⟨x, hx, h1⟩ := hi w e' h0
          exact ⟨x, List.mem_cons_of_mem _ hx, h1⟩
        · rcases (deb_enter hse he).1 with rfl | h0
          · refine ⟨_, List.mem_cons_self, rfl, ?_⟩
            simp only [enter, Debounce.script] at he ⊢
            split at he
            · rename_i hgn
              split at he
              · exact absurd ⟨e, he⟩ hold
              · rename_i hz
                exact ⟨settle, by rw [if_neg hz]; rfl⟩
            · rename_i w' hgs
              obtain ⟨e0, h0, _⟩ := Debounce.get_some hgs
              split at he
              · rename_i hw
                exact absurd ⟨e0, hw ▸ h0⟩ hold
              · simp only [Debounce.pexpire, hgs, Option.map_some, Option.some.injEq, Prod.mk.injEq] at he
                exact absurd ⟨e0, he.1 ▸ h0⟩ hold
          · exact absurd h0 hold

/-- C99 for a single rule.  A task that has not been delivered before is dropped only on account of
another task, which was let run or is to come back. -/
theorem C99_single_rule_partial (r : Rule) (hs : r.kind.sensible) (ops : List Op) (k : Key) (free : Bool) (t : Nat)
    (hnew : ∀ x ∈ (run [r] ops).log, x.key ≠ k)
    (h : (run [r] (ops ++ [.deliver k free])).log = ⟨k, t, .dropped⟩ :: (run [r] ops).log) :
    ∃ x ∈ (run [r] ops).log, x.key ≠ k ∧ (x.verdict = .runs ∨ ∃ d, x.verdict = .comesBack d) := by
  obtain ⟨hv, rfl⟩ := log_verdict h
  obtain ⟨g, hg, hi⟩ := single_inv r ops
  have ha : Apart [r] := by simp [Apart]
  have hans : answers (run [r] ops) k free =
      [(r.param, (enter (run [r] ops).clock free k (run [r] ops).clock r.kind g).2)] := by
    simp [answers, hg]
  rw [hans, fate_single] at hv
  have hd : (enter (run [r] ops).clock free k (run [r] ops).clock r.kind g).2 = .drop := by
    cases ha : (enter (run [r] ops).clock free k (run [r] ops).clock r.kind g).2 <;>
      rw [ha] at hv <;> first | rfl | cases hv
  unfold SingleInv at hi
  simp only at hi
  cases hk : r.kind with
  | slot =>
    rw [hk] at hd
    simp only [enter] at hd
    split at hd <;> cases hd
  | rate cfg drop =>
    have h1 := rate_refuses (rules := [r]) ha (ops := ops) (c := (r, g)) (by rw [hg]; simp) (k := k) (free := free) hk
      (by rw [hd]; simp)
    rw [hk] at hs
    simp only [Kind.sensible] at hs
    obtain ⟨x, hx⟩ := List.exists_mem_of_length_pos (l := ranWithin cfg.per (run [r] ops).clock (run [r] ops).log)
      (by omega)
    obtain ⟨hx1, hx2⟩ := List.mem_filter.1 hx
    rw [decide_eq_true_eq] at hx2
    refine ⟨x, hx1, hnew x hx1, ?_⟩
    rcases hx2.2 with h2 | h2
    · exact Or.inl h2
    · exact absurd h2 (C99_no_failure [r] (by simpa [Sensible, hk, Kind.sensible] using hs) ops x hx1)
  | cooldown us =>
    rw [hk] at hd hs hi
    simp only [Kind.sensible] at hs
    have hw : windowMs us ≠ 0 := by unfold windowMs; omega
    rcases cool_enter (clock := (run [r] ops).clock) (free := free) (k := k) (now := (run [r] ops).clock)
      (g := g) hw with ⟨_, hp, _⟩ | ⟨⟨e, he, hlt⟩, _, _⟩
    · rw [hp] at hd; cases hd
    · obtain ⟨x, hx, _, h2⟩ := hi hw e he
      exact ⟨x, hx, hnew x hx, Or.inl h2⟩
  | debounce settle =>
    rw [hk] at hd hs hi
    simp only [Kind.sensible] at hs
    obtain ⟨w, e, he, hne, hlt⟩ := deb_drops hd
    obtain ⟨x, hx, h1, h2⟩ := hi (by omega) w e he
    exact ⟨x, hx, hnew x hx, Or.inr h2⟩


/-! ### Coming back, waiting, running -/

/-- C99, coming back.  A task is told to come back by a rate limit that has no place left, or by a
debounce. -/
theorem C99_come_back_cause (rules : List Rule) (ha : Apart rules) (ops : List Op) (k : Key)
    (free : Bool) (t d : Nat)
    (h : (run rules (ops ++ [.deliver k free])).log = ⟨k, t, .comesBack d⟩ :: (run rules ops).log) :
    (∃ p cfg, ⟨p, .rate cfg false⟩ ∈ rules ∧ cfg.limit ≤ (ranWithin cfg.per t (run rules ops).log).length) ∨
    ∃ p settle, ⟨p, .debounce settle⟩ ∈ rules := by
  obtain ⟨hv, rfl⟩ := log_verdict h
  obtain ⟨c, hc, hcv⟩ := fate_rule (by rw [hv]; simp)
  rw [hv] at hcv
  have hd : (enter (run rules ops).clock free k (run rules ops).clock c.1.kind c.2).2 = .comeBack d := by
    cases ha : (enter (run rules ops).clock free k (run rules ops).clock c.1.kind c.2).2 <;>
      rw [ha] at hcv <;> simp [Answer.verdict] at hcv
    rw [hcv]
  have hm := mem_rules hc
  cases hk : c.1.kind with
  | slot =>
    rw [hk] at hd
    simp only [enter] at hd
    split at hd <;> cases hd
  | rate cfg drop =>
    left
    have := rate_refuses ha hc (k := k) (free := free) hk (by rw [hd]; simp)
    cases drop with
    | false => exact ⟨c.1.param, cfg, hk ▸ hm, this⟩
    | true =>
      rw [hk] at hd
      exfalso
      simp only [enter] at hd
      cases hout : (Rate.script cfg { c.2.lim with clock := (run rules ops).clock } (k, (run rules ops).clock)
        (run rules ops).clock).2 <;> rw [hout] at hd <;> simp [rateAnswer] at hd
  | cooldown us =>
    rw [hk] at hd
    exfalso
    simp only [enter] at hd
    cases hout : (Cooldown.attempt { c.2.cool with clock := (run rules ops).clock } "" us).2 <;>
      rw [hout] at hd <;> simp [coolAnswer] at hd
  | debounce settle =>
    right
    exact ⟨c.1.param, settle, hk ▸ hm⟩

/-- C99, waiting.  A task waits only under a concurrency limit that has no slot for it. -/
theorem C99_waits_cause (rules : List Rule) (ops : List Op) (k : Key) (free : Bool) (t : Nat)
    (h : (run rules (ops ++ [.deliver k free])).log = ⟨k, t, .waits⟩ :: (run rules ops).log) :
    free = false ∧ ∃ p, ⟨p, .slot⟩ ∈ rules := by
  obtain ⟨hv, rfl⟩ := log_verdict h
  obtain ⟨c, hc, hcv⟩ := fate_rule (by rw [hv]; simp)
  rw [hv] at hcv
  have hd : (enter (run rules ops).clock free k (run rules ops).clock c.1.kind c.2).2 = .wait := by
    cases ha : (enter (run rules ops).clock free k (run rules ops).clock c.1.kind c.2).2 <;>
      rw [ha] at hcv <;> first | rfl | cases hcv
  have hm := mem_rules hc
  cases hk : c.1.kind with
  | slot =>
    rw [hk] at hd
    simp only [enter] at hd
    split at hd
    · cases hd
    · rename_i hf; exact ⟨by simpa using hf, c.1.param, hk ▸ hm⟩
  | rate cfg drop =>
    rw [hk] at hd
    exfalso
    simp only [enter] at hd
    cases hout : (Rate.script cfg { c.2.lim with clock := (run rules ops).clock } (k, (run rules ops).clock)
      (run rules ops).clock).2 <;> cases drop <;> rw [hout] at hd <;> simp [rateAnswer] at hd
  | cooldown us =>
    rw [hk] at hd
    exfalso
    simp only [enter] at hd
    cases hout : (Cooldown.attempt { c.2.cool with clock := (run rules ops).clock } "" us).2 <;>
      rw [hout] at hd <;> simp [coolAnswer] at hd
  | debounce settle =>
    exfalso
    rw [hk] at hd
    simp only [enter, Debounce.script] at hd
    split at hd
    · split at hd <;> cases hd
    · split at hd
      · split at hd <;> cases hd
      · cases hd

/-- C99, running.  A task that no rule has a reason to turn away is run: there is a slot for it, no
delivery took place within any cooldown's window, every rate limit has a place left, and no debounce
is declared. -/
theorem C99_runs (rules : List Rule) (ha : Apart rules) (hs : Sensible rules) (ops : List Op) (k : Key)
    (hcool : ∀ p us, ⟨p, .cooldown us⟩ ∈ rules →
      ∀ x ∈ (run rules ops).log, x.time + us / 1000 ≤ (run rules ops).clock)
    (hrate : ∀ p cfg drop, ⟨p, .rate cfg drop⟩ ∈ rules →
      (ranWithin cfg.per (run rules ops).clock (run rules ops).log).length < cfg.limit)
    (hdeb : ∀ p settle, ⟨p, .debounce settle⟩ ∉ rules) :
    (run rules (ops ++ [.deliver k true])).log =
      ⟨k, (run rules ops).clock, .runs⟩ :: (run rules ops).log := by
  rw [run_snoc, deliver_log]
  have : fate (answers (run rules ops) k true) = .runs := by
    rw [fate_runs]
    intro a ha'
    rw [answers, List.mem_map] at ha'
    obtain ⟨c, hc, rfl⟩ := ha'
    simp only
    have hm := mem_rules hc
    have hsk := hs _ hm
    cases hk : c.1.kind with
    | slot => rfl
    | rate cfg drop =>
      have h1 := hrate c.1.param cfg drop (hk ▸ hm)
      have h2 := rate_refuses ha hc (k := k) (free := true) hk
      rw [hk] at h2
      apply Classical.byContradiction
      intro hn
      have := h2 hn
      omega
    | debounce settle => exact absurd (hk ▸ hm) (hdeb c.1.param settle)
    | cooldown us =>
      rw [hk] at hsk
      simp only [Kind.sensible] at hsk
      have hw : windowMs us ≠ 0 := by unfold windowMs; omega
      rcases cool_enter (clock := (run rules ops).clock) (free := true) (k := k) (now := (run rules ops).clock)
        (g := c.2) hw with ⟨_, hp, _⟩ | ⟨⟨e, he, hlt⟩, _, _⟩
      · exact hp
      · exfalso
        have hinv := mem_inv rules ops c hc
        unfold MemInv at hinv
        rw [hk] at hinv
        obtain ⟨x, hx, hxe⟩ := (hinv hw).set e he
        have := hcool c.1.param us (hk ▸ hm) x hx
        simp only [windowMs] at hxe
        omega
  rw [this]

/-! ### What the cooldown does to the others -/

theorem later (s : St) (ops : List Op) :
    s.clock ≤ (runFrom s ops).clock ∧ ∀ x ∈ (runFrom s ops).log, x ∈ s.log ∨ s.clock ≤ x.time := by
  induction ops generalizing s with
  | nil => exact ⟨Nat.le_refl _, fun x hx => Or.inl hx⟩
  | cons op ops ih =>
    have := ih (step s op)
    have hc : s.clock ≤ (step s op).clock := by cases op <;> simp [step]
    refine ⟨Nat.le_trans hc this.1, fun x hx => ?_⟩
    rcases this.2 x hx with h | h
    · cases op with
      | tick d => exact Or.inl h
      | deliver k free =>
        rw [deliver_log] at h
        rcases List.mem_cons.1 h with rfl | h
        · exact Or.inr (Nat.le_refl _)
        · exact Or.inl h
    · exact Or.inr (Nat.le_trans hc h)

theorem mem_later (s : St) (ops : List Op) : ∀ x ∈ s.log, x ∈ (runFrom s ops).log := by
  induction ops generalizing s with
  | nil => exact fun x hx => hx
  | cons op ops ih =>
    intro x hx
    refine ih (step s op) x ?_
    cases op with
    | tick d => exact hx
    | deliver k free => rw [deliver_log]; exact List.mem_cons_of_mem _ hx

/-- C99, the window.  The first delivery after a quiet time uses a cooldown's window up, whatever
becomes of it: if another rule tells the task to come back, to wait, or drops it, no task runs until
the window is over, that one included. -/
theorem C99_window_used_up (rules : List Rule) (p us : Nat) (hr : ⟨p, .cooldown us⟩ ∈ rules) (hus : 1000 ≤ us)
    (ops : List Op) (k : Key) (free : Bool)
    (hq : ∀ x ∈ (run rules ops).log, x.time + us / 1000 ≤ (run rules ops).clock)
    (more : List Op) (k' : Key) (free' : Bool)
    (ht : (run rules (ops ++ .deliver k free :: more)).clock < (run rules ops).clock + us / 1000) :
    ∀ t rest, (run rules (ops ++ .deliver k free :: more ++ [.deliver k' free'])).log ≠ ⟨k', t, .runs⟩ :: rest := by
  intro t rest h
  obtain ⟨hv, -⟩ := log_verdict h
  rw [fate_runs] at hv
  have hw : windowMs us ≠ 0 := by unfold windowMs; omega
  have e1 : run rules (ops ++ .deliver k free :: more) =
      runFrom (step (run rules ops) (.deliver k free)) more := by
    rw [run_append]; rfl
  obtain ⟨c, hc, hcr⟩ := of_mem_rules (ops := ops ++ .deliver k free :: more) hr
  have hp := hv (c.1.param, _) (by rw [answers, List.mem_map]; exact ⟨c, hc, rfl⟩)
  have hinv := mem_inv rules (ops ++ .deliver k free :: more) c hc
  unfold MemInv at hinv
  rw [hcr] at hinv
  have hinv := hinv hw
  generalize hs : run rules (ops ++ .deliver k free :: more) = s at *
  have hx : (⟨k, (run rules ops).clock, fate (answers (run rules ops) k free)⟩ : Entry) ∈ s.log := by
    rw [e1]
    apply mem_later
    rw [deliver_log]
    exact List.mem_cons_self
  obtain ⟨e, he, hlt⟩ := hinv.seen _ hx
  obtain ⟨y, hy, hye⟩ := hinv.set e he
  simp only at hlt
  have hold := (later (step (run rules ops) (.deliver k free)) more).2 y (by rw [← e1]; exact hy)
  have hge : (run rules ops).clock ≤ y.time := by
    rcases hold with ho | ho
    · rw [deliver_log] at ho
      rcases List.mem_cons.1 ho with rfl | ho
      · exact Nat.le_refl _
      · have := hq y ho
        simp only [windowMs] at hye
        omega
    · exact ho
  simp only [hcr] at hp
  rcases cool_enter (clock := s.clock) (free := free') (k := k') (now := s.clock) (g := c.2) hw with
    ⟨h1, _, _⟩ | ⟨_, hd, _⟩
  · rw [he] at h1
    rcases h1 with h1 | ⟨e', h1, h2⟩
    · cases h1
    · injection h1 with h1
      simp only [windowMs] at hye
      omega
  · rw [hd] at hp
    cases hp

/-- Every task is delivered once, or again after it was told to come back, and then within `w` of
one of its earlier deliveries. -/
def ComesBackWithin (w : Nat) (rules : List Rule) (ops : List Op) : Prop :=
  ∀ pre k free, pre ++ [.deliver k free] <+: ops →
    (∀ x ∈ (run rules pre).log, x.key = k → ∃ d, x.verdict = .comesBack d) ∧
    ((∃ x ∈ (run rules pre).log, x.key = k) →
      ∃ x ∈ (run rules pre).log, x.key = k ∧ (run rules pre).clock < x.time + w)

/-- What a cooldown that is entered first knows: a task is told to come back only while its window
has been set by that very delivery. -/
def FirstInv (us : Nat) (s : St) : Prop :=
  ∃ r g rest, s.rules = (r, g) :: rest ∧ r.kind = .cooldown us ∧
    ∀ x ∈ s.log, (∃ d, x.verdict = .comesBack d) → ∃ e, g.cool.keys "" = some e ∧ x.time + windowMs us ≤ e

theorem fate_first_drop {p : Nat} {as : List (Nat × Answer)}
    (hd : ((p, Answer.drop) :: as).Pairwise (fun a b => a.1 ≠ b.1)) (d : Nat) :
    fate ((p, .drop) :: as) ≠ .comesBack d := by
  unfold fate
  rw [failures_distinct hd, List.filter_cons_of_pos (by simp)]
  simp only [verdict]
  split <;> simp

theorem first_inv {p us : Nat} {rest : List Rule} (ha : Apart (⟨p, .cooldown us⟩ :: rest)) (hus : 1000 ≤ us)
    (ops : List Op) : FirstInv us (run (⟨p, .cooldown us⟩ :: rest) ops) := by
  have hw : windowMs us ≠ 0 := by unfold windowMs; omega
  induction ops using ops_induction with
  | h0 => exact ⟨_, _, _, rfl, rfl, fun x hx => by cases hx⟩
  | h1 ops op ih =>
    rw [run_snoc]
    have hap : Apart ((run (⟨p, .cooldown us⟩ :: rest) ops).rules.map (·.1)) := by rw [run_rules]; exact ha
    have hpast := past (⟨p, .cooldown us⟩ :: rest) ops
    generalize run (⟨p, .cooldown us⟩ :: rest) ops = s at *
    obtain ⟨r, g, rs, hrs, hk, hi⟩ := ih
    cases op with
    | tick d => exact ⟨r, g, rs, hrs, hk, hi⟩
    | deliver k free =>
      refine ⟨r, exit k s.clock (verdict (failures (answers s k free))) r.kind
        (enter s.clock free k s.clock r.kind g), rs.map (fun c => (c.1,
        exit k s.clock (verdict (failures (answers s k free))) c.1.kind
          (enter s.clock free k s.clock c.1.kind c.2))), ?_, hk, ?_⟩
      · simp only [step, hrs, List.map_cons]
      rw [deliver_log, hk]
      intro x hx hcb
      show ∃ e, (enter s.clock free k s.clock (.cooldown us) g).1.cool.keys "" = some e ∧ _
      rcases cool_enter (clock := s.clock) (free := free) (k := k) (now := s.clock) (g := g) hw with
        ⟨_, hp, hset⟩ | ⟨hex, hd, hset⟩
      · refine ⟨_, hset, ?_⟩
        rcases List.mem_cons.1 hx with rfl | hx
        · exact Nat.le_refl _
        · have := hpast x hx
          omega
      · rcases List.mem_cons.1 hx with rfl | hx
        · exfalso
          obtain ⟨d, hcb⟩ := hcb
          simp only at hcb
          have hpw := answers_apart hap k free
          have hans : answers s k free = (r.param, .drop) :: rs.map (fun c => (c.1.param,
              (enter s.clock free k s.clock c.1.kind c.2).2)) := by
            simp only [answers, hrs, List.map_cons, hk, hd]
          rw [hans] at hpw hcb
          exact fate_first_drop hpw d hcb
        · obtain ⟨e, he, hle⟩ := hi x hx hcb
          exact ⟨e, by rw [hset, he], hle⟩

/-- C99, a cooldown and a debounce.  Under a cooldown, declared first, and a debounce that together
with the worker brings every task back within the cooldown's window, no task ever runs: each is told
by the debounce to come back, and dropped by the cooldown when it does. -/
theorem C99_violated_nothing_ever_runs (p us q settle : Nat) (rest : List Rule)
    (ha : Apart (⟨p, .cooldown us⟩ :: rest)) (hus : 1000 ≤ us)
    (hdeb : ⟨q, .debounce settle⟩ ∈ rest) (hse : 0 < settle) (ops : List Op)
    (ht : ComesBackWithin (us / 1000) (⟨p, .cooldown us⟩ :: rest) ops) :
    ∀ x ∈ (run (⟨p, .cooldown us⟩ :: rest) ops).log, x.verdict ≠ .runs := by
  have hw : windowMs us ≠ 0 := by unfold windowMs; omega
  induction ops using ops_induction with
  | h0 => intro x hx; cases hx
  | h1 ops op ih =>
    have ih := ih (fun pre k free hp => ht pre k free (hp.trans (List.prefix_append _ _)))
    rw [run_snoc]
    cases op with
    | tick d => exact ih
    | deliver k free =>
      have hthis := ht ops k free (List.prefix_refl _)
      have hfirst := first_inv ha hus ops
      have hmem := mem_inv (⟨p, .cooldown us⟩ :: rest) ops
      obtain ⟨cd, hcd, hcdr⟩ := of_mem_rules (ops := ops) (List.mem_cons_of_mem (⟨p, .cooldown us⟩ : Rule) hdeb)
      generalize run (⟨p, .cooldown us⟩ :: rest) ops = s at *
      rw [deliver_log]
      intro x hx
      rcases List.mem_cons.1 hx with rfl | hx
      · simp only
        intro hf
        rw [fate_runs] at hf
        by_cases hseen : ∃ x ∈ s.log, x.key = k
        · obtain ⟨y, hy, hyk, hlt⟩ := hthis.2 hseen
          obtain ⟨r, g, rs, hrs, hk, hi⟩ := hfirst
          obtain ⟨e, he, hle⟩ := hi y hy (hthis.1 y hy hyk)
          have hp := hf (r.param, _) (by rw [answers, hrs]; exact List.mem_cons_self)
          simp only [hk] at hp
          rcases cool_enter (clock := s.clock) (free := free) (k := k) (now := s.clock) (g := g) hw with
            ⟨h1, _, _⟩ | ⟨_, hd, _⟩
          · rw [he] at h1
            rcases h1 with h1 | ⟨e', h1, h2⟩
            · cases h1
            · injection h1 with h1
              simp only [windowMs] at hle
              omega
          · rw [hd] at hp; cases hp
        · have hp := hf (cd.1.param, _) (by rw [answers, List.mem_map]; exact ⟨cd, hcd, rfl⟩)
          simp only [hcdr] at hp
          obtain ⟨e, he⟩ := deb_passes hp
          have hinv := hmem cd hcd
          unfold MemInv at hinv
          rw [hcdr] at hinv
          obtain ⟨x, hx, hxk⟩ := (hinv (by omega)).winner k e he
          exact hseen ⟨x, hx, hxk⟩
      · exact ih x hx

/-! ### Where the property fails -/

/-- A cooldown of ten seconds and a debounce of one second. -/
def coolThenSettle : List Rule := [⟨0, .cooldown 10000000⟩, ⟨1, .debounce 1000⟩]

/-- **Disagreement.**  A task that is alone, under a cooldown and a debounce: the debounce tells it
to come back after a second, and then the cooldown, whose window its own first delivery has used up,
drops it.  It never runs. -/
theorem C99_violated_alone : ¬C99_statement := by
  intro h
  obtain ⟨x, hx, hk, _⟩ := h coolThenSettle (by simp [Apart, coolThenSettle])
    (by simp [Sensible, coolThenSettle, Kind.sensible])
    [.deliver "a" true, .tick 1000] "a" true 1000 (by decide +kernel)
  have e : (run coolThenSettle [.deliver "a" true, .tick 1000]).log = [⟨"a", 0, .comesBack 1000⟩] := by
    decide +kernel
  rw [e] at hx
  rcases List.mem_cons.1 hx with rfl | hx
  · exact hk rfl
  · cases hx

/-- **Disagreement.**  A task under a cooldown and a concurrency limit: it finds no slot and waits;
when it is woken up for the slot that was handed to it, the cooldown drops it, although no task has
been started in the meantime. -/
theorem C99_violated_woken_up :
    (run [⟨0, .cooldown 10000000⟩, ⟨1, .slot⟩] [.deliver "a" false, .tick 500, .deliver "a" true]).log =
      [⟨"a", 500, .dropped⟩, ⟨"a", 0, .waits⟩] ∧ ¬C99_statement := by
  have e : (run [⟨0, .cooldown 10000000⟩, ⟨1, .slot⟩] [.deliver "a" false, .tick 500]).log = [⟨"a", 0, .waits⟩] := by
    decide +kernel
  refine ⟨by decide +kernel, fun h => ?_⟩
  obtain ⟨x, hx, hk, _⟩ := h [⟨0, .cooldown 10000000⟩, ⟨1, .slot⟩] (by simp [Apart])
    (by simp [Sensible, Kind.sensible]) [.deliver "a" false, .tick 500] "a" true 500 (by decide +kernel)
  rw [e] at hx
  rcases List.mem_cons.1 hx with rfl | hx
  · exact hk rfl
  · cases hx

/-- **Disagreement.**  A task under a cooldown, or under a rate limit that drops: it runs, fails and
is retried, or its worker dies and it is redelivered.  Its own first attempt is held against it, and
the second is dropped. -/
theorem C99_violated_second_attempt :
    (run [⟨0, .cooldown 10000000⟩] [.deliver "a" true, .tick 500, .deliver "a" true]).log =
      [⟨"a", 500, .dropped⟩, ⟨"a", 0, .runs⟩] ∧
    (run [⟨0, .rate ⟨1, 10000⟩ true⟩] [.deliver "a" true, .tick 500, .deliver "a" true]).log =
      [⟨"a", 500, .dropped⟩, ⟨"a", 0, .runs⟩] ∧ ¬C99_statement := by
  have e : (run [⟨0, .rate ⟨1, 10000⟩ true⟩] [.deliver "a" true, .tick 500]).log = [⟨"a", 0, .runs⟩] := by
    decide +kernel
  refine ⟨by decide +kernel, by decide +kernel, fun h => ?_⟩
  obtain ⟨x, hx, hk, _⟩ := h [⟨0, .rate ⟨1, 10000⟩ true⟩] (by simp [Apart])
    (by simp [Sensible, Kind.sensible]) [.deliver "a" true, .tick 500] "a" true 500 (by decide +kernel)
  rw [e] at hx
  rcases List.mem_cons.1 hx with rfl | hx
  · exact hk rfl
  · cases hx

/-- **Disagreement.**  A cooldown drops a task on account of one that never ran: `b` is told by the
rate limit to come back, and has used the cooldown's window up, so `c`, which comes when the rate
limit has a place again, is dropped, and so is `b` when it comes back. -/
theorem C99_violated_for_nothing :
    (run [⟨0, .cooldown 10000000⟩, ⟨1, .rate ⟨1, 20000⟩ false⟩]
      [.deliver "a" true, .tick 12000, .deliver "b" true, .tick 8000, .deliver "b" true, .deliver "c" true]).log =
      [⟨"c", 20000, .dropped⟩, ⟨"b", 20000, .dropped⟩, ⟨"b", 12000, .comesBack 8000⟩, ⟨"a", 0, .runs⟩] := by
  decide +kernel

/-! ### The hypotheses are met -/

/-- Four rules on four parameters. -/
def four : List Rule :=
  [⟨0, .rate ⟨2, 1000⟩ true⟩, ⟨1, .cooldown 100000⟩, ⟨2, .rate ⟨3, 5000⟩ false⟩, ⟨3, .slot⟩]

/-- C99_runs, C99_cause (rate limit and cooldown), C99_waits_cause: a history with all of them. -/
example : Apart four ∧ Sensible four ∧
    (run four [.deliver "a" true, .tick 50, .deliver "b" true, .tick 60, .deliver "c" true, .tick 200,
      .deliver "d" true, .tick 2000, .deliver "e" false, .tick 100, .deliver "f" true, .tick 1000,
      .deliver "g" true]).log =
      [⟨"g", 3410, .comesBack 1590⟩, ⟨"f", 2410, .runs⟩, ⟨"e", 2310, .waits⟩, ⟨"d", 310, .dropped⟩,
       ⟨"c", 110, .runs⟩, ⟨"b", 50, .dropped⟩, ⟨"a", 0, .runs⟩] := by
  refine ⟨by simp [Apart, four], by simp [Sensible, four, Kind.sensible], by decide +kernel⟩

/-- C99_without_cooldown_partial and C99_single_rule_partial: a task dropped by a debounce. -/
example : (run [⟨0, .debounce 1000⟩] [.deliver "a" true, .tick 1, .deliver "b" true]).log =
    ⟨"b", 1, .dropped⟩ :: (run [⟨0, .debounce 1000⟩] [.deliver "a" true, .tick 1]).log ∧
    ∀ x ∈ (run [⟨0, .debounce 1000⟩] [.deliver "a" true, .tick 1]).log, x.key ≠ "b" := by
  decide +kernel

/-- C99_window_used_up: a task that waits uses the window up. -/
example : (run [⟨0, .cooldown 10000000⟩, ⟨1, .slot⟩]
      ([] ++ .deliver "a" false :: [.tick 9999])).clock < 0 + 10000000 / 1000 ∧
    (run [⟨0, .cooldown 10000000⟩, ⟨1, .slot⟩]
      ([] ++ .deliver "a" false :: [.tick 9999] ++ [.deliver "b" true])).log =
      [⟨"b", 9999, .dropped⟩, ⟨"a", 0, .waits⟩] := by
  decide +kernel

theorem back_of_check {w clock : Nat} {log : List Entry} {k : Key}
    (h1 : ∀ x ∈ log, x.key = k → x.verdict = .comesBack 1000)
    (h2 : (∀ x ∈ log, x.key ≠ k) ∨ ∃ x ∈ log, x.key = k ∧ clock < x.time + w) :
    (∀ x ∈ log, x.key = k → ∃ d, x.verdict = .comesBack d) ∧
    ((∃ x ∈ log, x.key = k) → ∃ x ∈ log, x.key = k ∧ clock < x.time + w) := by
  refine ⟨fun x hx hk => ⟨_, h1 x hx hk⟩, fun ⟨x, hx, hk⟩ => ?_⟩
  rcases h2 with h2 | h2
  · exact absurd hk (h2 x hx)
  · exact h2

/-- C99_violated_nothing_ever_runs: three tasks, each of which comes back when it is told to. -/
example : ComesBackWithin (10000000 / 1000) coolThenSettle
    [.deliver "a" true, .tick 1000, .deliver "a" true, .tick 15000, .deliver "b" true, .tick 1000, .deliver "b" true,
     .deliver "c" true] := by
  intro pre k free hp
  generalize hl : ([.deliver "a" true, .tick 1000, .deliver "a" true, .tick 15000, .deliver "b" true, .tick 1000,
    .deliver "b" true, .deliver "c" true] : List Op) = l at hp
  have hpre : pre = l.take pre.length ∧ pre.length < l.length ∧ l[pre.length]? = some (.deliver k free) := by
    obtain ⟨suf, rfl⟩ := hp
    simp
  obtain ⟨h1, h2, h3⟩ := hpre
  subst hl
  generalize pre.length = n at *
  subst h1
  simp only [List.length_cons, List.length_nil] at h2
  have : n = 0 ∨ n = 1 ∨ n = 2 ∨ n = 3 ∨ n = 4 ∨ n = 5 ∨ n = 6 ∨ n = 7 := by omega
  rcases this with rfl | rfl | rfl | rfl | rfl | rfl | rfl | rfl <;>
    simp only [List.getElem?_cons_zero, List.getElem?_cons_succ, Option.some.injEq, Op.deliver.injEq, reduceCtorEq] at h3
  all_goals
    obtain ⟨rfl, rfl⟩ := h3
    simp only [List.take]
    exact back_of_check (by decide +kernel) (by decide +kernel)

end Docket.Gates
