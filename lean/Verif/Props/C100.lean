import Verif.Props.C99
import Verif.Limits.Shared
/-
C100: An admission rule holds in whatever company.

Part 1: the rules of one task, on the model of deliveries under several rules (Limits/Gates).
-/
namespace Docket.Gates
open Cooldown (windowMs)

/-- The deliveries within the last `per` after which the function was called. -/
def startedWithin (per t : Nat) (log : List Entry) : List Entry :=
  log.filter (fun x => decide (t < x.time + per ∧ x.verdict = .runs))

/-- No task is delivered twice in the same millisecond. -/
def Distinct (log : List Entry) : Prop := log.Pairwise (fun x y => x.key ≠ y.key ∨ x.time ≠ y.time)

/-- Induction over a history, for what is to be known of one rule's memory. -/
theorem each_inv (rules : List Rule) (I : Nat → List Entry → Rule × Mem → Prop)
    (h0 : ∀ r, I 0 [] (r, {}))
    (ht : ∀ clock d log c, I clock log c → I (clock + d) log c)
    (hd : ∀ (s : St) (k : Key) (free : Bool) (c : Rule × Mem), c ∈ s.rules → (∀ x ∈ s.log, x.time ≤ s.clock) →
      I s.clock s.log c → I s.clock (⟨k, s.clock, fate (answers s k free)⟩ :: s.log) (c.1,
        exit k s.clock (verdict (failures (answers s k free))) c.1.kind
          (enter s.clock free k s.clock c.1.kind c.2))) (ops : List Op) :
    ∀ c ∈ (run rules ops).rules, I (run rules ops).clock (run rules ops).log c := by
  induction ops using ops_induction with
  | h0 =>
    intro c hc
    simp only [run, runFrom, List.foldl_nil, start, List.mem_map] at hc
    obtain ⟨r, _, rfl⟩ := hc
    exact h0 r
  | h1 ops op ih =>
    rw [run_snoc]
    cases op with
    | tick d => intro c hc; exact ht _ d _ c (ih c hc)
    | deliver k free =>
      intro c' hc'
      simp only [step, List.mem_map] at hc'
      obtain ⟨c, hc, rfl⟩ := hc'
      exact hd (run rules ops) k free c hc (past rules ops) (ih c hc)

/-- A task that runs was let pass by every rule. -/
theorem runs_passes {s : St} {k : Key} {free : Bool} (h : fate (answers s k free) = .runs) {c : Rule × Mem}
    (hc : c ∈ s.rules) : (enter s.clock free k s.clock c.1.kind c.2).2 = .pass := by
  rw [fate_runs] at h
  exact h (c.1.param, _) (by rw [answers, List.mem_map]; exact ⟨c, hc, rfl⟩)

/-! ### Cooldowns -/

theorem cool_keeps (rules : List Rule) (ops : List Op) : ∀ c ∈ (run rules ops).rules,
    ∀ us, c.1.kind = .cooldown us → windowMs us ≠ 0 → ∀ x ∈ (run rules ops).log, x.verdict = .runs →
      ∃ e, c.2.cool.keys "" = some e ∧ x.time + windowMs us ≤ e := by
  refine each_inv rules (fun _ log c => ∀ us, c.1.kind = .cooldown us → windowMs us ≠ 0 → ∀ x ∈ log,
    x.verdict = .runs → ∃ e, c.2.cool.keys "" = some e ∧ x.time + windowMs us ≤ e) ?_ ?_ ?_ ops
  · intro r us _ _ x hx; cases hx
  · intro clock d log c h; exact h
  · intro s k free c hc hpast hi us hk hw x hx hv
    simp only at hk
    rw [hk]
    show ∃ e, (enter s.clock free k s.clock (.cooldown us) c.2).1.cool.keys "" = some e ∧ _
    rcases cool_enter (clock := s.clock) (free := free) (k := k) (now := s.clock) (g := c.2) hw with
      ⟨_, hp, hset⟩ | ⟨_, hd, hset⟩
    · refine ⟨_, hset, ?_⟩
      rcases List.mem_cons.1 hx with rfl | hx
      · exact Nat.le_refl _
      · have := hpast x hx
        omega
    · rw [hset]
      rcases List.mem_cons.1 hx with rfl | hx
      · have := runs_passes hv hc
        rw [hk, hd] at this
        cases this
      · exact hi us hk hw x hx hv

/-- C100, cooldowns.  A task under a cooldown, whatever its other rules, starts only if none has
started within the window. -/
theorem C100_cooldown (rules : List Rule) (p us : Nat) (hr : ⟨p, .cooldown us⟩ ∈ rules) (ops : List Op)
    (k : Key) (free : Bool) (t : Nat)
    (h : (run rules (ops ++ [.deliver k free])).log = ⟨k, t, .runs⟩ :: (run rules ops).log) :
    ∀ x ∈ (run rules ops).log, x.verdict = .runs → x.time + us / 1000 ≤ t := by
  intro x hx hv
  obtain ⟨hf, rfl⟩ := log_verdict h
  by_cases hw : windowMs us = 0
  · have := past rules ops x hx
    unfold windowMs at hw
    omega
  · obtain ⟨c, hc, hcr⟩ := of_mem_rules (ops := ops) hr
    have hp := runs_passes hf hc
    obtain ⟨e, he, hle⟩ := cool_keeps rules ops c hc us (by rw [hcr]) hw x hx hv
    simp only [hcr] at hp
    rcases cool_enter (clock := (run rules ops).clock) (free := free) (k := k) (now := (run rules ops).clock)
      (g := c.2) hw with ⟨h1, _, _⟩ | ⟨_, hd, _⟩
    · rw [he] at h1
      rcases h1 with h1 | ⟨e', h1, h2⟩
      · cases h1
      · injection h1 with h1
        simp only [windowMs] at hle
        omega
    · rw [hd] at hp; cases hp

/-! ### Debounces -/

/-- What a debounce keeps: the awaited task has been seen, and nobody else since `seen`. -/
def DebKeeps (log : List Entry) (g : Mem) : Prop :=
  ∀ w e, g.deb.winner = some (w, e) → ∃ s, g.deb.seen = some (s, e) ∧
    (∀ x ∈ log, x.key ≠ w → x.time ≤ s) ∧ ∃ x ∈ log, x.key = w ∧ x.time ≤ s

theorem DebKeeps.deliver {log : List Entry} {g : Mem} (h : DebKeeps log g) {settle : Nat} {clock : Nat}
    {free : Bool} {k : Key} {f : Verdict} (hpast : ∀ x ∈ log, x.time ≤ clock) (hs : settle ≠ 0) :
    DebKeeps (⟨k, clock, f⟩ :: log) (enter clock free k clock (.debounce settle) g).1 := by
  intro w e he
  simp only [enter, Debounce.script] at he ⊢
  split at he
  · rename_i hn
    split at he
    · rename_i hz
      unfold Debounce.ttl at hz
      omega
    · rename_i hz
      rw [if_neg hz]
      simp only [Option.some.injEq, Prod.mk.injEq] at he ⊢
      obtain ⟨rfl, rfl⟩ := he
      refine ⟨clock, ⟨rfl, rfl⟩, fun x hx hne => ?_, _, List.mem_cons_self, rfl, Nat.le_refl _⟩
      rcases List.mem_cons.1 hx with rfl | hx
      · exact absurd rfl hne
      · exact hpast x hx
  · rename_i w' hg
    obtain ⟨e0, h0, hlt⟩ := Debounce.get_some hg
    obtain ⟨s0, h1, h2, y, hy, hyk, hys⟩ := h w' e0 h0
    by_cases hw : w' = k
    · rw [if_pos hw] at he ⊢
      by_cases hs : (Debounce.get clock g.deb.seen).getD 0 + settle ≤ clock
      · rw [if_pos hs] at he; cases he
      · rw [if_neg hs] at he ⊢
        have hgs : Debounce.get clock g.deb.seen = some s0 := by rw [h1]; simp [Debounce.get, hlt]
        simp only [Debounce.pexpire, hg, hgs, Option.map_some, Option.some.injEq, Prod.mk.injEq] at he ⊢
        obtain ⟨rfl, rfl⟩ := he
        refine ⟨s0, ⟨rfl, rfl⟩, fun x hx hne => ?_, y, List.mem_cons_of_mem _ hy, hyk, hys⟩
        rcases List.mem_cons.1 hx with rfl | hx
        · exact absurd hw.symm hne
        · exact h2 x hx hne
    · rw [if_neg hw] at he ⊢
      simp only [Debounce.pexpire, hg, Option.map_some, Option.some.injEq, Prod.mk.injEq] at he ⊢
      obtain ⟨rfl, rfl⟩ := he
      refine ⟨clock, ⟨rfl, rfl⟩, fun x hx hne => ?_, y, List.mem_cons_of_mem _ hy, hyk, hpast y hy⟩
      rcases List.mem_cons.1 hx with rfl | hx
      · exact Nat.le_refl _
      · exact hpast x hx

theorem deb_keeps (rules : List Rule) (ops : List Op) : ∀ c ∈ (run rules ops).rules,
    ∀ settle, c.1.kind = .debounce settle → settle ≠ 0 → DebKeeps (run rules ops).log c.2 := by
  refine each_inv rules (fun _ log c => ∀ settle, c.1.kind = .debounce settle → settle ≠ 0 →
    DebKeeps log c.2) ?_ ?_ ?_ ops
  · intro r settle _ _ w e he; cases he
  · intro clock d log c h; exact h
  · intro s k free c hc hpast hi settle hk hs
    simp only at hk
    rw [hk]
    exact (hi settle hk hs).deliver (free := free) hpast hs

/-- C100, debounces.  A task under a debounce, whatever its other rules, runs only after it was
delivered before, and after a time of rest of `settle` in which no other task was. -/
theorem C100_debounce (rules : List Rule) (p settle : Nat) (hr : ⟨p, .debounce settle⟩ ∈ rules)
    (hs : 0 < settle) (ops : List Op) (k : Key) (free : Bool) (t : Nat)
    (h : (run rules (ops ++ [.deliver k free])).log = ⟨k, t, .runs⟩ :: (run rules ops).log) :
    (∃ x ∈ (run rules ops).log, x.key = k ∧ x.time + settle ≤ t) ∧
    ∀ x ∈ (run rules ops).log, x.key ≠ k → x.time + settle ≤ t := by
  obtain ⟨hf, rfl⟩ := log_verdict h
  obtain ⟨c, hc, hcr⟩ := of_mem_rules (ops := ops) hr
  have hp := runs_passes hf hc
  have hi := deb_keeps rules ops c hc settle (by rw [hcr]) (by omega)
  simp only [hcr, enter, Debounce.script] at hp
  split at hp
  · split at hp <;> cases hp
  · rename_i w hg
    obtain ⟨e, he, hlt⟩ := Debounce.get_some hg
    obtain ⟨s0, h1, h2, y, hy, hyk, hys⟩ := hi w e he
    by_cases hw : w = k
    · rw [if_pos hw] at hp
      by_cases hs : (Debounce.get (run rules ops).clock c.2.deb.seen).getD 0 + settle ≤ (run rules ops).clock
      · have hgs : Debounce.get (run rules ops).clock c.2.deb.seen = some s0 := by
          rw [h1]; simp only [Debounce.get]; rw [if_pos hlt]
        rw [hgs, Option.getD_some] at hs
        refine ⟨⟨y, hy, hyk.trans hw, by omega⟩, fun x hx hne => ?_⟩
        have := h2 x hx (by rw [hw]; exact hne)
        omega
      · rw [if_neg hs] at hp; cases hp
    · rw [if_neg hw] at hp; cases hp

/-! ### Concurrency limits -/

/-- C100, concurrency limits.  A task runs only if there was a slot for it. -/
theorem C100_slot (rules : List Rule) (p : Nat) (hr : ⟨p, .slot⟩ ∈ rules) (ops : List Op) (k : Key)
    (free : Bool) (t : Nat)
    (h : (run rules (ops ++ [.deliver k free])).log = ⟨k, t, .runs⟩ :: (run rules ops).log) : free = true := by
  obtain ⟨hf, rfl⟩ := log_verdict h
  obtain ⟨c, hc, hcr⟩ := of_mem_rules (ops := ops) hr
  have hp := runs_passes hf hc
  simp only [hcr, enter] at hp
  cases free
  · cases hp
  · rfl

/-! ### Rate limits -/

/-- What a rate limit keeps: a place for each task that was started within the window. -/
def RateKeeps (cfg : Rate.Cfg) (clock : Nat) (log : List Entry) (g : Mem) : Prop :=
  ∀ x ∈ log, x.verdict = .runs → clock < x.time + cfg.per →
    ((x.key, x.time), x.time) ∈ g.lim.entries ∧ ∃ e, g.lim.expireAt = some e ∧ x.time + cfg.per * 2 ≤ e

theorem RateKeeps.live {cfg : Rate.Cfg} {clock : Nat} {log : List Entry} {g : Mem} (h : RateKeeps cfg clock log g)
    {l : Rate.Lim} (hl : l = { g.lim with clock := clock }) {x : Entry} (hx : x ∈ log) (hv : x.verdict = .runs)
    (ht : clock < x.time + cfg.per) : ((x.key, x.time), x.time) ∈ Rate.prune cfg clock l.live := by
  obtain ⟨h1, e, he, hle⟩ := h x hx hv ht
  have hlive : l.live = g.lim.entries := by
    rw [hl]
    simp only [Rate.Lim.live, he]
    rw [if_neg (by omega)]
  rw [Rate.prune, hlive, List.mem_filter]
  exact ⟨h1, by simpa using ht⟩

theorem RateKeeps.deliver {cfg : Rate.Cfg} {log : List Entry} {g : Mem} {drop : Bool} {clock : Nat}
    (h : RateKeeps cfg clock log g) {free : Bool} {k : Key} {v f : Verdict}
    (hpast : ∀ x ∈ log, x.time ≤ clock)
    (hf : f = .runs → v.refused = false ∧ (enter clock free k clock (.rate cfg drop) g).2 = .pass)
    (hdist : ∀ x ∈ log, k ≠ x.key ∨ clock ≠ x.time) :
    RateKeeps cfg clock (⟨k, clock, f⟩ :: log)
      (exit k clock v (.rate cfg drop) (enter clock free k clock (.rate cfg drop) g)) := by
  obtain ⟨l, hl0⟩ : ∃ l : Rate.Lim, l = { g.lim with clock := clock } := ⟨_, rfl⟩
  have hlc : l.clock = clock := by rw [hl0]
  have hlx : l.expireAt = g.lim.expireAt := by rw [hl0]
  have henter : enter clock free k clock (.rate cfg drop) g = ({ g with lim := (Rate.script cfg l (k, clock) clock).1 },
      rateAnswer drop (Rate.script cfg l (k, clock) clock).2) := by rw [hl0]; rfl
  rw [henter] at hf ⊢
  intro x hx hv ht
  rcases script_ways cfg l (k, clock) clock with ⟨_, hs⟩ | ⟨_, out, hout, hs, _⟩
  · rw [hs] at hf ⊢
    simp only [rateAnswer, exit]
    by_cases hr : v.refused = true
    · rw [if_pos ⟨hr, trivial⟩]
      rcases List.mem_cons.1 hx with rfl | hx
      · have := (hf hv).1
        rw [hr] at this
        cases this
      · have hmem := h.live hl0 hx hv ht
        have hp := hpast x hx
        simp only [Rate.zrem, Rate.Lim.live]
        rw [if_neg (by omega)]
        refine ⟨List.mem_filter.2 ⟨Rate.mem_zadd.2 (Or.inr ⟨hmem, ?_⟩), ?_⟩, _, rfl, by omega⟩
        · intro hc
          simp only [Prod.mk.injEq] at hc
          rcases hdist x hx with hd | hd
          · exact hd hc.1.symm
          · exact hd hc.2.symm
        · simp only [ne_eq, decide_eq_true_eq, Prod.mk.injEq, not_and]
          intro h1 h2
          rcases hdist x hx with hd | hd
          · exact hd h1.symm
          · exact hd h2.symm
    · rw [if_neg (fun hc => hr hc.1)]
      rcases List.mem_cons.1 hx with rfl | hx
      · exact ⟨Rate.mem_zadd.2 (Or.inl rfl), _, rfl, by simp only; omega⟩
      · have hmem := h.live hl0 hx hv ht
        have hp := hpast x hx
        refine ⟨Rate.mem_zadd.2 (Or.inr ⟨hmem, ?_⟩), _, rfl, by omega⟩
        intro hc
        simp only [Prod.mk.injEq] at hc
        rcases hdist x hx with hd | hd
        · exact hd hc.1.symm
        · exact hd hc.2.symm
  · rw [hs] at hf ⊢
    have hna : rateAnswer drop out ≠ .pass := by
      cases out with
      | proceed => exact absurd rfl hout
      | scriptError => simp [rateAnswer]
      | blocked d => cases drop <;> simp [rateAnswer]
    simp only [exit]
    rw [if_neg (fun hc => hna hc.2)]
    rcases List.mem_cons.1 hx with rfl | hx
    · exact absurd (hf hv).2 hna
    · have hmem := h.live hl0 hx hv ht
      obtain ⟨_, e, he, hle⟩ := h x hx hv ht
      exact ⟨hmem, e, by rw [hlx]; exact he, hle⟩

theorem rate_keeps (rules : List Rule) (ops : List Op) : ∀ c ∈ (run rules ops).rules,
    Distinct (run rules ops).log → ∀ cfg drop, c.1.kind = .rate cfg drop →
      RateKeeps cfg (run rules ops).clock (run rules ops).log c.2 := by
  refine each_inv rules (fun clock log c => Distinct log → ∀ cfg drop, c.1.kind = .rate cfg drop →
    RateKeeps cfg clock log c.2) ?_ ?_ ?_ ops
  · intro r _ cfg drop _ x hx; cases hx
  · intro clock d log c h hdist cfg drop hk x hx hv ht
    exact h hdist cfg drop hk x hx hv (by omega)
  · intro s k free c hc hpast hi hdist cfg drop hk
    simp only at hk
    unfold Distinct at hdist
    rw [List.pairwise_cons] at hdist
    rw [hk]
    refine (hi hdist.2 cfg drop hk).deliver hpast ?_ hdist.1
    intro hf
    refine ⟨?_, ?_⟩
    · rw [fate_runs, ← failures_nil, ← verdict_runs] at hf
      rw [hf]
      rfl
    · have := runs_passes hf hc
      rw [hk] at this
      exact this

/-- C100, rate limits.  Under a rate limit, whatever the other rules and however often tasks are
turned away by them, at most `limit` tasks are started within any `per`: when one is started, fewer
were started within the window before.  Partial: provided that no task is delivered twice in the same
millisecond (`C100_violated_same_millisecond`), and that each delivery has a `RateLimit` object of its
own or is not overlapped by another (part 2). -/
theorem C100_rate_limit_partial (rules : List Rule) (p : Nat) (cfg : Rate.Cfg) (drop : Bool)
    (hr : ⟨p, .rate cfg drop⟩ ∈ rules) (ops : List Op) (k : Key) (free : Bool) (t : Nat)
    (h : (run rules (ops ++ [.deliver k free])).log = ⟨k, t, .runs⟩ :: (run rules ops).log)
    (hdist : Distinct (run rules ops).log) :
    (startedWithin cfg.per t (run rules ops).log).length < cfg.limit := by
  obtain ⟨hf, rfl⟩ := log_verdict h
  obtain ⟨c, hc, hcr⟩ := of_mem_rules (ops := ops) hr
  have hp := runs_passes hf hc
  have hi := rate_keeps rules ops c hc hdist cfg drop (by rw [hcr])
  rw [hcr] at hp
  obtain ⟨l, hl0⟩ : ∃ l : Rate.Lim, l = { c.2.lim with clock := (run rules ops).clock } := ⟨_, rfl⟩
  have henter : enter (run rules ops).clock free k (run rules ops).clock (.rate cfg drop) c.2 =
      ({ c.2 with lim := (Rate.script cfg l (k, (run rules ops).clock) (run rules ops).clock).1 },
      rateAnswer drop (Rate.script cfg l (k, (run rules ops).clock) (run rules ops).clock).2) := by rw [hl0]; rfl
  rw [henter] at hp
  rcases script_ways cfg l (k, (run rules ops).clock) (run rules ops).clock with ⟨hlen, _⟩ | ⟨_, out, hout, hs, _⟩
  · refine Nat.lt_of_le_of_lt ?_ hlen
    have hnd : ((startedWithin cfg.per (run rules ops).clock (run rules ops).log).map
        (fun x => (((x.key, x.time), x.time) : Rate.Member × Nat))).Nodup := by
      rw [List.nodup_iff_pairwise_ne, List.pairwise_map]
      refine (hdist.sublist List.filter_sublist).imp ?_
      intro a b hab hc
      simp only [Prod.mk.injEq] at hc
      rcases hab with hab | hab
      · exact hab hc.1.1
      · exact hab hc.2
    have := Rate.nodup_subset_length hnd (b := Rate.prune cfg (run rules ops).clock l.live) (by
      intro y hy
      rw [List.mem_map] at hy
      obtain ⟨x, hx, rfl⟩ := hy
      obtain ⟨hx1, hx2⟩ := List.mem_filter.1 hx
      rw [decide_eq_true_eq] at hx2
      exact hi.live hl0 hx1 hx2.2 hx2.1)
    simpa using this
  · exfalso
    rw [hs] at hp
    cases out with
    | proceed => exact hout rfl
    | scriptError => simp [rateAnswer] at hp
    | blocked d => cases drop <;> simp [rateAnswer] at hp

end Docket.Gates

namespace Docket.Gates

/-- **Disagreement.**  A task that is delivered again in the millisecond in which it was started, and
is turned away by another rule, gives back the place of its own run (the two have the same member in
the sorted set): three tasks are started within a minute under a limit of two. -/
theorem C100_violated_same_millisecond :
    (run [⟨0, .rate ⟨2, 60000⟩ false⟩, ⟨1, .slot⟩]
      [.deliver "a" true, .deliver "a" false, .deliver "b" true, .deliver "c" true]).log =
      [⟨"c", 0, .runs⟩, ⟨"b", 0, .runs⟩, ⟨"a", 0, .waits⟩, ⟨"a", 0, .runs⟩] := by
  decide +kernel

/-- C100_cooldown, C100_slot and C100_rate_limit_partial: tasks that run under four rules. -/
example : Distinct (run four [.deliver "a" true, .tick 50, .deliver "b" true, .tick 60]).log ∧
    (run four ([.deliver "a" true, .tick 50, .deliver "b" true, .tick 60] ++ [.deliver "c" true])).log =
      ⟨"c", 110, .runs⟩ :: (run four [.deliver "a" true, .tick 50, .deliver "b" true, .tick 60]).log ∧
    startedWithin 1000 110 (run four [.deliver "a" true, .tick 50, .deliver "b" true, .tick 60]).log =
      [⟨"a", 0, .runs⟩] := by
  unfold Distinct
  decide +kernel

/-- C100_debounce: a task that runs under a debounce and a rate limit, after another has delayed it. -/
example : (run [⟨0, .debounce 1000⟩, ⟨1, .rate ⟨1, 5000⟩ false⟩]
      [.deliver "a" true, .tick 400, .deliver "b" true, .tick 600, .deliver "a" true, .tick 400,
       .deliver "a" true]).log =
      [⟨"a", 1400, .runs⟩, ⟨"a", 1000, .comesBack 400⟩, ⟨"b", 400, .dropped⟩, ⟨"a", 0, .comesBack 1000⟩] := by
  decide +kernel

end Docket.Gates

/-! ## Part 2: the objects in which a rate limit remembers its place (Limits/Shared) -/

namespace Docket.Shared
open Rate (Cfg Lim Member)

/-! ### The property -/

/-- The tasks started within the last `per` (and not turned away). -/
def startedWithin (per : Nat) (s : St) : List Exec := s.started.filter (fun x => decide (s.clock < x.time + per))

/-- No task is attempted twice in the same millisecond. -/
def Distinct (s : St) : Prop := s.attempts.Pairwise (· ≠ ·)

/-- The limit holds: at no time have more than `limit` tasks been started within the last `per`. -/
def LimitHolds (style : Style) (cfg : Cfg) (ops : List Op) : Prop :=
  Distinct (run style cfg ops) → (startedWithin cfg.per (run style cfg ops)).length ≤ cfg.limit

/-- Only started tasks count: a task is turned away by the limit only if that many were started within
the last `per`. -/
def OnlyStartedCount (style : Style) (cfg : Cfg) (ops : List Op) : Prop :=
  ∀ w k, Distinct (run style cfg ops) →
    (run style cfg (ops ++ [.enter w k])).started = (run style cfg ops).started →
    cfg.limit ≤ (startedWithin cfg.per (run style cfg ops)).length

/-- The property for rate limits: in every history, however the rate limit is declared and however
executions overlap. -/
def C100_statement : Prop :=
  ∀ style cfg ops, LimitHolds style cfg ops ∧ OnlyStartedCount style cfg ops

/-- Executions do not overlap within a process: there is never more than one that has entered the
rate limit and not left it. -/
def NoOverlap (style : Style) (cfg : Cfg) (ops : List Op) : Prop :=
  ∀ pre, pre <+: ops → (run style cfg pre).inside.Pairwise (fun x y => x.process ≠ y.process)

/-! ### An object for each execution -/

structure Inv (cfg : Cfg) (s : St) : Prop where
  past : ∀ x ∈ s.started, x.time ≤ s.clock
  tried : ∀ x ∈ s.started, x.member ∈ s.attempts
  once : (s.started.map Exec.member).Nodup
  within : ∀ x ∈ s.inside, x ∈ s.started
  apart : s.inside.Nodup
  keeps : ∀ x ∈ s.started, s.clock < x.time + cfg.per →
    (x.member, x.time) ∈ s.lim.entries ∧ ∃ e, s.lim.expireAt = some e ∧ x.time + cfg.per * 2 ≤ e
  only : ∀ e ∈ s.lim.entries, e.2 = e.1.2 ∧ ∃ x ∈ s.started, x.member = e.1
  single : (s.lim.entries.map (·.1)).Nodup

theorem Inv.start (cfg : Cfg) : Inv cfg {} := by
  constructor <;> simp

theorem inj_of_nodup {α β : Type} {f : α → β} {l : List α} (h : (l.map f).Nodup) {x y : α} (hx : x ∈ l)
    (hy : y ∈ l) (he : f x = f y) : x = y := by
  induction l with
  | nil => cases hx
  | cons a l ih =>
    simp only [List.map_cons, List.nodup_cons, List.mem_map, not_exists, not_and] at h
    rcases List.mem_cons.1 hx with h1 | h1 <;> rcases List.mem_cons.1 hy with h2 | h2
    · rw [h1, h2]
    · exact absurd (by rw [← he, h1]) (h.1 y h2)
    · exact absurd (by rw [he, h2]) (h.1 x h1)
    · exact ih h.2 h1 h2

theorem live_eq {l : Lim} {e : Nat} (he : l.expireAt = some e) (h : l.clock < e) : l.live = l.entries := by
  simp only [Rate.Lim.live, he]
  rw [if_neg (by omega)]

theorem Inv.step {cfg : Cfg} {s : St} (h : Inv cfg s) (op : Op)
    (hd : ∀ w k, op = .enter w k → (k, s.clock) ∉ s.attempts) : Inv cfg (Shared.step .annotated cfg s op) := by
  obtain ⟨hpast, htried, honce, hwithin, hapart, hkeeps, honly, hsingle⟩ := h
  cases op with
  | tick d =>
    refine ⟨fun x hx => Nat.le_trans (hpast x hx) (Nat.le_add_right _ _), htried, honce, hwithin,
      hapart, ?_, honly, hsingle⟩
    intro x hx ht
    simp only [Shared.step] at ht
    exact hkeeps x hx (by omega)
  | enter w k =>
    have hnew := hd w k rfl
    obtain ⟨l, hl0⟩ : ∃ l : Lim, l = { s.lim with clock := s.clock } := ⟨_, rfl⟩
    have hlc : l.clock = s.clock := by rw [hl0]
    have hle : l.entries = s.lim.entries := by rw [hl0]
    have hlx : l.expireAt = s.lim.expireAt := by rw [hl0]
    have hsub := Rate.live_sublist l
    have hlive : ∀ x ∈ s.started, s.clock < x.time + cfg.per →
        (x.member, x.time) ∈ Rate.prune cfg s.clock l.live := by
      intro x hx ht
      obtain ⟨h1, e, he, hee⟩ := hkeeps x hx ht
      rw [live_eq (hlx.trans he) (by omega), hle, Rate.prune, List.mem_filter]
      exact ⟨h1, by simpa using ht⟩
    have hpr : ∀ e ∈ Rate.prune cfg s.clock l.live, e ∈ s.lim.entries := by
      intro e he
      rw [← hle]
      exact hsub.subset (List.mem_filter.1 he).1
    have hnd : ((Rate.prune cfg s.clock l.live).map (·.1)).Nodup :=
      Gates.filter_fst_nodup ((hle ▸ hsingle).sublist (hsub.map _))
    have hans : answer cfg s k = Rate.script cfg l (k, s.clock) s.clock := by rw [hl0]; rfl
    have hne : ∀ x ∈ s.started, x.member ≠ (k, s.clock) := by
      intro x hx hc
      exact hnew (hc ▸ htried x hx)
    rcases Gates.script_ways cfg l (k, s.clock) s.clock with ⟨_, hs⟩ | ⟨_, out, hout, hs, _⟩
    · have e : Shared.step .annotated cfg s (.enter w k) =
          { s with
            lim := { l with
              entries := Rate.zadd (k, s.clock) s.clock (Rate.prune cfg s.clock l.live)
              expireAt := some (l.clock + cfg.per * 2) }
            object := fun v => if v = w then some (k, s.clock) else s.object v
            inside := ⟨w, k, s.clock⟩ :: s.inside
            started := ⟨w, k, s.clock⟩ :: s.started
            attempts := (k, s.clock) :: s.attempts } := by
        simp only [Shared.step, hans, hs, if_true]
      rw [e]
      refine ⟨?_, ?_, ?_, ?_, ?_, ?_, ?_, ?_⟩
      · intro x hx
        rcases List.mem_cons.1 hx with rfl | hx
        · exact Nat.le_refl _
        · exact hpast x hx
      · intro x hx
        rcases List.mem_cons.1 hx with rfl | hx
        · exact List.mem_cons_self
        · exact List.mem_cons_of_mem _ (htried x hx)
      · simp only [List.map_cons, List.nodup_cons]
        refine ⟨?_, honce⟩
        intro hc
        rw [List.mem_map] at hc
        obtain ⟨x, hx, hxe⟩ := hc
        exact hne x hx hxe
      · intro x hx
        rcases List.mem_cons.1 hx with rfl | hx
        · exact List.mem_cons_self
        · exact List.mem_cons_of_mem _ (hwithin x hx)
      · exact List.nodup_cons.2 ⟨fun hc => hne _ (hwithin _ hc) rfl, hapart⟩
      · intro x hx ht
        rcases List.mem_cons.1 hx with rfl | hx
        · exact ⟨Rate.mem_zadd.2 (Or.inl rfl), _, rfl, by rw [hlc]; exact Nat.le_refl _⟩
        · refine ⟨Rate.mem_zadd.2 (Or.inr ⟨hlive x hx ht, hne x hx⟩), _, rfl, ?_⟩
          have := hpast x hx
          omega
      · intro e he
        rcases Rate.mem_zadd.1 he with rfl | ⟨he, _⟩
        · exact ⟨rfl, _, List.mem_cons_self, rfl⟩
        · obtain ⟨h1, x, hx, h2⟩ := honly e (hpr e he)
          exact ⟨h1, x, List.mem_cons_of_mem _ hx, h2⟩
      · exact Gates.zadd_fst_nodup hnd
    · have e : Shared.step .annotated cfg s (.enter w k) =
          { s with
            lim := { l with entries := Rate.prune cfg s.clock l.live }
            attempts := (k, s.clock) :: s.attempts } := by
        simp only [Shared.step, hans, hs, if_neg hout]
      rw [e]
      refine ⟨hpast, fun x hx => List.mem_cons_of_mem _ (htried x hx), honce, hwithin, hapart, ?_, ?_, hnd⟩
      · intro x hx ht
        obtain ⟨_, e, he, hee⟩ := hkeeps x hx ht
        exact ⟨hlive x hx ht, e, hlx.trans he, hee⟩
      · intro e he
        exact honly e (hpr e he)
  | leave x turned =>
    by_cases hx : x ∈ s.inside
    · cases turned with
      | false =>
        have e : Shared.step .annotated cfg s (.leave x false) = { s with inside := s.inside.erase x } := by
          simp [Shared.step, hx]
        rw [e]
        exact ⟨hpast, htried, honce, fun y hy => hwithin y (List.mem_of_mem_erase hy),
          hapart.sublist List.erase_sublist, hkeeps, honly, hsingle⟩
      | true =>
        have e : Shared.step .annotated cfg s (.leave x true) =
            { s with
              lim := Rate.zrem { s.lim with clock := s.clock } x.member
              inside := s.inside.erase x
              started := s.started.erase x } := by
          simp [Shared.step, hx, remembered]
        rw [e]
        obtain ⟨l, hl0⟩ : ∃ l : Lim, l = { s.lim with clock := s.clock } := ⟨_, rfl⟩
        have hlc : l.clock = s.clock := by rw [hl0]
        have hle : l.entries = s.lim.entries := by rw [hl0]
        have hlx : l.expireAt = s.lim.expireAt := by rw [hl0]
        have hsub := Rate.live_sublist l
        rw [← hl0]
        have hnds : s.started.Nodup := by
          rw [List.nodup_iff_pairwise_ne] at honce ⊢
          rw [List.pairwise_map] at honce
          exact honce.imp (fun hab hc => hab (by rw [hc]))
        have hmem : ∀ y, y ∈ s.started.erase x ↔ y ≠ x ∧ y ∈ s.started := fun y => hnds.mem_erase_iff
        have hxs := hwithin x hx
        have hinj : ∀ y ∈ s.started, y.member = x.member → y = x := by
          intro y hy hm
          exact inj_of_nodup honce hy hxs hm
        refine ⟨fun y hy => hpast y ((hmem y).1 hy).2, fun y hy => htried y ((hmem y).1 hy).2,
          honce.sublist (List.erase_sublist.map _), ?_,
          hapart.sublist List.erase_sublist, ?_, ?_, ?_⟩
        · intro y hy
          rw [hapart.mem_erase_iff] at hy
          exact (hmem y).2 ⟨hy.1, hwithin y hy.2⟩
        · intro y hy ht
          obtain ⟨hne, hy⟩ := (hmem y).1 hy
          obtain ⟨h1, e, he, hee⟩ := hkeeps y hy ht
          simp only [Rate.zrem]
          rw [live_eq (hlx.trans he) (by have := hpast y hy; simp only at ht; omega), hle]
          refine ⟨List.mem_filter.2 ⟨h1, ?_⟩, e, hlx.trans he, hee⟩
          simp only [ne_eq, decide_eq_true_eq]
          exact fun hc => hne (hinj y hy hc)
        · intro e he
          simp only [Rate.zrem] at he
          obtain ⟨h1, h2⟩ := List.mem_filter.1 he
          simp only [ne_eq, decide_eq_true_eq] at h2
          obtain ⟨h3, y, hy, h4⟩ := honly e (hle ▸ hsub.subset h1)
          refine ⟨h3, y, (hmem y).2 ⟨?_, hy⟩, h4⟩
          rintro rfl
          exact h2 h4.symm
        · exact Gates.filter_fst_nodup ((hle ▸ hsingle).sublist (hsub.map _))
    · have e : Shared.step .annotated cfg s (.leave x turned) = s := by simp [Shared.step, hx]
      rw [e]
      exact ⟨hpast, htried, honce, hwithin, hapart, hkeeps, honly, hsingle⟩

theorem step_attempts (style : Style) (cfg : Cfg) (s : St) (op : Op) :
    (Shared.step style cfg s op).attempts = s.attempts ∨
    ∃ w k, op = .enter w k ∧ (Shared.step style cfg s op).attempts = (k, s.clock) :: s.attempts := by
  cases op with
  | tick d => exact Or.inl rfl
  | enter w k =>
    refine Or.inr ⟨w, k, rfl, ?_⟩
    simp only [Shared.step]
    split <;> rfl
  | leave x turned =>
    left
    simp only [Shared.step]
    split
    · split <;> rfl
    · rfl

theorem ops_induction {P : List Op → Prop} (h0 : P []) (h1 : ∀ ops op, P ops → P (ops ++ [op])) :
    ∀ ops, P ops := by
  intro ops
  rw [← List.reverse_reverse ops]
  generalize ops.reverse = l
  induction l with
  | nil => exact h0
  | cons a l ih => rw [List.reverse_cons]; exact h1 _ _ ih

theorem Inv.run (cfg : Cfg) (ops : List Op) (hd : Distinct (Shared.run .annotated cfg ops)) :
    Inv cfg (Shared.run .annotated cfg ops) := by
  induction ops using ops_induction with
  | h0 => exact Inv.start cfg
  | h1 ops op ih =>
    rw [run_snoc] at hd ⊢
    unfold Distinct at hd ih
    rcases step_attempts .annotated cfg (Shared.run .annotated cfg ops) op with h | ⟨w, k, rfl, h⟩
    · rw [h] at hd
      refine (ih hd).step op ?_
      rintro w k rfl
      simp only [Shared.step] at h
      split at h <;> simp at h
    · rw [h, List.pairwise_cons] at hd
      refine (ih hd.2).step _ ?_
      intro w' k' he hm
      injection he with _ hk
      exact hd.1 _ (hk ▸ hm) rfl

theorem Inv.full {cfg : Cfg} {s : St} (h : Inv cfg s) {l : Lim} (hl : l = { s.lim with clock := s.clock }) :
    (Rate.prune cfg s.clock l.live).length = (startedWithin cfg.per s).length := by
  have hle : l.entries = s.lim.entries := by rw [hl]
  have hlx : l.expireAt = s.lim.expireAt := by rw [hl]
  have hlc : l.clock = s.clock := by rw [hl]
  have hsub := Rate.live_sublist l
  apply Nat.le_antisymm
  · have hnd : ((Rate.prune cfg s.clock l.live).map (·.1)).Nodup :=
      Gates.filter_fst_nodup ((hle ▸ h.single).sublist (hsub.map _))
    have := Rate.nodup_subset_length hnd (b := (startedWithin cfg.per s).map Exec.member) (by
      intro m hm
      rw [List.mem_map] at hm ⊢
      obtain ⟨e, he, rfl⟩ := hm
      obtain ⟨h1, h2⟩ := List.mem_filter.1 he
      obtain ⟨h3, x, hx, h4⟩ := h.only e (hle ▸ hsub.subset h1)
      refine ⟨x, List.mem_filter.2 ⟨hx, ?_⟩, h4⟩
      have : x.time = e.2 := by rw [h3, ← h4]; rfl
      rw [this]
      exact h2)
    simpa using this
  · have hnd : ((startedWithin cfg.per s).map Exec.member).Nodup := h.once.sublist (List.filter_sublist.map _)
    have := Rate.nodup_subset_length hnd (b := (Rate.prune cfg s.clock l.live).map (·.1)) (by
      intro m hm
      rw [List.mem_map] at hm ⊢
      obtain ⟨x, hx, rfl⟩ := hm
      obtain ⟨h1, h2⟩ := List.mem_filter.1 hx
      rw [decide_eq_true_eq] at h2
      obtain ⟨h3, e, he, hee⟩ := h.keeps x h1 h2
      refine ⟨(x.member, x.time), ?_, rfl⟩
      rw [live_eq (hlx.trans he) (by omega), hle, Rate.prune, List.mem_filter]
      exact ⟨h3, by simpa using h2⟩)
    simpa using this

/-- C100, rate limits with an object for each execution.  If the rate limit is declared as an
annotation, then in every history, however executions overlap and whichever are turned away by other
rules, at no time have more than `limit` tasks been started within the last `per`. -/
theorem C100_annotated_limit (cfg : Cfg) (ops : List Op) : LimitHolds .annotated cfg ops := by
  intro hd
  induction ops using ops_induction with
  | h0 => simp [startedWithin, run, runFrom]
  | h1 ops op ih =>
    rw [run_snoc] at hd ⊢
    have hd' : Distinct (run .annotated cfg ops) := by
      unfold Distinct at hd ⊢
      rcases step_attempts .annotated cfg (run .annotated cfg ops) op with h | ⟨w, k, _, h⟩
      · rw [h] at hd; exact hd
      · rw [h, List.pairwise_cons] at hd; exact hd.2
    have ih := ih hd'
    have hi := Inv.run cfg ops hd'
    generalize run .annotated cfg ops = s at *
    cases op with
    | tick d =>
      have : startedWithin cfg.per (step .annotated cfg s (.tick d)) =
          (startedWithin cfg.per s).filter (fun x => decide (s.clock + d < x.time + cfg.per)) := by
        simp only [startedWithin, step, List.filter_filter]
        apply List.filter_congr
        intro x _
        rw [Bool.eq_iff_iff]
        rw [Bool.and_eq_true]
        refine ⟨fun h => ⟨h, ?_⟩, fun h => h.1⟩
        have h := of_decide_eq_true h
        exact decide_eq_true (by omega)
      rw [this]
      exact Nat.le_trans (List.length_filter_le _ _) ih
    | leave x turned =>
      refine Nat.le_trans (List.Sublist.length_le ?_) ih
      simp only [step]
      split
      · split
        · exact (List.erase_sublist).filter _
        · exact List.Sublist.refl _
      · exact List.Sublist.refl _
    | enter w k =>
      obtain ⟨l, hl0⟩ : ∃ l : Lim, l = { s.lim with clock := s.clock } := ⟨_, rfl⟩
      have hans : answer cfg s k = Rate.script cfg l (k, s.clock) s.clock := by rw [hl0]; rfl
      have hfull := hi.full hl0
      rcases Gates.script_ways cfg l (k, s.clock) s.clock with ⟨hlen, hs⟩ | ⟨_, out, hout, hs, _⟩
      · simp only [step, hans, hs, if_true, startedWithin]
        have : (startedWithin cfg.per s).length < cfg.limit := by omega
        unfold startedWithin at this
        rw [List.filter_cons]
        split
        · exact this
        · exact Nat.le_of_lt this
      · simp only [step, hans, hs, if_neg hout]
        exact ih

/-- C100, the other direction.  … and a task is turned away by the rate limit only if `limit` tasks
were started within the last `per`: those that other rules have turned away do not count. -/
theorem C100_annotated_only_started_count (cfg : Cfg) (ops : List Op) : OnlyStartedCount .annotated cfg ops := by
  intro w k hd hst
  have hi := Inv.run cfg ops hd
  rw [run_snoc] at hst
  generalize run .annotated cfg ops = s at *
  obtain ⟨l, hl0⟩ : ∃ l : Lim, l = { s.lim with clock := s.clock } := ⟨_, rfl⟩
  have hans : answer cfg s k = Rate.script cfg l (k, s.clock) s.clock := by rw [hl0]; rfl
  have hfull := hi.full hl0
  rcases Gates.script_ways cfg l (k, s.clock) s.clock with ⟨hlen, hs⟩ | ⟨hlen, out, hout, hs, _⟩
  · simp only [step, hans, hs, if_true] at hst
    have := congrArg List.length hst
    simp at this
  · omega

/-! ### One object for all -/

/-- Without overlaps, the shared object is as good as one for each execution. -/
theorem same_run (cfg : Cfg) (ops : List Op) (hno : NoOverlap .default cfg ops) :
    run .default cfg ops = run .annotated cfg ops ∧
      ∀ x ∈ (run .default cfg ops).inside, (run .default cfg ops).object x.process = some x.member := by
  induction ops using ops_induction with
  | h0 => exact ⟨rfl, fun x hx => by cases hx⟩
  | h1 ops op ih =>
    have hlast := hno (ops ++ [op]) (List.prefix_refl _)
    obtain ⟨he, ho⟩ := ih (fun pre hp => hno pre (hp.trans (List.prefix_append _ _)))
    rw [run_snoc] at hlast ⊢
    rw [run_snoc, ← he]
    generalize run .default cfg ops = s at *
    cases op with
    | tick d => exact ⟨rfl, ho⟩
    | enter w k =>
      refine ⟨rfl, ?_⟩
      simp only [step] at hlast ⊢
      split at hlast
      · rename_i hp
        rw [if_pos hp]
        simp only at hlast ⊢
        rw [List.pairwise_cons] at hlast
        intro x hx
        rcases List.mem_cons.1 hx with rfl | hx
        · rw [if_pos rfl]; rfl
        · have := hlast.1 x hx
          simp only at this
          rw [if_neg (Ne.symm this)]
          exact ho x hx
      · rename_i hp
        rw [if_neg hp]
        exact ho
    | leave x turned =>
      by_cases hx : x ∈ s.inside
      · cases turned with
        | false =>
          refine ⟨by simp [step, hx], ?_⟩
          simp only [step, if_pos hx]
          intro y hy
          exact ho y (List.mem_of_mem_erase hy)
        | true =>
          refine ⟨by simp [step, hx, remembered, ho x hx], ?_⟩
          simp only [step, if_pos hx, if_true]
          intro y hy
          exact ho y (List.mem_of_mem_erase hy)
      · refine ⟨by simp [step, hx], ?_⟩
        simp only [step, if_neg hx]
        exact ho

/-- C100, rate limits with one object for all executions.  If the rate limit is declared as a default
and executions do not overlap within a process, both directions hold too.  Missing: executions that
overlap (`C100_violated_limit_exceeded`, `C100_violated_place_lost`). -/
theorem C100_default_no_overlap_partial (cfg : Cfg) (ops : List Op) (hno : NoOverlap .default cfg ops) :
    LimitHolds .default cfg ops ∧
    ∀ w k, Distinct (run .default cfg ops) →
      (run .default cfg (ops ++ [.enter w k])).started = (run .default cfg ops).started →
      cfg.limit ≤ (startedWithin cfg.per (run .default cfg ops)).length := by
  have e := (same_run cfg ops hno).1
  refine ⟨?_, ?_⟩
  · have := C100_annotated_limit cfg ops
    unfold LimitHolds at this ⊢
    rw [e]
    exact this
  · intro w k
    have := C100_annotated_only_started_count cfg ops w k
    have e2 : (run .default cfg (ops ++ [.enter w k])) = (run .annotated cfg (ops ++ [.enter w k])) := by
      rw [run_snoc, run_snoc, e]; rfl
    rw [e2, e]
    exact this

/-- Two a minute. -/
def two : Cfg := ⟨2, 60⟩

/-- `a` enters the rate limit and is held up by another of its dependencies; `b` enters it 59 seconds
later and runs; then `a` is turned away, and gives back `b`'s place. -/
def overlapped : List Op :=
  [.enter "w" "a", .tick 59, .enter "w" "b", .leave ⟨"w", "a", 0⟩ true, .tick 1, .enter "w" "c", .enter "w" "d"]

/-- **Disagreement.**  A `RateLimit` declared as a default, executions that overlap: the place that is
given back for a task that another rule turns away is that of the task that entered last, which runs.
Here three tasks are started within two seconds under a limit of two a minute. -/
theorem C100_violated_limit_exceeded : ¬C100_statement := by
  intro h
  have := (h .default two overlapped).1 (by unfold Distinct; decide +kernel)
  revert this
  decide +kernel

/-- `a` and `b` enter the rate limit and are both turned away by another rule: `b`'s place is given
back twice, `a`'s not at all. -/
def bothTurnedAway : List Op :=
  [.enter "w" "a", .enter "w" "b", .leave ⟨"w", "a", 0⟩ true, .leave ⟨"w", "b", 0⟩ true]

/-- **Disagreement.**  … and the place of a task that was turned away stays taken for a whole window:
the next task but one is turned away (dropped, with `drop=True`) though only one was started. -/
theorem C100_violated_place_lost :
    (run .default two bothTurnedAway).started = [] ∧
    (run .default two (bothTurnedAway ++ [.tick 1, .enter "w" "c", .tick 1, .enter "w" "d"])).started =
      [⟨"w", "c", 1⟩] ∧
    (run .annotated two (bothTurnedAway ++ [.tick 1, .enter "w" "c", .tick 1, .enter "w" "d"])).started =
      [⟨"w", "d", 2⟩, ⟨"w", "c", 1⟩] ∧ ¬C100_statement := by
  refine ⟨by decide +kernel, by decide +kernel, by decide +kernel, fun h => ?_⟩
  have := (h .default two (bothTurnedAway ++ [.tick 1, .enter "w" "c", .tick 1])).2 "w" "d"
    (by unfold Distinct; decide +kernel) (by decide +kernel)
  revert this
  decide +kernel

/-- The hypotheses are met: tasks of two processes that are turned away, one after the other. -/
def orderly : List Op :=
  [.enter "v" "a", .enter "w" "b", .leave ⟨"v", "a", 0⟩ true, .tick 5, .enter "v" "c", .leave ⟨"w", "b", 0⟩ false,
   .tick 5, .enter "w" "d", .leave ⟨"v", "c", 5⟩ false, .tick 51, .enter "w" "e"]

example : NoOverlap .default two orderly ∧ Distinct (run .default two orderly) ∧
    (run .default two orderly).started = [⟨"w", "e", 61⟩, ⟨"v", "c", 5⟩, ⟨"w", "b", 0⟩] ∧
    (startedWithin 60 (run .default two orderly)).length = 2 := by
  refine ⟨?_, by unfold Distinct; decide +kernel, by decide +kernel, by decide +kernel⟩
  intro pre hp
  have hpre : pre = orderly.take pre.length ∧ pre.length ≤ orderly.length := by
    obtain ⟨suf, hs⟩ := hp
    rw [← hs]
    simp
  obtain ⟨h1, h2⟩ := hpre
  rw [h1]
  generalize pre.length = n at *
  have : ∀ n ≤ orderly.length, ((run .default two (orderly.take n)).inside).Pairwise
      (fun x y => x.process ≠ y.process) := by decide +kernel
  exact this n h2

/-- … and a task refused by a rate limit declared as an annotation, overlaps notwithstanding. -/
example : Distinct (run .annotated two overlapped) ∧
    (run .annotated two overlapped).started = [⟨"w", "c", 60⟩, ⟨"w", "b", 59⟩] ∧
    (run .annotated two (overlapped ++ [.enter "w" "e"])).started = (run .annotated two overlapped).started := by
  refine ⟨by unfold Distinct; decide +kernel, by decide +kernel, by decide +kernel⟩

end Docket.Shared
