import Verif.Limits.Rate
import Verif.Limits.Cooldown
import Verif.Limits.Debounce
/-
C33 A rate limit admits at most `limit` executions per window.
C34 A rate-limited task is told to come back when a slot opens.
C35 A cooldown admits at most one execution per window.
C36 A debounced task runs once, after things have been quiet.
-/
namespace Docket
open Rate in
/-- C33.  In every history of attempts in which clock readings reach Redis in order (and
within a window of being taken) and no task is admitted twice in one millisecond, every
window `(t - per, t]` contains at most `limit` admitted executions, where executions that
another dependency turned away afterwards do not count. -/
theorem C33_at_most_limit_per_window_partial (cfg : Rate.Cfg) (ops : List Rate.Op)
    (h : FairRun cfg {} ops) (t : Nat) :
    ((run cfg ops).admitted.filter (fun m => t < m.2 + cfg.per ∧ m.2 ≤ t)).length ≤ cfg.limit :=
  ((Inv.init cfg).runFrom h).count t

section C33
open Rate
/-- Two per ten milliseconds: a fair history that reaches the limit twice. -/
example : let ops : List Rate.Op := [.attempt "a" 0, .tick 3, .attempt "b" 3, .attempt "c" 3, .tick 7,
      .attempt "c" 10, .attempt "d" 10, .withdraw ("c", 10), .attempt "d" 10, .tick 5, .attempt "e" 15]
    FairRun ⟨2, 10⟩ {} ops ∧ (run ⟨2, 10⟩ ops).admitted = [("e", 15), ("d", 10), ("b", 3), ("a", 0)] := by
  decide +kernel

/-- C33 as stated: a clock that does not run backwards is the only proviso. -/
def C33_statement : Prop :=
  ∀ (cfg : Rate.Cfg) (ops : List Rate.Op) (t : Nat),
    ((run cfg ops).admitted.filter (fun m => t < m.2 + cfg.per ∧ m.2 ≤ t)).length ≤ cfg.limit

/-- Attempts of the same task in the same millisecond share one entry of the window, so
they are all admitted. -/
theorem C33_violated_same_millisecond : ¬ C33_statement := by
  intro h
  have := h ⟨2, 10⟩ [.attempt "a" 0, .attempt "a" 0, .attempt "a" 0] 0
  revert this
  decide +kernel

/-- A worker that reads the clock and is then overtaken by a later attempt, which prunes
the entries the earlier reading should still have counted. -/
theorem C33_violated_late_reading : ¬ C33_statement := by
  intro h
  have := h ⟨2, 10⟩ [.tick 10, .attempt "a" 10, .attempt "b" 10, .tick 10, .attempt "c" 20,
    .attempt "d" 15] 15
  revert this
  decide +kernel

/-- C33 for one task key at most once per millisecond and any number of attempts made
exactly at Redis's time: the special case where no worker is delayed. -/
theorem C33_undelayed_partial (cfg : Rate.Cfg) (ops : List Rate.Op)
    (h : ∀ pre op, pre ++ [op] <+: ops → ∀ k now, op = .attempt k now →
      now = (run cfg pre).lim.clock ∧ (k, now) ∉ (run cfg pre).admitted) (t : Nat) :
    ((run cfg ops).admitted.filter (fun m => t < m.2 + cfg.per ∧ m.2 ≤ t)).length ≤ cfg.limit := by
  apply C33_at_most_limit_per_window_partial
  have key : ∀ suf pre, ops = pre ++ suf → Inv cfg (run cfg pre) → FairRun cfg (run cfg pre) suf := by
    intro suf
    induction suf with
    | nil => intros; trivial
    | cons o suf ih =>
      intro pre hp hi
      have hfair : Fair cfg (run cfg pre) o := by
        cases o with
        | attempt k now =>
          obtain ⟨h1, h2⟩ := h pre _ ⟨suf, by simp [hp]⟩ k now rfl
          have := hi.stamp
          exact ⟨by omega, by omega, h2⟩
        | tick d => trivial
        | withdraw m => trivial
      have hstep : run cfg (pre ++ [o]) = step cfg (run cfg pre) o := by
        simp only [run, runFrom_append]; rfl
      refine ⟨hfair, ?_⟩
      rw [← hstep]
      exact ih (pre ++ [o]) (by simp [hp]) (hstep ▸ hi.step o hfair)
  exact key ops [] rfl (Inv.init cfg)
end C33

/-! ### C34 -/
section C34
open Rate

/-- A refusal, taken apart. -/
theorem blocked_form {cfg : Rate.Cfg} {s : St} {k : Key} {now d : Nat}
    (h : answer cfg s k now = .blocked d) :
    ∃ e es, prune cfg now s.lim.live = e :: es ∧ cfg.limit ≤ (e :: es).length ∧
      d = Nat.max 1 (e.2 + cfg.per - now) ∧
      (now ≤ s.lim.clock → step cfg s (.attempt k now) =
        ⟨{ s.lim with entries := e :: es }, now, s.admitted⟩) := by
  simp only [answer, script] at h
  split at h
  · simp at h
  · rename_i hlen
    cases hp : prune cfg now s.lim.live with
    | nil => rw [hp] at h; simp at h
    | cons e es =>
      rw [hp] at h hlen
      simp only [Outcome.blocked.injEq] at h
      refine ⟨e, es, rfl, by simpa using hlen, h.symm, ?_⟩
      intro hc
      simp only [Rate.step, if_pos hc, script, hp, if_neg hlen]
      simp

/-- C34, the delay.  In every fair history, a refused attempt is told to come back after at
least one millisecond and at most a full window. -/
theorem C34_delay_bounds (cfg : Rate.Cfg) (ops : List Rate.Op) (h : FairRun cfg {} ops)
    (k : Key) (now d : Nat) (hf : Fair cfg (run cfg ops) (.attempt k now))
    (hr : answer cfg (run cfg ops) k now = .blocked d) : 1 ≤ d ∧ d ≤ cfg.per := by
  have hi := (Inv.init cfg).runFrom h
  obtain ⟨e, es, hp, _, hd, _⟩ := blocked_form hr
  have he : e ∈ prune cfg now (run cfg ops).lim.live := by rw [hp]; exact List.mem_cons_self
  have h1 := (List.mem_filter.1 he).2
  simp only [decide_eq_true_eq] at h1
  have h2 := (hi.score e (live_sub _ _ (List.mem_filter.1 he).1)).2
  have h3 := hf.1
  simp only [runFrom] at h2
  simp only [run, runFrom] at h3
  rw [hd]
  constructor
  · exact Nat.le_max_left _ _
  · exact Nat.max_le.2 ⟨by omega, by omega⟩

/-- No attempt of the list is admitted. -/
def NoneAdmitted (cfg : Rate.Cfg) (s : St) : List Rate.Op → Prop
  | [] => True
  | op :: ops => (∀ k now, op = .attempt k now → answer cfg s k now ≠ .proceed) ∧
      NoneAdmitted cfg (step cfg s op) ops

theorem step_sublist {cfg : Rate.Cfg} {s : St} {op : Rate.Op}
    (h : ∀ k now, op = .attempt k now → answer cfg s k now ≠ .proceed) :
    (step cfg s op).lim.entries.Sublist s.lim.entries := by
  cases op with
  | tick d => exact List.Sublist.refl _
  | withdraw m =>
    simp only [Rate.step]
    split
    · exact List.filter_sublist.trans (live_sublist _)
    · exact List.Sublist.refl _
  | attempt k now =>
    have hn := h k now rfl
    simp only [answer, script] at hn
    simp only [Rate.step]
    split
    · simp only [script]
      split
      · rename_i hl; rw [if_pos hl] at hn; simp at hn
      · have hsub : (prune cfg now s.lim.live).Sublist s.lim.entries :=
          List.filter_sublist.trans (live_sublist _)
        cases hp : prune cfg now s.lim.live with
        | nil => simp
        | cons e es => rw [hp] at hsub; exact hsub
    · exact List.Sublist.refl _

theorem runFrom_sublist {cfg : Rate.Cfg} {s : St} {ops : List Rate.Op} (h : NoneAdmitted cfg s ops) :
    (runFrom cfg s ops).lim.entries.Sublist s.lim.entries := by
  induction ops generalizing s with
  | nil => exact List.Sublist.refl _
  | cons o ops ih => exact (ih h.2).trans (step_sublist h.1)

/-- C34, coming back in time.  After a fair history, if an attempt read at `now` is refused
with delay `d`, then whatever happens without any further admission, an attempt read at
`now + d` or later is admitted. -/
theorem C34_slot_open_after_delay (cfg : Rate.Cfg) (ops more : List Rate.Op) (h : FairRun cfg {} ops)
    (k k' : Key) (now d now' : Nat) (hnow : now ≤ (run cfg ops).lim.clock)
    (hf : Fair cfg (run cfg ops) (.attempt k now))
    (hr : answer cfg (run cfg ops) k now = .blocked d)
    (hm : NoneAdmitted cfg (step cfg (run cfg ops) (.attempt k now)) more)
    (hlate : now + d ≤ now') :
    answer cfg (runFrom cfg (step cfg (run cfg ops) (.attempt k now)) more) k' now' = .proceed := by
  have hi := ((Inv.init cfg).runFrom h).step _ hf
  obtain ⟨e, es, hp, _, hd, hst⟩ := blocked_form hr
  have hsub := runFrom_sublist hm
  have hstep := hst hnow
  have hbound := hi.bound
  rw [show Rate.runFrom cfg {} ops = run cfg ops from rfl, hstep] at hbound
  rw [hstep] at hsub ⊢
  generalize Rate.runFrom cfg _ more = s' at hsub
  simp only at hsub hbound
  have h1 : (prune cfg now' s'.lim.live).Sublist (prune cfg now' (e :: es)) :=
    ((live_sublist _).trans hsub).filter _
  have h2 : ¬ now' < e.2 + cfg.per := by
    have : e.2 + cfg.per - now ≤ d := by rw [hd]; exact Nat.le_max_right _ _
    omega
  have h3 : (prune cfg now' (e :: es)).length ≤ es.length := by
    simp only [prune, List.filter_cons, decide_eq_true_eq, if_neg h2]
    exact List.length_filter_le _ _
  have h4 := h1.length_le
  simp only [List.length_cons] at hbound
  simp only [answer, script]
  rw [if_pos (by omega)]

/-- No withdrawals. -/
def NoWithdrawal (ops : List Rate.Op) : Prop := ∀ op ∈ ops, ∀ m, op ≠ .withdraw m

theorem stamp_mono {cfg : Rate.Cfg} {s : St} {ops : List Rate.Op} (h : FairRun cfg s ops) :
    s.stamp ≤ (runFrom cfg s ops).stamp := by
  induction ops generalizing s with
  | nil => exact Nat.le_refl _
  | cons o ops ih =>
    refine Nat.le_trans ?_ (ih h.2)
    cases o with
    | tick d => exact Nat.le_refl _
    | withdraw m => simp only [Rate.step]; split <;> exact Nat.le_refl _
    | attempt k now =>
      simp only [Rate.step]
      split
      · exact h.1.1
      · exact Nat.le_refl _

/-- While readings stay below `e.2 + per`, where `e` is the oldest entry, nothing is pruned. -/
theorem entries_stay {cfg : Rate.Cfg} {e : Member × Nat} {es : List (Member × Nat)} {s : St}
    (hi : Inv cfg s) (hs : s.lim.entries = e :: es) {now : Nat} (hclock : s.lim.clock ≤ now + cfg.per)
    (hlt : now < e.2 + cfg.per) : prune cfg now s.lim.live = e :: es := by
  have hlive : s.lim.live = e :: es := by
    have hmem := hi.mem_live hclock (e := e) (by rw [hs]; exact List.mem_cons_self) hlt
    simp only [Lim.live] at hmem ⊢
    split
    · rename_i x hx
      rw [hx] at hmem
      simp only at hmem
      split
      · rename_i hc; rw [if_pos hc] at hmem; simp at hmem
      · exact hs
    · exact hs
  rw [hlive]
  apply List.filter_eq_self.2
  intro x hx
  simp only [decide_eq_true_eq]
  have hsort := hi.sorted
  rw [hs, Sorted, List.pairwise_cons] at hsort
  rcases List.mem_cons.1 hx with rfl | hx
  · exact hlt
  · have := hsort.1 x hx; omega

theorem entries_run {cfg : Rate.Cfg} {e : Member × Nat} {es : List (Member × Nat)} {s : St}
    {ops : List Rate.Op} (hi : Inv cfg s) (hs : s.lim.entries = e :: es) (hf : FairRun cfg s ops)
    (hn : NoneAdmitted cfg s ops) (hw : NoWithdrawal ops)
    (hlt : (runFrom cfg s ops).stamp < e.2 + cfg.per) : (runFrom cfg s ops).lim.entries = e :: es := by
  induction ops generalizing s with
  | nil => exact hs
  | cons o ops ih =>
    refine ih (hi.step o hf.1) ?_ hf.2 hn.2 (fun op ho => hw op (List.mem_cons_of_mem _ ho)) hlt
    cases o with
    | tick d => exact hs
    | withdraw m => exact absurd rfl (hw _ List.mem_cons_self m)
    | attempt k now =>
      by_cases hnow : now ≤ s.lim.clock
      · have hst : (step cfg s (.attempt k now)).stamp = now := by simp [Rate.step, hnow]
        have := stamp_mono hf.2
        have hlt' : now < e.2 + cfg.per := by
          rw [hst] at this
          exact Nat.lt_of_le_of_lt this hlt
        have hp := entries_stay hi hs hf.1.2.1 hlt'
        have hna := hn.1 k now rfl
        simp only [answer, script, hp] at hna
        simp only [Rate.step, if_pos hnow, script, hp]
        split
        · rename_i hl; rw [if_pos hl] at hna; simp at hna
        · rfl
      · simp only [Rate.step, if_neg hnow]; exact hs

/-- C34, coming back early.  In the same situation, as long as nobody gives up an admission
either, a fair attempt read before `now + d` is refused again. -/
theorem C34_refused_before_delay (cfg : Rate.Cfg) (ops more : List Rate.Op) (h : FairRun cfg {} ops)
    (k k' : Key) (now d now' : Nat) (hnow : now ≤ (run cfg ops).lim.clock)
    (hf : Fair cfg (run cfg ops) (.attempt k now))
    (hr : answer cfg (run cfg ops) k now = .blocked d) :
    let s1 := step cfg (run cfg ops) (.attempt k now)
    let s2 := runFrom cfg s1 more
    FairRun cfg s1 more → NoneAdmitted cfg s1 more → NoWithdrawal more →
    Fair cfg s2 (.attempt k' now') → now' < now + d →
    ∃ d', answer cfg s2 k' now' = .blocked d' := by
  intro s1 s2 hfm hn hw hf' hlt
  have hi0 := (Inv.init cfg).runFrom h
  have hi := hi0.step _ hf
  obtain ⟨e, es, hp, hlen, hd, hst⟩ := blocked_form hr
  have hstep : s1 = _ := hst hnow
  have he : e ∈ prune cfg now (run cfg ops).lim.live := by rw [hp]; exact List.mem_cons_self
  have hyoung := (List.mem_filter.1 he).2
  simp only [decide_eq_true_eq] at hyoung
  have hdval : d = e.2 + cfg.per - now := by
    rw [hd]; exact Nat.max_eq_right (by omega)
  have hs1 : s1.lim.entries = e :: es := by rw [hstep]
  have hi1 : Inv cfg s1 := hi
  have hi2 : Inv cfg s2 := hi1.runFrom hfm
  have hstamp := hf'.1
  have hent : s2.lim.entries = e :: es := by
    refine entries_run hi1 hs1 hfm hn hw ?_
    show s2.stamp < _
    omega
  have hp' := entries_stay hi2 hent hf'.2.1 (by omega)
  refine ⟨Nat.max 1 (e.2 + cfg.per - now'), ?_⟩
  simp only [answer, script, hp']
  rw [if_neg (by omega)]

/-- Two per ten: the third attempt at 3 is told to come back in 7; at 9 it is refused, at
10 admitted. -/
example : let s := run ⟨2, 10⟩ [.attempt "a" 0, .tick 3, .attempt "b" 3]
    let s1 := step ⟨2, 10⟩ s (.attempt "c" 3)
    FairRun ⟨2, 10⟩ {} [.attempt "a" 0, .tick 3, .attempt "b" 3, .attempt "c" 3] ∧
    answer ⟨2, 10⟩ s "c" 3 = .blocked 7 ∧
    answer ⟨2, 10⟩ (runFrom ⟨2, 10⟩ s1 [.tick 6]) "c" 9 = .blocked 1 ∧
    answer ⟨2, 10⟩ (runFrom ⟨2, 10⟩ s1 [.tick 7]) "c" 10 = .proceed := by decide +kernel
end C34

/-! ### C35 -/
section C35
open Cooldown

/-- C35, apart.  Whatever the history, an execution admitted under a cooldown key comes at
least the window (in whole milliseconds) of every earlier admission under that key after it. -/
theorem C35_admissions_apart (ops : List Cooldown.Op) :
    (run ops).admissions.Pairwise (fun later earlier => later.1 = earlier.1 →
      earlier.2.1 + earlier.2.2 / 1000 ≤ later.2.1) :=
  (Inv.run ops).apart

/-- C35, open.  If no admission under the key is younger than its window, the next attempt
(with a window of at least a millisecond) is admitted; otherwise it is dropped. -/
theorem C35_admitted_iff_window_over (ops : List Cooldown.Op) (k : Key) (us : Nat) (hus : 1000 ≤ us) :
    ((attempt (run ops) k us).2 = .admitted ↔
      ∀ a ∈ (run ops).admissions, a.1 = k → a.2.1 + a.2.2 / 1000 ≤ (run ops).clock) ∧
    ((attempt (run ops) k us).2 = .dropped ↔
      ∃ a ∈ (run ops).admissions, a.1 = k ∧ (run ops).clock < a.2.1 + a.2.2 / 1000) := by
  have hi := Inv.run ops
  generalize run ops = s at hi
  have hz : windowMs us ≠ 0 := by simp only [windowMs]; omega
  have hpres : s.present k = true ↔ ∃ a ∈ s.admissions, a.1 = k ∧ s.clock < a.2.1 + a.2.2 / 1000 := by
    simp only [St.present, hi.last k]
    constructor
    · intro h
      rcases Option.eq_none_or_eq_some (s.admissions.find? (fun a => a.1 = k)) with hf | ⟨a, hf⟩
      · simp [hf] at h
      · simp only [hf, Option.map_some, decide_eq_true_eq] at h
        exact ⟨a, List.mem_of_find?_eq_some hf, by simpa using List.find?_some hf, h⟩
    · rintro ⟨a, ha, hk, hlt⟩
      have hsome := List.find?_isSome (p := fun a : Key × Nat × Nat => decide (a.1 = k)) |>.2 ⟨a, ha, by simp [hk]⟩
      obtain ⟨b, hb⟩ := Option.isSome_iff_exists.1 hsome
      have hbk : b.1 = k := by simpa using List.find?_some hb
      simp only [hb, Option.map_some, decide_eq_true_eq]
      obtain ⟨_, l1, l2, hsplit, hnone⟩ := List.find?_eq_some_iff_append.1 hb
      have hmem : a ∈ l1 ++ b :: l2 := hsplit ▸ ha
      have hap := hi.apart
      rw [hsplit] at hap
      rcases List.mem_append.1 hmem with ha1 | ha1
      · exact absurd hk (by simpa using hnone a ha1)
      · rcases List.mem_cons.1 ha1 with rfl | ha2
        · exact hlt
        · have := (List.pairwise_cons.1 (List.pairwise_append.1 hap).2.1).1 a ha2 (hbk.trans hk.symm)
          simp only [windowMs] at *
          omega
  simp only [attempt, if_neg hz]
  by_cases hp : s.present k = true
  · obtain ⟨a, ha, hk, hlt⟩ := hpres.1 hp
    simp only [hp, if_true, reduceCtorEq, false_iff, true_iff]
    refine ⟨?_, ⟨a, ha, hk, hlt⟩⟩
    intro h
    have := h a ha hk
    omega
  · have hno := fun h => hp (hpres.2 h)
    simp only [Bool.not_eq_true] at hp
    simp only [hp, Bool.false_eq_true, if_false, reduceCtorEq, false_iff, true_iff]
    refine ⟨?_, hno⟩
    intro a ha hk
    exact Nat.not_lt.1 (fun hlt => hno ⟨a, ha, hk, hlt⟩)

/-- Keys do not influence each other. -/
theorem C35_keys_independent (s : St) (k k' : Key) (us : Nat) (hne : k ≠ k') :
    (attempt s k us).1.present k' = s.present k' := by
  simp only [attempt]
  split
  · rfl
  split
  · rfl
  · simp only [St.present, upd_other _ _ _ _ (Ne.symm hne)]

/-- Three attempts, two admitted; a window of 2.5 ms counts as 2 ms. -/
example : (run [.attempt "k" 2500, .tick 1, .attempt "k" 2500, .attempt "j" 2500, .tick 1,
    .attempt "k" 2500]).admissions = [("k", 2, 2500), ("j", 1, 2500), ("k", 0, 2500)] := by decide +kernel
end C35

/-! ### C36 -/
section C36
open Debounce

/-- What `script` answers, as an observer sees it. -/
def reply (settle : Nat) (s : St) (k : Key) (now : Nat) : Outcome := (script settle s k now).2

theorem proceed_form {settle : Nat} {s : St} {k : Key} {now : Nat} (h : reply settle s k now = .proceed) :
    get s.clock s.winner = some k ∧ (get s.clock s.seen).getD 0 + settle ≤ now := by
  simp only [reply, script] at h
  rcases Option.eq_none_or_eq_some (get s.clock s.winner) with hg | ⟨w, hg⟩
  · rw [hg] at h
    simp only at h
    split at h <;> simp at h
  · rw [hg] at h
    simp only at h
    split at h
    · rename_i hw
      split at h
      · rename_i hle; exact ⟨by rw [hg, hw], hle⟩
      · simp at h
    · simp at h

/-- C36, quiet.  Along every history in which calls reach Redis in the order of their clock
readings: an execution proceeds only if every earlier call of another execution is at least
`settle` old, so is every earlier execution that proceeded, and it has itself waited that
long since it first came. -/
theorem C36_proceeds_only_after_quiet (settle : Nat) (ops : List Debounce.Op)
    (h : Ordered settle {} ops) (k : Key) (now : Nat)
    (hp : reply settle (run settle ops) k now = .proceed) :
    (∀ c ∈ (run settle ops).calls, c.key ≠ k ∨ c.out = .proceed → c.now + settle ≤ now) ∧
    (∃ c ∈ (run settle ops).calls, c.key = k ∧ c.now + settle ≤ now) := by
  have hi := (Inv.init settle).runFrom h
  obtain ⟨hg, hle⟩ := proceed_form hp
  obtain ⟨e, he, hlt⟩ := get_some hg
  obtain ⟨t, h1, h2, c, hc1, hc2, hc3⟩ := hi.both k e he
  have hseen : (get (run settle ops).clock (run settle ops).seen).getD 0 = t := by
    show (Debounce.get _ (runFrom settle {} ops).seen).getD 0 = t
    rw [h1]
    simp only [Debounce.get, if_pos hlt, Option.getD_some]
  rw [hseen] at hle
  refine ⟨?_, c, hc1, hc2, by omega⟩
  intro c' hc' hor
  rcases h2 c' hc' with ⟨hk, hn⟩ | hle'
  · rcases hor with h3 | h3
    · exact absurd hk h3
    · exact absurd h3 hn
  · omega

/-- C36, once.  Executions that proceed are at least `settle` apart. -/
theorem C36_proceeds_apart (settle : Nat) (ops : List Debounce.Op) (h : Ordered settle {} ops) :
    ((run settle ops).calls.filter (fun c => c.out = .proceed)).Pairwise
      (fun later earlier => earlier.now + settle ≤ later.now) := by
  have key : ∀ suf pre, ops = pre ++ suf → Ordered settle {} pre → Ordered settle (run settle pre) suf →
      ((run settle pre).calls.filter (fun c => c.out = .proceed)).Pairwise
        (fun later earlier => earlier.now + settle ≤ later.now) →
      ((run settle ops).calls.filter (fun c => c.out = .proceed)).Pairwise
        (fun later earlier => earlier.now + settle ≤ later.now) := by
    intro suf
    induction suf with
    | nil => intro pre hp _ _ hw; rw [hp, List.append_nil]; exact hw
    | cons o suf ih =>
      intro pre hp ho ho' hw
      have hstep : run settle (pre ++ [o]) = step settle (run settle pre) o := by
        simp only [run, Debounce.runFrom_append]; rfl
      have hord : ∀ (l : List Debounce.Op) (s : St), Ordered settle s l → InOrder (Debounce.runFrom settle s l) o →
          Ordered settle s (l ++ [o]) := by
        intro l
        induction l with
        | nil => intro s _ h2; exact ⟨h2, trivial⟩
        | cons x l ihl => intro s h1 h2; exact ⟨h1.1, ihl _ h1.2 h2⟩
      refine ih (pre ++ [o]) (by simp [hp]) (hord pre {} ho ho'.1) (hstep ▸ ho'.2) ?_
      rw [hstep]
      cases o with
      | tick d => exact hw
      | cancel k => exact hw
      | call k now =>
        simp only [Debounce.step]
        split
        · simp only [List.filter_cons]
          split
          · rename_i hpro
            have hpro : reply settle (run settle pre) k now = .proceed := by simpa [reply] using hpro
            have hq := (C36_proceeds_only_after_quiet settle pre ho k now hpro).1
            have hcalls : (script settle (run settle pre) k now).1.calls = (run settle pre).calls := by
              simp only [script]
              split
              · split <;> rfl
              · split
                · split <;> rfl
                · rfl
            refine List.pairwise_cons.2 ⟨?_, hw⟩
            intro c hc
            obtain ⟨hc1, hc2⟩ := List.mem_filter.1 hc
            exact hq c hc1 (Or.inr (by simpa using hc2))
          · exact hw
        · exact hw
  exact key ops [] rfl trivial h (by simp [run, Debounce.runFrom])

/-- A burst of three submissions and the one execution. -/
example : let ops : List Debounce.Op := [.call "a" 0, .tick 3, .call "b" 3, .tick 2, .call "a" 5, .tick 1,
      .call "c" 6, .tick 2, .call "a" 8, .tick 3, .call "a" 11]
    Ordered 5 {} ops ∧ (run 5 ops).calls.map (fun c => (c.key, c.out)) =
      [("a", .proceed), ("a", .reschedule 3), ("c", .drop), ("a", .reschedule 3), ("b", .drop),
       ("a", .reschedule 5)] := by decide +kernel

/-- The steps of a docket left to itself: time passes and tasks that were told to come
back do so. -/
def LeftAlone (settle : Nat) (s : St) : List Debounce.Op → Prop
  | [] => True
  | .tick d :: ops => LeftAlone settle (step settle s (.tick d)) ops
  | .call k now :: ops => k ∈ s.pending ∧ now = s.clock ∧ LeftAlone settle (step settle s (.call k now)) ops
  | .cancel _ :: _ => False

/-- C36, eventually.  In every history without cancellations of waiting tasks: after each
call that did not proceed some task is on its way back, and whenever some task is on its
way back, a docket left to itself reaches an execution that proceeds. -/
theorem C36_quiet_burst_is_followed_partial (settle : Nat) (h0 : 0 < settle) (ops : List Debounce.Op)
    (hc : ∀ op ∈ ops, NotCancel op) :
    (∀ k now, now ≤ (run settle ops).clock → reply settle (run settle ops) k now ≠ .proceed →
      (step settle (run settle ops) (.call k now)).pending ≠ []) ∧
    ((run settle ops).pending ≠ [] → ∃ cont, LeftAlone settle (run settle ops) cont ∧
      ∃ k now calls, (runFrom settle (run settle ops) cont).calls = ⟨k, now, .proceed⟩ :: calls) := by
  have hwp := WinnerPending.run h0 ops hc
  have hsh := Shape.run settle ops
  generalize run settle ops = s at hwp hsh
  have htz : ttl settle ≠ 0 := by simp only [ttl]; omega
  constructor
  · intro k now hnow hr
    have hwp' := hwp.step h0 (.call k now) trivial
    simp only [reply] at hr
    simp only [Debounce.step, if_pos hnow] at hwp' ⊢
    rcases Option.eq_none_or_eq_some (get s.clock s.winner) with hg | ⟨w, hg⟩
    · simp only [script, hg, if_neg htz]; simp
    · obtain ⟨e, he, hlt⟩ := get_some hg
      by_cases hw : w = k
      · by_cases hle : (get s.clock s.seen).getD 0 + settle ≤ now
        · simp [script, hg, hw, hle] at hr
        · simp [script, hg, hw, hle]
      · have := hwp w e he
        simp only [script, hg, if_neg hw]
        intro hnil
        have hm : w ∈ s.pending.filter (fun x => decide (x ≠ k)) := List.mem_filter.2 ⟨this, by simpa using hw⟩
        rw [hnil] at hm
        simp at hm
  · intro hne
    rcases Option.eq_none_or_eq_some (get s.clock s.winner) with hg | ⟨w, hg⟩
    · -- nobody leads: any pending task becomes the winner and proceeds `settle` later
      obtain ⟨k, hk⟩ := List.exists_mem_of_ne_nil _ hne
      have hscript : script settle s k s.clock = ({ s with
          winner := some (k, s.clock + ttl settle)
          seen := some (s.clock, s.clock + ttl settle) }, .reschedule settle) := by
        simp only [script, hg, if_neg htz]
      have hlt : s.clock + settle < s.clock + ttl settle := by simp only [ttl]; omega
      refine ⟨[.call k s.clock, .tick settle, .call k (s.clock + settle)], ?_, k, s.clock + settle,
        ⟨k, s.clock, .reschedule settle⟩ :: s.calls, ?_⟩
      · refine ⟨hk, rfl, ?_⟩
        simp only [Debounce.step, if_pos (Nat.le_refl _), hscript]
        refine ⟨List.mem_cons_self, rfl, trivial⟩
      · simp only [runFrom, List.foldl_cons, List.foldl_nil, Debounce.step, if_pos (Nat.le_refl _), hscript]
        simp only [script, Debounce.get, if_pos hlt, if_true, Option.getD_some, if_pos (Nat.le_refl _)]
    · obtain ⟨e, he, hlt⟩ := get_some hg
      obtain ⟨t, hseen, ht⟩ := hsh.seen w e he
      have hw := hwp w e he
      have hget : get s.clock s.seen = some t := by simp [Debounce.get, hseen, hlt]
      by_cases hle : t + settle ≤ s.clock
      · refine ⟨[.call w s.clock], ⟨hw, rfl, trivial⟩, w, s.clock, s.calls, ?_⟩
        simp only [runFrom, List.foldl_cons, List.foldl_nil, Debounce.step, if_pos (Nat.le_refl _), script, hg,
          if_true, hget, Option.getD_some, if_pos hle]
      · have hscript : script settle s w s.clock = ({ s with
            winner := some (w, s.clock + ttl settle)
            seen := some (t, s.clock + ttl settle) }, .reschedule (t + settle - s.clock)) := by
          simp only [script, hg, if_true, hget, Option.getD_some, if_neg hle, pexpire, Option.map_some]
        have hlt' : s.clock + (t + settle - s.clock) < s.clock + ttl settle := by simp only [ttl]; omega
        refine ⟨[.call w s.clock, .tick (t + settle - s.clock), .call w (s.clock + (t + settle - s.clock))], ?_,
          w, s.clock + (t + settle - s.clock), ⟨w, s.clock, .reschedule (t + settle - s.clock)⟩ :: s.calls, ?_⟩
        · refine ⟨hw, rfl, ?_⟩
          simp only [Debounce.step, if_pos (Nat.le_refl _), hscript]
          refine ⟨List.mem_cons_self, rfl, trivial⟩
        · have hge : t + settle ≤ s.clock + (t + settle - s.clock) := by omega
          simp only [runFrom, List.foldl_cons, List.foldl_nil, Debounce.step, if_pos (Nat.le_refl _), hscript]
          simp only [script, Debounce.get, if_pos hlt', if_true, Option.getD_some, if_pos hge]

/-- The task of a history without cancellations that is on its way back. -/
example : (run 5 [.call "a" 0, .tick 3, .call "b" 3]).pending = ["a"] := by decide +kernel

/-- C36, eventually, as stated: whenever the last call was refused, a docket left to
itself reaches an execution that proceeds. -/
def C36_eventually_statement : Prop :=
  ∀ (settle : Nat) (ops : List Debounce.Op), 0 < settle →
    (∃ c calls, (run settle ops).calls = c :: calls ∧ c.out ≠ .proceed) →
    ∃ cont, LeftAlone settle (run settle ops) cont ∧
      ∃ k now calls, (runFrom settle (run settle ops) cont).calls = ⟨k, now, .proceed⟩ :: calls

theorem leftAlone_idle {settle : Nat} {s : St} (hp : s.pending = []) {cont : List Debounce.Op}
    (h : LeftAlone settle s cont) : (runFrom settle s cont).calls = s.calls := by
  induction cont generalizing s with
  | nil => rfl
  | cons o cont ih =>
    cases o with
    | tick d => exact ih (s := step settle s (.tick d)) hp h
    | cancel k => exact h.elim
    | call k now => rw [LeftAlone, hp] at h; simp at h

/-- If the first submission of a burst is cancelled while it waits, the later ones have
already been dropped and nothing runs at all. -/
theorem C36_violated_cancelled_winner : ¬ C36_eventually_statement := by
  intro h
  obtain ⟨cont, h1, k, now, calls, h2⟩ := h 5 [.call "a" 0, .tick 1, .call "b" 1, .cancel "a"] (by decide)
    ⟨⟨"b", 1, .drop⟩, [⟨"a", 0, .reschedule 5⟩], by decide +kernel, by decide⟩
  rw [leftAlone_idle (by decide +kernel) h1] at h2
  have : (run 5 [.call "a" 0, .tick 1, .call "b" 1, .cancel "a"]).calls =
      [⟨"b", 1, .drop⟩, ⟨"a", 0, .reschedule 5⟩] := by decide +kernel
  rw [this] at h2
  simp at h2

/-- Submissions of others that keep coming, each before the keys expire. -/
def Steady (settle : Nat) (w : Key) (s : St) : List Debounce.Op → Prop
  | [] => True
  | .tick d :: ops => (∃ e, s.winner = some (w, e) ∧ s.clock + d < e) ∧ Steady settle w (step settle s (.tick d)) ops
  | .call k now :: ops => k ≠ w ∧ Steady settle w (step settle s (.call k now)) ops
  | .cancel _ :: _ => False

/-- And they are dropped for as long as that goes on, however long it is. -/
theorem C36_starved_without_winner (settle : Nat) (h0 : 0 < settle) (s : St) (w : Key)
    (hw : get s.clock s.winner = some w) (ops : List Debounce.Op) (h : Steady settle w s ops) :
    ∀ c ∈ (runFrom settle s ops).calls, c ∈ s.calls ∨ c.out = .drop := by
  induction ops generalizing s with
  | nil => intro c hc; exact Or.inl hc
  | cons o ops ih =>
    cases o with
    | cancel k => exact h.elim
    | tick d =>
      obtain ⟨⟨e, he, hlt⟩, h2⟩ := h
      exact ih (step settle s (.tick d)) (by simp [Debounce.step, Debounce.get, he, hlt]) h2
    | call k now =>
      obtain ⟨hne, h2⟩ := h
      by_cases hnow : now ≤ s.clock
      · have hscript : (script settle s k now) = ({ s with
            seen := some (now, s.clock + ttl settle)
            winner := pexpire s.clock (ttl settle) s.winner }, .drop) := by
          simp only [script, hw, if_neg (Ne.symm hne)]
        have hlt : s.clock < s.clock + ttl settle := by simp only [ttl]; omega
        intro c hc
        have := ih (step settle s (.call k now)) (by
          simp only [Debounce.step, if_pos hnow, hscript, pexpire, hw, Option.map_some]
          simp only [Debounce.get, if_pos hlt]) h2 c hc
        simp only [Debounce.step, if_pos hnow, hscript, List.mem_cons] at this
        rcases this with (rfl | h3) | h3
        · exact Or.inr rfl
        · exact Or.inl h3
        · exact Or.inr h3
      · have hs : step settle s (.call k now) = s := by simp [Debounce.step, hnow]
        rw [hs] at h2
        show ∀ c ∈ (runFrom settle (step settle s (.call k now)) ops).calls, _
        rw [hs]
        exact ih s hw h2

example : let s := run 5 [.call "a" 0]
    get s.clock s.winner = some "a" ∧
    (runFrom 5 s [.tick 40, .call "b" 40, .tick 40, .call "c" 80, .tick 40, .call "d" 120]).calls.map (·.out) =
      [.drop, .drop, .drop, .reschedule 5] := by decide +kernel
end C36

end Docket
