import Verif.Props.C31_C32

/-!
# C31 with workers that are configured differently

Each worker has its own `redelivery_timeout`, by which it renews its slots and by which it judges
those of others (_concurrency.py:561-565, 764, 781-810, 851-853), and during a deployment the functions
of different workers may declare different limits.  Each step is taken here under the settings of
the worker that takes it.
-/
namespace Docket.Mixed
open Docket Redis

/-- A history in which each step is taken under settings of its own. -/
def runFrom (c : CSys) (ops : List (CCfg × COp)) : CSys := ops.foldl (fun c o => cstep o.1 c o.2) c
def run (ops : List (CCfg × COp)) : CSys := runFrom {} ops

theorem runFrom_append (c : CSys) (a b : List (CCfg × COp)) : runFrom c (a ++ b) = runFrom (runFrom c a) b := by
  simp [runFrom]

/-- With the same settings everywhere it is the history of C31. -/
theorem run_same (cfg : CCfg) (ops : List COp) : run (ops.map (fun o => (cfg, o))) = crun cfg ops := by
  simp only [run, runFrom, crun, crunFrom, List.foldl_map]

theorem keyTtl_mono {a b : Nat} (h : a ≤ b) : keyTtl a ≤ keyTtl b := by
  simp only [keyTtl]
  have : a * 4 / 1000 ≤ b * 4 / 1000 := Nat.div_le_div_right (Nat.mul_le_mul_right _ h)
  refine Nat.mul_le_mul_left _ ?_
  simp only [Nat.max_def]
  split <;> split <;> omega

theorem not_stale {b cfg : CCfg} (hR : b.redelivery ≤ cfg.redelivery) {c : CSys} (ht : c.timely b) {t : Time} (hle : t ≤ c.s.r.now)
    {x : Holder} (hx : x ∈ c.holders) : stale cfg t (x.key, x.last) = false := by
  have := ht x hx
  simp [stale]
  omega

/-- Giving a slot to a new holder. -/
theorem grant {b cfg : CCfg} (hR : b.redelivery ≤ cfg.redelivery) {c : CSys} (h : SlotsOK b c) {pid : Nat} {k : Key} {t : Time}
    (hlen : (c.slots.filter (fun e => e.1 ≠ k)).length < b.max)
    (hk : ∀ x ∈ c.holders, x.key ≠ k) (ht : t ≤ c.s.r.now)
    (hal : c.alive pid = true) (hpid : pid < c.s.nextPid) (hnew : ∀ x ∈ c.holding, x.pid ≠ pid) :
    SlotsOK b { c.take cfg k t with holding := ⟨pid, k, t⟩ :: c.holding } := by
  have hh : CSys.holders { c.take cfg k t with holding := ⟨pid, k, t⟩ :: c.holding } =
      ⟨pid, k, t⟩ :: c.holders := by
    have : CSys.alive { c.take cfg k t with holding := ⟨pid, k, t⟩ :: c.holding } = c.alive := rfl
    simp only [CSys.holders, this]
    rw [List.filter_cons_of_pos (by simpa using hal)]
  refine ⟨zput_nodup h.nodup _ _, ?_, ?_, ?_, ?_, ?_, ?_, ?_⟩
  · show (zinsert k t _).length ≤ _
    rw [zput_length]; omega
  · rw [hh]
    intro x hx
    show _ ∈ zinsert k t _
    rw [zput_mem]
    rcases List.mem_cons.1 hx with rfl | hx
    · exact Or.inl rfl
    · exact Or.inr ⟨h.held x hx, hk x hx⟩
  · rw [hh, List.map_cons, List.nodup_cons]
    refine ⟨?_, h.distinct⟩
    intro hc
    obtain ⟨x, hx, hx2⟩ := List.mem_map.1 hc
    exact hk x hx hx2
  · rw [hh]
    intro e he x hx
    have hk := keyTtl_mono hR
    have he : c.s.r.now + keyTtl cfg.redelivery = e := by simpa [CSys.take] using he
    have : x.last ≤ c.s.r.now := by
      rcases List.mem_cons.1 hx with rfl | hx
      · exact ht
      · exact h.past x (List.mem_filter.1 hx).1
    omega
  · intro x hx
    rcases List.mem_cons.1 hx with rfl | hx
    · exact hpid
    · exact h.fresh x hx
  · show ((_ :: c.holding).map _).Nodup
    rw [List.map_cons, List.nodup_cons]
    refine ⟨?_, h.pids⟩
    intro hc
    obtain ⟨x, hx, hx2⟩ := List.mem_map.1 hc
    exact hnew x hx hx2
  · intro x hx
    rcases List.mem_cons.1 hx with rfl | hx
    · exact ht
    · exact h.past x hx

theorem step {b cfg : CCfg} (hR : b.redelivery ≤ cfg.redelivery) (hM : cfg.max ≤ b.max) {c : CSys} (h : SlotsOK b c) (hw : WF c.s)
    (ht : c.timely b) (op : COp) (ht' : (cstep cfg c op).timely b) :
    SlotsOK b (cstep cfg c op) := by
  cases op with
  | core op =>
    revert ht'
    simp only [cstep]
    generalize hc1 : ({ c with s := Docket.step cfg.toCfg c.s op, signals := _ } : CSys) = c1
    have hsub : c1.holders.Sublist c.holders := by
      subst hc1
      apply holders_sublist
      · rfl
      intro x hx ha
      exact (step_alive hw op).2 x.pid (h.fresh x hx) ha
    have h1 : SlotsOK b c1 := by
      refine SlotsOK.less h hsub ?_ ?_ ?_ ?_ ?_
      · subst hc1; exact List.Sublist.refl _
      · subst hc1; rfl
      · subst hc1; rfl
      · subst hc1; exact (step_alive hw op).1
      · subst hc1; exact step_now hw op
    simp only [expireSlots]
    rcases Option.eq_none_or_eq_some c1.slotsExpire with he | ⟨e, he⟩
    · rw [he]; intro _; exact h1
    · rw [he]
      simp only
      split
      · rename_i hle
        intro ht'
        have hnil : c1.holders = [] := by
          rw [List.eq_nil_iff_forall_not_mem]
          intro x hx
          have h2 := h1.expire e he x hx
          have h3 := ht' x hx
          have h4 := keyTtl_ge b.redelivery
          simp only at h3
          omega
        have hnil' : CSys.holders { c1 with slots := [], slotsExpire := none } = [] := hnil
        exact ⟨by simp, by simp, by simp [hnil'], by simp [hnil'], by simp, h1.fresh, h1.pids, h1.past⟩
      · intro _; exact h1
  | acquire pid t =>
    simp only [cstep] at ht' ⊢
    rcases Option.eq_none_or_eq_some (c.s.proc? pid) with hp | ⟨p, hp⟩
    · rw [hp]; exact h
    rw [hp] at ht' ⊢
    simp only at ht' ⊢
    split
    · rename_i hcond
      have hle := hcond.2.1
      obtain ⟨hpm, hpp⟩ := find_pid hp
      have hpid : pid < c.s.nextPid := by rw [← hpp]; exact (hw.procs.1 p hpm).2.1
      have hnew : ∀ x ∈ c.holding, x.pid ≠ pid := by
        have := hcond.2.2
        simpa using this
      have hal := alive_of_proc hp
      have park : SlotsOK b { luaPark c p with s := (luaPark c p).s.dropProc pid } := by
        rw [luaPark_eq]
        refine SlotsOK.less h ?_ (List.Sublist.refl _) rfl rfl (Nat.le_refl _) (Nat.le_refl _)
        apply holders_sublist
        · rfl
        intro x hx ha
        simp only [CSys.alive, Sys.dropProc, List.any_eq_true, List.mem_filter] at ha ⊢
        obtain ⟨y, hy, hy2⟩ := ha
        exact ⟨y, hy.1, hy2⟩
      rcases acquire_eff cfg c p t with ⟨e, hem, hek, _, hst, hout⟩ | ⟨hno, hlt, hout⟩ |
          ⟨hno, hge, e, hem, hest, hout⟩ | hout
      · rw [hout]
        simp only [if_true]
        refine grant hR h ?_ ?_ hle hal hpid hnew
        · exact Nat.lt_of_lt_of_le (filter_len_lt hem (by simp [hek])) h.bound
        · intro x hx hc
          have := slot_unique h.nodup hem (h.held x hx) (by simp [hek, hc])
          have h2 := not_stale hR ht hle hx
          rw [← this, hst] at h2
          simp at h2
      · rw [hout]
        simp only [if_true]
        exact grant hR h (Nat.lt_of_le_of_lt (List.length_filter_le _ _) (Nat.lt_of_lt_of_le hlt hM))
          (fun x hx => hno _ (h.held x hx)) hle hal hpid hnew
      · rw [hout]
        simp only [if_true]
        have h1 : SlotsOK b (c.free e.1) := by
          apply h.drop
          intro x hx
          simp only [ne_eq, decide_not, Bool.not_eq_true', decide_eq_false_iff_not]
          intro hc
          have := slot_unique h.nodup hem (h.held x hx) (by simp [hc])
          have h2 := not_stale hR ht hle hx
          rw [← this, hest] at h2
          simp at h2
        refine grant hR h1 ?_ (fun x hx => hno _ (h.held x hx)) hle hal hpid hnew
        refine Nat.lt_of_le_of_lt (List.length_filter_le _ _) ?_
        exact Nat.lt_of_lt_of_le (filter_len_lt hem (by simp)) h.bound
      · rw [hout]
        exact park
    · exact h
  | renewSlot pid t =>
    simp only [cstep] at ht' ⊢
    rcases Option.eq_none_or_eq_some (c.holders.find? (fun h => h.pid = pid)) with hp | ⟨x, hp⟩
    · rw [hp]; exact h
    rw [hp]
    simp only
    split
    · rename_i hle
      have hxm := List.mem_of_find?_eq_some hp
      have hxp := List.find?_some hp
      simp only [decide_eq_true_eq] at hxp
      have hslot := h.held x hxm
      have hhold : ∀ y ∈ c.holding, y.pid = pid → y = x := by
        intro y hy hyp
        exact nodup_map_inj h.pids hy (List.mem_filter.1 hxm).1 (hyp.trans hxp.symm)
      have hh : CSys.holders { c.take cfg x.key t with
          holding := c.holding.map (fun h => if h.pid = pid then { h with last := t } else h) } =
          c.holders.map (fun h => if h.pid = pid then { h with last := t } else h) := by
        simp only [CSys.holders, List.filter_map]
        congr 1
        apply List.filter_congr
        intro y _
        simp only [Function.comp]
        split <;> rfl
      have hmem : ∀ y ∈ c.holders.map (fun h => if h.pid = pid then { h with last := t } else h),
          (y = { x with last := t }) ∨ (y ∈ c.holders ∧ y.pid ≠ pid) := by
        intro y hy
        obtain ⟨z, hz, rfl⟩ := List.mem_map.1 hy
        by_cases hzp : z.pid = pid
        · left
          rw [if_pos hzp, hhold z (List.mem_filter.1 hz).1 hzp]
        · right
          rw [if_neg hzp]
          exact ⟨hz, hzp⟩
      refine ⟨zput_nodup h.nodup _ _, ?_, ?_, ?_, ?_, ?_, ?_, ?_⟩
      · show (zinsert x.key t _).length ≤ _
        rw [zput_length]
        have := filter_len_lt (f := fun e => decide (e.1 ≠ x.key)) hslot (by simp)
        have := h.bound
        omega
      · rw [hh]
        intro y hy
        show _ ∈ zinsert x.key t _
        rw [zput_mem]
        rcases hmem y hy with rfl | ⟨hy, hyp⟩
        · exact Or.inl rfl
        · refine Or.inr ⟨h.held y hy, ?_⟩
          intro hc
          simp only at hc
          exact hyp ((nodup_map_inj h.distinct hy hxm hc) ▸ hxp)
      · rw [hh, List.map_map]
        have : ((fun x : Holder => x.key) ∘ fun h => if h.pid = pid then { h with last := t } else h) =
            fun x : Holder => x.key := by
          funext y; simp only [Function.comp]; split <;> rfl
        rw [this]
        exact h.distinct
      · rw [hh]
        intro e he y hy
        have hk := keyTtl_mono hR
        have he : c.s.r.now + keyTtl cfg.redelivery = e := by simpa [CSys.take] using he
        have : y.last ≤ c.s.r.now := by
          rcases hmem y hy with rfl | ⟨hy, _⟩
          · exact hle
          · exact h.past y (List.mem_filter.1 hy).1
        omega
      · intro y hy
        obtain ⟨z, hz, rfl⟩ := List.mem_map.1 hy
        have := h.fresh z hz
        split <;> exact this
      · show (List.map _ (c.holding.map _)).Nodup
        rw [List.map_map]
        have : ((fun x : Holder => x.pid) ∘ fun h => if h.pid = pid then { h with last := t } else h) =
            fun x : Holder => x.pid := by
          funext y; simp only [Function.comp]; split <;> rfl
        rw [this]
        exact h.pids
      · intro y hy
        obtain ⟨z, hz, rfl⟩ := List.mem_map.1 hy
        have := h.past z hz
        split
        · exact hle
        · exact this
    · exact h
  | release pid t =>
    simp only [cstep] at ht' ⊢
    rcases Option.eq_none_or_eq_some (c.holders.find? (fun h => h.pid = pid)) with hp | ⟨x, hp⟩
    · rw [hp]; exact h
    rw [hp]
    simp only
    split
    · rename_i hle
      have hxm := List.mem_of_find?_eq_some hp
      have hxp := List.find?_some hp
      simp only [decide_eq_true_eq] at hxp
      -- first forget the holder, then drop the slot
      have h0 : SlotsOK b { c with holding := c.holding.filter (fun h => h.pid ≠ pid) } := by
        refine SlotsOK.less h ?_ List.filter_sublist rfl rfl (Nat.le_refl _) (Nat.le_refl _)
        simp only [CSys.holders]
        exact List.Sublist.filter _ List.filter_sublist
      have hin : ∀ y ∈ CSys.holders { c with holding := c.holding.filter (fun h => h.pid ≠ pid) },
          y ∈ c.holders ∧ y.pid ≠ pid := by
        intro y hy
        simp only [CSys.holders, List.mem_filter, decide_eq_true_eq] at hy ⊢
        exact ⟨⟨hy.1.1, hy.2⟩, hy.1.2⟩
      have h1 : SlotsOK b { c with
          holding := c.holding.filter (fun h => h.pid ≠ pid)
          slots := c.slots.filter (fun e => e.1 ≠ x.key) } := by
        refine h0.drop _ ?_
        intro y hy
        obtain ⟨hy, hyp⟩ := hin y hy
        simp only [ne_eq, decide_not, Bool.not_eq_true', decide_eq_false_iff_not]
        intro hc
        exact hyp ((nodup_map_inj h.distinct hy hxm hc) ▸ hxp)
      simp only [luaRelease]
      split
      · have h2 := h1.drop (fun e => ¬ stale cfg t e) (by
          intro y hy
          have := not_stale hR ht hle (hin y hy).1
          simp [this])
        have hs := wake_same cfg (evict cfg (c.free x.key) t)
        exact h2.same ⟨hs.1, hs.2, rfl, hs.4, hs.5, hs.6, hs.7, hs.8, hs.9, hs.10⟩
      · have hs := wake_same cfg (c.free x.key)
        exact h1.same ⟨hs.1, hs.2, rfl, hs.4, hs.5, hs.6, hs.7, hs.8, hs.9, hs.10⟩
    · exact h
  | scavenge t =>
    simp only [cstep]
    split
    · rename_i hle
      simp only [luaScavenge]
      split
      · exact h
      · have h2 := h.drop (fun e => ¬ stale cfg t e) (by
          intro y hy
          have := not_stale hR ht hle hy
          simp [this])
        exact h2.same (wake_same cfg (evict cfg c t))
    · exact h
  | cleanupRead k =>
    simp only [cstep]
    split
    · cases (c.s.r.runs k).bind (·.waiter) with
      | none => exact h
      | some e => exact h.less (List.Sublist.refl _) (List.Sublist.refl _) rfl rfl (Nat.le_refl _) (Nat.le_refl _)
    · exact h
  | cleanupWrite k e =>
    simp only [cstep]
    split
    · exact h.less (List.Sublist.refl _) (List.Sublist.refl _) rfl rfl (Nat.le_refl _) (Nat.le_refl _)
    · exact h


theorem wf_run (ops : List (CCfg × COp)) : WF (run ops).s := by
  suffices h : ∀ c : CSys, WF c.s → WF (runFrom c ops).s from h {} WF.init
  intro c hc
  induction ops generalizing c with
  | nil => exact hc
  | cons o ops ih => exact ih _ (CSys.wf_step o.1 hc o.2)

theorem slotsOK_run (b : CCfg) (ops : List (CCfg × COp))
    (hcfg : ∀ o ∈ ops, b.redelivery ≤ o.1.redelivery ∧ o.1.max ≤ b.max)
    (h : ∀ pre, pre <+: ops → (run pre).timely b) : SlotsOK b (run ops) := by
  have key : ∀ pre suf, ops = pre ++ suf → SlotsOK b (run pre) → SlotsOK b (run ops) := by
    intro pre suf
    induction suf generalizing pre with
    | nil => intro h1 h2; rw [h1, List.append_nil]; exact h2
    | cons o suf ih =>
      intro h1 h2
      refine ih (pre ++ [o]) (by simp [h1]) ?_
      have h3 : run (pre ++ [o]) = cstep o.1 (run pre) o.2 := by
        rw [run, runFrom_append]; rfl
      have ho := hcfg o (by rw [h1]; simp)
      rw [h3]
      refine step ho.1 ho.2 h2 (wf_run pre) (h pre ⟨o :: suf, h1.symm⟩) o.2 ?_
      rw [← h3]
      exact h (pre ++ [o]) ⟨suf, by simp [h1]⟩
  exact key [] ops rfl (SlotsOK.init b)

/-- **C31, workers that are configured differently**: when each living holder renews its slot less
than the *smallest* redelivery timeout of all workers after the last time, the executions in their
body never outnumber the *largest* limit any worker has declared. -/
theorem C31_mixed_partial (shortest largest : Nat) (ops : List (CCfg × COp))
    (hcfg : ∀ o ∈ ops, shortest ≤ o.1.redelivery ∧ o.1.max ≤ largest)
    (h : ∀ pre, pre <+: ops → ∀ x ∈ (run pre).holders, (run pre).s.r.now < x.last + shortest) :
    (run ops).holders.length ≤ largest := by
  have hs := slotsOK_run ⟨⟨0, shortest⟩, largest⟩ ops hcfg h
  have h1 : ((run ops).holders.map (·.key)).length ≤ ((run ops).slots.map (·.1)).length := by
    apply nodup_subset_length hs.distinct
    intro k hk
    obtain ⟨x, hx, rfl⟩ := List.mem_map.1 hk
    exact List.mem_map.2 ⟨(x.key, x.last), hs.held x hx, rfl⟩
  simp only [List.length_map] at h1
  exact Nat.le_trans h1 hs.bound

private abbrev rq : Request := ⟨"f", "", "", 0, 1⟩

private def slow : CCfg := ⟨⟨0, 400⟩, 1⟩
private def quick : CCfg := ⟨⟨0, 100⟩, 1⟩
private def wide : CCfg := ⟨⟨0, 400⟩, 2⟩

/-- Two workers with different limits and timeouts; all holders are in time for the smaller timeout
throughout, and the larger limit is reached. -/
example : let ops : List (CCfg × COp) := [(slow, .core (.add "a" rq 0)), (slow, .core (.add "b" rq 0)), (slow, .core (.poll "w" 1)),
      (quick, .core (.poll "v" 1)), (slow, .core (.claim 0)), (quick, .core (.claim 1)), (slow, .acquire 0 0), (wide, .acquire 1 0),
      (slow, .core (.tick 99)), (slow, .renewSlot 0 99), (wide, .renewSlot 1 99)]
    (∀ o ∈ ops, 100 ≤ o.1.redelivery ∧ o.1.max ≤ 2) ∧
    (∀ n ≤ ops.length, (run (ops.take n)).holders.all (fun x => (run (ops.take n)).s.r.now < x.last + 100) = true) ∧
    (run ops).holders.map (·.key) = ["b", "a"] := by decide +kernel

/-- The redelivery timeout of the worker in which the execution entered the limit. -/
def ownTimeout (ops : List (CCfg × COp)) (pid : Nat) : Nat :=
  match ops.find? (fun o => match o.2 with
    | .acquire p _ => p = pid
    | _ => false) with
  | some o => o.1.redelivery
  | none => 0

/-- C31 for workers with timeouts of their own: one limit, and each holder renews within a quarter
of its own timeout, as the code does (_concurrency.py:787, `LEASE_RENEWAL_FACTOR`). -/
def C31_own_timeouts_statement : Prop :=
  ∀ (limit : Nat) (ops : List (CCfg × COp)), (∀ o ∈ ops, o.1.max = limit) →
    (∀ pre, pre <+: ops → ∀ x ∈ (run pre).holders, 4 * ((run pre).s.r.now - x.last) ≤ ownTimeout ops x.pid) →
    (run ops).holders.length ≤ limit

private def rivals : List (CCfg × COp) :=
  [(slow, .core (.add "a" rq 0)), (slow, .core (.add "b" rq 0)), (slow, .core (.poll "w" 1)), (quick, .core (.poll "v" 1)),
   (slow, .core (.claim 0)), (quick, .core (.claim 1)), (slow, .acquire 0 0), (slow, .core (.tick 100)), (quick, .acquire 1 100)]

/-- **Disagreement.** Whether a slot is stale is decided by the timeout of the worker that wants it,
how often it is renewed by that of its holder.  A worker with a timeout of a quarter of another's, or
less, takes the slots of tasks that are running and renewed on time: two bodies under a limit of
one. -/
theorem C31_violated_timeouts : ¬ C31_own_timeouts_statement := by
  intro h
  have := h 1 rivals (by decide) (by
    intro pre hpre
    have hn : pre = rivals.take pre.length := (List.prefix_iff_eq_take.1 hpre)
    have hlen : pre.length ≤ 9 := by have := hpre.length_le; simpa [rivals] using this
    have all : ∀ n ≤ 9, ∀ x ∈ (run (rivals.take n)).holders, 4 * ((run (rivals.take n)).s.r.now - x.last) ≤ ownTimeout rivals x.pid := by
      decide +kernel
    rw [hn]
    exact all _ hlen)
  revert this
  decide +kernel

end Docket.Mixed
