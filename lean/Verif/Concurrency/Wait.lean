import Verif.Concurrency.Inv
import Verif.Core.Frame
/-
The wait list: entry ids, the places recorded for cancellation, and what a wake-up does.
-/
namespace Docket
open Redis

/-- Entry ids of the waiter stream ascend; recorded places point to own entries. -/
structure WaitOK (c : CSys) : Prop where
  lt : ∀ e ∈ c.waiters, e.1 < c.nextW
  sorted : c.waiters.Pairwise (fun a b => a.1 < b.1)
  place : ∀ k h w, c.s.r.runs k = some h → h.waiter = some w →
    w < c.nextW ∧ ∀ e ∈ c.waiters, e.1 = w → e.2.key = k
  job : ∀ k w, (k, w) ∈ c.cleanups → w < c.nextW ∧ ∀ e ∈ c.waiters, e.1 = w → e.2.key = k

theorem step_waiter {cfg : Cfg} {s : Sys} (hw : WF s) (op : Op) {k : Key} {h : Run} {w : MsgId}
    (hr : (step cfg s op).r.runs k = some h) (hh : h.waiter = some w) :
    ∃ h0, s.r.runs k = some h0 ∧ h0.waiter = some w := by
  have he := step_eff cfg s hw.queue op
  generalize Docket.step cfg s op = s' at he hr
  have run : ∀ {k : Key}, (s.r.run k).waiter = some w →
      ∃ h0, s.r.runs k = some h0 ∧ h0.waiter = some w := by
    intro k h1
    simp only [Redis.run] at h1
    rcases Option.eq_none_or_eq_some (s.r.runs k) with h2 | ⟨v, h2⟩
    · rw [h2] at h1; simp at h1
    · rw [h2] at h1; exact ⟨v, h2, h1⟩
  have put : ∀ {k' : Key} {v : Option Run}, upd s.r.runs k' v k = some h →
      (∀ x, v = some x → x.waiter = (s.r.run k').waiter) →
      ∃ h0, s.r.runs k = some h0 ∧ h0.waiter = some w := by
    intro k' v h1 h2
    rcases upd_eq_some h1 with ⟨rfl, h3⟩ | ⟨_, h3⟩
    · exact run ((h2 h h3).symm.trans hh)
    · exact ⟨h, h3, hh⟩
  have exp : ∀ {k : Key} {x : Run}, expiredRun cfg.ttl s.r k = some x →
      x.waiter = (s.r.run k).waiter := by
    intro k x hx
    obtain ⟨_, h0, h1, rfl⟩ := expiredRun_eq_some hx
    simp [Redis.run, h1]
  cases he with
  | tick d =>
    simp only [advance, Option.filter_eq_some_iff] at hr
    exact ⟨h, hr.1, hh⟩
  | addNow => exact put hr (by rintro x ⟨⟩; rfl)
  | addLater => exact put hr (by rintro x ⟨⟩; rfl)
  | replaceNow => exact put hr (by rintro x ⟨⟩; rfl)
  | replaceLater => exact put hr (by rintro x ⟨⟩; rfl)
  | cancel k1 =>
    refine put hr ?_
    rintro x ⟨⟩
    simp only [cancelRun]
    split <;> rfl
  | cancelTtl => exact put hr (fun x hx => exp hx)
  | clear op j js hop =>
    simp only at hr
    split at hr
    · exact run ((exp hr).symm.trans hh)
    · exact ⟨h, hr, hh⟩
  | schedule t ht =>
    simp only at hr
    split at hr
    · simp only [Option.some.injEq] at hr
      subst hr
      exact run hh
    · exact ⟨h, hr, hh⟩
  | strikeOut p =>
    refine put hr ?_
    intro x hx
    rcases Option.eq_none_or_eq_some (s.r.runs p.msg.key) with h2 | ⟨v, h2⟩
    · rw [h2] at hx; simp at hx
    · rw [h2] at hx
      simp only [Option.map_some, Option.some.injEq] at hx
      subst hx
      simp [Redis.run, h2]
  | claim p => exact put hr (by rintro x ⟨⟩; rfl)
  | finish p st e w' =>
    refine put hr ?_
    intro x hx
    split at hx
    · simp only [Option.some.injEq] at hx
      subst hx
      rfl
    · simp at hx
  | rescheduleNow p => exact put hr (by rintro x ⟨⟩; rfl)
  | rescheduleLater p => exact put hr (by rintro x ⟨⟩; rfl)
  | _ => exact ⟨h, hr, hh⟩

theorem expireSlots_waiters (c : CSys) : (expireSlots c).waiters = c.waiters ∧
    (expireSlots c).nextW = c.nextW ∧ (expireSlots c).cleanups = c.cleanups ∧
    (expireSlots c).signals = c.signals := by
  simp only [expireSlots]
  split
  · split <;> exact ⟨rfl, rfl, rfl, rfl⟩
  · exact ⟨rfl, rfl, rfl, rfl⟩

/-- Fewer entries, no new recorded places. -/
theorem WaitOK.less {c c' : CSys} (h : WaitOK c) (hw : c'.waiters.Sublist c.waiters)
    (hn : c'.nextW = c.nextW)
    (hr : ∀ k h w, c'.s.r.runs k = some h → h.waiter = some w →
      ∃ h0, c.s.r.runs k = some h0 ∧ h0.waiter = some w)
    (hc : c'.cleanups = c.cleanups) : WaitOK c' where
  lt := fun e he => by rw [hn]; exact h.lt e (hw.subset he)
  sorted := h.sorted.sublist hw
  place := fun k h' w h1 h2 => by
    obtain ⟨h0, h3, h4⟩ := hr k h' w h1 h2
    obtain ⟨h5, h6⟩ := h.place k h0 w h3 h4
    exact ⟨by rw [hn]; exact h5, fun e he => h6 e (hw.subset he)⟩
  job := fun k w hk => by
    rw [hc] at hk
    obtain ⟨h5, h6⟩ := h.job k w hk
    exact ⟨by rw [hn]; exact h5, fun e he => h6 e (hw.subset he)⟩

theorem WaitOK.wakeOne {c : CSys} (h : WaitOK c) (e : MsgId × Msg) : WaitOK (wakeOne c e) := by
  by_cases hs : c.s.r.stateOf e.2.key = some .scheduled
  · rw [wakeOne_woken c e hs]
    refine h.less List.filter_sublist rfl ?_ rfl
    intro k h' w h1 h2
    rcases upd_eq_some h1 with ⟨_, h3⟩ | ⟨_, h3⟩
    · simp at h3
    · rcases upd_eq_some h3 with ⟨_, h4⟩ | ⟨_, h4⟩
      · simp only [Option.some.injEq] at h4
        subst h4
        simp [wokenRun] at h2
      · exact ⟨h', h4, h2⟩
  · rw [wakeOne_dropped c e hs]
    refine h.less List.filter_sublist rfl ?_ rfl
    intro k h' w h1 h2
    rcases upd_eq_some h1 with ⟨_, h3⟩ | ⟨_, h3⟩
    · simp at h3
    · exact ⟨h', h3, h2⟩

theorem WaitOK.wakeAll (l : List (MsgId × Msg)) {c : CSys} (h : WaitOK c) :
    WaitOK (l.foldl Docket.wakeOne c) := by
  induction l generalizing c with
  | nil => exact h
  | cons e l ih => exact ih (h.wakeOne e)

theorem WaitOK.slots {c : CSys} (h : WaitOK c) {c' : CSys} (h1 : c'.s = c.s)
    (h2 : c'.waiters = c.waiters) (h3 : c'.nextW = c.nextW) (h4 : c'.cleanups = c.cleanups) :
    WaitOK c' :=
  h.less (by rw [h2]; exact List.Sublist.refl _) h3
    (fun k h w a b => ⟨h, by rw [h1] at a; exact a, b⟩) h4

theorem WaitOK.park {c : CSys} (h : WaitOK c) (p : Proc) : WaitOK (luaPark c p) := by
  rw [luaPark_eq]
  refine ⟨?_, ?_, ?_, ?_⟩
  · intro e he
    simp only [List.mem_append, List.mem_singleton] at he
    rcases he with he | rfl
    · have := h.lt e he; simp only; omega
    · simp
  · simp only
    rw [List.pairwise_append]
    refine ⟨h.sorted, by simp, ?_⟩
    intro a ha b hb
    simp only [List.mem_singleton] at hb
    subst hb
    exact h.lt a ha
  · intro k h' w h1 h2
    rcases upd_eq_some h1 with ⟨rfl, h3⟩ | ⟨hne, h3⟩
    · simp only [Option.some.injEq] at h3
      subst h3
      simp only [waitingRun, Option.some.injEq] at h2
      subst h2
      refine ⟨by simp, fun e he heq => ?_⟩
      simp only [List.mem_append, List.mem_singleton] at he
      rcases he with he | rfl
      · have := h.lt e he; omega
      · rfl
    · obtain ⟨h5, h6⟩ := h.place k h' w h3 h2
      refine ⟨by simp only; omega, fun e he heq => ?_⟩
      simp only [List.mem_append, List.mem_singleton] at he
      rcases he with he | rfl
      · exact h6 e he heq
      · simp only at heq; omega
  · intro k w hk
    obtain ⟨h5, h6⟩ := h.job k w hk
    refine ⟨by simp only; omega, fun e he heq => ?_⟩
    simp only [List.mem_append, List.mem_singleton] at he
    rcases he with he | rfl
    · exact h6 e he heq
    · simp only at heq; omega

theorem WaitOK.step (cfg : CCfg) {c : CSys} (hw : WF c.s) (h : WaitOK c) (op : COp) :
    WaitOK (cstep cfg c op) := by
  cases op with
  | core op =>
    simp only [cstep]
    obtain ⟨h1, h2, h3, _⟩ := expireSlots_waiters { c with
      s := Docket.step cfg.toCfg c.s op
      signals := signalled c.signals op }
    refine h.less ?_ ?_ ?_ ?_
    · rw [h1]; exact List.Sublist.refl _
    · rw [h2]
    · intro k x w h4 h5
      rw [expireSlots_s] at h4
      exact step_waiter hw op h4 h5
    · rw [h3]
  | acquire pid t =>
    simp only [cstep]
    cases c.s.proc? pid with
    | none => exact h
    | some p =>
      simp only
      split
      · rcases acquire_eff cfg c p t with ⟨e, _, _, _, _, h1⟩ | ⟨_, _, h1⟩ | ⟨_, _, e, _, _, h1⟩ | h1
        · rw [h1]; exact h.slots rfl rfl rfl rfl
        · rw [h1]; exact h.slots rfl rfl rfl rfl
        · rw [h1]; exact h.slots rfl rfl rfl rfl
        · rw [h1]
          exact (h.park p).less (List.Sublist.refl _) rfl (fun k h w a b => ⟨h, a, b⟩) rfl
      · exact h
  | renewSlot pid t =>
    simp only [cstep]
    cases c.holders.find? (fun h => h.pid = pid) with
    | none => exact h
    | some x =>
      simp only
      split
      · exact h.slots rfl rfl rfl rfl
      · exact h
  | release pid t =>
    simp only [cstep]
    cases c.holders.find? (fun h => h.pid = pid) with
    | none => exact h
    | some x =>
      simp only
      split
      · refine WaitOK.slots (c := luaRelease cfg c x.key t) ?_ rfl rfl rfl rfl
        simp only [luaRelease]
        split
        · exact (h.slots (c' := evict cfg (c.free x.key) t) rfl rfl rfl rfl).wakeAll _
        · exact (h.slots (c' := c.free x.key) rfl rfl rfl rfl).wakeAll _
      · exact h
  | scavenge t =>
    simp only [cstep]
    split
    · simp only [luaScavenge]
      split
      · exact h
      · exact (h.slots (c' := evict cfg c t) rfl rfl rfl rfl).wakeAll _
    · exact h
  | cleanupRead k =>
    simp only [cstep]
    split
    · rcases Option.eq_none_or_eq_some ((c.s.r.runs k).bind (·.waiter)) with h1 | ⟨w, h1⟩
      · rw [h1]; exact h
      · rw [h1]
        obtain ⟨v, h2, h3⟩ := Option.bind_eq_some_iff.1 h1
        refine ⟨h.lt, h.sorted, h.place, ?_⟩
        intro k' w' hk
        rcases List.mem_cons.1 hk with heq | hk
        · simp only [Prod.mk.injEq] at heq
          obtain ⟨rfl, rfl⟩ := heq
          exact h.place k' v w' h2 h3
        · exact h.job k' w' hk
    · exact h
  | cleanupWrite k e =>
    simp only [cstep]
    split
    · refine h.less List.filter_sublist rfl ?_ rfl
      intro k' h' w h1 h2
      rcases upd_eq_some h1 with ⟨rfl, h3⟩ | ⟨_, h3⟩
      · rcases Option.eq_none_or_eq_some (c.s.r.runs k') with hr | ⟨v, hr⟩
        · simp [delProg, hr] at h3
        · simp only [delProg, hr, Option.map_some, Option.some.injEq] at h3
          subst h3
          simp at h2
      · exact ⟨h', h3, h2⟩
    · exact h

theorem WaitOK.run (cfg : CCfg) (ops : List COp) : WaitOK (crun cfg ops) := by
  suffices h : ∀ c : CSys, WF c.s → WaitOK c → WaitOK (crunFrom cfg c ops) from
    h {} WF.init ⟨by simp, by simp, by simp, by simp⟩
  intro c hc h
  induction ops generalizing c with
  | nil => exact h
  | cons o ops ih => exact ih _ (CSys.wf_step cfg hc o) (h.step cfg hc o)

/-! ### What a wake-up does -/

theorem wakeOne_waiters (c : CSys) (e : MsgId × Msg) :
    (wakeOne c e).waiters = c.waiters.filter (fun x => x.1 ≠ e.1) := by
  by_cases h : c.s.r.stateOf e.2.key = some .scheduled
  · rw [wakeOne_woken c e h]
  · rw [wakeOne_dropped c e h]

/-- Whatever happens to them, the entries looked at leave the list. -/
theorem wakeAll_waiters (l : List (MsgId × Msg)) (c : CSys) :
    (l.foldl wakeOne c).waiters = c.waiters.filter (fun x => x.1 ∉ l.map (·.1)) := by
  induction l generalizing c with
  | nil => simp [List.filter_eq_self.2]
  | cons e l ih =>
    rw [List.foldl_cons, ih, wakeOne_waiters, List.filter_filter]
    apply List.filter_congr
    intro x _
    simp only [List.map_cons, List.mem_cons, not_or]
    by_cases h1 : x.1 = e.1 <;> simp [h1]

theorem filter_take_drop {l : List (MsgId × Msg)} (h : l.Pairwise (fun a b => a.1 < b.1)) (n : Nat) :
    l.filter (fun x => x.1 ∉ (l.take n).map (·.1)) = l.drop n := by
  induction l generalizing n with
  | nil => simp
  | cons a l ih =>
    cases n with
    | zero => simp [List.filter_eq_self.2]
    | succ n =>
      rw [List.pairwise_cons] at h
      rw [List.take_succ_cons, List.drop_succ_cons, List.map_cons,
        List.filter_cons_of_neg (by simp), ← ih h.2 n]
      apply List.filter_congr
      intro x hx
      have : x.1 ≠ a.1 := Nat.ne_of_gt (h.1 x hx)
      simp [this]

/-- The first waiters leave, as many as there are free slots. -/
theorem wake_waiters (cfg : CCfg) {c : CSys} (h : WaitOK c) :
    (wake cfg c).waiters = c.waiters.drop (cfg.max - c.slots.length) := by
  simp only [wake]
  rw [wakeAll_waiters, filter_take_drop h.sorted]

theorem wakeOne_runs_other (c : CSys) (e : MsgId × Msg) {k : Key} (h1 : k ≠ e.2.key)
    (h2 : k ≠ safeguardKey e.2.key) : (wakeOne c e).s.r.runs k = c.s.r.runs k := by
  by_cases h : c.s.r.stateOf e.2.key = some .scheduled
  · rw [wakeOne_woken c e h]
    exact (upd_other _ _ _ _ h2).trans (upd_other _ _ _ _ h1)
  · rw [wakeOne_dropped c e h]
    exact upd_other _ _ _ _ h2

/-- The message a waiter goes back as. -/
def reviveMsg (r : Redis) (m : Msg) : Msg := { m with gen := r.nextGen m.key }

theorem wakeOne_nextGen (c : CSys) (e : MsgId × Msg) {k : Key} (h1 : k ≠ e.2.key)
    (h2 : k ≠ safeguardKey e.2.key) : (wakeOne c e).s.r.nextGen k = c.s.r.nextGen k := by
  simp only [Redis.nextGen, Redis.run, wakeOne_runs_other c e h1 h2]

/-- Waking waiters that are all still scheduled, under distinct ordinary keys. -/
theorem wakeAll_woken (l : List (MsgId × Msg)) (c : CSys)
    (hs : ∀ e ∈ l, c.s.r.stateOf e.2.key = some .scheduled)
    (hd : (l.map (·.2.key)).Nodup) (hg : ∀ e ∈ l, ∀ k', e.2.key ≠ safeguardKey k') :
    (l.foldl wakeOne c).s.r.stream =
      c.s.r.stream ++ numbered c.s.r.nextId (l.map (fun e => reviveMsg c.s.r e.2)) ∧
    (∀ i (hi : i < l.length), (l.foldl wakeOne c).s.r.runs (l[i].2.key) =
      some { wokenRun c.s.r l[i].2.key with streamId := some (c.s.r.nextId + i) }) := by
  induction l generalizing c with
  | nil => simp [numbered]
  | cons e l ih =>
    simp only [List.map_cons, List.nodup_cons] at hd
    have hne : ∀ x ∈ l, x.2.key ≠ e.2.key := by
      intro x hx hc
      exact hd.1 (List.mem_map.2 ⟨x, hx, hc⟩)
    have hsg : ∀ x ∈ l, x.2.key ≠ safeguardKey e.2.key := by
      intro x hx
      exact hg x (List.mem_cons_of_mem _ hx) _
    have hst : ∀ x ∈ l, (wakeOne c e).s.r.stateOf x.2.key = some .scheduled := by
      intro x hx
      have := hs x (List.mem_cons_of_mem _ hx)
      simpa only [Redis.stateOf, wakeOne_runs_other c e (hne x hx) (hsg x hx)] using this
    obtain ⟨ih1, ih2⟩ := ih (wakeOne c e) hst hd.2 (fun x hx => hg x (List.mem_cons_of_mem _ hx))
    have hmap : l.map (fun x => reviveMsg (wakeOne c e).s.r x.2) =
        l.map (fun x => reviveMsg c.s.r x.2) := by
      apply List.map_congr_left
      intro x hx
      simp only [reviveMsg, wakeOne_nextGen c e (hne x hx) (hsg x hx)]
    have he := hs e List.mem_cons_self
    have hstr : (wakeOne c e).s.r.stream = c.s.r.stream ++ [(c.s.r.nextId, reviveMsg c.s.r e.2)] := by
      rw [wakeOne_woken c e he]; rfl
    have hid : (wakeOne c e).s.r.nextId = c.s.r.nextId + 1 := by
      rw [wakeOne_woken c e he]
    refine ⟨?_, ?_⟩
    · rw [List.foldl_cons, ih1, hmap, hstr, hid]
      simp [numbered]
    · intro i hi
      cases i with
      | zero =>
        simp only [List.getElem_cons_zero, List.foldl_cons]
        -- later turns do not touch this record
        have key : ∀ (l : List (MsgId × Msg)) (c : CSys), (∀ x ∈ l, x.2.key ≠ e.2.key) →
            (l.foldl wakeOne c).s.r.runs e.2.key = c.s.r.runs e.2.key := by
          intro l
          induction l with
          | nil => intro c _; rfl
          | cons y l ih =>
            intro c hl
            rw [List.foldl_cons, ih _ (fun x hx => hl x (List.mem_cons_of_mem _ hx)),
              wakeOne_runs_other c y (Ne.symm (hl y List.mem_cons_self)) (hg e List.mem_cons_self _)]
        rw [key l _ hne, wakeOne_woken c e he]
        show upd _ _ _ _ = _
        rw [upd_other _ _ _ _ (Ne.symm (safeguardKey_ne _)), upd_same]
        simp [wokenRun]
      | succ i =>
        simp only [List.getElem_cons_succ, List.foldl_cons]
        have hi' : i < l.length := by simpa using hi
        rw [ih2 i hi', hid]
        have hx := List.getElem_mem hi'
        simp only [wokenRun, Redis.run, Redis.nextGen,
          wakeOne_runs_other c e (hne _ hx) (hsg _ hx)]
        rw [show c.s.r.nextId + 1 + i = c.s.r.nextId + (i + 1) by omega]

end Docket
