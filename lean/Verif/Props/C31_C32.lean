import Verif.Concurrency.Wait
/-
C31 Concurrency limits are never exceeded.
C32 A task waiting for a concurrency slot is never lost and waiters are served in order.

Also the consequences of the limit for C01, C05, C07 and C15.
-/
namespace Docket
open Redis

/-! ### C31 -/

theorem nodup_subset_length {α : Type} [DecidableEq α] {a b : List α} (hn : a.Nodup)
    (hs : ∀ x ∈ a, x ∈ b) : a.length ≤ b.length := by
  induction a generalizing b with
  | nil => simp
  | cons x a ih =>
    rw [List.nodup_cons] at hn
    have hx := hs x List.mem_cons_self
    have h1 : ∀ y ∈ a, y ∈ b.erase x := by
      intro y hy
      have hne : y ≠ x := fun h => hn.1 (h ▸ hy)
      exact (List.mem_erase_of_ne hne).2 (hs y (List.mem_cons_of_mem _ hy))
    have h2 := ih hn.2 h1
    rw [List.length_erase_of_mem hx] at h2
    have : 0 < b.length := List.length_pos_of_mem hx
    simp only [List.length_cons]
    omega

theorem slotsOK_run (cfg : CCfg) (ops : List COp)
    (h : ∀ pre, pre <+: ops → (crun cfg pre).timely cfg) : SlotsOK cfg (crun cfg ops) := by
  have key : ∀ pre suf, ops = pre ++ suf → SlotsOK cfg (crun cfg pre) → SlotsOK cfg (crun cfg ops) := by
    intro pre suf
    induction suf generalizing pre with
    | nil => intro h1 h2; rw [h1, List.append_nil]; exact h2
    | cons o suf ih =>
      intro h1 h2
      refine ih (pre ++ [o]) (by simp [h1]) ?_
      have h3 : crun cfg (pre ++ [o]) = cstep cfg (crun cfg pre) o := by
        rw [crun_append]; rfl
      rw [h3]
      refine h2.step (CSys.wf_run cfg pre) (h pre ⟨o :: suf, h1.symm⟩) o ?_
      rw [← h3]
      exact h (pre ++ [o]) ⟨suf, by simp [h1]⟩
  exact key [] ops rfl (SlotsOK.init cfg)

/-- C31.  The executions in their body under a concurrency limit never outnumber its
maximum, in every history (acquisitions, renewals, releases, wake-ups, crashes, expiry,
and everything else a docket does) in which every living holder renews its slot less than
a redelivery timeout after the last time.  Without that proviso the claim is false:
`C31_violated`. -/
theorem C31_within_limit_partial (cfg : CCfg) (ops : List COp)
    (h : ∀ pre, pre <+: ops → (crun cfg pre).timely cfg) :
    (crun cfg ops).holders.length ≤ cfg.max := by
  have hs := slotsOK_run cfg ops h
  have h1 : ((crun cfg ops).holders.map (·.key)).length ≤ ((crun cfg ops).slots.map (·.1)).length := by
    apply nodup_subset_length hs.distinct
    intro k hk
    obtain ⟨x, hx, rfl⟩ := List.mem_map.1 hk
    exact List.mem_map.2 ⟨(x.key, x.last), hs.held x hx, rfl⟩
  simp only [List.length_map] at h1
  exact Nat.le_trans h1 hs.bound

/-- C31, the slots themselves: under the same proviso Redis never records more slots than
the maximum, and no two holders share a task key. -/
theorem C31_slots_partial (cfg : CCfg) (ops : List COp)
    (h : ∀ pre, pre <+: ops → (crun cfg pre).timely cfg) :
    (crun cfg ops).slots.length ≤ cfg.max ∧
    ((crun cfg ops).holders.map (·.key)).Nodup :=
  ⟨(slotsOK_run cfg ops h).bound, (slotsOK_run cfg ops h).distinct⟩

private abbrev rq : Request := ⟨"f", "", "", 0, 1⟩

/-- Three tasks, room for two; one worker dies, its slot goes stale and is taken over. -/
private def busy : List COp :=
  [.core (.add "a" rq 0), .core (.add "b" rq 0), .core (.add "c" rq 0), .core (.poll "w" 1),
   .core (.poll "v" 2), .core (.claim 0), .core (.claim 1), .core (.claim 2), .acquire 0 0,
   .acquire 1 0, .core (.tick 60), .renewSlot 1 60, .core (.crash "w"), .core (.tick 60),
   .acquire 2 120]

/-- The proviso holds all along that history, the limit is reached, and an eviction happens. -/
example : (∀ n ≤ busy.length, (crun ⟨⟨0, 100⟩, 2⟩ (busy.take n)).holders.all
      (fun h => (crun ⟨⟨0, 100⟩, 2⟩ (busy.take n)).s.r.now < h.last + 100) = true) ∧
    (crun ⟨⟨0, 100⟩, 2⟩ busy).holders.map (·.key) = ["c", "b"] ∧
    (crun ⟨⟨0, 100⟩, 2⟩ busy).slots.map (·.1) = ["b", "c"] := by decide +kernel

/-- C31 as stated, without a proviso. -/
def C31_statement : Prop :=
  ∀ (cfg : CCfg) (ops : List COp), (crun cfg ops).holders.length ≤ cfg.max

/-- A worker that stalls for a redelivery timeout keeps running its task while another
task takes its slot: two bodies under a limit of one. -/
theorem C31_violated : ¬ C31_statement := by
  intro h
  have := h ⟨⟨0, 100⟩, 1⟩ [.core (.add "a" rq 0), .core (.add "b" rq 0), .core (.poll "w" 2),
    .core (.claim 0), .core (.claim 1), .acquire 0 0, .core (.tick 100), .acquire 1 100]
  revert this
  decide +kernel

/-- When the stalled worker wakes up it renews a slot that is no longer its own, and Redis
then records more slots than the maximum. -/
theorem C31_violated_renewal : ¬ ∀ (cfg : CCfg) (ops : List COp),
    (crun cfg ops).slots.length ≤ cfg.max := by
  intro h
  have := h ⟨⟨0, 100⟩, 1⟩ [.core (.add "a" rq 0), .core (.add "b" rq 0), .core (.poll "w" 2),
    .core (.claim 0), .core (.claim 1), .acquire 0 0, .core (.tick 100), .acquire 1 100,
    .renewSlot 0 100]
  revert this
  decide +kernel

/-! ### C32: being put on the wait list -/

/-- There is no slot for this execution: its key already has a slot it may not take over,
or all slots are taken and none is stale. -/
def NoSlot (cfg : CCfg) (c : CSys) (p : Proc) (t : Time) : Prop :=
  (∃ e ∈ c.slots, e.1 = p.msg.key ∧ ¬ (p.redelivered = true ∧ e.2 + cfg.redelivery ≤ t)) ∨
  ((∀ e ∈ c.slots, e.1 ≠ p.msg.key ∧ t < e.2 + cfg.redelivery) ∧ cfg.max ≤ c.slots.length)

/-- C32, parking.  In every reachable state where slot keys are distinct (they are while
holders renew in time, `C31_slots_partial`; here it is only used to identify "its" slot),
an execution that finds no slot leaves the work stream and the worker, and joins the end
of the wait list with its key and payload and a newer generation; its record says
scheduled. -/
theorem C32_no_slot_waits (cfg : CCfg) (ops : List COp) (pid : Nat) (p : Proc) (t : Time)
    (hp : (crun cfg ops).s.proc? pid = some p) (hrun : p.phase = .running)
    (ht : t ≤ (crun cfg ops).s.r.now) (hnot : ∀ h ∈ (crun cfg ops).holding, h.pid ≠ pid)
    (hd : ((crun cfg ops).slots.map (·.1)).Nodup)
    (hno : NoSlot cfg (crun cfg ops) p t) :
    let c := crun cfg ops
    let c' := cstep cfg c (.acquire pid t)
    c'.waiters = c.waiters ++ [(c.nextW, ⟨p.msg.key, p.msg.req, (c.s.r.genOf p.msg.key).getD 0 + 1⟩)] ∧
    (∀ e ∈ c'.s.r.stream, e.1 ≠ p.id) ∧ (∀ x ∈ c'.s.r.pending, x.id ≠ p.id) ∧
    c'.s.proc? pid = none ∧ c'.s.r.stateOf p.msg.key = some .scheduled ∧
    c'.s.r.genOf p.msg.key = some ((c.s.r.genOf p.msg.key).getD 0 + 1) ∧
    c'.slots = c.slots ∧ c'.holding = c.holding := by
  intro c c'
  have hout : luaAcquire cfg c p t = (luaPark c p, false) := by
    rcases acquire_eff cfg c p t with ⟨e, hem, hek, h1, h2, _⟩ | ⟨h1, h2, _⟩ | ⟨h1, h2, e, hem, h3, _⟩ | h1
    · exfalso
      rcases hno with ⟨e', he', hk', hc⟩ | ⟨hc, _⟩
      · have := slot_unique hd hem he' (hek.trans hk'.symm)
        subst this
        exact hc ⟨h1, by simpa [stale] using h2⟩
      · exact (hc e hem).1 hek
    · exfalso
      rcases hno with ⟨e', he', hk', hc⟩ | ⟨_, hc⟩
      · exact h1 e' he' hk'
      · exact absurd (show c.slots.length < cfg.max from h2) (Nat.not_lt.2 hc)
    · exfalso
      rcases hno with ⟨e', he', hk', hc⟩ | ⟨hc, _⟩
      · exact h1 e' he' hk'
      · have := (hc e hem).2
        simp only [stale, decide_eq_true_eq] at h3
        omega
    · exact h1
  have hc' : c' = { luaPark c p with s := (luaPark c p).s.dropProc pid } := by
    have hall : c.holding.all (fun h => h.pid ≠ pid) = true := by simpa using hnot
    show cstep cfg c (.acquire pid t) = _
    simp only [cstep]
    rw [show c.s.proc? pid = some p from hp]
    simp only
    rw [if_pos ⟨hrun, ht, hall⟩, hout]
    rfl
  rw [hc', luaPark_eq]
  refine ⟨?_, ?_, ?_, ?_, ?_, ?_, rfl, rfl⟩
  · simp [nextGen_eq]
  · intro e he
    simpa using (List.mem_filter.1 he).2
  · intro e he
    simpa using (List.mem_filter.1 he).2
  · simp [Sys.proc?, Sys.dropProc, List.find?_eq_none]
  · simp [Redis.stateOf, Sys.dropProc, waitingRun]
  · simp [Redis.genOf, Sys.dropProc, waitingRun, nextGen_eq]

/-- Room for one: the second task finds no slot. -/
example : let c := crun ⟨⟨0, 100⟩, 1⟩ [.core (.add "a" rq 0), .core (.add "b" rq 0),
      .core (.poll "w" 2), .core (.claim 0), .core (.claim 1), .acquire 0 0]
    c.slots = [("a", 0)] ∧ (c.s.proc? 1).map (·.msg.key) = some "b" ∧
    (cstep ⟨⟨0, 100⟩, 1⟩ c (.acquire 1 0)).waiters.map (·.2.key) = ["b"] := by decide +kernel

/-! ### C32: being woken -/

/-- The slots left once a releasing key and the stale ones are gone. -/
def slotsAfter (cfg : CCfg) (c : CSys) (released : Option Key) (t : Time) : List (Key × Time) :=
  c.slots.filter (fun e => some e.1 ≠ released ∧ t < e.2 + cfg.redelivery)

/-- How many waiters a release or a scavenge may wake. -/
def freeSlots (cfg : CCfg) (c : CSys) (released : Option Key) (t : Time) : Nat :=
  cfg.max - (slotsAfter cfg c released t).length

theorem release_form (cfg : CCfg) (c : CSys) (k : Key) (t : Time) (hw : c.waiters ≠ []) :
    ∃ c1 : CSys, luaRelease cfg c k t = wake cfg c1 ∧ c1.s = c.s ∧ c1.waiters = c.waiters ∧
      c1.nextW = c.nextW ∧ c1.cleanups = c.cleanups ∧ c1.slots = slotsAfter cfg c (some k) t := by
  refine ⟨evict cfg (c.free k) t, ?_, rfl, rfl, rfl, rfl, ?_⟩
  · simp only [luaRelease]
    rw [if_pos (by show c.waiters.length > 0; exact List.length_pos_iff.2 hw)]
  · simp only [evict, CSys.free, slotsAfter, List.filter_filter]
    apply List.filter_congr
    intro e _
    by_cases h1 : e.1 = k <;> by_cases h2 : e.2 + cfg.redelivery ≤ t <;> simp [stale, h1, h2] <;> omega

theorem scavenge_form (cfg : CCfg) (c : CSys) (t : Time) (hw : c.waiters ≠ []) :
    ∃ c1 : CSys, luaScavenge cfg c t = wake cfg c1 ∧ c1.s = c.s ∧ c1.waiters = c.waiters ∧
      c1.nextW = c.nextW ∧ c1.cleanups = c.cleanups ∧ c1.slots = slotsAfter cfg c none t := by
  refine ⟨evict cfg c t, ?_, rfl, rfl, rfl, rfl, ?_⟩
  · simp only [luaScavenge]
    rw [if_neg]
    intro h
    exact hw (List.length_eq_zero_iff.1 h)
  · simp only [evict, slotsAfter]
    apply List.filter_congr
    intro e _
    by_cases h2 : e.2 + cfg.redelivery ≤ t <;> simp [stale, h2] <;> omega

/-- A step that hands free slots to waiters: the release by a living holder of key `k`, or
a scavenge; `released` is the key whose slot is given up. -/
inductive Wakes (c : CSys) : COp → Option Key → Time → Prop
  | release (pid : Nat) (t : Time) (h : Holder) (hm : c.holders.find? (fun h => h.pid = pid) = some h)
      (ht : t ≤ c.s.r.now) : Wakes c (.release pid t) (some h.key) t
  | scavenge (t : Time) (ht : t ≤ c.s.r.now) : Wakes c (.scavenge t) none t

theorem Wakes.form {cfg : CCfg} {c : CSys} {op : COp} {rel : Option Key} {t : Time}
    (h : Wakes c op rel t) (hw : c.waiters ≠ []) :
    ∃ c1 : CSys, (cstep cfg c op).s = (wake cfg c1).s ∧ (cstep cfg c op).waiters = (wake cfg c1).waiters ∧
      (cstep cfg c op).slots = (wake cfg c1).slots ∧
      (cstep cfg c op).signals = (wake cfg c1).signals ∧
      (cstep cfg c op).cleanups = (wake cfg c1).cleanups ∧ c1.s = c.s ∧ c1.waiters = c.waiters ∧
      c1.nextW = c.nextW ∧ c1.cleanups = c.cleanups ∧ c1.slots = slotsAfter cfg c rel t := by
  cases h with
  | release pid t h hm ht =>
    obtain ⟨c1, h1, h2⟩ := release_form cfg c h.key t hw
    refine ⟨c1, ?_, ?_, ?_, ?_, ?_, h2⟩ <;>
    · simp only [cstep, hm, if_pos ht]
      rw [h1]
  | scavenge t ht =>
    obtain ⟨c1, h1, h2⟩ := scavenge_form cfg c t hw
    refine ⟨c1, ?_, ?_, ?_, ?_, ?_, h2⟩ <;>
    · simp only [cstep, if_pos ht]
      rw [h1]

/-- C32, order and number.  In every reachable state with waiters, a release or scavenge
takes waiters off the front of the list, exactly as many as there are free slots (or all
of them). -/
theorem C32_longest_waiting_first (cfg : CCfg) (ops : List COp) (op : COp) (rel : Option Key)
    (t : Time) (h : Wakes (crun cfg ops) op rel t) (hw : (crun cfg ops).waiters ≠ []) :
    (cstep cfg (crun cfg ops) op).waiters =
      (crun cfg ops).waiters.drop (freeSlots cfg (crun cfg ops) rel t) := by
  obtain ⟨c1, _, h2, _, _, _, h3, h4, h5, h6, h7⟩ := h.form (cfg := cfg) hw
  rw [h2, wake_waiters cfg ((WaitOK.run cfg ops).slots h3 h4 h5 h6), h4, h7]
  rfl

/-- C32, waking.  If the waiters at the front, as many as there are free slots, are all
still scheduled and their task keys are distinct and not backstop keys, then each goes
back to the work stream, in order, with its key and payload and the next generation of
its key, and its record says queued and points to that message.  (Cancelled waiters in
front are dropped and use up their turn: `C32_violated_cancelled_in_front`.) -/
theorem C32_woken_partial (cfg : CCfg) (ops : List COp) (op : COp) (rel : Option Key) (t : Time)
    (h : Wakes (crun cfg ops) op rel t) (hw : (crun cfg ops).waiters ≠ []) :
    let c := crun cfg ops
    let c' := cstep cfg c op
    let front := c.waiters.take (freeSlots cfg c rel t)
    (∀ e ∈ front, c.s.r.stateOf e.2.key = some .scheduled) → (front.map (·.2.key)).Nodup →
    (∀ e ∈ front, ∀ k', e.2.key ≠ safeguardKey k') →
    c'.s.r.stream.map (·.2) = c.s.r.stream.map (·.2) ++
      front.map (fun e => ⟨e.2.key, e.2.req, (c.s.r.genOf e.2.key).getD 0 + 1⟩) ∧
    ∀ e ∈ front, c'.s.r.stateOf e.2.key = some .queued ∧
      c'.s.r.genOf e.2.key = some ((c.s.r.genOf e.2.key).getD 0 + 1) ∧
      ∃ id, c'.s.r.streamIdOf e.2.key = some id ∧
        (id, ⟨e.2.key, e.2.req, (c.s.r.genOf e.2.key).getD 0 + 1⟩) ∈ c'.s.r.stream := by
  intro c c' front hs hd hg
  obtain ⟨c1, h1, h2, _, _, _, h3, h4, h5, h6, h7⟩ := h.form (cfg := cfg) hw
  have hfront : c1.waiters.take (cfg.max - c1.slots.length) = front := by
    rw [h4, h7]; rfl
  have hc' : c'.s = (front.foldl wakeOne c1).s := by
    rw [← hfront]; exact h1
  have hs1 : ∀ e ∈ front, c1.s.r.stateOf e.2.key = some .scheduled := by rw [h3]; exact hs
  obtain ⟨w1, w2⟩ := wakeAll_woken front c1 hs1 hd hg
  have hmsg : ∀ e ∈ front, reviveMsg c1.s.r e.2 =
      ⟨e.2.key, e.2.req, (c.s.r.genOf e.2.key).getD 0 + 1⟩ := by
    intro e _
    simp only [reviveMsg, nextGen_eq, h3]
    rfl
  refine ⟨?_, ?_⟩
  · rw [hc', w1, List.map_append, h3]
    congr 1
    have : ∀ (ms : List Msg) i, (numbered i ms).map (·.2) = ms := by
      intro ms
      induction ms with
      | nil => intro i; rfl
      | cons m ms ih => intro i; simp [numbered, ih]
    rw [this]
    exact List.map_congr_left (fun e he => by rw [← hmsg e he, h3])
  · intro e he
    obtain ⟨i, hi, rfl⟩ := List.getElem_of_mem he
    have hr := w2 i hi
    rw [← hc'] at hr
    refine ⟨?_, ?_, c1.s.r.nextId + i, ?_, ?_⟩
    · simp [Redis.stateOf, hr, wokenRun]
    · simp [Redis.genOf, hr, wokenRun, nextGen_eq, h3, c]
    · simp [Redis.streamIdOf, hr]
    · rw [← hmsg _ he, hc', w1]
      apply List.mem_append_right
      have : ∀ (ms : List Msg) j i (hi : i < ms.length), (j + i, ms[i]) ∈ numbered j ms := by
        intro ms
        induction ms with
        | nil => intro j i hi; simp at hi
        | cons m ms ih =>
          intro j i hi
          cases i with
          | zero => simp [numbered]
          | succ i =>
            have := ih (j + 1) i (by simpa using hi)
            simp only [numbered, List.getElem_cons_succ]
            apply List.mem_cons_of_mem
            rw [show j + (i + 1) = j + 1 + i by omega]
            exact this
      have := this (front.map (fun e => reviveMsg c1.s.r e.2)) c1.s.r.nextId i (by simpa using hi)
      simpa using this

/-- Two waiters, one slot released: the first one goes back to the stream. -/
example : let c := crun ⟨⟨0, 100⟩, 1⟩ [.core (.add "a" rq 0), .core (.add "b" rq 0),
      .core (.add "c" rq 0), .core (.poll "w" 3), .core (.claim 0), .core (.claim 1),
      .core (.claim 2), .acquire 0 0, .acquire 1 0, .acquire 2 0]
    c.holders.find? (fun h => h.pid = 0) = some ⟨0, "a", 0⟩ ∧ c.waiters.map (·.2.key) = ["b", "c"] ∧
    freeSlots ⟨⟨0, 100⟩, 1⟩ c (some "a") 0 = 1 ∧
    (cstep ⟨⟨0, 100⟩, 1⟩ c (.release 0 0)).waiters.map (·.2.key) = ["c"] ∧
    (cstep ⟨⟨0, 100⟩, 1⟩ c (.release 0 0)).s.r.stream.map (fun e => (e.2.key, e.2.gen)) =
      [("a", 1), ("b", 3)] := by decide +kernel

/-! ### C32: not being lost -/

/-- The task `m` waits under the entry `w`: it is the only entry of its key, its record
says scheduled, names that entry and has no expiry, nothing else is scheduled for the key, nobody cancelled
it, and it is not itself a backstop task. -/
structure Waits (c : CSys) (w : MsgId) (m : Msg) : Prop where
  entry : (w, m) ∈ c.waiters
  only : ∀ e ∈ c.waiters, e.2.key = m.key → e = (w, m)
  record : ∃ h, c.s.r.runs m.key = some h ∧ h.state = some .scheduled ∧ h.expireAt = none ∧
    h.waiter = some w
  notQueued : ∀ e ∈ c.s.r.queue, e.1 ≠ m.key
  notCancelled : m.key ∉ c.signals
  noCleanup : ∀ w', (m.key, w') ∉ c.cleanups
  ordinary : ∀ k', m.key ≠ safeguardKey k'

/-- Steps that are not about the key `k`: no call of a client or an execution that names
it, and no clear().  Steps of other tasks, of workers, of the clock, releases and
scavenges are all allowed. -/
def NotAbout (c : CSys) (k : Key) : COp → Prop
  | .core op => keyOf c.s op ≠ some k ∧ op ≠ .clear ∧ op ≠ .clearWrite
  | .acquire pid _ => (c.s.proc? pid).map (·.msg.key) ≠ some k
  | _ => True

/-- `m` went from the wait list back to the work stream, with a newer generation. -/
def WokenUp (c c' : CSys) (w : MsgId) (m : Msg) : Prop :=
  (∀ e ∈ c'.waiters, e.1 ≠ w) ∧
  ∃ id, (id, ⟨m.key, m.req, (c.s.r.genOf m.key).getD 0 + 1⟩) ∈ c'.s.r.stream ∧
    c'.s.r.genOf m.key = some ((c.s.r.genOf m.key).getD 0 + 1) ∧
    c'.s.r.stateOf m.key = some .queued ∧ c'.s.r.streamIdOf m.key = some id

theorem core_not_about {cfg : Cfg} {s : Sys} (hw : WF s) {op : Op} {k : Key}
    (hk : keyOf s op ≠ some k) (hc : op ≠ .clear) (hc' : op ≠ .clearWrite) {h : Run}
    (hr : s.r.runs k = some h) (he : h.expireAt = none) (hq : ∀ e ∈ s.r.queue, e.1 ≠ k) :
    (step cfg s op).r.runs k = some h ∧ ∀ e ∈ (step cfg s op).r.queue, e.1 ≠ k := by
  rcases Option.eq_none_or_eq_some (keyOf s op) with hn | ⟨k1, hn⟩
  · have heff := step_eff cfg s hw.queue op
    have hpid : ∀ {p : Proc}, p ∈ s.procs → (s.proc? p.pid).map (·.msg.key) = none → False := by
      intro p hp h1; rw [proc?_of_mem hw hp] at h1; simp at h1
    generalize Docket.step cfg s op = s' at heff
    cases heff with
    | nop => exact ⟨hr, hq⟩
    | tick d => exact ⟨by simp [advance, hr, Option.filter, he], hq⟩
    | schedule t ht =>
      have hnd : k ∉ dueKeys s.r t := by
        intro hm
        simp only [dueKeys, List.mem_map, List.mem_filter] at hm
        obtain ⟨e, he1, he2⟩ := hm
        exact hq e he1.1 he2
      refine ⟨?_, ?_⟩
      · simp only [if_neg hnd]; exact hr
      · intro e he1
        exact hq e (List.mem_filter.1 he1).1
    | clear op j js hop =>
      rcases hop with ⟨rfl, _⟩ | ⟨rfl, _⟩
      · exact absurd rfl hc
      · exact absurd rfl hc'
    | clearRead => exact ⟨hr, hq⟩
    | poll => exact ⟨hr, hq⟩
    | redeliver => exact ⟨hr, hq⟩
    | forget => exact ⟨hr, hq⟩
    | renew => exact ⟨hr, hq⟩
    | crash => exact ⟨hr, hq⟩
    | abandon => exact ⟨hr, hq⟩
    | strikeOut p hp => exact (hpid hp hn).elim
    | claimSuperseded p hp => exact (hpid hp hn).elim
    | claim p hp => exact (hpid hp hn).elim
    | store p data hp => exact (hpid hp hn).elim
    | finish p st e w hp => exact (hpid hp hn).elim
    | finishSuperseded p st e w hp => exact (hpid hp hn).elim
    | rescheduleNow p t a d q hp => exact (hpid hp hn).elim
    | rescheduleLater p t a d q hp => exact (hpid hp hn).elim
    | prog op k1 f hop =>
      rcases hop with ⟨n, rfl, _⟩ | ⟨n, rfl, _⟩ | ⟨n, rfl, _⟩ <;> simp [keyOf] at hn
    | _ => simp [keyOf] at hn
  · have hne : k ≠ k1 := by
      intro h1; subst h1; exact hk hn
    have hv := view_frame cfg hw op hn hne
    have h1 : (step cfg s op).r.runs k = s.r.runs k := congrArg View.record hv
    have h2 : (step cfg s op).r.queue.filter (fun e => e.1 = k) = s.r.queue.filter (fun e => e.1 = k) :=
      congrArg View.scheduled hv
    refine ⟨h1.trans hr, ?_⟩
    intro e he1 hek
    have h3 : e ∈ s.r.queue.filter (fun e => e.1 = k) := by
      rw [← h2]
      exact List.mem_filter.2 ⟨he1, by simp [hek]⟩
    exact hq e (List.mem_filter.1 h3).1 hek

theorem wakeAll_stream_sub (l : List (MsgId × Msg)) (c : CSys) :
    ∀ e ∈ c.s.r.stream, e ∈ (l.foldl wakeOne c).s.r.stream := by
  induction l generalizing c with
  | nil => intro e he; exact he
  | cons x l ih =>
    intro e he
    rw [List.foldl_cons]
    apply ih
    by_cases h : c.s.r.stateOf x.2.key = some .scheduled
    · rw [wakeOne_woken c x h]; exact List.mem_append_left _ he
    · rw [wakeOne_dropped c x h]; exact he

theorem wakeAll_queue_sub (l : List (MsgId × Msg)) (c : CSys) :
    ∀ e ∈ (l.foldl wakeOne c).s.r.queue, e ∈ c.s.r.queue := by
  induction l generalizing c with
  | nil => intro e he; exact he
  | cons x l ih =>
    intro e he
    rw [List.foldl_cons] at he
    have := ih _ e he
    by_cases h : c.s.r.stateOf x.2.key = some .scheduled
    · rw [wakeOne_woken c x h] at this; exact (List.mem_filter.1 this).1
    · rw [wakeOne_dropped c x h] at this; exact (List.mem_filter.1 this).1

theorem wakeAll_other (l : List (MsgId × Msg)) (c : CSys) {k : Key} (h1 : ∀ e ∈ l, e.2.key ≠ k)
    (h2 : ∀ k', k ≠ safeguardKey k') : (l.foldl wakeOne c).s.r.runs k = c.s.r.runs k := by
  induction l generalizing c with
  | nil => rfl
  | cons x l ih =>
    rw [List.foldl_cons, ih _ (fun e he => h1 e (List.mem_cons_of_mem _ he)),
      wakeOne_runs_other c x (Ne.symm (h1 x List.mem_cons_self)) (h2 _)]

theorem wakeAll_entry (l : List (MsgId × Msg)) (c : CSys) {w : MsgId} {m : Msg}
    (hm : (w, m) ∈ l) (honly : ∀ e ∈ l, e.2.key = m.key → e = (w, m))
    (hs : c.s.r.stateOf m.key = some .scheduled) (hd : l.Nodup) (hg : ∀ k', m.key ≠ safeguardKey k') :
    ∃ id, (id, reviveMsg c.s.r m) ∈ (l.foldl wakeOne c).s.r.stream ∧
      (l.foldl wakeOne c).s.r.runs m.key = some { wokenRun c.s.r m.key with streamId := some id } := by
  obtain ⟨l1, l2, rfl⟩ := List.append_of_mem hm
  have hne : ∀ e ∈ l1 ++ l2, e.2.key ≠ m.key := by
    intro e he hc
    have hmem : e ∈ l1 ++ (w, m) :: l2 := by
      simp only [List.mem_append, List.mem_cons] at he ⊢
      rcases he with h | h
      · exact Or.inl h
      · exact Or.inr (Or.inr h)
    have := honly e hmem hc
    subst this
    rw [List.nodup_append] at hd
    simp only [List.mem_append] at he
    rcases he with h | h
    · exact hd.2.2 _ h _ List.mem_cons_self rfl
    · exact (List.nodup_cons.1 hd.2.1).1 h
  have h1 := wakeAll_other l1 c (fun e he => hne e (List.mem_append_left _ he)) hg
  have hst : (l1.foldl wakeOne c).s.r.stateOf m.key = some .scheduled := by
    simpa only [Redis.stateOf, h1] using hs
  have hgen : (l1.foldl wakeOne c).s.r.nextGen m.key = c.s.r.nextGen m.key := by
    simp only [Redis.nextGen, Redis.run, h1]
  rw [List.foldl_append, List.foldl_cons]
  refine ⟨(l1.foldl wakeOne c).s.r.nextId, ?_, ?_⟩
  · apply wakeAll_stream_sub
    rw [wakeOne_woken _ _ hst]
    apply List.mem_append_right
    simp only [reviveMsg, hgen, List.mem_singleton]
  · rw [wakeAll_other l2 _ (fun e he => hne e (List.mem_append_right _ he)) hg, wakeOne_woken _ _ hst]
    show upd _ _ _ _ = _
    rw [upd_other _ _ _ _ (hg _), upd_same]
    simp only [wokenRun, Redis.run, hgen, h1]

theorem Waits.wakes {cfg : CCfg} {c : CSys} {w : MsgId} {m : Msg} (hwait : WaitOK c)
    (h : Waits c w m) {op : COp} {rel : Option Key} {t : Time} (hop : Wakes c op rel t) :
    Waits (cstep cfg c op) w m ∨ WokenUp c (cstep cfg c op) w m := by
  obtain ⟨c1, h1, h2, _, hsig, hcl, h3, h4, h5, h6, h7⟩ :=
    hop.form (cfg := cfg) (List.ne_nil_of_mem h.entry)
  have hw1 : WaitOK c1 := hwait.slots h3 h4 h5 h6
  have hwt := wake_waiters cfg hw1
  have hsame := wake_same cfg c1
  have hst : c1.s.r.stateOf m.key = some .scheduled := by
    obtain ⟨v, hv1, hv2, _⟩ := h.record
    simp [Redis.stateOf, h3, hv1, hv2]
  have hnodup : c1.waiters.Nodup := by
    rw [List.nodup_iff_pairwise_ne]
    exact hw1.sorted.imp (fun h hc => by subst hc; omega)
  by_cases hin : (w, m) ∈ c1.waiters.take (cfg.max - c1.slots.length)
  · right
    obtain ⟨id, e1, e2⟩ := wakeAll_entry _ c1 hin
      (fun e he => h.only e (by rw [← h4]; exact List.mem_of_mem_take he)) hst
      (List.Sublist.nodup (List.take_sublist _ _) hnodup) h.ordinary
    have e1' : (id, reviveMsg c1.s.r m) ∈ (wake cfg c1).s.r.stream := e1
    have e2' : (wake cfg c1).s.r.runs m.key = some { wokenRun c1.s.r m.key with streamId := some id } := e2
    refine ⟨?_, id, ?_, ?_, ?_, ?_⟩
    · rw [h2, hwt]
      intro e he heq
      have hs := hw1.sorted
      rw [← List.take_append_drop (cfg.max - c1.slots.length) c1.waiters, List.pairwise_append] at hs
      have := hs.2.2 _ hin e he
      simp only at this
      omega
    · rw [h1]
      simpa only [reviveMsg, nextGen_eq, h3] using e1'
    · simp [h1, Redis.genOf, e2', wokenRun, nextGen_eq, h3]
    · simp [h1, Redis.stateOf, e2', wokenRun]
    · simp [h1, Redis.streamIdOf, e2']
  · left
    have hruns : (cstep cfg c op).s.r.runs m.key = c.s.r.runs m.key := by
      rw [h1, ← h3]
      refine wakeAll_other _ c1 ?_ h.ordinary
      intro e he hc
      have := h.only e (by rw [← h4]; exact List.mem_of_mem_take he) hc
      subst this
      exact hin he
    refine ⟨?_, ?_, ?_, ?_, ?_, ?_, h.ordinary⟩
    · rw [h2, hwt]
      have hmem : (w, m) ∈ c1.waiters := by rw [h4]; exact h.entry
      rw [← List.take_append_drop (cfg.max - c1.slots.length) c1.waiters, List.mem_append] at hmem
      exact hmem.resolve_left hin
    · intro e he
      rw [h2, hwt, h4] at he
      exact h.only e (List.mem_of_mem_drop he)
    · rw [hruns]; exact h.record
    · intro e he
      rw [h1] at he
      have := wakeAll_queue_sub _ c1 e he
      rw [h3] at this
      exact h.notQueued e this
    · have hs : (cstep cfg c op).signals = c.signals := by
        cases hop with
        | release pid t x hm ht =>
          simp only [cstep, hm, if_pos ht]
          simp only [luaRelease]
          split
          · exact (wake_same _ _).signals
          · exact (wake_same _ _).signals
        | scavenge t ht =>
          simp only [cstep, if_pos ht, luaScavenge]
          split
          · rfl
          · exact (wake_same _ _).signals
      rw [hs]; exact h.notCancelled
    · intro w' hc
      rw [hcl, hsame.cleanups, h6] at hc
      exact h.noCleanup w' hc

theorem Waits.step {cfg : CCfg} {c : CSys} {w : MsgId} {m : Msg} (hwf : WF c.s) (hwait : WaitOK c)
    (h : Waits c w m) (op : COp) (hop : NotAbout c m.key op) :
    Waits (cstep cfg c op) w m ∨ WokenUp c (cstep cfg c op) w m := by
  cases op with
  | core op =>
    left
    obtain ⟨h1, h2, h3, h4⟩ := expireSlots_waiters { c with
      s := Docket.step cfg.toCfg c.s op
      signals := signalled c.signals op }
    obtain ⟨v, hv1, hv2, hv3⟩ := h.record
    obtain ⟨hr, hq⟩ := core_not_about (cfg := cfg.toCfg) hwf hop.1 hop.2.1 hop.2.2 hv1 hv3.1 h.notQueued
    simp only [cstep]
    refine ⟨by rw [h1]; exact h.entry, by rw [h1]; exact h.only, ⟨v, ?_, hv2, hv3⟩, ?_, ?_, ?_, h.ordinary⟩
    · rw [expireSlots_s]; exact hr
    · rw [expireSlots_s]; exact hq
    · rw [h4]
      show m.key ∉ signalled c.signals op
      cases op with
      | cancel k =>
        simp only [signalled, List.mem_cons, not_or]
        refine ⟨?_, h.notCancelled⟩
        intro hc
        exact hop.1 (by simp [keyOf, hc])
      | _ => exact h.notCancelled
    · rw [h3]; exact h.noCleanup
  | acquire pid t =>
    left
    simp only [cstep]
    rcases Option.eq_none_or_eq_some (c.s.proc? pid) with hp | ⟨p, hp⟩
    · rw [hp]; exact h
    rw [hp]
    simp only [NotAbout, hp, Option.map_some, ne_eq, Option.some.injEq] at hop
    simp only
    split
    · rcases acquire_eff cfg c p t with ⟨e, _, _, _, _, h1⟩ | ⟨_, _, h1⟩ | ⟨_, _, e, _, _, h1⟩ | h1
      · rw [h1]; exact ⟨h.1, h.2, h.3, h.4, h.5, h.6, h.7⟩
      · rw [h1]; exact ⟨h.1, h.2, h.3, h.4, h.5, h.6, h.7⟩
      · rw [h1]; exact ⟨h.1, h.2, h.3, h.4, h.5, h.6, h.7⟩
      · rw [h1, luaPark_eq]
        refine ⟨List.mem_append_left _ h.entry, ?_, ?_, h.notQueued, h.notCancelled, h.noCleanup, h.ordinary⟩
        · intro e he hk
          simp only [Bool.false_eq_true, if_false, List.mem_append, List.mem_singleton] at he
          rcases he with he | rfl
          · exact h.only e he hk
          · exact absurd hk hop
        · obtain ⟨v, hv1, hv2⟩ := h.record
          exact ⟨v, (upd_other _ _ _ _ (Ne.symm hop)).trans hv1, hv2⟩
    · exact h
  | renewSlot pid t =>
    left
    simp only [cstep]
    rcases Option.eq_none_or_eq_some (c.holders.find? (fun h => h.pid = pid)) with hp | ⟨x, hp⟩
    · rw [hp]; exact h
    rw [hp]
    simp only
    split
    · exact ⟨h.1, h.2, h.3, h.4, h.5, h.6, h.7⟩
    · exact h
  | release pid t =>
    rcases Option.eq_none_or_eq_some (c.holders.find? (fun h => h.pid = pid)) with hp | ⟨x, hp⟩
    · left; simp only [cstep]; rw [hp]; exact h
    by_cases ht : t ≤ c.s.r.now
    · exact h.wakes hwait (.release pid t x hp ht)
    · left; simp only [cstep]; rw [hp]; simp only [if_neg ht]; exact h
  | scavenge t =>
    by_cases ht : t ≤ c.s.r.now
    · exact h.wakes hwait (.scavenge t ht)
    · left; simp only [cstep, if_neg ht]; exact h
  | cleanupRead k =>
    left
    simp only [cstep]
    split
    · rename_i hk
      rcases Option.eq_none_or_eq_some ((c.s.r.runs k).bind (·.waiter)) with h1 | ⟨w', h1⟩
      · rw [h1]; exact h
      · rw [h1]
        refine ⟨h.1, h.2, h.3, h.4, h.5, ?_, h.7⟩
        intro w'' hc
        rcases List.mem_cons.1 hc with heq | hc
        · simp only [Prod.mk.injEq] at heq
          exact h.notCancelled (heq.1 ▸ hk)
        · exact h.noCleanup w'' hc
    · exact h
  | cleanupWrite k e =>
    left
    simp only [cstep]
    split
    · rename_i hk
      have hne : k ≠ m.key := by
        intro hc; subst hc; exact h.noCleanup e hk
      have hwne : w ≠ e := by
        intro hc
        have := (hwait.job k e hk).2 (w, m) h.entry hc
        exact hne this.symm
      refine ⟨?_, ?_, ?_, h.notQueued, h.notCancelled, h.noCleanup, h.ordinary⟩
      · exact List.mem_filter.2 ⟨h.entry, by simpa using hwne⟩
      · intro x hx
        exact h.only x (List.mem_filter.1 hx).1
      · obtain ⟨v, hv1, hv2⟩ := h.record
        exact ⟨v, (upd_other _ _ _ _ (Ne.symm hne)).trans hv1, hv2⟩
    · exact h

/-- C32, never lost.  A task that waits for a slot keeps waiting, whatever any number of
workers and other tasks do and however they crash, until a release or a scavenge puts it
back in the work stream with its payload and a newer generation.  The steps excluded are
those about the task itself (its cancellation, a new scheduling of its key) and clear().
Without these exclusions the claim is false: `C32_violated_late_cleanup`. -/
theorem C32_never_lost_partial (cfg : CCfg) (ops more : List COp) (w : MsgId) (m : Msg)
    (h : Waits (crun cfg ops) w m)
    (hop : ∀ pre op, pre ++ [op] <+: more → NotAbout (crun cfg (ops ++ pre)) m.key op) :
    Waits (crun cfg (ops ++ more)) w m ∨
    ∃ pre op, pre ++ [op] <+: more ∧ Waits (crun cfg (ops ++ pre)) w m ∧
      WokenUp (crun cfg (ops ++ pre)) (crun cfg (ops ++ (pre ++ [op]))) w m := by
  have key : ∀ pre suf, more = pre ++ suf → Waits (crun cfg (ops ++ pre)) w m →
      (Waits (crun cfg (ops ++ more)) w m ∨
        ∃ pre op, pre ++ [op] <+: more ∧ Waits (crun cfg (ops ++ pre)) w m ∧
          WokenUp (crun cfg (ops ++ pre)) (crun cfg (ops ++ (pre ++ [op]))) w m) := by
    intro pre suf
    induction suf generalizing pre with
    | nil => intro h1 h2; left; rw [h1, List.append_nil]; exact h2
    | cons o suf ih =>
      intro h1 h2
      have hpre : pre ++ [o] <+: more := ⟨suf, by simp [h1]⟩
      have hstep : crun cfg (ops ++ (pre ++ [o])) = cstep cfg (crun cfg (ops ++ pre)) o := by
        rw [← List.append_assoc, crun_append]; rfl
      rcases h2.step (cfg := cfg) (CSys.wf_run cfg _) (WaitOK.run cfg _) o (hop pre o hpre) with h3 | h3
      · exact ih (pre ++ [o]) (by simp [h1]) (hstep ▸ h3)
      · exact Or.inr ⟨pre, o, hpre, h2, hstep ▸ h3⟩
  exact key [] more rfl (by simpa using h)

/-- A waiting task of that kind, and a history not about it: the holder's worker crashes
and a scavenge finds the stale slot. -/
example : let ops : List COp := [.core (.add "a" rq 0), .core (.add "b" rq 0), .core (.poll "w" 2),
      .core (.claim 0), .core (.claim 1), .acquire 0 0, .acquire 1 0]
    let c := crun ⟨⟨0, 100⟩, 1⟩ ops
    c.waiters = [(1, ⟨"b", rq, 2⟩)] ∧ (c.s.r.runs "b").map (fun h => (h.state, h.expireAt)) =
      some (some .scheduled, none) ∧ c.s.r.queue = [] ∧ c.signals = [] ∧ c.cleanups = [] ∧
    (crunFrom ⟨⟨0, 100⟩, 1⟩ c [.core (.crash "w"), .core (.tick 100), .scavenge 100]).s.r.stream.map
      (fun e => (e.2.key, e.2.gen)) = [("a", 1), ("b", 3)] := by decide +kernel

/-- C32, the backstop.  When every slot is stale (all holders are dead) a scavenge wakes
the longest-waiting task, whoever else waits behind it. -/
theorem C32_backstop_wakes (cfg : CCfg) (ops : List COp) (t : Time) (w : MsgId) (m : Msg)
    (rest : List (MsgId × Msg)) (hmax : 0 < cfg.max) (ht : t ≤ (crun cfg ops).s.r.now)
    (hw : (crun cfg ops).waiters = (w, m) :: rest) (h : Waits (crun cfg ops) w m)
    (hstale : ∀ e ∈ (crun cfg ops).slots, e.2 + cfg.redelivery ≤ t) :
    WokenUp (crun cfg ops) (cstep cfg (crun cfg ops) (.scavenge t)) w m := by
  have hop : Wakes (crun cfg ops) (.scavenge t) none t := .scavenge t ht
  rcases h.wakes (cfg := cfg) (WaitOK.run cfg ops) hop with h1 | h1
  · exfalso
    have h2 := C32_longest_waiting_first cfg ops _ none t hop (by simp [hw])
    have h3 : freeSlots cfg (crun cfg ops) none t = cfg.max := by
      simp only [freeSlots, slotsAfter]
      rw [List.filter_eq_nil_iff.2]
      · simp
      · intro e he
        have := hstale e he
        simp; omega
    rw [h3, hw] at h2
    have h4 := h1.entry
    rw [h2] at h4
    obtain ⟨n, hn⟩ : ∃ n, cfg.max = n + 1 := ⟨cfg.max - 1, by omega⟩
    rw [hn, List.drop_succ_cons] at h4
    have h5 := (WaitOK.run cfg ops).sorted
    rw [hw, List.pairwise_cons] at h5
    have := h5.1 _ (List.mem_of_mem_drop h4)
    simp only at this
    omega
  · exact h1

/-! ### Taking a slot, giving it back, leaving the wait list -/

/-- There is a slot for this execution: its key has none and there is room or a stale slot
to take over, or its key has a stale one and this is the redelivery of its task. -/
def SlotFor (cfg : CCfg) (c : CSys) (p : Proc) (t : Time) : Prop :=
  ((∀ e ∈ c.slots, e.1 ≠ p.msg.key) ∧
    (c.slots.length < cfg.max ∨ ∃ e ∈ c.slots, e.2 + cfg.redelivery ≤ t)) ∨
  (p.redelivered = true ∧ ∃ e ∈ c.slots, e.1 = p.msg.key ∧ e.2 + cfg.redelivery ≤ t)

/-- C32, no needless waiting.  An execution for which there is a slot takes it and runs:
the slot is recorded in its name at the time of its clock, at most one stale slot goes,
and the wait list, the work stream and the records are left alone. -/
theorem C32_free_slot_is_taken (cfg : CCfg) (ops : List COp) (pid : Nat) (p : Proc) (t : Time)
    (hp : (crun cfg ops).s.proc? pid = some p) (hrun : p.phase = .running)
    (ht : t ≤ (crun cfg ops).s.r.now) (hnot : ∀ h ∈ (crun cfg ops).holding, h.pid ≠ pid)
    (hd : ((crun cfg ops).slots.map (·.1)).Nodup)
    (hslot : SlotFor cfg (crun cfg ops) p t) :
    let c := crun cfg ops
    let c' := cstep cfg c (.acquire pid t)
    ⟨pid, p.msg.key, t⟩ ∈ c'.holders ∧ (p.msg.key, t) ∈ c'.slots ∧
    (∀ e ∈ c.slots, t < e.2 + cfg.redelivery → e ∈ c'.slots) ∧
    (c.slots.length < cfg.max → ∀ e ∈ c.slots, e.1 ≠ p.msg.key → e ∈ c'.slots) ∧
    c'.waiters = c.waiters ∧ c'.s = c.s := by
  intro c c'
  have hall : c.holding.all (fun h => h.pid ≠ pid) = true := by simpa using hnot
  have hpm := find_pid hp
  have halive : c.alive pid = true := by
    simp only [CSys.alive, List.any_eq_true, decide_eq_true_eq]
    exact ⟨p, hpm.1, hpm.2⟩
  have hc' : c' = (let out := luaAcquire cfg c p t
      if out.2 then { out.1 with holding := ⟨pid, p.msg.key, t⟩ :: c.holding }
      else { out.1 with s := out.1.s.dropProc pid }) := by
    show cstep cfg c (.acquire pid t) = _
    simp only [cstep]
    rw [show c.s.proc? pid = some p from hp]
    simp only
    rw [if_pos ⟨hrun, ht, hall⟩]
  have done : ∀ (c1 : CSys), luaAcquire cfg c p t = (c1.take cfg p.msg.key t, true) →
      c1.s = c.s → c1.waiters = c.waiters →
      (∀ e ∈ c.slots, e.1 ≠ p.msg.key → t < e.2 + cfg.redelivery → e ∈ c1.slots) →
      (∀ e ∈ c.slots, e.1 = p.msg.key → e.2 + cfg.redelivery ≤ t) →
      (c.slots.length < cfg.max → ∀ e ∈ c.slots, e ∈ c1.slots) →
      ⟨pid, p.msg.key, t⟩ ∈ c'.holders ∧ (p.msg.key, t) ∈ c'.slots ∧
      (∀ e ∈ c.slots, t < e.2 + cfg.redelivery → e ∈ c'.slots) ∧
      (c.slots.length < cfg.max → ∀ e ∈ c.slots, e.1 ≠ p.msg.key → e ∈ c'.slots) ∧
      c'.waiters = c.waiters ∧ c'.s = c.s := by
    intro c1 h1 h2 h3 h4 h5 h6
    rw [hc', h1]
    refine ⟨?_, zinsert_mem.2 (Or.inl rfl), ?_, ?_, h3, h2⟩
    · refine List.mem_filter.2 ⟨List.mem_cons_self, ?_⟩
      simp only [CSys.alive, CSys.take, if_true, h2]
      exact halive
    · intro e he hlt
      refine zinsert_mem.2 (Or.inr (List.mem_filter.2 ⟨?_, ?_⟩))
      · by_cases hk : e.1 = p.msg.key
        · have := h5 e he hk; omega
        · exact h4 e he hk hlt
      · by_cases hk : e.1 = p.msg.key
        · have := h5 e he hk; omega
        · simpa using hk
    · intro hlt e he hk
      exact zinsert_mem.2 (Or.inr (List.mem_filter.2 ⟨h6 hlt e he, by simpa using hk⟩))
  rcases acquire_eff cfg c p t with ⟨e, hem, hek, hr, hst, h1⟩ | ⟨hk, hl, h1⟩ | ⟨hk, hl, e, hem, hst, h1⟩ | h1
  · refine done c h1 rfl rfl (fun e he _ _ => he) ?_ (fun _ e he => he)
    intro e' he' hk'
    have := slot_unique hd hem he' (hek.trans hk'.symm)
    subst this
    simpa [stale] using hst
  · exact done c h1 rfl rfl (fun e he _ _ => he) (fun e he hc => (hk e he hc).elim) (fun _ e he => he)
  · refine done (c.free e.1) h1 rfl rfl ?_ (fun e he hc => (hk e he hc).elim) (fun hc => by omega)
    intro e' he' _ hlt
    refine List.mem_filter.2 ⟨he', ?_⟩
    simp only [ne_eq, decide_eq_true_eq]
    intro hc
    have := slot_unique hd hem he' hc.symm
    subst this
    simp only [stale, decide_eq_true_eq] at hst
    omega
  · exfalso
    have hsome : (luaAcquire cfg c p t).2 = true := by
      simp only [luaAcquire]
      rcases hslot with ⟨hno, hroom⟩ | ⟨hred, e, he, hek, hst⟩
      · have hf : c.slots.find? (fun e => e.1 = p.msg.key) = none := by
          rw [List.find?_eq_none]; intro e he; simpa using hno e he
        rw [hf]
        simp only
        split
        · rfl
        · rename_i hfull
          rcases hroom with hc | ⟨e, he, hst⟩
          · exact absurd hc hfull
          · cases hf2 : c.slots.find? (stale cfg t) with
            | some _ => rfl
            | none =>
              have := List.find?_eq_none.1 hf2 e he
              simp [stale, hst] at this
      · cases hf : c.slots.find? (fun e => e.1 = p.msg.key) with
        | none => 
          have := List.find?_eq_none.1 hf e he
          simp [hek] at this
        | some e' =>
          have h2 := List.find?_some hf
          simp only [decide_eq_true_eq] at h2
          have := slot_unique hd he (List.mem_of_find?_eq_some hf) (hek.trans h2.symm)
          subst this
          simp only
          rw [if_pos ⟨hred, by simpa [stale] using hst⟩]
    rw [h1] at hsome
    simp at hsome

/-- A free slot; a stale slot of a dead worker; the redelivery of the task that held it. -/
example : let c := crun ⟨⟨0, 100⟩, 2⟩ (busy.take 9)
    SlotFor ⟨⟨0, 100⟩, 2⟩ c ⟨1, "v", 2, ⟨"b", rq, 1⟩, false, .running⟩ 0 ∧
    c.s.proc? 1 = some ⟨1, "v", 2, ⟨"b", rq, 1⟩, false, .running⟩ := by
  refine ⟨Or.inl ⟨?_, Or.inl ?_⟩, ?_⟩ <;> decide +kernel
example : let c := crun ⟨⟨0, 100⟩, 2⟩ (busy.take 14)
    SlotFor ⟨⟨0, 100⟩, 2⟩ c ⟨2, "v", 3, ⟨"c", rq, 1⟩, false, .running⟩ 120 ∧
    c.s.proc? 2 = some ⟨2, "v", 3, ⟨"c", rq, 1⟩, false, .running⟩ := by
  refine ⟨Or.inl ⟨?_, Or.inr ⟨("a", 0), ?_, ?_⟩⟩, ?_⟩ <;> decide +kernel
example : let c := crun ⟨⟨0, 100⟩, 1⟩ [.core (.add "a" rq 0), .core (.poll "w" 1), .core (.claim 0),
      .acquire 0 0, .core (.crash "w"), .core (.tick 100), .core (.redeliver "v" 1), .core (.claim 1)]
    SlotFor ⟨⟨0, 100⟩, 1⟩ c ⟨1, "v", 1, ⟨"a", rq, 1⟩, true, .running⟩ 100 ∧
    c.s.proc? 1 = some ⟨1, "v", 1, ⟨"a", rq, 1⟩, true, .running⟩ := by
  refine ⟨Or.inr ⟨?_, ("a", 0), ?_, ?_, ?_⟩, ?_⟩ <;> decide +kernel

/-- C31, giving a slot back.  A release removes the slot of the execution that releases,
no other slot unless it is stale, and the execution no longer counts as a holder. -/
theorem C31_release_frees (cfg : CCfg) (ops : List COp) (pid : Nat) (t : Time) (x : Holder)
    (hx : (crun cfg ops).holders.find? (fun h => h.pid = pid) = some x)
    (ht : t ≤ (crun cfg ops).s.r.now) :
    let c := crun cfg ops
    let c' := cstep cfg c (.release pid t)
    (∀ e ∈ c'.slots, e ∈ c.slots ∧ e.1 ≠ x.key) ∧
    (∀ e ∈ c.slots, e.1 ≠ x.key → t < e.2 + cfg.redelivery → e ∈ c'.slots) ∧
    (∀ h ∈ c'.holders, h.pid ≠ pid) ∧
    (∀ h ∈ c.holding, h.pid ≠ pid → h ∈ c'.holding) := by
  intro c c'
  have hc' : c' = { luaRelease cfg c x.key t with holding := c.holding.filter (fun h => h.pid ≠ pid) } := by
    show cstep cfg c (.release pid t) = _
    simp only [cstep]
    rw [show c.holders.find? (fun h => h.pid = pid) = some x from hx]
    simp only
    rw [if_pos ht]
  have hslots : c'.slots = if c.waiters.length > 0 then slotsAfter cfg c (some x.key) t
      else c.slots.filter (fun e => e.1 ≠ x.key) := by
    rw [hc']
    show (luaRelease cfg c x.key t).slots = _
    by_cases hw : c.waiters.length > 0
    · obtain ⟨c1, h1, h2⟩ := release_form cfg c x.key t (List.length_pos_iff.1 hw)
      rw [h1, (wake_same cfg c1).slots, if_pos hw]
      exact h2.2.2.2.2
    · simp only [luaRelease]
      rw [if_neg (by show ¬ c.waiters.length > 0; exact hw), (wake_same cfg _).slots, if_neg hw]
      rfl
  refine ⟨?_, ?_, ?_, ?_⟩
  · intro e he
    rw [hslots] at he
    split at he
    · have h1 := List.mem_filter.1 he
      refine ⟨h1.1, ?_⟩
      have := h1.2
      simp only [ne_eq, Option.some.injEq, decide_eq_true_eq] at this
      exact this.1
    · have h1 := List.mem_filter.1 he
      exact ⟨h1.1, by simpa using h1.2⟩
  · intro e he hk hlt
    rw [hslots]
    split
    · exact List.mem_filter.2 ⟨he, by simp [hk, hlt]⟩
    · exact List.mem_filter.2 ⟨he, by simpa using hk⟩
  · intro h hh
    have h1 := (List.mem_filter.1 hh).1
    rw [hc'] at h1
    simpa using (List.mem_filter.1 h1).2
  · intro h hh hne
    rw [hc']
    exact List.mem_filter.2 ⟨hh, by simpa using hne⟩

example : let c := crun ⟨⟨0, 100⟩, 2⟩ busy
    c.holders.find? (fun h => h.pid = 1) = some ⟨1, "b", 60⟩ ∧ c.slots.map (·.1) = ["b", "c"] ∧
    (cstep ⟨⟨0, 100⟩, 2⟩ c (.release 1 120)).slots.map (·.1) = ["c"] := by decide +kernel

/-- C32, parking, continued: a task put on the wait list waits in the sense of
`C32_never_lost_partial`, unless something else is going on under its key. -/
theorem C32_parked_waits (cfg : CCfg) (ops : List COp) (pid : Nat) (p : Proc) (t : Time) (r0 : Run)
    (hp : (crun cfg ops).s.proc? pid = some p) (hrun : p.phase = .running)
    (ht : t ≤ (crun cfg ops).s.r.now) (hnot : ∀ h ∈ (crun cfg ops).holding, h.pid ≠ pid)
    (hd : ((crun cfg ops).slots.map (·.1)).Nodup)
    (hno : NoSlot cfg (crun cfg ops) p t)
    (hrec : (crun cfg ops).s.r.runs p.msg.key = some r0) (hexp : r0.expireAt = none)
    (hw : ∀ e ∈ (crun cfg ops).waiters, e.2.key ≠ p.msg.key)
    (hq : ∀ e ∈ (crun cfg ops).s.r.queue, e.1 ≠ p.msg.key)
    (hs : p.msg.key ∉ (crun cfg ops).signals)
    (hcl : ∀ w', (p.msg.key, w') ∉ (crun cfg ops).cleanups)
    (hord : ∀ k', p.msg.key ≠ safeguardKey k') :
    let c := crun cfg ops
    Waits (cstep cfg c (.acquire pid t)) c.nextW
      ⟨p.msg.key, p.msg.req, (c.s.r.genOf p.msg.key).getD 0 + 1⟩ := by
  intro c
  have hout : (luaAcquire cfg c p t) = (luaPark c p, false) := by
    rcases acquire_eff cfg c p t with ⟨e, hem, hek, h1, h2, _⟩ | ⟨h1, h2, _⟩ | ⟨h1, h2, e, hem, h3, _⟩ | h1
    · exfalso
      rcases hno with ⟨e', he', hk', hc⟩ | ⟨hc, _⟩
      · have := slot_unique hd hem he' (hek.trans hk'.symm)
        subst this
        exact hc ⟨h1, by simpa [stale] using h2⟩
      · exact (hc e hem).1 hek
    · exfalso
      rcases hno with ⟨e', he', hk', hc⟩ | ⟨_, hc⟩
      · exact h1 e' he' hk'
      · exact absurd (show c.slots.length < cfg.max from h2) (Nat.not_lt.2 hc)
    · exfalso
      rcases hno with ⟨e', he', hk', hc⟩ | ⟨hc, _⟩
      · exact h1 e' he' hk'
      · have := (hc e hem).2
        simp only [stale, decide_eq_true_eq] at h3
        omega
    · exact h1
  have hc' : cstep cfg c (.acquire pid t) = { luaPark c p with s := (luaPark c p).s.dropProc pid } := by
    have hall : c.holding.all (fun h => h.pid ≠ pid) = true := by simpa using hnot
    simp only [cstep]
    rw [show c.s.proc? pid = some p from hp]
    simp only
    rw [if_pos ⟨hrun, ht, hall⟩, hout]
    rfl
  have hmsg : ({ p.msg with gen := c.s.r.nextGen p.msg.key } : Msg) =
      ⟨p.msg.key, p.msg.req, (c.s.r.genOf p.msg.key).getD 0 + 1⟩ := by
    rw [nextGen_eq]
  rw [hc', luaPark_eq, ← hmsg]
  refine ⟨List.mem_append_right _ (List.mem_singleton.2 rfl), ?_, ⟨waitingRun c p, upd_same _ _ _, rfl, ?_, rfl⟩,
    hq, hs, hcl, hord⟩
  · intro e he hk
    rcases List.mem_append.1 he with he | he
    · exact (hw e he hk).elim
    · exact List.mem_singleton.1 he
  · simp only [waitingRun, Redis.run, show c.s.r.runs p.msg.key = some r0 from hrec]
    exact hexp

/-- Such a task: the second of two, with room for one. -/
example : let c := crun ⟨⟨0, 100⟩, 1⟩ [.core (.add "a" rq 0), .core (.add "b" rq 0),
      .core (.poll "w" 2), .core (.claim 0), .core (.claim 1), .acquire 0 0]
    (c.s.r.runs "b").map (·.expireAt) = some none ∧ c.waiters = [] ∧ c.s.r.queue = [] ∧
    c.signals = [] ∧ c.cleanups = [] ∧
    (c.s.proc? 1).map (fun p => (p.msg.key, p.phase)) = some ("b", .running) ∧
    c.slots = [("a", 0)] := by decide +kernel

/-- C32, leaving by cancellation.  When a waiting task is cancelled and a worker handles
the cancel signal, the task leaves the wait list and everybody else keeps their place. -/
theorem C32_cancelled_leaves (cfg : CCfg) (ops : List COp) (w : MsgId) (m : Msg)
    (h : Waits (crun cfg ops) w m) :
    (crun cfg (ops ++ [.core (.cancel m.key), .cleanupRead m.key, .cleanupWrite m.key w])).waiters =
      (crun cfg ops).waiters.filter (fun e => e.1 ≠ w) := by
  rw [crun_append]
  generalize crun cfg ops = c at *
  simp only [crunFrom_cons, crunFrom_nil]
  obtain ⟨v, hv1, hv2, hv3, hv4⟩ := h.record
  generalize h1 : cstep cfg c (.core (.cancel m.key)) = c1
  have e1 : c1.waiters = c.waiters ∧ m.key ∈ c1.signals ∧ (c1.s.r.runs m.key).bind (·.waiter) = some w := by
    rw [← h1]
    obtain ⟨g1, g2, g3, g4⟩ := expireSlots_waiters { c with
      s := Docket.step cfg.toCfg c.s (.cancel m.key)
      signals := signalled c.signals (.cancel m.key) }
    simp only [cstep]
    refine ⟨g1, by rw [g4]; exact List.mem_cons_self, ?_⟩
    rw [expireSlots_s]
    show ((Docket.step cfg.toCfg c.s (.cancel m.key)).r.runs m.key).bind (·.waiter) = _
    simp only [Docket.step, doCancel, luaCancel_eq, upd_same, Option.bind_some, cancelRun]
    have : (c.s.r.run m.key).waiter = some w := by simp [Redis.run, hv1, hv4]
    split <;> exact this
  generalize h2 : cstep cfg c1 (.cleanupRead m.key) = c2
  have e2 : c2.waiters = c.waiters ∧ (m.key, w) ∈ c2.cleanups := by
    rw [← h2]
    simp only [cstep]
    rw [if_pos e1.2.1, e1.2.2]
    exact ⟨e1.1, List.mem_cons_self⟩
  simp only [cstep]
  rw [if_pos e2.2]
  simp only [luaCancelCleanup]
  rw [e2.1]

example : let c := crun ⟨⟨10, 100⟩, 1⟩ [.core (.add "a" rq 0), .core (.add "b" rq 0), .core (.add "c" rq 0),
      .core (.poll "w" 3), .core (.claim 0), .core (.claim 1), .core (.claim 2), .acquire 0 0,
      .acquire 1 0, .acquire 2 0, .core (.cancel "b"), .cleanupRead "b", .cleanupWrite "b" 1]
    c.waiters.map (·.2.key) = ["c"] := by decide +kernel

theorem wakeAll_schedule (l : List (MsgId × Msg)) (c : CSys) :
    (l.foldl wakeOne c).s.r.queue = c.s.r.queue.filter (fun x => l.all (fun e => x.1 ≠ safeguardKey e.2.key)) ∧
    ∀ k, ((∃ e ∈ l, k = safeguardKey e.2.key) ∨ c.s.r.parked k = none →
        (l.foldl wakeOne c).s.r.parked k = none) ∧
      ((∀ e ∈ l, k ≠ safeguardKey e.2.key) → (l.foldl wakeOne c).s.r.parked k = c.s.r.parked k) := by
  induction l generalizing c with
  | nil =>
    refine ⟨(List.filter_eq_self.2 (fun _ _ => rfl)).symm, fun k => ⟨?_, fun _ => rfl⟩⟩
    rintro (⟨e, he, _⟩ | h)
    · cases he
    · exact h
  | cons x l ih =>
    rw [List.foldl_cons]
    obtain ⟨h1, h2⟩ := ih (wakeOne c x)
    have hq : (wakeOne c x).s.r.queue = c.s.r.queue.filter (fun y => y.1 ≠ safeguardKey x.2.key) ∧
        (wakeOne c x).s.r.parked = upd c.s.r.parked (safeguardKey x.2.key) none := by
      by_cases h : c.s.r.stateOf x.2.key = some .scheduled
      · rw [wakeOne_woken c x h]; exact ⟨rfl, rfl⟩
      · rw [wakeOne_dropped c x h]; exact ⟨rfl, rfl⟩
    refine ⟨?_, ?_⟩
    · rw [h1, hq.1, List.filter_filter]
      apply List.filter_congr
      intro e _
      simp only [List.all_cons]
      rw [Bool.and_comm]
    · intro k
      obtain ⟨h3, h4⟩ := h2 k
      rw [hq.2] at h3 h4
      refine ⟨?_, ?_⟩
      · rintro (⟨e, he, hk⟩ | hk)
        · rcases List.mem_cons.1 he with rfl | he
          · exact h3 (Or.inr (by rw [hk, upd_same]))
          · exact h3 (Or.inl ⟨e, he, hk⟩)
        · refine h3 (Or.inr ?_)
          by_cases hk2 : k = safeguardKey x.2.key
          · rw [hk2, upd_same]
          · rw [upd_other _ _ _ _ hk2]; exact hk
      · intro hk
        rw [h4 (fun e he => hk e (List.mem_cons_of_mem _ he)), upd_other _ _ _ _ (hk x List.mem_cons_self)]

/-- C32, the schedule.  Waking removes the backstops of the tasks it takes off the wait
list (woken or found cancelled), and leaves every other scheduled task alone. -/
theorem C32_wake_removes_backstops (cfg : CCfg) (ops : List COp) (op : COp) (rel : Option Key)
    (t : Time) (h : Wakes (crun cfg ops) op rel t) (hw : (crun cfg ops).waiters ≠ []) :
    let c := crun cfg ops
    let c' := cstep cfg c op
    let front := c.waiters.take (freeSlots cfg c rel t)
    (∀ e ∈ front, (∀ x ∈ c'.s.r.queue, x.1 ≠ "__safeguard__:" ++ e.2.key) ∧
      c'.s.r.parked ("__safeguard__:" ++ e.2.key) = none) ∧
    (∀ k, (∀ e ∈ front, k ≠ "__safeguard__:" ++ e.2.key) →
      c'.s.r.parked k = c.s.r.parked k ∧ ∀ at_, (k, at_) ∈ c'.s.r.queue ↔ (k, at_) ∈ c.s.r.queue) := by
  intro c c' front
  obtain ⟨c1, h1, h2, _, _, _, h3, h4, h5, h6, h7⟩ := h.form (cfg := cfg) hw
  have hfront : c1.waiters.take (cfg.max - c1.slots.length) = front := by
    rw [h4, h7]; rfl
  have hc' : c'.s = (front.foldl wakeOne c1).s := by
    rw [← hfront]; exact h1
  obtain ⟨hq, hp⟩ := wakeAll_schedule front c1
  rw [h3] at hq hp
  rw [hc']
  refine ⟨?_, ?_⟩
  · intro e he
    refine ⟨?_, ?_⟩
    · intro x hx
      rw [hq] at hx
      have := (List.mem_filter.1 hx).2
      rw [List.all_eq_true] at this
      exact of_decide_eq_true (this e he)
    · exact (hp _).1 (Or.inl ⟨e, he, rfl⟩)
  · intro k hk
    refine ⟨?_, ?_⟩
    · exact (hp k).2 hk
    · intro at_
      rw [hq]
      refine ⟨fun hx => (List.mem_filter.1 hx).1, fun hx => List.mem_filter.2 ⟨hx, ?_⟩⟩
      rw [List.all_eq_true]
      intro e he
      exact decide_eq_true (hk e he)

/-- The backstop of a waiting task is scheduled, and gone once the task is woken; another
scheduled task stays. -/
example : let c := crun ⟨⟨0, 100⟩, 1⟩ [.core (.add "a" rq 0), .core (.add "b" rq 0),
      .core (.poll "w" 2), .core (.claim 0), .core (.claim 1), .acquire 0 0, .acquire 1 0,
      .core (.replace "__safeguard__:b" ⟨"g", "", "", 100, 1⟩ 0), .core (.add "x" ⟨"f", "", "", 50, 1⟩ 0)]
    c.s.r.queue.map (·.1) = ["x", "__safeguard__:b"] ∧ c.waiters.map (·.2.key) = ["b"] ∧
    (cstep ⟨⟨0, 100⟩, 1⟩ c (.release 0 0)).s.r.queue.map (·.1) = ["x"] := by decide +kernel

/-! ### Where the limit breaks promises -/

/-- The task is nowhere: no message, no waiter, nothing scheduled, nobody runs it. -/
def Nowhere (c : CSys) (k : Key) : Prop :=
  (∀ e ∈ c.s.r.stream, e.2.key ≠ k) ∧ (∀ e ∈ c.waiters, e.2.key ≠ k) ∧
  c.s.r.parked k = none ∧ (∀ e ∈ c.s.r.queue, e.1 ≠ k) ∧ (∀ p ∈ c.s.procs, p.msg.key ≠ k)

instance (c : CSys) (k : Key) : Decidable (Nowhere c k) := by unfold Nowhere; infer_instance

/-- A worker that handles an old cancel signal late removes the wait-list entry of a newer
task under the same key: the new task is lost although its record says scheduled.
(Schedule "b", let it wait, cancel it; "b" is scheduled anew and waits again; then the
signal of the old cancellation is handled.) -/
theorem C32_violated_late_cleanup :
    ∃ (cfg : CCfg) (ops : List COp),
      let before := crun cfg (ops ++ [.core (.add "b" rq 0), .core (.poll "w" 1), .core (.claim 2), .acquire 2 0])
      let c := crunFrom cfg before [.cleanupRead "b", .cleanupWrite "b" 2]
      (before.waiters.map (fun e => (e.1, e.2.key))).getLast? = some (2, "b") ∧
      c.s.r.stateOf "b" = some .scheduled ∧ Nowhere c "b" := by
  refine ⟨⟨⟨10, 100⟩, 1⟩, [.core (.add "a" rq 0), .core (.add "b" rq 0), .core (.poll "w" 2),
    .core (.claim 0), .core (.claim 1), .acquire 0 0, .acquire 1 0, .core (.cancel "b"),
    .cleanupRead "b", .cleanupWrite "b" 1], ?_⟩
  decide +kernel

/-- The claim of C32 that a release wakes as many waiters as there are free slots, for
waiters that are still scheduled. -/
def C32_capacity_statement : Prop :=
  ∀ (cfg : CCfg) (ops : List COp) (pid : Nat) (t : Time),
    let c := crun cfg ops
    let c' := cstep cfg c (.release pid t)
    (∃ e ∈ c'.waiters, c'.s.r.stateOf e.2.key = some .scheduled) →
    c.s.r.stream.length + (cfg.max - c'.slots.length) ≤ c'.s.r.stream.length ∨
    c'.waiters = c.waiters

/-- A cancelled waiter in front uses up the free slot: the next one, still scheduled, is
not woken although the slot is free. -/
theorem C32_violated_cancelled_in_front : ¬ C32_capacity_statement := by
  intro h
  have := h ⟨⟨10, 100⟩, 1⟩ [.core (.add "a" rq 0), .core (.add "b" rq 0), .core (.add "c" rq 0),
    .core (.poll "w" 3), .core (.claim 0), .core (.claim 1), .core (.claim 2), .acquire 0 0,
    .acquire 1 0, .acquire 2 0, .core (.cancel "b")] 0 0
  revert this
  decide +kernel

/-- The claim that slots go to tasks in the order in which they ask: while a task waits, no
task that asks later gets a slot. -/
def C32_first_come_statement : Prop :=
  ∀ (cfg : CCfg) (ops : List COp) (pid : Nat) (t : Time),
    (∃ e ∈ (crun cfg ops).waiters, (crun cfg ops).s.r.stateOf e.2.key = some .scheduled) →
    (crun cfg (ops ++ [.acquire pid t])).holding = (crun cfg ops).holding

/-- A slot is free while "c" still waits (the cancelled "b" in front used up the wake-up),
and a task that has only just come takes it. -/
theorem C32_violated_overtaken : ¬ C32_first_come_statement := by
  intro h
  have := h ⟨⟨10, 100⟩, 1⟩ [.core (.add "a" rq 0), .core (.add "b" rq 0), .core (.add "c" rq 0),
    .core (.poll "w" 3), .core (.claim 0), .core (.claim 1), .core (.claim 2), .acquire 0 0,
    .acquire 1 0, .acquire 2 0, .core (.cancel "b"), .release 0 0, .core (.add "d" rq 0),
    .core (.poll "w" 1), .core (.claim 3)] 3 0 (by decide +kernel)
  revert this
  decide +kernel

/-- The claim that a woken task gets the slot it was woken for: when it asks for it, it
does not have to wait again. -/
def C32_woken_runs_statement : Prop :=
  ∀ (cfg : CCfg) (ops more : List COp) (op : COp) (w : MsgId) (m : Msg) (pid : Nat) (t : Time),
    WokenUp (crun cfg ops) (crun cfg (ops ++ [op])) w m →
    (∀ op' ∈ more, op' ≠ .acquire pid t) →
    let c := crun cfg (ops ++ [op] ++ more)
    (c.s.proc? pid).map (·.msg.key) = some m.key →
    m.key ∉ (cstep cfg c (.acquire pid t)).waiters.map (·.2.key)

/-- A task that waited and was woken finds the slot taken by a task that never waited, and
goes back to the end of the wait list; nothing bounds how often. -/
theorem C32_violated_woken_parked_again : ¬ C32_woken_runs_statement := by
  intro h
  have := h ⟨⟨10, 100⟩, 1⟩ [.core (.add "a" rq 0), .core (.add "b" rq 0),
    .core (.poll "w" 2), .core (.claim 0), .core (.claim 1), .acquire 0 0, .acquire 1 0,
    .core (.add "d" rq 0), .core (.poll "w" 1), .core (.claim 2)]
    [.acquire 2 0, .core (.poll "w" 1), .core (.claim 3)] (.release 0 0) 1 ⟨"b", rq, 2⟩ 3 0
    ⟨by decide +kernel, 4, by decide +kernel, by decide +kernel, by decide +kernel, by decide +kernel⟩
    (by decide +kernel) (by decide +kernel)
  revert this
  decide +kernel

end Docket
