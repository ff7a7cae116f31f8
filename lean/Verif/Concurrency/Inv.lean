import Verif.Concurrency.Model
import Verif.Core.WFStep
/-
Closed forms of the limit's scripts and the invariants of reachable states.
-/
namespace Docket
open Redis

def waitingRun (c : CSys) (p : Proc) : Run :=
  { c.s.r.run p.msg.key with
    gen := some (c.s.r.nextGen p.msg.key), state := some .scheduled, waiter := some c.nextW
    fn := some p.msg.req.fn, args := some p.msg.req.args, kwargs := some p.msg.req.kwargs
    streamId := none }

theorem luaPark_eq (c : CSys) (p : Proc) : luaPark c p =
    { c with
      s := { c.s with
        r := { c.s.r with
          pending := c.s.r.pending.filter (fun x => x.id ≠ p.id)
          stream := c.s.r.stream.filter (fun e => e.1 ≠ p.id)
          runs := upd c.s.r.runs p.msg.key (some (waitingRun c p))
          published := ⟨p.msg.key, .scheduled⟩ :: c.s.r.published } }
      waiters := c.waiters ++ [(c.nextW, { p.msg with gen := c.s.r.nextGen p.msg.key })]
      nextW := c.nextW + 1 } := by
  simp [luaPark, xack, xdel, hsetRun, hmodRun, publish, Redis.genOf, Redis.nextGen, Redis.run,
    waitingRun]

theorem safeguardKey_ne (k : Key) : safeguardKey k ≠ k := by
  intro h
  have := congrArg String.length h
  simp only [safeguardKey, String.length_append] at this
  have h2 : "__safeguard__:".length = 14 := by decide
  omega

def wokenRun (r : Redis) (k : Key) : Run :=
  { r.run k with gen := some (r.nextGen k), state := some .queued, streamId := some r.nextId
                 waiter := none }

theorem wakeOne_woken (c : CSys) (e : MsgId × Msg) (h : c.s.r.stateOf e.2.key = some .scheduled) :
    wakeOne c e =
    { c with
      s := { c.s with
        r := { c.s.r with
          nextId := c.s.r.nextId + 1
          stream := c.s.r.stream ++ [(c.s.r.nextId, { e.2 with gen := c.s.r.nextGen e.2.key })]
          queue := c.s.r.queue.filter (fun x => x.1 ≠ safeguardKey e.2.key)
          parked := upd c.s.r.parked (safeguardKey e.2.key) none
          runs := upd (upd c.s.r.runs e.2.key (some (wokenRun c.s.r e.2.key)))
            (safeguardKey e.2.key) none
          published := ⟨e.2.key, .queued⟩ :: c.s.r.published } }
      waiters := c.waiters.filter (fun x => x.1 ≠ e.1) } := by
  simp [wakeOne, h, xadd, hsetRun, hmodRun, publish, Redis.genOf, Redis.nextGen, Redis.run,
    wokenRun, dropSafeguard, zrem, unpark, delRun]

theorem wakeOne_dropped (c : CSys) (e : MsgId × Msg) (h : c.s.r.stateOf e.2.key ≠ some .scheduled) :
    wakeOne c e =
    { c with
      s := { c.s with
        r := { c.s.r with
          queue := c.s.r.queue.filter (fun x => x.1 ≠ safeguardKey e.2.key)
          parked := upd c.s.r.parked (safeguardKey e.2.key) none
          runs := upd c.s.r.runs (safeguardKey e.2.key) none } }
      waiters := c.waiters.filter (fun x => x.1 ≠ e.1) } := by
  simp [wakeOne, h, dropSafeguard, zrem, unpark, delRun]

/-- What waking never touches. -/
structure SameSlots (c c' : CSys) : Prop where
  slots : c'.slots = c.slots
  expire : c'.slotsExpire = c.slotsExpire
  holding : c'.holding = c.holding
  procs : c'.s.procs = c.s.procs
  nextPid : c'.s.nextPid = c.s.nextPid
  now : c'.s.r.now = c.s.r.now
  nextW : c'.nextW = c.nextW
  signals : c'.signals = c.signals
  cleanups : c'.cleanups = c.cleanups
  log : c'.s.log = c.s.log

theorem SameSlots.refl (c : CSys) : SameSlots c c := ⟨rfl, rfl, rfl, rfl, rfl, rfl, rfl, rfl, rfl, rfl⟩

theorem SameSlots.trans {a b c : CSys} (h : SameSlots a b) (g : SameSlots b c) : SameSlots a c :=
  ⟨g.1.trans h.1, g.2.trans h.2, g.3.trans h.3, g.4.trans h.4, g.5.trans h.5, g.6.trans h.6,
    g.7.trans h.7, g.8.trans h.8, g.9.trans h.9, g.10.trans h.10⟩

theorem wakeOne_same (c : CSys) (e : MsgId × Msg) : SameSlots c (wakeOne c e) := by
  by_cases h : c.s.r.stateOf e.2.key = some .scheduled
  · rw [wakeOne_woken c e h]; exact ⟨rfl, rfl, rfl, rfl, rfl, rfl, rfl, rfl, rfl, rfl⟩
  · rw [wakeOne_dropped c e h]; exact ⟨rfl, rfl, rfl, rfl, rfl, rfl, rfl, rfl, rfl, rfl⟩

theorem wakeAll_same (l : List (MsgId × Msg)) (c : CSys) : SameSlots c (l.foldl wakeOne c) := by
  induction l generalizing c with
  | nil => exact SameSlots.refl _
  | cons e l ih => exact (wakeOne_same c e).trans (ih _)

theorem wake_same (cfg : CCfg) (c : CSys) : SameSlots c (wake cfg c) := wakeAll_same _ _

/-! ### Well-formedness -/

theorem WF.frame {s : Sys} (h : WF s) {s' : Sys} (hr : s'.r = s.r) (hp : s'.procs = s.procs)
    (hn : s'.nextPid = s.nextPid) : WF s' := by
  obtain ⟨a, b, c, d⟩ := h
  exact ⟨by rw [hr]; exact a, by rw [hr, hp, hn]; exact b, by rw [hr]; exact c, by rw [hr]; exact d⟩

theorem SidOK.del {n : MsgId} {st : List (MsgId × Msg)} {runs : Key → Option Run}
    (h : SidOK n st runs) (k : Key) : SidOK n st (upd runs k none) :=
  h.sub (fun _ he => he) (fun k' h' id hk hid => by
    rcases upd_eq_some hk with ⟨_, h1⟩ | ⟨_, h1⟩
    · simp at h1
    · exact ⟨h', h1, hid⟩)

theorem WF.wakeOne {c : CSys} (h : WF c.s) (e : MsgId × Msg) : WF (wakeOne c e).s := by
  obtain ⟨hs, hp, hi, hq⟩ := h
  by_cases hst : c.s.r.stateOf e.2.key = some .scheduled
  · rw [wakeOne_woken c e hst]
    refine ⟨hs.add _, hp.mono ?_ (List.Sublist.refl _), ?_, hq.del _⟩
    · intro x hx
      simp only [List.mem_append, List.mem_singleton] at hx
      rcases hx with hx | rfl
      · exact Or.inl hx
      · exact Or.inr hs.ldlt
    · exact (hi.add hs (fun e he => he) _ _ _ _ rfl).del _
  · rw [wakeOne_dropped c e hst]
    exact ⟨hs, hp, hi.del _, hq.del _⟩

theorem WF.wakeAll (l : List (MsgId × Msg)) {c : CSys} (h : WF c.s) : WF (l.foldl Docket.wakeOne c).s := by
  induction l generalizing c with
  | nil => exact h
  | cons e l ih => exact ih (h.wakeOne e)

theorem WF.park {c : CSys} (h : WF c.s) (p : Proc) : WF (luaPark c p).s := by
  obtain ⟨hs, hp, hi, hq⟩ := h
  rw [luaPark_eq]
  refine ⟨hs.ackdel _, hp.mono (fun e he => Or.inl (List.mem_filter.1 he).1) (List.Sublist.refl _),
    hi.sub (fun e he => (List.mem_filter.1 he).1) (sid_upd ?_), hq⟩
  intro h' hh id hid
  simp only [Option.some.injEq] at hh
  subst hh
  simp [waitingRun] at hid

theorem WF.dropProc {s : Sys} (h : WF s) (pid : Nat) : WF (s.dropProc pid) := by
  obtain ⟨hs, hp, hi, hq⟩ := h
  exact ⟨hs, hp.mono (fun e he => Or.inl he) List.filter_sublist, hi, hq⟩

theorem expireSlots_s (c : CSys) : (expireSlots c).s = c.s := by
  simp only [expireSlots]
  split
  · split <;> rfl
  · rfl

theorem release_s (cfg : CCfg) (c : CSys) (k : Key) (t : Time) :
    ∃ c1 : CSys, luaRelease cfg c k t = wake cfg c1 ∧ c1.s = c.s ∧ c1.waiters = c.waiters := by
  simp only [luaRelease]
  split
  · exact ⟨_, rfl, rfl, rfl⟩
  · exact ⟨_, rfl, rfl, rfl⟩

theorem acquire_cases (cfg : CCfg) (c : CSys) (p : Proc) (t : Time) :
    (∃ c1 : CSys, luaAcquire cfg c p t = (c1, true) ∧ c1.s = c.s ∧ c1.waiters = c.waiters ∧
      c1.nextW = c.nextW) ∨ luaAcquire cfg c p t = (luaPark c p, false) := by
  simp only [luaAcquire]
  cases c.slots.find? (fun e => e.1 = p.msg.key) with
  | some e =>
    simp only
    split
    · exact Or.inl ⟨_, rfl, rfl, rfl, rfl⟩
    · exact Or.inr rfl
  | none =>
    simp only
    split
    · exact Or.inl ⟨_, rfl, rfl, rfl, rfl⟩
    · cases c.slots.find? (stale cfg t) with
      | some e => exact Or.inl ⟨_, rfl, rfl, rfl, rfl⟩
      | none => exact Or.inr rfl

/-- The docket part of every reachable state is well-formed. -/
theorem CSys.wf_step (cfg : CCfg) {c : CSys} (h : WF c.s) (op : COp) : WF (cstep cfg c op).s := by
  cases op with
  | core op =>
    simp only [cstep, expireSlots_s]
    exact h.step op
  | acquire pid t =>
    simp only [cstep]
    cases c.s.proc? pid with
    | none => exact h
    | some p =>
      simp only
      split
      · rcases acquire_cases cfg c p t with ⟨c1, h1, h2, _⟩ | h1
        · rw [h1]; simp only [if_true]; rw [h2]; exact h
        · rw [h1]; exact (h.park p).dropProc pid
      · exact h
  | renewSlot pid t =>
    simp only [cstep]
    cases c.holders.find? (fun h => h.pid = pid) with
    | none => exact h
    | some x =>
      simp only
      split <;> exact h
  | release pid t =>
    simp only [cstep]
    cases c.holders.find? (fun h => h.pid = pid) with
    | none => exact h
    | some x =>
      simp only
      split
      · obtain ⟨c1, h1, h2, _⟩ := release_s cfg c x.key t
        rw [h1]
        exact WF.wakeAll _ (by rw [h2]; exact h)
      · exact h
  | scavenge t =>
    simp only [cstep]
    split
    · simp only [luaScavenge]
      split
      · exact h
      · exact WF.wakeAll _ (c := evict cfg c t) h
    · exact h
  | cleanupRead k =>
    simp only [cstep]
    split
    · cases (c.s.r.runs k).bind (·.waiter) <;> exact h
    · exact h
  | cleanupWrite k e =>
    simp only [cstep]
    split
    · obtain ⟨hs, hp, hi, hq⟩ := h
      refine ⟨hs, hp, hi.sub (fun e he => he) (sid_upd ?_), hq⟩
      intro h' hh id hid
      rcases Option.eq_none_or_eq_some (c.s.r.runs k) with hr | ⟨v, hr⟩
      · simp [delProg, hr] at hh
      · simp only [delProg, hr, Option.map_some, Option.some.injEq] at hh
        subst hh
        simpa [Redis.run, delProg, hr] using hid
    · exact h

theorem CSys.wf_run (cfg : CCfg) (ops : List COp) : WF (crun cfg ops).s := by
  suffices h : ∀ c : CSys, WF c.s → WF (crunFrom cfg c ops).s from h {} WF.init
  intro c hc
  induction ops generalizing c with
  | nil => exact hc
  | cons o ops ih => exact ih _ (CSys.wf_step cfg hc o)

/-! ### Slots -/

/-- Every execution in its body has been given its slot, or has renewed it, less than a
redelivery timeout ago. -/
def CSys.timely (cfg : CCfg) (c : CSys) : Prop :=
  ∀ h ∈ c.holders, c.s.r.now < h.last + cfg.redelivery

structure SlotsOK (cfg : CCfg) (c : CSys) : Prop where
  nodup : (c.slots.map (·.1)).Nodup
  bound : c.slots.length ≤ cfg.max
  held : ∀ h ∈ c.holders, (h.key, h.last) ∈ c.slots
  distinct : (c.holders.map (·.key)).Nodup
  expire : ∀ e, c.slotsExpire = some e → ∀ h ∈ c.holders, h.last + keyTtl cfg.redelivery ≤ e
  fresh : ∀ h ∈ c.holding, h.pid < c.s.nextPid
  pids : (c.holding.map (·.pid)).Nodup
  past : ∀ h ∈ c.holding, h.last ≤ c.s.r.now

theorem keyTtl_ge (r : Nat) : r ≤ keyTtl r := by
  simp only [keyTtl]
  have h1 : 1 ≤ Nat.max 1 (r * 4 / 1000) := Nat.le_max_left _ _
  have h2 : r * 4 / 1000 ≤ Nat.max 1 (r * 4 / 1000) := Nat.le_max_right _ _
  omega

/-- Procs are only ever removed or created under fresh ids. -/
theorem step_alive {cfg : Cfg} {s : Sys} (h : WF s) (op : Op) :
    s.nextPid ≤ (step cfg s op).nextPid ∧
    ∀ pid < s.nextPid, (step cfg s op).procs.any (fun p => p.pid = pid) →
      s.procs.any (fun p => p.pid = pid) := by
  have he := step_eff cfg s h.queue op
  generalize Docket.step cfg s op = s' at he
  have sub : ∀ (f : Proc → Bool) pid, (s.procs.filter f).any (fun p => p.pid = pid) →
      s.procs.any (fun p => p.pid = pid) := by
    intro f pid ha
    rw [List.any_eq_true] at ha ⊢
    obtain ⟨x, hx, hx2⟩ := ha
    exact ⟨x, (List.mem_filter.1 hx).1, hx2⟩
  have phase : ∀ (q : Nat) (ph : Phase) pid,
      (s.procs.map (fun p => if p.pid = q then { p with phase := ph } else p)).any
        (fun p => p.pid = pid) → s.procs.any (fun p => p.pid = pid) := by
    intro q ph pid ha
    rw [List.any_eq_true] at ha ⊢
    obtain ⟨x, hx, hx2⟩ := ha
    obtain ⟨y, hy, rfl⟩ := List.mem_map.1 hx
    refine ⟨y, hy, ?_⟩
    revert hx2
    split <;> simp
  have hand : ∀ (w : WorkerName) (red : Bool) (new : List (MsgId × Msg)), ∀ pid < s.nextPid,
      (s.procs ++ newProcs s.nextPid w red new).any (fun p => p.pid = pid) →
      s.procs.any (fun p => p.pid = pid) := by
    intro w red new pid hlt ha
    rw [List.any_append, Bool.or_eq_true] at ha
    rcases ha with ha | ha
    · exact ha
    · rw [List.any_eq_true] at ha
      obtain ⟨x, hx, hx2⟩ := ha
      obtain ⟨_, _, _, _, h5, _⟩ := mem_newProcs hx
      simp only [decide_eq_true_eq] at hx2
      omega
  cases he with
  | poll w n new hnew => exact ⟨by simp, hand w false new⟩
  | redeliver w p e hpm hem hid hidle =>
    refine ⟨by simp, ?_⟩
    have := hand w true [e]
    simpa [newProcs] using this
  | crash w => exact ⟨Nat.le_refl _, fun pid _ => sub _ pid⟩
  | abandon pid => exact ⟨Nat.le_refl _, fun pid _ => sub _ pid⟩
  | strikeOut p => exact ⟨Nat.le_refl _, fun pid _ => phase _ _ pid⟩
  | claim p => exact ⟨Nat.le_refl _, fun pid _ => phase _ _ pid⟩
  | claimSuperseded p => exact ⟨Nat.le_refl _, fun pid _ => sub _ pid⟩
  | finish p => exact ⟨Nat.le_refl _, fun pid _ => sub _ pid⟩
  | finishSuperseded p => exact ⟨Nat.le_refl _, fun pid _ => sub _ pid⟩
  | rescheduleNow p => exact ⟨Nat.le_refl _, fun pid _ => sub _ pid⟩
  | rescheduleLater p => exact ⟨Nat.le_refl _, fun pid _ => sub _ pid⟩
  | _ => exact ⟨Nat.le_refl _, fun pid _ h => h⟩

theorem nodup_filter_fst {l : List (Key × Time)} (h : (l.map (·.1)).Nodup) (f : Key × Time → Bool) :
    ((l.filter f).map (·.1)).Nodup := List.Sublist.nodup (List.Sublist.map _ List.filter_sublist) h

theorem zput_nodup {l : List (Key × Time)} (h : (l.map (·.1)).Nodup) (k : Key) (t : Time) :
    ((zinsert k t (l.filter (fun e => e.1 ≠ k))).map (·.1)).Nodup := by
  have hp := (zinsert_perm k t (l.filter (fun e => e.1 ≠ k))).map (·.1)
  rw [hp.nodup_iff, List.map_cons, List.nodup_cons]
  refine ⟨?_, nodup_filter_fst h _⟩
  simp [List.mem_map]

theorem zput_length (l : List (Key × Time)) (k : Key) (t : Time) :
    (zinsert k t (l.filter (fun e => e.1 ≠ k))).length = (l.filter (fun e => e.1 ≠ k)).length + 1 := by
  simpa using (zinsert_perm k t (l.filter (fun e => e.1 ≠ k))).length_eq

theorem zput_mem {l : List (Key × Time)} {k : Key} {t : Time} {e : Key × Time} :
    e ∈ zinsert k t (l.filter (fun e => e.1 ≠ k)) ↔ e = (k, t) ∨ (e ∈ l ∧ e.1 ≠ k) := by
  rw [zinsert_mem]
  simp [List.mem_filter]

theorem filter_len_lt {α : Type} {l : List α} {f : α → Bool} {x : α} (hx : x ∈ l) (hf : f x = false) :
    (l.filter f).length < l.length := by
  rcases Nat.lt_or_ge (l.filter f).length l.length with h | h
  · exact h
  · have := (List.filter_sublist (p := f) (l := l)).eq_of_length_le h
    rw [List.filter_eq_self] at this
    have := this x hx
    simp [hf] at this

theorem step_now {cfg : Cfg} {s : Sys} (h : WF s) (op : Op) : s.r.now ≤ (step cfg s op).r.now := by
  have he := step_eff cfg s h.queue op
  generalize Docket.step cfg s op = s' at he
  cases he <;> simp [advance]

/-- Fewer live holders, the same slots. -/
theorem SlotsOK.less {cfg : CCfg} {c c' : CSys} (h : SlotsOK cfg c)
    (hsub : c'.holders.Sublist c.holders) (hhold : c'.holding.Sublist c.holding)
    (hslots : c'.slots = c.slots) (hexp : c'.slotsExpire = c.slotsExpire)
    (hpid : c.s.nextPid ≤ c'.s.nextPid) (hnow : c.s.r.now ≤ c'.s.r.now) : SlotsOK cfg c' where
  nodup := by rw [hslots]; exact h.nodup
  bound := by rw [hslots]; exact h.bound
  held := fun x hx => by rw [hslots]; exact h.held x (hsub.subset hx)
  distinct := List.Sublist.nodup (hsub.map _) h.distinct
  expire := fun e he x hx => by rw [hexp] at he; exact h.expire e he x (hsub.subset hx)
  fresh := fun x hx => Nat.lt_of_lt_of_le (h.fresh x (hhold.subset hx)) hpid
  pids := List.Sublist.nodup (hhold.map _) h.pids
  past := fun x hx => Nat.le_trans (h.past x (hhold.subset hx)) hnow

/-- Dropping slots nobody alive holds. -/
theorem SlotsOK.drop {cfg : CCfg} {c : CSys} (h : SlotsOK cfg c) (f : Key × Time → Bool)
    (hf : ∀ x ∈ c.holders, f (x.key, x.last) = true) : SlotsOK cfg { c with slots := c.slots.filter f } where
  nodup := nodup_filter_fst h.nodup _
  bound := Nat.le_trans (List.length_filter_le _ _) h.bound
  held := fun x hx => List.mem_filter.2 ⟨h.held x hx, hf x hx⟩
  distinct := h.distinct
  expire := h.expire
  fresh := h.fresh
  pids := h.pids
  past := h.past

theorem holders_sublist {c c' : CSys} (hh : c'.holding = c.holding)
    (ha : ∀ x ∈ c.holding, c'.alive x.pid → c.alive x.pid) : c'.holders.Sublist c.holders := by
  simp only [CSys.holders, hh]
  have : c.holding.filter (fun h => c'.alive h.pid) =
      (c.holding.filter (fun h => c.alive h.pid)).filter (fun h => c'.alive h.pid) := by
    rw [List.filter_filter]
    apply List.filter_congr
    intro x hx
    have := ha x hx
    cases h1 : c'.alive x.pid <;> cases h2 : c.alive x.pid <;> simp_all
  rw [this]
  exact List.filter_sublist

theorem SameSlots.holders {c c' : CSys} (h : SameSlots c c') : c'.holders = c.holders := by
  simp only [CSys.holders, CSys.alive, h.holding, h.procs]

theorem SlotsOK.same {cfg : CCfg} {c c' : CSys} (h : SlotsOK cfg c) (hs : SameSlots c c') :
    SlotsOK cfg c' :=
  h.less (by rw [hs.holders]; exact List.Sublist.refl _)
    (by rw [hs.holding]; exact List.Sublist.refl _) hs.slots hs.expire
    (by rw [hs.nextPid]; exact Nat.le_refl _) (by rw [hs.now]; exact Nat.le_refl _)

/-- Giving a slot to a new holder. -/
theorem SlotsOK.grant {cfg : CCfg} {c : CSys} (h : SlotsOK cfg c) {pid : Nat} {k : Key} {t : Time}
    (hlen : (c.slots.filter (fun e => e.1 ≠ k)).length < cfg.max)
    (hk : ∀ x ∈ c.holders, x.key ≠ k) (ht : t ≤ c.s.r.now)
    (hal : c.alive pid = true) (hpid : pid < c.s.nextPid) (hnew : ∀ x ∈ c.holding, x.pid ≠ pid) :
    SlotsOK cfg { c.take cfg k t with holding := ⟨pid, k, t⟩ :: c.holding } := by
  have hh : CSys.holders { c.take cfg k t with holding := ⟨pid, k, t⟩ :: c.holding } =
      ⟨pid, k, t⟩ :: c.holders := by
    have : CSys.alive { c.take cfg k t with holding := ⟨pid, k, t⟩ :: c.holding } = c.alive := rfl
    simp only [CSys.holders, this]
    rw [List.filter_cons_of_pos (by simpa using hal)]
  refine ⟨zput_nodup h.nodup _ _, ?_, ?_, ?_, ?_, ?_, ?_, ?_⟩
  · show (zinsert k t _).length ≤ _
    rw [zput_length]; omega
  · rw [hh]
    intro x hx
    show _ ∈ zinsert k t _
    rw [zput_mem]
    rcases List.mem_cons.1 hx with rfl | hx
    · exact Or.inl rfl
    · exact Or.inr ⟨h.held x hx, hk x hx⟩
  · rw [hh, List.map_cons, List.nodup_cons]
    refine ⟨?_, h.distinct⟩
    intro hc
    obtain ⟨x, hx, hx2⟩ := List.mem_map.1 hc
    exact hk x hx hx2
  · rw [hh]
    intro e he x hx
    have he : c.s.r.now + keyTtl cfg.redelivery = e := by simpa [CSys.take] using he
    have : x.last ≤ c.s.r.now := by
      rcases List.mem_cons.1 hx with rfl | hx
      · exact ht
      · exact h.past x (List.mem_filter.1 hx).1
    omega
  · intro x hx
    rcases List.mem_cons.1 hx with rfl | hx
    · exact hpid
    · exact h.fresh x hx
  · show ((_ :: c.holding).map _).Nodup
    rw [List.map_cons, List.nodup_cons]
    refine ⟨?_, h.pids⟩
    intro hc
    obtain ⟨x, hx, hx2⟩ := List.mem_map.1 hc
    exact hnew x hx hx2
  · intro x hx
    rcases List.mem_cons.1 hx with rfl | hx
    · exact ht
    · exact h.past x hx

theorem alive_of_proc {c : CSys} {pid : Nat} {p : Proc} (h : c.s.proc? pid = some p) :
    c.alive pid = true := by
  obtain ⟨h1, h2⟩ := find_pid h
  simp only [CSys.alive, List.any_eq_true]
  exact ⟨p, h1, by simp [h2]⟩

theorem not_stale {cfg : CCfg} {c : CSys} (ht : c.timely cfg) {t : Time} (hle : t ≤ c.s.r.now)
    {x : Holder} (hx : x ∈ c.holders) : stale cfg t (x.key, x.last) = false := by
  have := ht x hx
  simp [stale]
  omega

theorem nodup_map_inj {α β : Type} {f : α → β} {l : List α} (h : (l.map f).Nodup) {a b : α}
    (ha : a ∈ l) (hb : b ∈ l) (hk : f a = f b) : a = b := by
  induction l with
  | nil => simp at ha
  | cons x l ih =>
    simp only [List.map_cons, List.nodup_cons] at h
    rcases List.mem_cons.1 ha with ha' | ha' <;> rcases List.mem_cons.1 hb with hb' | hb'
    · rw [ha', hb']
    · subst ha'; exact absurd (List.mem_map.2 ⟨b, hb', hk.symm⟩) h.1
    · subst hb'; exact absurd (List.mem_map.2 ⟨a, ha', hk⟩) h.1
    · exact ih h.2 ha' hb'

theorem slot_unique {l : List (Key × Time)} (h : (l.map (·.1)).Nodup) {a b : Key × Time}
    (ha : a ∈ l) (hb : b ∈ l) (hk : a.1 = b.1) : a = b := nodup_map_inj h ha hb hk

/-- The ways an acquisition attempt can go. -/
theorem acquire_eff (cfg : CCfg) (c : CSys) (p : Proc) (t : Time) :
    (∃ e ∈ c.slots, e.1 = p.msg.key ∧ p.redelivered = true ∧ stale cfg t e = true ∧
      luaAcquire cfg c p t = (c.take cfg p.msg.key t, true)) ∨
    ((∀ x ∈ c.slots, x.1 ≠ p.msg.key) ∧ c.slots.length < cfg.max ∧
      luaAcquire cfg c p t = (c.take cfg p.msg.key t, true)) ∨
    ((∀ x ∈ c.slots, x.1 ≠ p.msg.key) ∧ cfg.max ≤ c.slots.length ∧
      ∃ e ∈ c.slots, stale cfg t e = true ∧
        luaAcquire cfg c p t = ((c.free e.1).take cfg p.msg.key t, true)) ∨
    luaAcquire cfg c p t = (luaPark c p, false) := by
  simp only [luaAcquire]
  cases hf : c.slots.find? (fun e => e.1 = p.msg.key) with
  | some e =>
    have hem := List.mem_of_find?_eq_some hf
    have hek := List.find?_some hf
    simp only [decide_eq_true_eq] at hek
    simp only
    by_cases hst : p.redelivered = true ∧ stale cfg t e = true
    · rw [if_pos hst]
      exact Or.inl ⟨e, hem, hek, hst.1, hst.2, rfl⟩
    · rw [if_neg hst]
      exact Or.inr (Or.inr (Or.inr rfl))
  | none =>
    have hno : ∀ x ∈ c.slots, x.1 ≠ p.msg.key := by
      intro x hx
      have := List.find?_eq_none.1 hf x hx
      simpa using this
    simp only
    by_cases hlt : c.slots.length < cfg.max
    · rw [if_pos hlt]
      exact Or.inr (Or.inl ⟨hno, hlt, rfl⟩)
    · rw [if_neg hlt]
      cases hs : c.slots.find? (stale cfg t) with
      | none => exact Or.inr (Or.inr (Or.inr rfl))
      | some e =>
        exact Or.inr (Or.inr (Or.inl ⟨hno, Nat.le_of_not_lt hlt, e, List.mem_of_find?_eq_some hs,
          List.find?_some hs, rfl⟩))

theorem SlotsOK.step {cfg : CCfg} {c : CSys} (h : SlotsOK cfg c) (hw : WF c.s)
    (ht : c.timely cfg) (op : COp) (ht' : (cstep cfg c op).timely cfg) :
    SlotsOK cfg (cstep cfg c op) := by
  cases op with
  | core op =>
    revert ht'
    simp only [cstep]
    generalize hc1 : ({ c with s := Docket.step cfg.toCfg c.s op, signals := _ } : CSys) = c1
    have hsub : c1.holders.Sublist c.holders := by
      subst hc1
      apply holders_sublist
      · rfl
      intro x hx ha
      exact (step_alive hw op).2 x.pid (h.fresh x hx) ha
    have h1 : SlotsOK cfg c1 := by
      refine h.less hsub ?_ ?_ ?_ ?_ ?_
      · subst hc1; exact List.Sublist.refl _
      · subst hc1; rfl
      · subst hc1; rfl
      · subst hc1; exact (step_alive hw op).1
      · subst hc1; exact step_now hw op
    simp only [expireSlots]
    rcases Option.eq_none_or_eq_some c1.slotsExpire with he | ⟨e, he⟩
    · rw [he]; intro _; exact h1
    · rw [he]
      simp only
      split
      · rename_i hle
        intro ht'
        have hnil : c1.holders = [] := by
          rw [List.eq_nil_iff_forall_not_mem]
          intro x hx
          have h2 := h1.expire e he x hx
          have h3 := ht' x hx
          have h4 := keyTtl_ge cfg.redelivery
          simp only at h3
          omega
        have hnil' : CSys.holders { c1 with slots := [], slotsExpire := none } = [] := hnil
        exact ⟨by simp, by simp, by simp [hnil'], by simp [hnil'], by simp, h1.fresh, h1.pids, h1.past⟩
      · intro _; exact h1
  | acquire pid t =>
    simp only [cstep] at ht' ⊢
    rcases Option.eq_none_or_eq_some (c.s.proc? pid) with hp | ⟨p, hp⟩
    · rw [hp]; exact h
    rw [hp] at ht' ⊢
    simp only at ht' ⊢
    split
    · rename_i hcond
      have hle := hcond.2.1
      obtain ⟨hpm, hpp⟩ := find_pid hp
      have hpid : pid < c.s.nextPid := by rw [← hpp]; exact (hw.procs.1 p hpm).2.1
      have hnew : ∀ x ∈ c.holding, x.pid ≠ pid := by
        have := hcond.2.2
        simpa using this
      have hal := alive_of_proc hp
      have park : SlotsOK cfg { luaPark c p with s := (luaPark c p).s.dropProc pid } := by
        rw [luaPark_eq]
        refine h.less ?_ (List.Sublist.refl _) rfl rfl (Nat.le_refl _) (Nat.le_refl _)
        apply holders_sublist
        · rfl
        intro x hx ha
        simp only [CSys.alive, Sys.dropProc, List.any_eq_true, List.mem_filter] at ha ⊢
        obtain ⟨y, hy, hy2⟩ := ha
        exact ⟨y, hy.1, hy2⟩
      rcases acquire_eff cfg c p t with ⟨e, hem, hek, _, hst, hout⟩ | ⟨hno, hlt, hout⟩ |
          ⟨hno, hge, e, hem, hest, hout⟩ | hout
      · rw [hout]
        simp only [if_true]
        refine h.grant ?_ ?_ hle hal hpid hnew
        · exact Nat.lt_of_lt_of_le (filter_len_lt hem (by simp [hek])) h.bound
        · intro x hx hc
          have := slot_unique h.nodup hem (h.held x hx) (by simp [hek, hc])
          have h2 := not_stale ht hle hx
          rw [← this, hst] at h2
          simp at h2
      · rw [hout]
        simp only [if_true]
        exact h.grant (Nat.lt_of_le_of_lt (List.length_filter_le _ _) hlt)
          (fun x hx => hno _ (h.held x hx)) hle hal hpid hnew
      · rw [hout]
        simp only [if_true]
        have h1 : SlotsOK cfg (c.free e.1) := by
          apply h.drop
          intro x hx
          simp only [ne_eq, decide_not, Bool.not_eq_true', decide_eq_false_iff_not]
          intro hc
          have := slot_unique h.nodup hem (h.held x hx) (by simp [hc])
          have h2 := not_stale ht hle hx
          rw [← this, hest] at h2
          simp at h2
        refine h1.grant ?_ (fun x hx => hno _ (h.held x hx)) hle hal hpid hnew
        refine Nat.lt_of_le_of_lt (List.length_filter_le _ _) ?_
        exact Nat.lt_of_lt_of_le (filter_len_lt hem (by simp)) h.bound
      · rw [hout]
        exact park
    · exact h
  | renewSlot pid t =>
    simp only [cstep] at ht' ⊢
    rcases Option.eq_none_or_eq_some (c.holders.find? (fun h => h.pid = pid)) with hp | ⟨x, hp⟩
    · rw [hp]; exact h
    rw [hp]
    simp only
    split
    · rename_i hle
      have hxm := List.mem_of_find?_eq_some hp
      have hxp := List.find?_some hp
      simp only [decide_eq_true_eq] at hxp
      have hslot := h.held x hxm
      have hhold : ∀ y ∈ c.holding, y.pid = pid → y = x := by
        intro y hy hyp
        exact nodup_map_inj h.pids hy (List.mem_filter.1 hxm).1 (hyp.trans hxp.symm)
      have hh : CSys.holders { c.take cfg x.key t with
          holding := c.holding.map (fun h => if h.pid = pid then { h with last := t } else h) } =
          c.holders.map (fun h => if h.pid = pid then { h with last := t } else h) := by
        simp only [CSys.holders, List.filter_map]
        congr 1
        apply List.filter_congr
        intro y _
        simp only [Function.comp]
        split <;> rfl
      have hmem : ∀ y ∈ c.holders.map (fun h => if h.pid = pid then { h with last := t } else h),
          (y = { x with last := t }) ∨ (y ∈ c.holders ∧ y.pid ≠ pid) := by
        intro y hy
        obtain ⟨z, hz, rfl⟩ := List.mem_map.1 hy
        by_cases hzp : z.pid = pid
        · left
          rw [if_pos hzp, hhold z (List.mem_filter.1 hz).1 hzp]
        · right
          rw [if_neg hzp]
          exact ⟨hz, hzp⟩
      refine ⟨zput_nodup h.nodup _ _, ?_, ?_, ?_, ?_, ?_, ?_, ?_⟩
      · show (zinsert x.key t _).length ≤ _
        rw [zput_length]
        have := filter_len_lt (f := fun e => decide (e.1 ≠ x.key)) hslot (by simp)
        have := h.bound
        omega
      · rw [hh]
        intro y hy
        show _ ∈ zinsert x.key t _
        rw [zput_mem]
        rcases hmem y hy with rfl | ⟨hy, hyp⟩
        · exact Or.inl rfl
        · refine Or.inr ⟨h.held y hy, ?_⟩
          intro hc
          simp only at hc
          exact hyp ((nodup_map_inj h.distinct hy hxm hc) ▸ hxp)
      · rw [hh, List.map_map]
        have : ((fun x : Holder => x.key) ∘ fun h => if h.pid = pid then { h with last := t } else h) =
            fun x : Holder => x.key := by
          funext y; simp only [Function.comp]; split <;> rfl
        rw [this]
        exact h.distinct
      · rw [hh]
        intro e he y hy
        have he : c.s.r.now + keyTtl cfg.redelivery = e := by simpa [CSys.take] using he
        have : y.last ≤ c.s.r.now := by
          rcases hmem y hy with rfl | ⟨hy, _⟩
          · exact hle
          · exact h.past y (List.mem_filter.1 hy).1
        omega
      · intro y hy
        obtain ⟨z, hz, rfl⟩ := List.mem_map.1 hy
        have := h.fresh z hz
        split <;> exact this
      · show (List.map _ (c.holding.map _)).Nodup
        rw [List.map_map]
        have : ((fun x : Holder => x.pid) ∘ fun h => if h.pid = pid then { h with last := t } else h) =
            fun x : Holder => x.pid := by
          funext y; simp only [Function.comp]; split <;> rfl
        rw [this]
        exact h.pids
      · intro y hy
        obtain ⟨z, hz, rfl⟩ := List.mem_map.1 hy
        have := h.past z hz
        split
        · exact hle
        · exact this
    · exact h
  | release pid t =>
    simp only [cstep] at ht' ⊢
    rcases Option.eq_none_or_eq_some (c.holders.find? (fun h => h.pid = pid)) with hp | ⟨x, hp⟩
    · rw [hp]; exact h
    rw [hp]
    simp only
    split
    · rename_i hle
      have hxm := List.mem_of_find?_eq_some hp
      have hxp := List.find?_some hp
      simp only [decide_eq_true_eq] at hxp
      -- first forget the holder, then drop the slot
      have h0 : SlotsOK cfg { c with holding := c.holding.filter (fun h => h.pid ≠ pid) } := by
        refine h.less ?_ List.filter_sublist rfl rfl (Nat.le_refl _) (Nat.le_refl _)
        simp only [CSys.holders]
        exact List.Sublist.filter _ List.filter_sublist
      have hin : ∀ y ∈ CSys.holders { c with holding := c.holding.filter (fun h => h.pid ≠ pid) },
          y ∈ c.holders ∧ y.pid ≠ pid := by
        intro y hy
        simp only [CSys.holders, List.mem_filter, decide_eq_true_eq] at hy ⊢
        exact ⟨⟨hy.1.1, hy.2⟩, hy.1.2⟩
      have h1 : SlotsOK cfg { c with
          holding := c.holding.filter (fun h => h.pid ≠ pid)
          slots := c.slots.filter (fun e => e.1 ≠ x.key) } := by
        refine h0.drop _ ?_
        intro y hy
        obtain ⟨hy, hyp⟩ := hin y hy
        simp only [ne_eq, decide_not, Bool.not_eq_true', decide_eq_false_iff_not]
        intro hc
        exact hyp ((nodup_map_inj h.distinct hy hxm hc) ▸ hxp)
      simp only [luaRelease]
      split
      · have h2 := h1.drop (fun e => ¬ stale cfg t e) (by
          intro y hy
          have := not_stale ht hle (hin y hy).1
          simp [this])
        have hs := wake_same cfg (evict cfg (c.free x.key) t)
        exact h2.same ⟨hs.1, hs.2, rfl, hs.4, hs.5, hs.6, hs.7, hs.8, hs.9, hs.10⟩
      · have hs := wake_same cfg (c.free x.key)
        exact h1.same ⟨hs.1, hs.2, rfl, hs.4, hs.5, hs.6, hs.7, hs.8, hs.9, hs.10⟩
    · exact h
  | scavenge t =>
    simp only [cstep]
    split
    · rename_i hle
      simp only [luaScavenge]
      split
      · exact h
      · have h2 := h.drop (fun e => ¬ stale cfg t e) (by
          intro y hy
          have := not_stale ht hle hy
          simp [this])
        exact h2.same (wake_same cfg (evict cfg c t))
    · exact h
  | cleanupRead k =>
    simp only [cstep]
    split
    · cases (c.s.r.runs k).bind (·.waiter) with
      | none => exact h
      | some e => exact h.less (List.Sublist.refl _) (List.Sublist.refl _) rfl rfl (Nat.le_refl _) (Nat.le_refl _)
    · exact h
  | cleanupWrite k e =>
    simp only [cstep]
    split
    · exact h.less (List.Sublist.refl _) (List.Sublist.refl _) rfl rfl (Nat.le_refl _) (Nat.le_refl _)
    · exact h

theorem SlotsOK.init (cfg : CCfg) : SlotsOK cfg {} := by
  refine ⟨?_, ?_, ?_, ?_, ?_, ?_, ?_, ?_⟩ <;> simp [CSys.holders]

end Docket
