import Verif.Props.C111
import Verif.Concurrency.Wait

/-!
# C111 under a concurrency limit

A task under a limit runs its body once it has been given a slot.  When there is none it is parked
and queued again later, any number of times, so it is *started* more often than it was accepted.
What is bounded is how often it is given a slot.
-/
namespace Docket.Once
open Docket Redis

/-- Whether the step gave a slot to a task of the key: more executions of it have one than before. -/
def gives (cfg : CCfg) (k : Key) (c : CSys) (op : COp) : Bool :=
  decide (c.holding.countP (fun h => h.key = k) < (cstep cfg c op).holding.countP (fun h => h.key = k))

/-- How often a task of the key was given a slot. -/
def slotsGiven (cfg : CCfg) (k : Key) : CSys → List COp → Nat
  | _, [] => 0
  | c, op :: ops => (if gives cfg k c op then 1 else 0) + slotsGiven cfg k (cstep cfg c op) ops

/-- The executions that enter the limit.  Each execution does so once: the limit is a dependency,
resolved when the execution begins (worker.py:956-1033, _concurrency.py:512-545). -/
def entering (ops : List COp) : List Nat :=
  ops.filterMap fun
    | .acquire pid _ => some pid
    | _ => none

/-- Executions that have not been at the limit yet. -/
def pend (T : List Nat) (P : Msg → Bool) (s : Sys) : Nat :=
  s.procs.countP (fun p => decide (p.pid ∉ T) && P p.msg)

def weight (T : List Nat) (k : Key) (s : Sys) : Nat :=
  fresh (fun m => m.key = k) s + parkedCount (fun m => m.key = k) k s + pend T (fun m => m.key = k) s

theorem pend_newProcs (T : List Nat) (P : Msg → Bool) (pid : Nat) (w : WorkerName) (red : Bool) (ms : List (MsgId × Msg)) :
    (newProcs pid w red ms).countP (fun p => decide (p.pid ∉ T) && P p.msg) ≤ ms.countP (fun e => P e.2) := by
  induction ms generalizing pid with
  | nil => exact Nat.le_refl _
  | cons e es ih =>
    have := ih (pid + 1)
    have e9 : (if (decide (pid ∉ T) && P e.2) = true then 1 else 0) ≤ (if P e.2 = true then 1 else 0) := by
      cases decide (pid ∉ T) <;> simp
    simp only [newProcs, List.countP_cons]
    omega

theorem pend_phase (T : List Nat) (P : Msg → Bool) (ps : List Proc) (p : Proc) (ph : Phase) :
    (ps.map (fun x => if x.pid = p.pid then { x with phase := ph } else x)).countP
        (fun p => decide (p.pid ∉ T) && P p.msg) = ps.countP (fun p => decide (p.pid ∉ T) && P p.msg) := by
  rw [List.countP_map]
  refine List.countP_congr (fun x _ => ?_)
  simp only [Function.comp]
  split <;> exact Iff.rfl

theorem pend_less (T : List Nat) (P : Msg → Bool) (pid : Nat) (ps : List Proc) :
    ps.countP (fun p => decide (p.pid ∉ pid :: T) && P p.msg) ≤ ps.countP (fun p => decide (p.pid ∉ T) && P p.msg) := by
  refine List.countP_mono_left (fun x _ h => ?_)
  simp only [Bool.and_eq_true, decide_eq_true_eq, List.mem_cons, not_or] at h ⊢
  exact ⟨h.1.2, h.2⟩

/-- An execution that comes to the limit leaves those that have not been there. -/
theorem pend_used (T : List Nat) (P : Msg → Bool) (p : Proc) (hT : p.pid ∉ T) (ps : List Proc) (hp : p ∈ ps) :
    ps.countP (fun x => decide (x.pid ∉ p.pid :: T) && P x.msg) + (if P p.msg then 1 else 0) ≤
      ps.countP (fun x => decide (x.pid ∉ T) && P x.msg) := by
  induction ps with
  | nil => cases hp
  | cons x xs ih =>
    simp only [List.countP_cons]
    rcases List.mem_cons.1 hp with rfl | hp
    · have := pend_less T P p.pid xs
      simp only [List.mem_cons, true_or, not_true, decide_false, Bool.false_and, Bool.false_eq_true, if_false, hT,
        not_false_eq_true, decide_true, Bool.true_and] at this ⊢
      omega
    · have := ih hp
      have h1 : (decide (x.pid ∉ p.pid :: T) && P x.msg) = true → (decide (x.pid ∉ T) && P x.msg) = true := by
        intro h
        simp only [Bool.and_eq_true, decide_eq_true_eq, List.mem_cons, not_or] at h ⊢
        exact ⟨h.1.2, h.2⟩
      by_cases hx : (decide (x.pid ∉ p.pid :: T) && P x.msg) = true
      · rw [if_pos hx, if_pos (h1 hx)]; omega
      · rw [if_neg hx]; omega

theorem weight_step {cfg : Cfg} {k : Key} (T : List Nat) {s : Sys} (hw : WF s) (op : Op) :
    weight T k (Docket.step cfg s op) + (acceptances (fun m => m.key = k) s.log + lapses (fun m => m.key = k) s.log) ≤
      weight T k s + (acceptances (fun m => m.key = k) (Docket.step cfg s op).log +
        lapses (fun m => m.key = k) (Docket.step cfg s op).log) := by
  have h : True := trivial
  generalize hPd : (fun m : Msg => decide (m.key = k)) = P
  have hP : ∀ m, P m = true → m.key = k := by rw [← hPd]; exact fun m hm => by simpa using hm
  simp only [weight, hPd]
  have hld := hw.stream.ldlt
  have hsub : ∀ {st : List (MsgId × Msg)}, st.Sublist s.r.stream →
      st.countP (fun e => decide (s.r.lastDelivered < e.1) && P e.2) ≤ fresh P s := fun h => h.countP_le
  have hadd : ∀ m : Msg, [(s.r.nextId, m)].countP (fun e => decide (s.r.lastDelivered < e.1) && P e.2) = if P m then 1 else 0 := by
    intro m
    simp [List.countP_cons, hld]
  have hpr : ∀ {ps : List Proc}, ps.Sublist s.procs →
      ps.countP (fun p => decide (p.pid ∉ T) && P p.msg) ≤ pend T P s := fun h => h.countP_le
  have heff := step_eff cfg s hw.queue op
  generalize Docket.step cfg s op = s' at heff ⊢
  cases heff with
  | nop => exact Nat.le_refl _
  | tick d => exact Nat.le_refl _
  | addNow k' q t _ _ _ =>
    have e1 := hadd ⟨k', q, s.r.nextGen k'⟩
    simp only [fresh, parkedCount, pend, acceptances, lapses, List.countP_append, List.countP_cons, Bool.false_eq_true, if_false] at e1 ⊢
    omega
  | addLater k' q t _ _ _ =>
    have e1 := parkedCount_upd_le P k k' s.r.parked ⟨k', q, s.r.nextGen k'⟩
    simp only [fresh, parkedCount, pend, acceptances, lapses, List.countP_cons, Bool.false_eq_true, if_false] at e1 ⊢
    omega
  | replaceNow k' q t _ _ =>
    have e1 := hadd ⟨k', q, s.r.nextGen k'⟩
    have e2 := hsub (dropOwn_sublist s.r k')
    have e3 := parkedCount_none_le P k k' s.r.parked
    simp only [fresh, parkedCount, pend, acceptances, lapses, List.countP_append, List.countP_cons, Bool.false_eq_true, if_false] at e1 e2 e3 ⊢
    omega
  | replaceLater k' q t _ _ =>
    have e1 := parkedCount_upd_le P k k' s.r.parked ⟨k', q, s.r.nextGen k'⟩
    have e2 := hsub (dropOwn_sublist s.r k')
    simp only [fresh, parkedCount, pend, acceptances, lapses, List.countP_cons, Bool.false_eq_true, if_false] at e1 e2 ⊢
    omega
  | cancel k' =>
    have e2 := hsub (dropOwn_sublist s.r k')
    have e3 := parkedCount_none_le P k k' s.r.parked
    simp only [fresh, parkedCount, pend, acceptances, lapses, List.countP_cons, Bool.false_eq_true, if_false] at e2 e3 ⊢
    omega
  | cancelTtl k' _ => exact Nat.le_refl _
  | clear op j js _ =>
    have e2 : (if j.streamCount > 0 then [] else s.r.stream).countP (fun e => decide (s.r.lastDelivered < e.1) && P e.2) ≤ fresh P s := by
      split
      · simp
      · exact Nat.le_refl _
    have e3 : (if k ∈ j.scheduledKeys then none else s.r.parked k).toList.countP P ≤ (s.r.parked k).toList.countP P := by
      split
      · simp
      · exact Nat.le_refl _
    simp only [fresh, parkedCount, pend, acceptances, lapses, List.countP_cons, Bool.false_eq_true, if_false] at e2 e3 ⊢
    omega
  | clearRead => exact Nat.le_refl _
  | schedule t _ =>
    have e1 := count_numbered P s.r.lastDelivered s.r.nextId hld ((dueKeys s.r t).filterMap s.r.parked)
    have e2 := count_due P k hP s.r.parked (fun x m hm => hw.queue.key x m hm) (dueKeys s.r t) (dueKeys_nodup hw.queue t)
    simp only [fresh, parkedCount, pend, List.countP_append]
    rw [e1]
    by_cases hk : k ∈ dueKeys s.r t
    · simp only [hk, if_true, Option.toList_none, List.countP_nil] at e2 ⊢
      omega
    · simp only [hk, if_false] at e2 ⊢
      omega
  | poll w n new hnew =>
    obtain ⟨_, l2, l3⟩ := log_newHanded P s.nextPid w s.r.now new s.log
    have e1 := count_poll P s.r.stream s.r.lastDelivered n new hw.stream.sorted hnew
    have e2 := pend_newProcs T P s.nextPid w false new
    rw [l2, l3]
    simp only [fresh, parkedCount, pend, List.countP_append] at e2 ⊢
    omega
  | redeliver w p e _ _ _ _ =>
    have e9 : (if (decide (s.nextPid ∉ T) && P e.2) = true then 1 else 0) ≤ (if P e.2 = true then 1 else 0) := by
      cases decide (s.nextPid ∉ T) <;> simp
    simp only [fresh, parkedCount, pend, acceptances, lapses, List.countP_append, List.countP_cons, List.countP_nil,
      Bool.false_eq_true, if_false]
    omega
  | forget id _ => exact Nat.le_refl _
  | renew w id _ _ =>
    simp only [fresh, parkedCount, pend, acceptances, lapses, List.countP_cons, Bool.false_eq_true, if_false]
    omega
  | crash w =>
    have e1 := hpr (ps := s.procs.filter (fun p => p.worker ≠ w)) List.filter_sublist
    simp only [fresh, parkedCount, pend] at e1 ⊢
    omega
  | abandon pid =>
    have e1 := hpr (ps := s.procs.filter (fun p => p.pid ≠ pid)) List.filter_sublist
    simp only [fresh, parkedCount, pend] at e1 ⊢
    omega
  | strikeOut p hp hph =>
    have e1 := pend_phase T P s.procs p .stricken
    simp only [fresh, parkedCount, pend, acceptances, lapses, List.countP_cons, Bool.false_eq_true, if_false] at e1 ⊢
    omega
  | claimSuperseded p hp hph _ =>
    have e1 := hpr (ps := s.procs.filter (fun x => x.pid ≠ p.pid)) List.filter_sublist
    have e2 := hsub (st := s.r.stream.filter (fun e => e.1 ≠ p.id)) List.filter_sublist
    simp only [fresh, parkedCount, pend] at e1 e2 ⊢
    omega
  | claim p hp hph _ =>
    have e1 := pend_phase T P s.procs p .running
    simp only [fresh, parkedCount, pend, acceptances, lapses, List.countP_cons, Bool.false_eq_true, if_false] at e1 ⊢
    omega
  | store p data _ _ _ => exact Nat.le_refl _
  | finish p st e w _ _ _ =>
    have e1 := hpr (ps := s.procs.filter (fun x => x.pid ≠ p.pid)) List.filter_sublist
    have e2 := hsub (st := s.r.stream.filter (fun e => e.1 ≠ p.id)) List.filter_sublist
    simp only [fresh, parkedCount, pend, acceptances, lapses, List.countP_cons, Bool.false_eq_true, if_false] at e1 e2 ⊢
    omega
  | finishSuperseded p st e w _ _ _ =>
    have e1 := hpr (ps := s.procs.filter (fun x => x.pid ≠ p.pid)) List.filter_sublist
    have e2 := hsub (st := s.r.stream.filter (fun e => e.1 ≠ p.id)) List.filter_sublist
    simp only [fresh, parkedCount, pend, acceptances, lapses, List.countP_cons, Bool.false_eq_true, if_false] at e1 e2 ⊢
    omega
  | rescheduleNow p t a d q _ _ _ _ _ =>
    have e0 := hadd ⟨p.msg.key, q, s.r.nextGen p.msg.key⟩
    have e1 := hpr (ps := s.procs.filter (fun x => x.pid ≠ p.pid)) List.filter_sublist
    have e2 := hsub (st := s.r.stream.filter (fun e => e.1 ≠ p.id)) List.filter_sublist
    simp only [fresh, parkedCount, pend, acceptances, lapses, List.countP_append, List.countP_cons, Bool.false_eq_true, if_false] at e0 e1 e2 ⊢
    omega
  | rescheduleLater p t a d q _ _ _ _ _ =>
    have e0 := parkedCount_upd_le P k p.msg.key s.r.parked ⟨p.msg.key, q, s.r.nextGen p.msg.key⟩
    have e1 := hpr (ps := s.procs.filter (fun x => x.pid ≠ p.pid)) List.filter_sublist
    have e2 := hsub (st := s.r.stream.filter (fun e => e.1 ≠ p.id)) List.filter_sublist
    simp only [fresh, parkedCount, pend, acceptances, lapses, List.countP_cons, Bool.false_eq_true, if_false] at e0 e1 e2 ⊢
    omega
  | prog op k' f _ => exact Nat.le_refl _


/-- What waits for a slot. -/
def waiting (k : Key) (l : List (MsgId × Msg)) : Nat := l.countP (fun e => e.2.key = k)

theorem wakeAll_weight (T : List Nat) (k : Key) (l : List (MsgId × Msg)) (c : CSys) (hw : WF c.s) :
    weight T k (l.foldl wakeOne c).s ≤ weight T k c.s + waiting k l ∧
      (l.foldl wakeOne c).s.log = c.s.log ∧ (l.foldl wakeOne c).holding = c.holding := by
  induction l generalizing c with
  | nil => exact ⟨Nat.le_refl _, rfl, rfl⟩
  | cons e l ih =>
    have hw' : WF (wakeOne c e).s := WF.wakeAll [e] hw
    obtain ⟨h1, h2, h3⟩ := ih (wakeOne c e) hw'
    have hld := hw.stream.ldlt
    have hone : weight T k (wakeOne c e).s ≤ weight T k c.s + (if e.2.key = k then 1 else 0) ∧
        (wakeOne c e).s.log = c.s.log ∧ (wakeOne c e).holding = c.holding := by
      by_cases hs : c.s.r.stateOf e.2.key = some .scheduled
      · have e1 : fresh (fun m => m.key = k) (wakeOne c e).s ≤ fresh (fun m => m.key = k) c.s + if e.2.key = k then 1 else 0 := by
          rw [wakeOne_woken c e hs]
          simp only [fresh, List.countP_append]
          refine Nat.add_le_add_left ?_ _
          simp [List.countP_cons, hld]
        rw [wakeOne_woken c e hs] at e1 ⊢
        refine ⟨?_, rfl, rfl⟩
        have e3 := parkedCount_none_le (fun m => decide (m.key = k)) k (safeguardKey e.2.key) c.s.r.parked
        simp only [weight, parkedCount, pend] at e1 e3 ⊢
        omega
      · rw [wakeOne_dropped c e hs]
        refine ⟨?_, rfl, rfl⟩
        have e3 := parkedCount_none_le (fun m => decide (m.key = k)) k (safeguardKey e.2.key) c.s.r.parked
        simp only [weight, fresh, parkedCount, pend] at e3 ⊢
        omega
    refine ⟨?_, h2.trans hone.2.1, h3.trans hone.2.2⟩
    have := hone.1
    simp only [List.foldl_cons, waiting, List.countP_cons, decide_eq_true_eq] at h1 ⊢
    omega

/-- Waking moves tasks from the waiters to the stream. -/
theorem wake_weight (T : List Nat) (cfg : CCfg) (k : Key) (c : CSys) (hw : WF c.s)
    (hs : c.waiters.Pairwise (fun a b => a.1 < b.1)) :
    weight T k (wake cfg c).s + waiting k (wake cfg c).waiters ≤ weight T k c.s + waiting k c.waiters ∧
      (wake cfg c).s.log = c.s.log ∧ (wake cfg c).holding = c.holding := by
  obtain ⟨h1, h2, h3⟩ := wakeAll_weight T k (c.waiters.take (cfg.max - c.slots.length)) c hw
  refine ⟨?_, h2, h3⟩
  have h4 : waiting k c.waiters = waiting k (c.waiters.take (cfg.max - c.slots.length)) +
      waiting k (c.waiters.drop (cfg.max - c.slots.length)) := by
    rw [waiting, waiting, waiting, ← List.countP_append, List.take_append_drop]
  simp only [wake]
  rw [wakeAll_waiters, filter_take_drop hs]
  omega

def entered : COp → List Nat
  | .acquire pid _ => [pid]
  | _ => []

theorem limit_step (cfg : CCfg) (k : Key) (T : List Nat) {c : CSys} (hw : WF c.s) (ho : WaitOK c) (op : COp)
    (hT : ∀ x ∈ entered op, x ∉ T) :
    weight (entered op ++ T) k (cstep cfg c op).s + waiting k (cstep cfg c op).waiters + (if gives cfg k c op then 1 else 0) +
      (acceptances (fun m => m.key = k) c.s.log + lapses (fun m => m.key = k) c.s.log) ≤
    weight T k c.s + waiting k c.waiters +
      (acceptances (fun m => m.key = k) (cstep cfg c op).s.log + lapses (fun m => m.key = k) (cstep cfg c op).s.log) := by
  have same : ∀ c' : CSys, c'.holding = c.holding → cstep cfg c op = c' → gives cfg k c op = false := by
    intro c' h1 h2
    simp [gives, h2, h1]
  cases op with
  | core op =>
    have h1 := weight_step (cfg := cfg.toCfg) (k := k) T hw op
    have h2 := (expireSlots_waiters { c with s := step cfg.toCfg c.s op, signals := signalled c.signals op }).1
    have h3 : (cstep cfg c (.core op)).holding = c.holding := by
      simp only [cstep, expireSlots]; split
      · split <;> rfl
      · rfl
    rw [same _ h3 rfl]
    simp only [cstep, expireSlots_s, h2, entered, List.nil_append, Bool.false_eq_true, if_false]
    omega
  | acquire pid t =>
    have hpid : pid ∉ T := hT pid (by simp [entered])
    have less := pend_less T (fun m => decide (m.key = k)) pid c.s.procs
    have stay : cstep cfg c (.acquire pid t) = c → weight ([pid] ++ T) k (cstep cfg c (.acquire pid t)).s + waiting k (cstep cfg c (.acquire pid t)).waiters +
        (if gives cfg k c (.acquire pid t) then 1 else 0) +
        (acceptances (fun m => m.key = k) c.s.log + lapses (fun m => m.key = k) c.s.log) ≤
        weight T k c.s + waiting k c.waiters +
        (acceptances (fun m => m.key = k) (cstep cfg c (.acquire pid t)).s.log + lapses (fun m => m.key = k) (cstep cfg c (.acquire pid t)).s.log) := by
      intro h
      rw [same c rfl h, h]
      simp only [weight, pend, List.cons_append, List.nil_append, Bool.false_eq_true, if_false] at less ⊢
      omega
    simp only [entered]
    cases hp : c.s.proc? pid with
    | none => exact stay (by simp [cstep, hp])
    | some p =>
      by_cases hc : p.phase = .running ∧ t ≤ c.s.r.now ∧ c.holding.all (fun h => h.pid ≠ pid)
      · have hmem : p ∈ c.s.procs := List.mem_of_find?_eq_some hp
        have hpp : p.pid = pid := by simpa using List.find?_some hp
        subst hpp
        have used := pend_used T (fun m => decide (m.key = k)) p hpid c.s.procs hmem
        rcases acquire_cases cfg c p t with ⟨c1, h1, h2, h3, _⟩ | h1
        · have he : cstep cfg c (.acquire p.pid t) = { c1 with holding := ⟨p.pid, p.msg.key, t⟩ :: c.holding } := by
            simp only [cstep, hp]; rw [if_pos hc, h1]; rfl
          have hg : (if gives cfg k c (.acquire p.pid t) then 1 else 0) = if p.msg.key = k then 1 else 0 := by
            simp only [gives, he, List.countP_cons, decide_eq_true_eq]
            by_cases hk : p.msg.key = k <;> simp [hk]
          rw [hg, he]
          simp only [h2, h3, weight, pend, List.cons_append, List.nil_append, decide_eq_true_eq] at used ⊢
          omega
        · have he : cstep cfg c (.acquire p.pid t) = { luaPark c p with s := (luaPark c p).s.dropProc p.pid } := by
            simp only [cstep, hp]; rw [if_pos hc, h1]; rfl
          have hg : gives cfg k c (.acquire p.pid t) = false := by
            refine same _ ?_ he
            rw [luaPark_eq]
          have e2 : fresh (fun m => m.key = k) ((luaPark c p).s.dropProc p.pid) ≤ fresh (fun m => m.key = k) c.s := by
            rw [luaPark_eq]
            exact List.filter_sublist.countP_le
          have e3 : parkedCount (fun m => m.key = k) k ((luaPark c p).s.dropProc p.pid) = parkedCount (fun m => m.key = k) k c.s := by
            rw [luaPark_eq]; rfl
          have e4 : pend (p.pid :: T) (fun m => m.key = k) ((luaPark c p).s.dropProc p.pid) ≤ pend (p.pid :: T) (fun m => m.key = k) c.s := by
            rw [luaPark_eq]
            exact List.filter_sublist.countP_le
          have e5 : waiting k (luaPark c p).waiters = waiting k c.waiters + if p.msg.key = k then 1 else 0 := by
            rw [luaPark_eq]
            simp [waiting, List.countP_cons]
          have e6 : ((luaPark c p).s.dropProc p.pid).log = c.s.log := by
            rw [luaPark_eq]; rfl
          rw [hg, he]
          simp only [weight, List.cons_append, List.nil_append, Bool.false_eq_true, if_false]
          rw [e6, e5]
          simp only [pend, decide_eq_true_eq] at used e4 ⊢
          omega
      · exact stay (by simp only [cstep, hp]; rw [if_neg hc])
  | renewSlot pid t =>
    have h3 : (cstep cfg c (.renewSlot pid t)).s = c.s ∧ (cstep cfg c (.renewSlot pid t)).waiters = c.waiters ∧
        gives cfg k c (.renewSlot pid t) = false := by
      simp only [gives, cstep]
      cases c.holders.find? (fun h => h.pid = pid) with
      | none => simp
      | some x =>
        simp only
        split
        · refine ⟨rfl, rfl, ?_⟩
          simp only [decide_eq_false_iff_not, Nat.not_lt, List.countP_map]
          refine List.countP_mono_left (fun h _ hh => ?_)
          simp only [Function.comp] at hh
          split at hh <;> exact hh
        · simp
    rw [h3.1, h3.2.1, h3.2.2]
    simp [entered]
  | release pid t =>
    have h3 : weight T k (cstep cfg c (.release pid t)).s + waiting k (cstep cfg c (.release pid t)).waiters ≤ weight T k c.s + waiting k c.waiters ∧
        (cstep cfg c (.release pid t)).s.log = c.s.log ∧ gives cfg k c (.release pid t) = false := by
      simp only [gives, cstep]
      cases c.holders.find? (fun h => h.pid = pid) with
      | none => simp
      | some x =>
        simp only
        split
        · obtain ⟨c1, h1, h2, h3⟩ := release_s cfg c x.key t
          have h4 := wake_weight T cfg k c1 (by rw [h2]; exact hw) (by rw [h3]; exact ho.sorted)
          rw [h1]
          rw [h2, h3] at h4
          refine ⟨h4.1, h4.2.1, ?_⟩
          simp only [decide_eq_false_iff_not, Nat.not_lt]
          exact List.filter_sublist.countP_le
        · simp
    rw [h3.2.1, h3.2.2]
    have := h3.1
    simp only [entered, List.nil_append, Bool.false_eq_true, if_false]
    omega
  | scavenge t =>
    have h3 : weight T k (cstep cfg c (.scavenge t)).s + waiting k (cstep cfg c (.scavenge t)).waiters ≤ weight T k c.s + waiting k c.waiters ∧
        (cstep cfg c (.scavenge t)).s.log = c.s.log ∧ gives cfg k c (.scavenge t) = false := by
      simp only [gives, cstep]
      split
      · simp only [luaScavenge]
        split
        · simp
        · have h4 := wake_weight T cfg k (evict cfg c t) hw ho.sorted
          refine ⟨h4.1, h4.2.1, ?_⟩
          rw [h4.2.2]
          simp [evict]
      · simp
    rw [h3.2.1, h3.2.2]
    have := h3.1
    simp only [entered, List.nil_append, Bool.false_eq_true, if_false]
    omega
  | cleanupRead k' =>
    have h3 : (cstep cfg c (.cleanupRead k')).s = c.s ∧ (cstep cfg c (.cleanupRead k')).waiters = c.waiters ∧
        (cstep cfg c (.cleanupRead k')).holding = c.holding := by
      simp only [cstep]
      split
      · cases (c.s.r.runs k').bind (·.waiter) <;> exact ⟨rfl, rfl, rfl⟩
      · exact ⟨rfl, rfl, rfl⟩
    rw [h3.1, h3.2.1, same _ h3.2.2 rfl]
    simp [entered]
  | cleanupWrite k' e =>
    have h3 : weight T k (cstep cfg c (.cleanupWrite k' e)).s = weight T k c.s ∧
        waiting k (cstep cfg c (.cleanupWrite k' e)).waiters ≤ waiting k c.waiters ∧
        (cstep cfg c (.cleanupWrite k' e)).s.log = c.s.log ∧
        (cstep cfg c (.cleanupWrite k' e)).holding = c.holding := by
      simp only [cstep]
      split
      · exact ⟨rfl, List.filter_sublist.countP_le, rfl, rfl⟩
      · exact ⟨rfl, Nat.le_refl _, rfl, rfl⟩
    have := h3.2.1
    simp only [entered, List.nil_append]
    rw [h3.1, h3.2.2.1, same _ h3.2.2.2 rfl]
    simp only [Bool.false_eq_true, if_false]
    omega

theorem limit_run (cfg : CCfg) (k : Key) (ops : List COp) : ∀ (T : List Nat) (c : CSys), WF c.s → WaitOK c →
    (entering ops).Nodup → (∀ x ∈ entering ops, x ∉ T) →
    slotsGiven cfg k c ops + (acceptances (fun m => m.key = k) c.s.log + lapses (fun m => m.key = k) c.s.log) ≤
    weight T k c.s + waiting k c.waiters +
      (acceptances (fun m => m.key = k) (crunFrom cfg c ops).s.log + lapses (fun m => m.key = k) (crunFrom cfg c ops).s.log) := by
  induction ops with
  | nil => intro T c _ _ _ _; simp [slotsGiven]
  | cons op ops ih =>
    intro T c hw ho hn hT
    have he : entering (op :: ops) = entered op ++ entering ops := by
      cases op <;> simp [entering, entered]
    rw [he] at hn hT
    have h1 := limit_step cfg k T hw ho op (fun x hx => hT x (List.mem_append_left _ hx))
    have h2 := ih (entered op ++ T) (cstep cfg c op) (CSys.wf_step cfg hw op) (ho.step cfg hw op)
      (List.nodup_append.1 hn).2.1 (by
        intro x hx hx'
        rcases List.mem_append.1 hx' with h | h
        · exact (List.nodup_append.1 hn).2.2 x h x hx rfl
        · exact hT x (List.mem_append_right _ hx) h)
    simp only [slotsGiven, crunFrom_cons]
    omega

/-- **C111**: under a concurrency limit a task is parked and queued again any number of times, and
still in every history a task of the key is given a slot at most as often as one was accepted, plus
the number of times the lease of one lapsed. -/
theorem C111_limit_slots (cfg : CCfg) (ops : List COp) (k : Key) (hn : (entering ops).Nodup) :
    slotsGiven cfg k {} ops ≤
      acceptances (fun m => m.key = k) (crun cfg ops).s.log + lapses (fun m => m.key = k) (crun cfg ops).s.log := by
  have h := limit_run cfg k ops [] {} WF.init (WaitOK.run cfg []) hn (by simp)
  have z : weight [] k ({} : CSys).s = 0 := rfl
  have z2 : waiting k ({} : CSys).waiters = 0 := rfl
  rw [z, z2] at h
  have e : crun cfg ops = crunFrom cfg {} ops := rfl
  rw [e]
  omega

/-- **C111**: so a task added once, whose lease never lapsed, gets past the limit at most once. -/
theorem C111_limit_once (cfg : CCfg) (ops : List COp) (k : Key) (hn : (entering ops).Nodup)
    (ha : acceptances (fun m => m.key = k) (crun cfg ops).s.log = 1)
    (hl : lapses (fun m => m.key = k) (crun cfg ops).s.log = 0) : slotsGiven cfg k {} ops ≤ 1 := by
  have h := C111_limit_slots cfg ops k hn
  omega

/-- Two tasks and one slot: "b" is parked, woken, and claimed a second time, and each task gets
the slot once. -/
example : let ops : List COp := [.core (.add "a" ⟨"f", "x", "y", 0, 1⟩ 0), .core (.add "b" ⟨"f", "x", "y", 0, 1⟩ 0),
      .core (.poll "w" 2), .core (.claim 0), .core (.claim 1), .acquire 0 0, .acquire 1 0, .release 0 0,
      .core (.finish 0 .completed none false), .core (.poll "w" 1), .core (.claim 2), .acquire 2 0]
    (entering ops).Nodup ∧ slotsGiven ⟨⟨0, 100⟩, 1⟩ "a" {} ops = 1 ∧ slotsGiven ⟨⟨0, 100⟩, 1⟩ "b" {} ops = 1 ∧
    starts (fun m => m.key = "b") (crun ⟨⟨0, 100⟩, 1⟩ ops).s.log = 2 ∧
    acceptances (fun m => m.key = "b") (crun ⟨⟨0, 100⟩, 1⟩ ops).s.log = 1 ∧
    lapses (fun m => m.key = "b") (crun ⟨⟨0, 100⟩, 1⟩ ops).s.log = 0 := by
  decide +kernel

end Docket.Once
