import Verif.Core.WFStep
import Verif.Core.Spec

/-!
# C111: a task is not started more often than it was asked for

Read off the history alone: how often tasks were accepted (`add`, `replace`, a retry, a perpetual
rescheduling), how often a lease lapsed and the message was handed out again, and how often a task
was started.  `P` says which tasks are counted.
-/
namespace Docket.Once
open Docket Redis

/-- How often such a task was started. -/
def starts (P : Msg → Bool) (log : List Event) : Nat :=
  log.countP fun
    | .started _ _ m _ => P m
    | _ => false

/-- How often such a task was accepted. -/
def acceptances (P : Msg → Bool) (log : List Event) : Nat :=
  log.countP fun
    | .accepted m => P m
    | _ => false

/-- How often such a task was taken from a worker whose lease had lapsed. -/
def lapses (P : Msg → Bool) (log : List Event) : Nat :=
  log.countP fun
    | .handed _ _ _ true _ m => P m
    | _ => false

/-- What can still be started without a lapse: messages nobody has been given, the parked message
of the key, and those that were handed out and not yet started. -/
def fresh (P : Msg → Bool) (s : Sys) : Nat :=
  s.r.stream.countP (fun e => decide (s.r.lastDelivered < e.1) && P e.2)

def parkedCount (P : Msg → Bool) (k : Key) (s : Sys) : Nat := (s.r.parked k).toList.countP P

def held (P : Msg → Bool) (s : Sys) : Nat :=
  s.procs.countP (fun p => decide (p.phase = .handed) && P p.msg)

def Counted (P : Msg → Bool) (k : Key) (s : Sys) : Prop :=
  fresh P s + parkedCount P k s + held P s + starts P s.log ≤ acceptances P s.log + lapses P s.log

theorem dropOwn_sublist (r : Redis) (k : Key) : (dropOwn r k).Sublist r.stream := by
  unfold dropOwn
  split
  · exact List.filter_sublist
  · exact List.Sublist.refl _

theorem count_numbered (P : Msg → Bool) (ld i : MsgId) (h : ld < i) (ms : List Msg) :
    (numbered i ms).countP (fun e => decide (ld < e.1) && P e.2) = ms.countP P := by
  induction ms generalizing i with
  | nil => rfl
  | cons m ms ih =>
    simp only [numbered, List.countP_cons, ih (i + 1) (by omega), decide_eq_true h, Bool.true_and]

theorem count_due (P : Msg → Bool) (k : Key) (hP : ∀ m, P m = true → m.key = k) (f : Key → Option Msg)
    (hf : ∀ x m, f x = some m → m.key = x) (ks : List Key) (hn : ks.Nodup) :
    (ks.filterMap f).countP P ≤ if k ∈ ks then (f k).toList.countP P else 0 := by
  induction ks with
  | nil => simp
  | cons x ks ih =>
    have hn' := List.nodup_cons.1 hn
    have ih := ih hn'.2
    by_cases hx : x = k
    · subst hx
      rw [if_neg hn'.1] at ih
      simp only [List.mem_cons, true_or, if_true]
      cases hfx : f x with
      | none => simpa [hfx] using ih
      | some m =>
        simp only [List.filterMap_cons, hfx, List.countP_cons, Option.toList_some, List.countP_nil] at ih ⊢
        omega
    · have hmem : (k ∈ x :: ks) = (k ∈ ks) := by
        simp only [List.mem_cons, eq_iff_iff, or_iff_right_iff_imp]
        exact fun h => absurd h.symm hx
      simp only [hmem]
      cases hfx : f x with
      | none => simpa [hfx] using ih
      | some m =>
        have hPm : P m = false := by
          cases h : P m with
          | false => rfl
          | true => exact absurd (by rw [← hf x m hfx, hP m h]) hx
        simpa [List.filterMap_cons, hfx, List.countP_cons, hPm] using ih

theorem held_newProcs (P : Msg → Bool) (pid : Nat) (w : WorkerName) (red : Bool) (ms : List (MsgId × Msg)) :
    (newProcs pid w red ms).countP (fun p => decide (p.phase = .handed) && P p.msg) = ms.countP (fun e => P e.2) := by
  induction ms generalizing pid with
  | nil => rfl
  | cons e es ih => simp [newProcs, List.countP_cons, ih]

theorem log_newHanded (P : Msg → Bool) (pid : Nat) (w : WorkerName) (t : Time) (ms : List (MsgId × Msg)) (l : List Event) :
    starts P ((newHanded pid w false t ms).reverse ++ l) = starts P l ∧
    acceptances P ((newHanded pid w false t ms).reverse ++ l) = acceptances P l ∧
    lapses P ((newHanded pid w false t ms).reverse ++ l) = lapses P l := by
  have h : ∀ e ∈ (newHanded pid w false t ms).reverse, ∃ p i m, e = .handed p i w false t m := by
    intro e he
    rw [List.mem_reverse] at he
    induction ms generalizing pid with
    | nil => cases he
    | cons x xs ih =>
      simp only [newHanded, List.mem_cons] at he
      rcases he with rfl | he
      · exact ⟨_, _, _, rfl⟩
      · exact ih _ he
  have z : ∀ f : Event → Bool, (∀ p i m, f (.handed p i w false t m) = false) →
      ((newHanded pid w false t ms).reverse ++ l).countP f = l.countP f := by
    intro f hf
    rw [List.countP_append, List.countP_eq_zero.2, Nat.zero_add]
    intro e he
    obtain ⟨p, i, m, rfl⟩ := h e he
    simp [hf]
  exact ⟨z _ (fun _ _ _ => rfl), z _ (fun _ _ _ => rfl), z _ (fun _ _ _ => rfl)⟩

theorem held_phase (P : Msg → Bool) (ps : List Proc) (p : Proc) (hp : p ∈ ps) (hph : p.phase = .handed) (ph : Phase)
    (hne : ph ≠ .handed) :
    (ps.map (fun x => if x.pid = p.pid then { x with phase := ph } else x)).countP
        (fun x => decide (x.phase = .handed) && P x.msg) + (if P p.msg then 1 else 0) ≤
      ps.countP (fun x => decide (x.phase = .handed) && P x.msg) := by
  have one : ∀ x : Proc, (decide ((if x.pid = p.pid then { x with phase := ph } else x).phase = .handed) &&
      P (if x.pid = p.pid then { x with phase := ph } else x).msg) = true →
      (decide (x.phase = .handed) && P x.msg) = true := by
    intro x
    split
    · simp [hne]
    · exact id
  have le : ∀ l : List Proc, (l.map (fun x => if x.pid = p.pid then { x with phase := ph } else x)).countP
        (fun x => decide (x.phase = .handed) && P x.msg) ≤
      l.countP (fun x => decide (x.phase = .handed) && P x.msg) := by
    intro l
    rw [List.countP_map]
    exact List.countP_mono_left (fun x _ => one x)
  induction ps with
  | nil => cases hp
  | cons x xs ih =>
    simp only [List.map_cons, List.countP_cons]
    rcases List.mem_cons.1 hp with rfl | hp
    · have := le xs
      simp only [if_true, hph, hne, decide_true, decide_false, Bool.true_and, Bool.false_and, Bool.false_eq_true, if_false]
      omega
    · have := ih hp
      have h1 := one x
      by_cases hx : (decide ((if x.pid = p.pid then { x with phase := ph } else x).phase = .handed) &&
          P (if x.pid = p.pid then { x with phase := ph } else x).msg) = true
      · rw [if_pos hx, if_pos (h1 hx)]; omega
      · rw [if_neg hx]; omega

/-- What is read off the stream is no longer fresh. -/
theorem count_poll (P : Msg → Bool) (st : List (MsgId × Msg)) (ld : MsgId) (n : Nat) (new : List (MsgId × Msg))
    (hs : st.Pairwise (fun a b => a.1 < b.1))
    (hnew : new = (st.filter (fun e => ld < e.1)).take n) :
    st.countP (fun e => decide ((new.getLast?.map (·.1)).getD ld < e.1) && P e.2) + new.countP (fun e => P e.2) ≤
      st.countP (fun e => decide (ld < e.1) && P e.2) := by
  have hU : st.countP (fun e => decide (ld < e.1) && P e.2) = (st.filter (fun e => ld < e.1)).countP (fun e => P e.2) := by
    rw [List.countP_filter]
    exact List.countP_congr (fun x _ => by simp [and_comm])
  generalize hu : st.filter (fun e => ld < e.1) = U at *
  have hsplit : U.countP (fun e => P e.2) = new.countP (fun e => P e.2) + (U.drop n).countP (fun e => P e.2) := by
    rw [hnew, ← List.countP_append, List.take_append_drop]
  rw [hU, hsplit]
  have hld : ld ≤ (new.getLast?.map (·.1)).getD ld := by
    cases hl : new.getLast? with
    | none => exact Nat.le_refl _
    | some e =>
      have : e ∈ U := List.mem_of_mem_take (hnew ▸ List.mem_of_getLast? hl)
      rw [← hu, List.mem_filter] at this
      exact Nat.le_of_lt (by simpa using this.2)
  have hle : st.countP (fun e => decide ((new.getLast?.map (·.1)).getD ld < e.1) && P e.2) ≤
      U.countP (fun e => decide ((new.getLast?.map (·.1)).getD ld < e.1) && P e.2) := by
    rw [← hu, List.countP_filter]
    refine List.countP_mono_left (fun x _ h => ?_)
    simp only [Bool.and_eq_true, decide_eq_true_eq] at h ⊢
    exact ⟨h, Nat.lt_of_le_of_lt hld h.1⟩
  have hA : new.countP (fun e => decide ((new.getLast?.map (·.1)).getD ld < e.1) && P e.2) = 0 := by
    rw [List.countP_eq_zero]
    intro x hx
    have hsort : new.Pairwise (fun a b => a.1 < b.1) := by
      rw [hnew, ← hu]; exact (hs.filter _).sublist (List.take_sublist _ _)
    obtain ⟨l, hl⟩ : ∃ l, new.getLast? = some l := by
      cases h : new.getLast? with
      | none => rw [List.getLast?_eq_none_iff.1 h] at hx; cases hx
      | some l => exact ⟨l, rfl⟩
    have hxl : x.1 ≤ l.1 := by
      obtain ⟨ys, hys⟩ := List.getLast?_eq_some_iff.1 hl
      rw [hys] at hx hsort
      rcases List.mem_append.1 hx with h | h
      · exact Nat.le_of_lt ((List.pairwise_append.1 hsort).2.2 x h l (List.mem_singleton_self _))
      · rw [List.mem_singleton.1 h]; exact Nat.le_refl _
    simp only [hl, Option.map_some, Option.getD_some, Bool.and_eq_true, decide_eq_true_eq, not_and]
    intro h
    omega
  have hUle : U.countP (fun e => decide ((new.getLast?.map (·.1)).getD ld < e.1) && P e.2) ≤ (U.drop n).countP (fun e => P e.2) := by
    conv => lhs; rw [← List.take_append_drop n U, ← hnew]
    rw [List.countP_append, hA, Nat.zero_add]
    exact List.countP_mono_left (fun x _ h => by simp only [Bool.and_eq_true] at h; exact h.2)
  omega

theorem parkedCount_upd_le (P : Msg → Bool) (k k' : Key) (f : Key → Option Msg) (m : Msg) :
    ((upd f k' (some m)) k).toList.countP P ≤ (f k).toList.countP P + if P m then 1 else 0 := by
  by_cases h : k = k'
  · subst h
    simp [List.countP_cons]
  · rw [upd_other _ _ _ _ h]; omega

theorem parkedCount_none_le (P : Msg → Bool) (k k' : Key) (f : Key → Option Msg) :
    ((upd f k' none) k).toList.countP P ≤ (f k).toList.countP P := by
  by_cases h : k = k'
  · subst h; simp
  · rw [upd_other _ _ _ _ h]; exact Nat.le_refl _

theorem Counted.step {cfg : Cfg} {P : Msg → Bool} {k : Key} (hP : ∀ m, P m = true → m.key = k) {s : Sys} (hw : WF s)
    (h : Counted P k s) (op : Op) : Counted P k (Docket.step cfg s op) := by
  have hld := hw.stream.ldlt
  have hsub : ∀ {st : List (MsgId × Msg)}, st.Sublist s.r.stream →
      st.countP (fun e => decide (s.r.lastDelivered < e.1) && P e.2) ≤ fresh P s := fun h => h.countP_le
  have hadd : ∀ m : Msg, [(s.r.nextId, m)].countP (fun e => decide (s.r.lastDelivered < e.1) && P e.2) = if P m then 1 else 0 := by
    intro m
    simp [List.countP_cons, hld]
  have hpr : ∀ {ps : List Proc}, ps.Sublist s.procs →
      ps.countP (fun p => decide (p.phase = .handed) && P p.msg) ≤ held P s := fun h => h.countP_le
  unfold Counted at h
  have heff := step_eff cfg s hw.queue op
  generalize Docket.step cfg s op = s' at heff ⊢
  unfold Counted
  cases heff with
  | nop => exact h
  | tick d => exact h
  | addNow k' q t _ _ _ =>
    have e1 := hadd ⟨k', q, s.r.nextGen k'⟩
    simp only [fresh, parkedCount, held, starts, acceptances, lapses, List.countP_append, List.countP_cons, Bool.false_eq_true, if_false] at h e1 ⊢
    omega
  | addLater k' q t _ _ _ =>
    have e1 := parkedCount_upd_le P k k' s.r.parked ⟨k', q, s.r.nextGen k'⟩
    simp only [fresh, parkedCount, held, starts, acceptances, lapses, List.countP_cons, Bool.false_eq_true, if_false] at h e1 ⊢
    omega
  | replaceNow k' q t _ _ =>
    have e1 := hadd ⟨k', q, s.r.nextGen k'⟩
    have e2 := hsub (dropOwn_sublist s.r k')
    have e3 := parkedCount_none_le P k k' s.r.parked
    simp only [fresh, parkedCount, held, starts, acceptances, lapses, List.countP_append, List.countP_cons, Bool.false_eq_true, if_false] at h e1 e2 e3 ⊢
    omega
  | replaceLater k' q t _ _ =>
    have e1 := parkedCount_upd_le P k k' s.r.parked ⟨k', q, s.r.nextGen k'⟩
    have e2 := hsub (dropOwn_sublist s.r k')
    simp only [fresh, parkedCount, held, starts, acceptances, lapses, List.countP_cons, Bool.false_eq_true, if_false] at h e1 e2 ⊢
    omega
  | cancel k' =>
    have e2 := hsub (dropOwn_sublist s.r k')
    have e3 := parkedCount_none_le P k k' s.r.parked
    simp only [fresh, parkedCount, held, starts, acceptances, lapses, List.countP_cons, Bool.false_eq_true, if_false] at h e2 e3 ⊢
    omega
  | cancelTtl k' _ => exact h
  | clear op j js _ =>
    have e2 : (if j.streamCount > 0 then [] else s.r.stream).countP (fun e => decide (s.r.lastDelivered < e.1) && P e.2) ≤ fresh P s := by
      split
      · simp
      · exact Nat.le_refl _
    have e3 : (if k ∈ j.scheduledKeys then none else s.r.parked k).toList.countP P ≤ (s.r.parked k).toList.countP P := by
      split
      · simp
      · exact Nat.le_refl _
    simp only [fresh, parkedCount, held, starts, acceptances, lapses, List.countP_cons, Bool.false_eq_true, if_false] at h e2 e3 ⊢
    omega
  | clearRead => exact h
  | schedule t _ =>
    have e1 := count_numbered P s.r.lastDelivered s.r.nextId hld ((dueKeys s.r t).filterMap s.r.parked)
    have e2 := count_due P k hP s.r.parked (fun x m hm => hw.queue.key x m hm) (dueKeys s.r t) (dueKeys_nodup hw.queue t)
    simp only [fresh, parkedCount, held, List.countP_append] at h ⊢
    rw [e1]
    by_cases hk : k ∈ dueKeys s.r t
    · simp only [hk, if_true, Option.toList_none, List.countP_nil] at e2 ⊢
      omega
    · simp only [hk, if_false] at e2 ⊢
      omega
  | poll w n new hnew =>
    obtain ⟨l1, l2, l3⟩ := log_newHanded P s.nextPid w s.r.now new s.log
    have e1 := count_poll P s.r.stream s.r.lastDelivered n new hw.stream.sorted hnew
    have e2 := held_newProcs P s.nextPid w false new
    rw [l1, l2, l3]
    simp only [fresh, parkedCount, held, List.countP_append, e2] at h ⊢
    omega
  | redeliver w p e _ _ _ _ =>
    simp only [fresh, parkedCount, held, starts, acceptances, lapses, List.countP_append, List.countP_cons, List.countP_nil,
      Bool.false_eq_true, if_false, decide_true, Bool.true_and] at h ⊢
    omega
  | forget id _ => exact h
  | renew w id _ _ =>
    simp only [fresh, parkedCount, held, starts, acceptances, lapses, List.countP_cons, Bool.false_eq_true, if_false] at h ⊢
    omega
  | crash w =>
    have e1 := hpr (ps := s.procs.filter (fun p => p.worker ≠ w)) List.filter_sublist
    simp only [fresh, parkedCount, held] at h e1 ⊢
    omega
  | abandon pid =>
    have e1 := hpr (ps := s.procs.filter (fun p => p.pid ≠ pid)) List.filter_sublist
    simp only [fresh, parkedCount, held] at h e1 ⊢
    omega
  | strikeOut p hp hph =>
    have e1 := held_phase P s.procs p hp hph .stricken (by decide)
    simp only [fresh, parkedCount, held, starts, acceptances, lapses, List.countP_cons, Bool.false_eq_true, if_false] at h ⊢
    omega
  | claimSuperseded p hp hph _ =>
    have e1 := hpr (ps := s.procs.filter (fun x => x.pid ≠ p.pid)) List.filter_sublist
    have e2 := hsub (st := s.r.stream.filter (fun e => e.1 ≠ p.id)) List.filter_sublist
    simp only [fresh, parkedCount, held] at h e1 e2 ⊢
    omega
  | claim p hp hph _ =>
    have e1 := held_phase P s.procs p hp hph .running (by decide)
    simp only [fresh, parkedCount, held, starts, acceptances, lapses, List.countP_cons, Bool.false_eq_true, if_false] at h ⊢
    omega
  | store p data _ _ _ => exact h
  | finish p st e w _ _ _ =>
    have e1 := hpr (ps := s.procs.filter (fun x => x.pid ≠ p.pid)) List.filter_sublist
    have e2 := hsub (st := s.r.stream.filter (fun e => e.1 ≠ p.id)) List.filter_sublist
    simp only [fresh, parkedCount, held, starts, acceptances, lapses, List.countP_cons, Bool.false_eq_true, if_false] at h e1 e2 ⊢
    omega
  | finishSuperseded p st e w _ _ _ =>
    have e1 := hpr (ps := s.procs.filter (fun x => x.pid ≠ p.pid)) List.filter_sublist
    have e2 := hsub (st := s.r.stream.filter (fun e => e.1 ≠ p.id)) List.filter_sublist
    simp only [fresh, parkedCount, held, starts, acceptances, lapses, List.countP_cons, Bool.false_eq_true, if_false] at h e1 e2 ⊢
    omega
  | rescheduleNow p t a d q _ _ _ _ _ =>
    have e0 := hadd ⟨p.msg.key, q, s.r.nextGen p.msg.key⟩
    have e1 := hpr (ps := s.procs.filter (fun x => x.pid ≠ p.pid)) List.filter_sublist
    have e2 := hsub (st := s.r.stream.filter (fun e => e.1 ≠ p.id)) List.filter_sublist
    simp only [fresh, parkedCount, held, starts, acceptances, lapses, List.countP_append, List.countP_cons, Bool.false_eq_true, if_false] at h e0 e1 e2 ⊢
    omega
  | rescheduleLater p t a d q _ _ _ _ _ =>
    have e0 := parkedCount_upd_le P k p.msg.key s.r.parked ⟨p.msg.key, q, s.r.nextGen p.msg.key⟩
    have e1 := hpr (ps := s.procs.filter (fun x => x.pid ≠ p.pid)) List.filter_sublist
    have e2 := hsub (st := s.r.stream.filter (fun e => e.1 ≠ p.id)) List.filter_sublist
    simp only [fresh, parkedCount, held, starts, acceptances, lapses, List.countP_cons, Bool.false_eq_true, if_false] at h e0 e1 e2 ⊢
    omega
  | prog op k' f _ => exact h

theorem Counted.run (cfg : Cfg) (P : Msg → Bool) (k : Key) (hP : ∀ m, P m = true → m.key = k) (ops : List Op) :
    Counted P k (Docket.run cfg ops) := by
  suffices h : ∀ s, WF s → Counted P k s → Counted P k (runFrom cfg s ops) from
    h {} WF.init (by simp [Counted, fresh, parkedCount, held, starts, acceptances, lapses])
  intro s hw h
  induction ops generalizing s with
  | nil => exact h
  | cons op ops ih => exact ih _ (hw.step op) (h.step hP hw op)

/-- **C111**: in every history, whatever crashes, is cancelled, replaced or cleared, the number of
times a task of the key was started is at most the number of times one was accepted, plus the
number of times the lease of one lapsed. -/
theorem C111_starts (cfg : Cfg) (ops : List Op) (k : Key) :
    starts (fun m => m.key = k) (run cfg ops).log ≤
      acceptances (fun m => m.key = k) (run cfg ops).log + lapses (fun m => m.key = k) (run cfg ops).log := by
  have h := Counted.run cfg (fun m => decide (m.key = k)) k (fun m hm => by simpa using hm) ops
  unfold Counted at h
  omega

/-- **C111**: the same for each scheduling by itself (the key with its request and the number the
docket gave it): each acceptance is good for one start, and each lapse of its lease for one more. -/
theorem C111_each_scheduling (cfg : Cfg) (ops : List Op) (m : Msg) :
    starts (fun m' => m' = m) (run cfg ops).log ≤
      acceptances (fun m' => m' = m) (run cfg ops).log + lapses (fun m' => m' = m) (run cfg ops).log := by
  have h := Counted.run cfg (fun m' => decide (m' = m)) m.key (fun m' hm => by rw [of_decide_eq_true hm]) ops
  unfold Counted at h
  omega

/-- **C111**: a task that was added once, and whose lease never lapsed, is started at most once. -/
theorem C111_added_once (cfg : Cfg) (ops : List Op) (k : Key)
    (ha : acceptances (fun m => m.key = k) (run cfg ops).log ≤ 1)
    (hl : ∀ op ∈ ops, ∀ w id, op ≠ .redeliver w id) :
    starts (fun m => m.key = k) (run cfg ops).log ≤ 1 := by
  have h := C111_starts cfg ops k
  have h0 : lapses (fun m => m.key = k) (run cfg ops).log = 0 := by
    suffices H : ∀ s, WF s → lapses (fun m => m.key = k) s.log = 0 →
        lapses (fun m => m.key = k) (runFrom cfg s ops).log = 0 from H {} WF.init rfl
    clear ha h
    induction ops with
    | nil => exact fun _ _ h => h
    | cons op ops ih =>
      intro s hw hs
      refine ih (fun o ho => hl o (List.mem_cons_of_mem _ ho)) _ (hw.step op) ?_
      have hop := hl op (List.mem_cons_self ..)
      have heff := step_eff cfg s hw.queue op
      generalize Docket.step cfg s op = s' at heff ⊢
      cases heff with
      | redeliver w p e _ _ _ _ => exact absurd rfl (hop w e.1)
      | poll w n new hnew => rw [(log_newHanded _ s.nextPid w s.r.now new s.log).2.2]; exact hs
      | _ => first
        | exact hs
        | (simp only [lapses, List.countP_cons, Bool.false_eq_true, if_false] at hs ⊢; omega)
  omega

/-- **C111**: what is still to come counts too: starts, messages nobody has been given, the parked
message and those handed out and not yet started are together no more than what was accepted or
lapsed.  So nothing is ever put into the docket twice for one acceptance. -/
theorem C111_nothing_doubled (cfg : Cfg) (ops : List Op) (k : Key) :
    ((run cfg ops).r.stream.filter (fun e => decide ((run cfg ops).r.lastDelivered < e.1) && decide (e.2.key = k))).length +
    (if ((run cfg ops).r.parked k).isSome then 1 else 0) +
    ((run cfg ops).procs.filter (fun p => decide (p.phase = .handed) && decide (p.msg.key = k))).length +
    starts (fun m => m.key = k) (run cfg ops).log ≤
      acceptances (fun m => m.key = k) (run cfg ops).log + lapses (fun m => m.key = k) (run cfg ops).log := by
  have h := Counted.run cfg (fun m => decide (m.key = k)) k (fun m hm => by simpa using hm) ops
  have hp : parkedCount (fun m => decide (m.key = k)) k (run cfg ops) = if ((run cfg ops).r.parked k).isSome then 1 else 0 := by
    unfold parkedCount
    cases hk : (run cfg ops).r.parked k with
    | none => rfl
    | some m => simp [(WF.run cfg ops).queue.key k m hk]
  unfold Counted fresh held at h
  rw [hp, List.countP_eq_length_filter, List.countP_eq_length_filter] at h
  exact h

/-- The bound is reached: added, retried, and taken over from a worker that crashed, a task is
accepted twice, lapses once and is started three times. -/
def thrice : List Op :=
  [.add "k" ⟨"f", "a", "b", 0, 1⟩ 0, .poll "w" 1, .claim 0, .reschedule 0 0 2 0, .poll "w" 1, .claim 1, .crash "w",
   .tick 3, .redeliver "v" 2, .claim 2]

example : starts (fun m => m.key = "k") (run ⟨10, 3⟩ thrice).log = 3 ∧
    acceptances (fun m => m.key = "k") (run ⟨10, 3⟩ thrice).log = 2 ∧
    lapses (fun m => m.key = "k") (run ⟨10, 3⟩ thrice).log = 1 := by decide +kernel

/-- A task that was added once, for later, and started. -/
example : let ops : List Op := [.add "k" ⟨"f", "a", "b", 5, 1⟩ 0, .tick 5, .schedule 5, .poll "w" 1, .claim 0]
    acceptances (fun m => m.key = "k") (run ⟨10, 3⟩ ops).log = 1 ∧ starts (fun m => m.key = "k") (run ⟨10, 3⟩ ops).log = 1 := by
  decide +kernel

end Docket.Once
