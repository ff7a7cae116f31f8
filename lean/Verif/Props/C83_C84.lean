import Verif.Worker.Cron
import Verif.Props.C01_C04
import Verif.Core.Pids
/-
C83 An automatic Cron task is always scheduled for the next matching time.
C84 A Cron task is scheduled at most once for each matching time.
-/
namespace Docket.Cron
open Docket Docket.Perpetuals

/-! ### What the statements are about -/

/-- `u` is the first matching time after `t`. -/
def FirstAfter (S : Schedule) (t u : Nat) : Prop :=
  S.hits u ∧ t < u ∧ ∀ v, t < v → v < u → ¬ S.hits v

/-- `u` is the `n`-th matching time after `t`. -/
def NthAfter (S : Schedule) (t : Nat) : Nat → Nat → Prop
  | 0, u => u = t
  | n + 1, u => ∃ v, NthAfter S t n v ∧ FirstAfter S v u

/-- No time in `(a, b]` matches. -/
def NoneIn (S : Schedule) (a b : Nat) : Prop := ∀ v, a < v → v ≤ b → ¬ S.hits v

/-- Every event of the history satisfies `P` in the state it happens in. -/
def EachEv (cfg : Cfg) (S : Schedule) (f : String) (P : St → Ev → Prop) : St → List Ev → Prop
  | _, [] => True
  | st, e :: es => P st e ∧ EachEv cfg S f P (st.step cfg S f e) es

/-- `P` holds in every state on the way. -/
def Always (cfg : Cfg) (S : Schedule) (f : String) (P : St → Prop) : St → List Ev → Prop
  | st, [] => P st
  | st, e :: es => P st ∧ Always cfg S f P (st.step cfg S f e) es

/-- The tasks accepted under `k`, newest first. -/
def accs (k : Key) (l : List Event) : List Msg :=
  l.filterMap (fun e => match e with | .accepted m => if m.key = k then some m else none | _ => none)

/-- Nobody but the seeding and the completion handler schedules anything under the name of the
task: no `add` or `replace` with this key, and no retry or admission block of one of its
executions. -/
def OnlyCron (f : String) (st : St) : Ev → Prop
  | .op (.add k _ _) => k ≠ f
  | .op (.replace k _ _) => k ≠ f
  | .op (.reschedule pid _ _ _) => ∀ p ∈ st.sys.procs, p.pid = pid → p.msg.key ≠ f
  | _ => True

/-- The record says that the task is scheduled or queued, or that it is running. -/
def There (s : Sys) (k : Key) : Prop :=
  ∃ v ∈ s.r.runs k, v.known.isSome ∨ v.state = some .running

instance (s : Sys) (k : Key) : Decidable (There s k) := by unfold There; infer_instance

/-- In this event process `h` seeds and finds the task missing. -/
def Misses (f : String) (h : Nat) (st : St) : Ev → Prop
  | .look h' lock => h' = h ∧ lock = true ∧ ¬ There st.sys f
  | _ => False

instance (f : String) (h : Nat) (st : St) (e : Ev) : Decidable (Misses f h st e) := by
  unfold Misses; split <;> infer_instance

/-- How often process `h` has seeded and found the task missing. -/
def missed (cfg : Cfg) (S : Schedule) (f : String) (h : Nat) : St → List Ev → Nat
  | _, [] => 0
  | st, e :: es =>
    (if Misses f h st e then 1 else 0) + missed cfg S f h (st.step cfg S f e) es

/-- The event is none of process `h`'s own. -/
def NotBy (h : Nat) : Ev → Prop
  | .start h' | .look h' _ | .sow h' _ => h' ≠ h
  | _ => True

def NotStart (h : Nat) : Ev → Prop
  | .start h' => h' ≠ h
  | _ => True

/-- Once the task has been scheduled it is there: scheduled, queued or running, with its record. -/
def Kept (f : String) (st : St) : Prop :=
  accs f st.sys.log ≠ [] → There st.sys f ∧ HasRecord st.sys f

instance decEachEv (cfg : Cfg) (S : Schedule) (f : String) (P : St → Ev → Prop)
    [∀ st e, Decidable (P st e)] : ∀ st es, Decidable (EachEv cfg S f P st es)
  | _, [] => by unfold EachEv; infer_instance
  | st, e :: es =>
    have := decEachEv cfg S f P (st.step cfg S f e) es
    by unfold EachEv; infer_instance

instance decAlways (cfg : Cfg) (S : Schedule) (f : String) (P : St → Prop) [DecidablePred P] :
    ∀ st es, Decidable (Always cfg S f P st es)
  | st, [] => by unfold Always; infer_instance
  | st, e :: es =>
    have := decAlways cfg S f P (st.step cfg S f e) es
    by unfold Always; infer_instance

instance (f : String) (st : St) (e : Ev) : Decidable (OnlyCron f st e) := by
  unfold OnlyCron; split <;> infer_instance
instance (h : Nat) (e : Ev) : Decidable (NotBy h e) := by unfold NotBy; split <;> infer_instance
instance (h : Nat) (e : Ev) : Decidable (NotStart h e) := by unfold NotStart; split <;> infer_instance
instance (f : String) (st : St) : Decidable (Kept f st) := by unfold Kept; infer_instance

/-! ### Core facts -/

theorem there_iff (s : Sys) (k : Key) : Seed.isLive s k = true ↔ There s k := by
  unfold Seed.isLive There Redis.knownOf Redis.stateOf
  cases h : s.r.runs k with
  | none => simp
  | some v => simp

theorem not_there (s : Sys) (k : Key) (h : ¬ There s k) : Seed.isLive s k = false := by
  rw [← there_iff] at h; simpa using h

theorem next_first (S : Schedule) (t : Nat) : FirstAfter S t (S.next t) :=
  ⟨S.isHit t, S.after t, S.isFirst t⟩

theorem FirstAfter.later {S : Schedule} {a b u : Nat} (h : FirstAfter S a u) (hab : a ≤ b)
    (hn : NoneIn S a b) : FirstAfter S b u := by
  have hb : b < u := by
    apply Nat.lt_of_not_le
    intro hle
    exact hn u h.2.1 hle h.1
  exact ⟨h.1, hb, fun v h1 h2 => h.2.2 v (by omega) h2⟩

/-- Where an accepted task comes from. -/
def Asks (s : Sys) (op : Op) (m : Msg) : Prop :=
  (∃ t, op = .add m.key m.req t ∧ scheduleExists s.r m.key = false) ∨
  (∃ t, op = .replace m.key m.req t) ∨
  ∃ p ∈ s.procs, ∃ t a d, op = .reschedule p.pid t a d ∧ p.msg.key = m.key

theorem accs_handed (k : Key) (pid : Nat) (w : WorkerName) (red : Bool) (t : Time)
    (ms : List (MsgId × Msg)) (l : List Event) :
    accs k ((newHanded pid w red t ms).reverse ++ l) = accs k l := by
  unfold accs
  rw [List.filterMap_append]
  have : List.filterMap (fun e => match e with
      | Event.accepted m => if m.key = k then some m else none | _ => none)
      (newHanded pid w red t ms).reverse = [] := by
    rw [List.filterMap_eq_nil_iff]
    intro e he
    rw [List.mem_reverse] at he
    obtain ⟨p, x, heq, _⟩ := mem_newHanded he
    subst heq; rfl
  rw [this, List.nil_append]

theorem accs_cons (k : Key) (m : Msg) (l : List Event) :
    accs k (.accepted m :: l) = if m.key = k then m :: accs k l else accs k l := by
  unfold accs
  rw [List.filterMap_cons]
  by_cases h : m.key = k <;> simp [h]

theorem acc_step (cfg : Cfg) {s : Sys} (hw : WF s) (op : Op) (k : Key) :
    accs k (step cfg s op).log = accs k s.log ∨
    ∃ m, (step cfg s op).log = .accepted m :: s.log ∧ m.key = k ∧ Asks s op m := by
  have he := step_eff cfg s hw.queue op
  generalize Docket.step cfg s op = s' at he
  have hc : ∀ m : Msg, Asks s op m → accs k (.accepted m :: s.log) = accs k s.log ∨
      ∃ m', Event.accepted m :: s.log = .accepted m' :: s.log ∧ m'.key = k ∧ Asks s op m' := by
    intro m ha
    by_cases hk : m.key = k
    · exact Or.inr ⟨m, rfl, hk, ha⟩
    · left; rw [accs_cons, if_neg hk]
  cases he with
  | addNow k' q t ht hwh hx => exact hc _ (Or.inl ⟨t, rfl, hx⟩)
  | addLater k' q t ht hwh hx => exact hc _ (Or.inl ⟨t, rfl, hx⟩)
  | replaceNow k' q t => exact hc _ (Or.inr (Or.inl ⟨t, rfl⟩))
  | replaceLater k' q t => exact hc _ (Or.inr (Or.inl ⟨t, rfl⟩))
  | rescheduleNow p t a d q hp => exact hc _ (Or.inr (Or.inr ⟨p, hp, t, a, d, rfl, rfl⟩))
  | rescheduleLater p t a d q hp => exact hc _ (Or.inr (Or.inr ⟨p, hp, t, a, d, rfl, rfl⟩))
  | poll w n new => left; exact accs_handed ..
  | _ => left; rfl

/-- The docket of every state of a history is one the docket model reaches. -/
def Reached (cfg : Cfg) (s : Sys) : Prop := ∃ ops, s = Docket.run cfg ops

theorem Reached.runFrom {cfg : Cfg} {s : Sys} (h : Reached cfg s) (ops : List Op) :
    Reached cfg (Docket.runFrom cfg s ops) := by
  obtain ⟨o, rfl⟩ := h
  exact ⟨o ++ ops, by rw [Docket.run, Docket.run, runFrom_append]⟩

theorem Reached.op {cfg : Cfg} {s : Sys} (h : Reached cfg s) (o : Op) :
    Reached cfg (Docket.step cfg s o) := h.runFrom [o]

theorem Reached.wf {cfg : Cfg} {s : Sys} (h : Reached cfg s) : WF s := by
  obtain ⟨o, rfl⟩ := h; exact WF.run cfg o
theorem Reached.origin {cfg : Cfg} {s : Sys} (h : Reached cfg s) : OriginInv s := by
  obtain ⟨o, rfl⟩ := h; exact OriginInv.run cfg o
theorem Reached.time {cfg : Cfg} {s : Sys} (h : Reached cfg s) : TimeOK s := by
  obtain ⟨o, rfl⟩ := h; exact TimeOK.run cfg o

/-- What an event does to the docket. -/
theorem sys_step (cfg : Cfg) (S : Schedule) (f : String) (st : St) (e : Ev) :
    (∃ o, e = .op o ∧ (st.step cfg S f e).sys = Docket.step cfg st.sys o) ∨
    (st.step cfg S f e).sys = st.sys ∨
    (∃ h w, e = .sow h false ∧ st.chosen h = some w ∧
      (st.step cfg S f e).sys = Docket.step cfg st.sys (.add f ⟨f, "", "", w, 1⟩ st.sys.r.now)) ∨
    (∃ p b i x, e = .again p.pid i x ∧ p ∈ st.sys.procs ∧ p.phase = .running ∧
      st.entered p.pid = some b ∧
      ((x = false ∧ i.cancelled = false ∧ supersededNow st.sys p.msg = false ∧
        (st.step cfg S f e).sys = Docket.step cfg st.sys
          (.replace p.msg.key (againRequest p.msg i (S.next b)) st.sys.r.now)) ∨
       (i.cancelled = true ∧
        (st.step cfg S f e).sys = runFrom cfg st.sys [.cancel p.msg.key, .cancelTtl p.msg.key]))) := by
  cases e with
  | op o => exact Or.inl ⟨o, rfl, rfl⟩
  | start h => exact Or.inr (Or.inl rfl)
  | look h lock =>
    right; left
    change (look S f st h lock).sys = st.sys
    unfold look
    split
    · rfl
    · split <;> rfl
  | sow h stricken =>
    right
    change (sow cfg f st h stricken).sys = _ ∨ _
    cases hc : st.chosen h with
    | none => left; unfold sow; rw [hc]
    | some w =>
      cases stricken with
      | true => left; unfold sow; rw [hc]; rfl
      | false =>
        right; left
        refine ⟨h, w, rfl, hc, ?_⟩
        change (sow cfg f st h false).sys = _
        unfold sow; rw [hc]; rfl
  | enter pid =>
    right; left
    change (enter f st pid).sys = st.sys
    unfold enter
    split
    · rfl
    · split <;> rfl
  | again pid i x =>
    right
    change (again cfg S st pid i x).sys = _ ∨ _
    have hdef : ∀ e', e' = Ev.again pid i x →
      St.step cfg S f st e' = again cfg S st pid i x := by rintro _ rfl; rfl
    cases hp : st.sys.proc? pid with
    | none => left; unfold again; rw [hp]
    | some p =>
      cases hb : st.entered pid with
      | none => left; unfold again; rw [hp, hb]
      | some b =>
        obtain ⟨hmem, rfl⟩ := find_pid hp
        by_cases hph : p.phase = .running ∧ p.pid ∉ st.over
        · have hs : (again cfg S st p.pid i x).sys = runFrom cfg st.sys
              (doings st.sys p.msg i x (cronComplete st.sys p.msg i (S.next b) 0)) := by
            unfold again; rw [hp, hb]; simp only [hph, not_false_eq_true, and_self, if_true]
          rw [hdef _ rfl, hs]
          unfold cronComplete onComplete Inst.at_ nextTime
          dsimp only
          cases hcan : i.cancelled with
          | true =>
            right; right
            exact ⟨p, b, i, x, rfl, hmem, hph.1, hb, Or.inr ⟨hcan, rfl⟩⟩
          | false =>
            cases hsup : supersededNow st.sys p.msg with
            | true => left; rfl
            | false =>
              cases x with
              | true => left; rfl
              | false =>
                right; right
                exact ⟨p, b, i, false, rfl, hmem, hph.1, hb, Or.inl ⟨rfl, hcan, hsup, rfl⟩⟩
        · left
          unfold again; rw [hp, hb]; simp only [hph, if_false]

theorem Reached.step {cfg : Cfg} {S : Schedule} {f : String} {st : St} (h : Reached cfg st.sys)
    (e : Ev) : Reached cfg (st.step cfg S f e).sys := by
  rcases sys_step cfg S f st e with ⟨o, _, h1⟩ | h1 | ⟨_, _, _, _, h1⟩ |
    ⟨_, _, _, _, _, _, _, _, ⟨_, _, _, h1⟩ | ⟨_, h1⟩⟩
  · rw [h1]; exact h.op o
  · rw [h1]; exact h
  · rw [h1]; exact h.op _
  · rw [h1]; exact h.op _
  · rw [h1]; exact h.runFrom _

theorem Reached.run {cfg : Cfg} {S : Schedule} {f : String} (es : List Ev) : ∀ {st : St},
    Reached cfg st.sys → Reached cfg (st.run cfg S f es).sys := by
  induction es with
  | nil => intro st h; exact h
  | cons e es ih => intro st h; exact ih (h.step e)

theorem Reached.init (cfg : Cfg) : Reached cfg ({} : St).sys := ⟨[], rfl⟩

/-- What an event accepts under the name of the task. -/
theorem acc_ev {cfg : Cfg} {S : Schedule} {f : String} {st : St} (hr : Reached cfg st.sys) (e : Ev)
    (ho : OnlyCron f st e) :
    accs f (st.step cfg S f e).sys.log = accs f st.sys.log ∨
    ∃ m, (st.step cfg S f e).sys.log = .accepted m :: st.sys.log ∧ m.key = f ∧
      (st.step cfg S f e).sys.r.genOf f = some m.gen ∧ m.gen = st.sys.r.nextGen f ∧
      ((∃ h, e = .sow h false ∧ st.chosen h = some m.req.when_ ∧ Seed.isLive st.sys f = false) ∨
       ∃ p b i, e = .again p.pid i false ∧ p ∈ st.sys.procs ∧ p.msg.key = f ∧
        p.phase = .running ∧ st.entered p.pid = some b ∧ supersededNow st.sys p.msg = false ∧
        m.req.when_ = S.next b) := by
  rcases sys_step cfg S f st e with ⟨o, rfl, h1⟩ | h1 | ⟨h, w, rfl, hc, h1⟩ |
    ⟨p, b, i, x, rfl, hp, hph, hb, ⟨rfl, hcan, hsup, h1⟩ | ⟨hcan, h1⟩⟩
  · left
    rw [h1]
    rcases acc_step cfg hr.wf o f with h2 | ⟨m, _, hk, ha⟩
    · exact h2
    · rcases ha with ⟨t, rfl, _⟩ | ⟨t, rfl⟩ | ⟨p, hp, t, a, d, rfl, hpk⟩
      · exact absurd hk ho
      · exact absurd hk ho
      · exact absurd (hpk.trans hk) (ho p hp rfl)
  · left; rw [h1]
  · rw [h1]
    rcases acc_step cfg hr.wf (.add f ⟨f, "", "", w, 1⟩ st.sys.r.now) f with h2 | ⟨m, hl, hk, ha⟩
    · exact Or.inl h2
    · right
      obtain ⟨hg1, hg2⟩ := accepted_gen cfg hr.wf _ hl
      rw [hk] at hg1 hg2
      refine ⟨m, hl, hk, hg1, hg2, Or.inl ⟨h, rfl, ?_, ?_⟩⟩
      · rcases ha with ⟨t, heq, _⟩ | ⟨t, heq⟩ | ⟨_, _, _, _, _, heq, _⟩
        · simp only [Op.add.injEq] at heq
          rw [← heq.2.1]; exact hc
        · cases heq
        · cases heq
      · rcases ha with ⟨t, heq, hx⟩ | ⟨t, heq⟩ | ⟨_, _, _, _, _, heq, _⟩
        · rw [hk] at hx; exact hx
        · cases heq
        · cases heq
  · rw [h1]
    rcases acc_step cfg hr.wf (.replace p.msg.key (againRequest p.msg i (S.next b)) st.sys.r.now) f
      with h2 | ⟨m, hl, hk, ha⟩
    · exact Or.inl h2
    · right
      obtain ⟨hg1, hg2⟩ := accepted_gen cfg hr.wf _ hl
      rw [hk] at hg1 hg2
      rcases ha with ⟨t, heq, _⟩ | ⟨t, heq⟩ | ⟨_, _, _, _, _, heq, _⟩
      · cases heq
      · simp only [Op.replace.injEq] at heq
        refine ⟨m, hl, hk, hg1, hg2, Or.inr ⟨p, b, i, rfl, hp, heq.1.trans hk, hph, hb, hsup, ?_⟩⟩
        rw [← heq.2.1]; rfl
      · cases heq
  · left
    rw [h1, runFrom_cons, runFrom_cons, runFrom_nil]
    rcases acc_step cfg (hr.wf.step (cfg := cfg) (.cancel p.msg.key)) (.cancelTtl p.msg.key) f with h2 | ⟨m, _, hk, ha⟩
    · rw [h2]
      rcases acc_step cfg hr.wf (.cancel p.msg.key) f with h3 | ⟨m, _, hk, ha⟩
      · exact h3
      · rcases ha with ⟨t, heq, _⟩ | ⟨t, heq⟩ | ⟨_, _, _, _, _, heq, _⟩ <;> cases heq
    · rcases ha with ⟨t, heq, _⟩ | ⟨t, heq⟩ | ⟨_, _, _, _, _, heq, _⟩ <;> cases heq

theorem put_same (f : Nat → Option α) (i : Nat) (v : Option α) : put f i v i = v := by
  unfold put; rw [if_pos rfl]
theorem put_other (f : Nat → Option α) (i j : Nat) (v : Option α) (h : j ≠ i) :
    put f i v j = f j := by unfold put; rw [if_neg h]

/-- What an event does to what a process remembers. -/
theorem chosen_step (cfg : Cfg) (S : Schedule) (f : String) (st : St) (e : Ev) (h : Nat) :
    ((st.step cfg S f e).pos h = st.pos h ∧
      ((st.step cfg S f e).chosen h = st.chosen h ∨ (st.step cfg S f e).chosen h = none)) ∨
    (e = .start h ∧ (st.step cfg S f e).pos h = some st.sys.r.now ∧
      (st.step cfg S f e).chosen h = none) ∨
    (e = .look h true ∧ Seed.isLive st.sys f = false ∧ ∃ t, st.pos h = some t ∧
      (st.step cfg S f e).pos h = some (S.next t) ∧
      (st.step cfg S f e).chosen h = some (S.next t)) := by
  cases e with
  | op o => exact Or.inl ⟨rfl, Or.inl rfl⟩
  | start h' =>
    by_cases hh : h = h'
    · subst hh; exact Or.inr (Or.inl ⟨rfl, put_same .., put_same ..⟩)
    · exact Or.inl ⟨put_other _ _ _ _ hh, Or.inl (put_other _ _ _ _ hh)⟩
  | look h' lock =>
    change ((look S f st h' lock).pos h = _ ∧ ((look S f st h' lock).chosen h = _ ∨
      (look S f st h' lock).chosen h = none)) ∨
      (_ ∧ (look S f st h' lock).pos h = _ ∧ (look S f st h' lock).chosen h = _) ∨
      (_ ∧ _ ∧ ∃ t, _ ∧ (look S f st h' lock).pos h = _ ∧ (look S f st h' lock).chosen h = _)
    unfold look
    cases hp : st.pos h' with
    | none => exact Or.inl ⟨rfl, Or.inl rfl⟩
    | some t =>
      dsimp only
      cases hl : lock && !Seed.isLive st.sys f with
      | false => exact Or.inl ⟨rfl, Or.inl rfl⟩
      | true =>
        simp only [Bool.and_eq_true, Bool.not_eq_true'] at hl
        rw [if_pos rfl]
        by_cases hh : h = h'
        · subst hh
          rw [hl.1]
          exact Or.inr (Or.inr ⟨rfl, hl.2, t, hp, put_same .., put_same ..⟩)
        · exact Or.inl ⟨put_other _ _ _ _ hh, Or.inl (put_other _ _ _ _ hh)⟩
  | sow h' x =>
    left
    change (sow cfg f st h' x).pos h = _ ∧ ((sow cfg f st h' x).chosen h = _ ∨
      (sow cfg f st h' x).chosen h = none)
    unfold sow
    split
    · exact ⟨rfl, Or.inl rfl⟩
    · refine ⟨rfl, ?_⟩
      by_cases hh : h = h'
      · subst hh; exact Or.inr (put_same ..)
      · exact Or.inl (put_other _ _ _ _ hh)
  | enter pid =>
    left
    change (enter f st pid).pos h = _ ∧ ((enter f st pid).chosen h = _ ∨ (enter f st pid).chosen h = none)
    unfold enter
    split
    · exact ⟨rfl, Or.inl rfl⟩
    · split <;> exact ⟨rfl, Or.inl rfl⟩
  | again pid i x =>
    left
    change (again cfg S st pid i x).pos h = _ ∧ ((again cfg S st pid i x).chosen h = _ ∨
      (again cfg S st pid i x).chosen h = none)
    unfold again
    split
    · split <;> exact ⟨rfl, Or.inl rfl⟩
    · exact ⟨rfl, Or.inl rfl⟩

/-- What an event does to the beginnings of executions. -/
theorem entered_step (cfg : Cfg) (S : Schedule) (f : String) (st : St) (e : Ev) (pid : Nat) :
    (st.step cfg S f e).entered pid = st.entered pid ∨
    (e = .enter pid ∧ st.entered pid = none ∧ (st.step cfg S f e).entered pid = some st.sys.r.now ∧
      ∃ p ∈ st.sys.procs, p.pid = pid ∧ p.phase = .running ∧ p.msg.req.fn = f) := by
  cases e with
  | op o => exact Or.inl rfl
  | start h => exact Or.inl rfl
  | look h lock =>
    left
    change (look S f st h lock).entered pid = _
    unfold look
    split
    · rfl
    · split <;> rfl
  | sow h x =>
    left
    change (sow cfg f st h x).entered pid = _
    unfold sow
    split <;> rfl
  | enter pid' =>
    change (enter f st pid').entered pid = _ ∨ (_ ∧ _ ∧ (enter f st pid').entered pid = _ ∧ _)
    unfold enter
    cases hp : st.sys.proc? pid' with
    | none => exact Or.inl rfl
    | some p =>
      dsimp only
      obtain ⟨hm, hpid⟩ := find_pid hp
      split
      · next hc =>
        by_cases hh : pid = pid'
        · subst hh
          exact Or.inr ⟨rfl, hc.2.2, put_same .., p, hm, hpid, hc.1, hc.2.1⟩
        · exact Or.inl (put_other _ _ _ _ hh)
      · exact Or.inl rfl
  | again pid' i x =>
    left
    change (again cfg S st pid' i x).entered pid = _
    unfold again
    split
    · split <;> rfl
    · rfl

theorem now_op (cfg : Cfg) {s : Sys} (hw : WF s) (o : Op) : s.r.now ≤ (Docket.step cfg s o).r.now := by
  have he := step_eff cfg s hw.queue o
  generalize Docket.step cfg s o = s' at he
  cases he with
  | tick d => simp only [Redis.advance]; omega
  | _ => exact Nat.le_refl _

theorem now_ops (cfg : Cfg) (ops : List Op) : ∀ {s : Sys}, WF s →
    s.r.now ≤ (runFrom cfg s ops).r.now := by
  induction ops with
  | nil => intro s _; exact Nat.le_refl _
  | cons o ops ih => intro s hw; exact Nat.le_trans (now_op cfg hw o) (ih (hw.step o))

theorem now_step {cfg : Cfg} {S : Schedule} {f : String} {st : St} (hr : Reached cfg st.sys) (e : Ev) :
    st.sys.r.now ≤ (st.step cfg S f e).sys.r.now := by
  rcases sys_step cfg S f st e with ⟨o, _, h1⟩ | h1 | ⟨_, _, _, _, h1⟩ |
    ⟨_, _, _, _, _, _, _, _, ⟨_, _, _, h1⟩ | ⟨_, h1⟩⟩
  · rw [h1]; exact now_op cfg hr.wf o
  · rw [h1]; exact Nat.le_refl _
  · rw [h1]; exact now_op cfg hr.wf _
  · rw [h1]; exact now_op cfg hr.wf _
  · rw [h1]; exact now_ops cfg _ hr.wf

theorem now_run {cfg : Cfg} {S : Schedule} {f : String} (es : List Ev) : ∀ {st : St},
    Reached cfg st.sys → st.sys.r.now ≤ (st.run cfg S f es).sys.r.now := by
  induction es with
  | nil => intro st _; exact Nat.le_refl _
  | cons e es ih => intro st h; exact Nat.le_trans (now_step h e) (ih (h.step e))

/-! ### C83 -/

/-- Every chosen time matches, and so does everything accepted under the name of the task. -/
structure HitInv (S : Schedule) (f : String) (st : St) : Prop where
  chosen : ∀ h w, st.chosen h = some w → S.hits w
  accs : ∀ m ∈ accs f st.sys.log, S.hits m.req.when_

theorem HitInv.step {cfg : Cfg} {S : Schedule} {f : String} {st : St} (hi : HitInv S f st)
    (hr : Reached cfg st.sys) (e : Ev) (ho : OnlyCron f st e) : HitInv S f (st.step cfg S f e) where
  chosen := by
    intro h w hw
    rcases chosen_step cfg S f st e h with ⟨_, h1 | h1⟩ | ⟨_, _, h1⟩ | ⟨_, _, t, _, _, h1⟩
    · exact hi.chosen h w (h1 ▸ hw)
    · rw [h1] at hw; cases hw
    · rw [h1] at hw; cases hw
    · rw [h1] at hw; cases hw; exact S.isHit t
  accs := by
    intro m hm
    rcases acc_ev (S := S) hr e ho with h1 | ⟨m', hl, hk, _, _, h2⟩
    · exact hi.accs m (h1 ▸ hm)
    · rw [hl, accs_cons, if_pos hk, List.mem_cons] at hm
      rcases hm with rfl | hm
      · rcases h2 with ⟨h, _, hc, _⟩ | ⟨p, b, i, _, _, _, _, _, _, hn⟩
        · exact hi.chosen h _ hc
        · rw [hn]; exact S.isHit b
      · exact hi.accs m hm

theorem HitInv.run {cfg : Cfg} {S : Schedule} {f : String} (es : List Ev) : ∀ {st : St},
    HitInv S f st → Reached cfg st.sys → EachEv cfg S f (OnlyCron f) st es →
    HitInv S f (st.run cfg S f es) := by
  induction es with
  | nil => intro st h _ _; exact h
  | cons e es ih => intro st h hr ho; exact ih (h.step hr e ho.1) (hr.step e) ho.2

theorem mem_accs {k : Key} {m : Msg} {l : List Event} (h : Event.accepted m ∈ l) (hk : m.key = k) :
    m ∈ accs k l := by
  unfold accs
  rw [List.mem_filterMap]
  exact ⟨_, h, by simp [hk]⟩

theorem of_mem_accs {k : Key} {m : Msg} {l : List Event} (h : m ∈ accs k l) :
    Event.accepted m ∈ l ∧ m.key = k := by
  unfold accs at h
  rw [List.mem_filterMap] at h
  obtain ⟨e, he, hm⟩ := h
  split at hm
  · split at hm
    · cases hm; exact ⟨he, by assumption⟩
    · cases hm
  · cases hm

/-- C83, off schedule never.  If nobody else schedules anything under the name of the task, then
in every history everything scheduled under it is for a matching time, and each run of it is for a
matching time that has come when the run starts. -/
theorem C83_on_schedule (cfg : Cfg) (S : Schedule) (f : String) (es : List Ev)
    (ho : EachEv cfg S f (OnlyCron f) {} es) :
    (∀ m, Event.accepted m ∈ (({} : St).run cfg S f es).sys.log → m.key = f →
      S.hits m.req.when_) ∧
    (∀ pid id m t, Event.started pid id m t ∈ (({} : St).run cfg S f es).sys.log → m.key = f →
      S.hits m.req.when_ ∧ m.req.when_ ≤ t) := by
  have hi : HitInv S f (({} : St).run cfg S f es) :=
    HitInv.run es ⟨(by intro h w hw; cases hw), (by intro m hm; cases hm)⟩ (Reached.init cfg) ho
  have hr : Reached cfg (({} : St).run cfg S f es).sys := Reached.run es (Reached.init cfg)
  refine ⟨fun m hm hk => hi.accs m (mem_accs hm hk), fun pid id m t hm hk => ?_⟩
  exact ⟨hi.accs m (mem_accs (hr.origin.started _ _ _ _ hm) hk), hr.time.started _ _ _ _ hm⟩

theorem NthAfter.hits {S : Schedule} {t n u : Nat} (h : NthAfter S t (n + 1) u) : S.hits u := by
  obtain ⟨_, _, h⟩ := h; exact h.1

theorem pos_run {cfg : Cfg} {S : Schedule} {f : String} {h t0 : Nat} (es : List Ev) :
    ∀ {st : St} {n v : Nat}, (∀ e ∈ es, NotStart h e) → st.pos h = some v → NthAfter S t0 n v →
    ∃ v', (st.run cfg S f es).pos h = some v' ∧
      NthAfter S t0 (n + missed cfg S f h st es) v' := by
  induction es with
  | nil => intro st n v _ hp hn; exact ⟨v, hp, hn⟩
  | cons e es ih =>
    intro st n v hno hp hn
    have hno' : ∀ x ∈ es, NotStart h x := fun x hx => hno x (List.mem_cons_of_mem _ hx)
    have key : ∃ v', (st.step cfg S f e).pos h = some v' ∧
        NthAfter S t0 (n + (if Misses f h st e then 1 else 0)) v' := by
      rcases chosen_step cfg S f st e h with ⟨h1, _⟩ | ⟨h1, _⟩ | ⟨h1, hl, t, ht, h2, _⟩
      · have hc : ¬ Misses f h st e := by
          intro hm
          cases e with
          | look h' lock =>
            obtain ⟨rfl, rfl, hl⟩ := hm
            replace hl := not_there _ _ hl
            change (look S f st h' true).pos h' = _ at h1
            unfold look at h1
            rw [hp] at h1
            simp only [hl, Bool.not_false, Bool.and_self, if_true, put_same] at h1
            have := S.after v
            simp only [Option.some.injEq] at h1
            omega
          | _ => exact hm
        rw [if_neg hc]
        exact ⟨v, h1.trans hp, hn⟩
      · subst h1
        exact absurd rfl (hno _ (List.mem_cons_self))
      · subst h1
        rw [hp] at ht
        cases ht
        rw [if_pos ⟨rfl, rfl, by rw [← there_iff, hl]; exact Bool.false_ne_true⟩]
        exact ⟨S.next v, h2, v, hn, next_first S v⟩
    obtain ⟨v', h1, h2⟩ := key
    obtain ⟨u, h3, h4⟩ := ih hno' h1 h2
    refine ⟨u, h3, ?_⟩
    unfold missed
    rw [← Nat.add_assoc]
    exact h4

theorem chosen_run {cfg : Cfg} {S : Schedule} {f : String} {h w : Nat} (es : List Ev) :
    ∀ {st : St}, (∀ e ∈ es, NotBy h e) → st.chosen h = some w →
    (st.run cfg S f es).chosen h = some w := by
  induction es with
  | nil => intro st _ hc; exact hc
  | cons e es ih =>
    intro st hno hc
    refine ih (fun x hx => hno x (List.mem_cons_of_mem _ hx)) ?_
    have hne := hno e (List.mem_cons_self)
    cases e with
    | op o => exact hc
    | start h' =>
      have : h ≠ h' := fun hx => hne hx.symm
      change put _ _ _ _ = _
      rw [put_other _ _ _ _ this]; exact hc
    | look h' lock =>
      have : h ≠ h' := fun hx => hne hx.symm
      change (look S f st h' lock).chosen h = _
      unfold look
      split
      · exact hc
      · split
        · dsimp only; rw [put_other _ _ _ _ this]; exact hc
        · exact hc
    | sow h' x =>
      have : h ≠ h' := fun hx => hne hx.symm
      change (sow cfg f st h' x).chosen h = _
      unfold sow
      split
      · exact hc
      · dsimp only; rw [put_other _ _ _ _ this]; exact hc
    | enter pid =>
      change (enter f st pid).chosen h = _
      unfold enter
      split
      · exact hc
      · split <;> exact hc
    | again pid i x =>
      change (again cfg S st pid i x).chosen h = _
      unfold again
      split
      · split <;> exact hc
      · exact hc

/-- The moment process `h` imports the task function, after the history `pre`. -/
def imported (cfg : Cfg) (S : Schedule) (f : String) (pre : List Ev) (h : Nat) : St :=
  (({} : St).run cfg S f pre).step cfg S f (.start h)

/-- The moment right before process `h` adds the task: it was imported after `pre`, then `es`
happened, then it found the task missing, then `mid` happened. -/
def aboutToSow (cfg : Cfg) (S : Schedule) (f : String) (pre : List Ev) (h : Nat) (es mid : List Ev) : St :=
  (((imported cfg S f pre h).run cfg S f es).step cfg S f (.look h true)).run cfg S f mid

theorem add_accepts (cfg : Cfg) {s : Sys} (k : Key) (q : Request)
    (hx : scheduleExists s.r k = false) :
    ∃ m, (Docket.step cfg s (.add k q s.r.now)).log = .accepted m :: s.log ∧ m.key = k ∧ m.req = q := by
  simp only [Docket.step, Nat.le_refl, if_true, doAdd, doSchedule, luaSchedule, hx]
  exact ⟨_, rfl, rfl, rfl⟩

/-- C83, seeding, exactly.  A process imported at `t0` that has found the task missing `n` times
before and finds it missing again schedules it for the `n+1`-st matching time after `t0`, whatever
the time is by now and whatever has become of the times it chose before; and it does schedule it
unless somebody else has in between or the task is stricken. -/
theorem C83_seeded_exactly (cfg : Cfg) (S : Schedule) (f : String) (pre : List Ev) (h : Nat)
    (es mid : List Ev) (hes : ∀ e ∈ es, NotStart h e) (hmid : ∀ e ∈ mid, NotBy h e)
    (hmiss : ¬ There ((imported cfg S f pre h).run cfg S f es).sys f) :
    (∀ x m, ((aboutToSow cfg S f pre h es mid).step cfg S f (.sow h x)).sys.log =
        .accepted m :: (aboutToSow cfg S f pre h es mid).sys.log →
      x = false ∧ m.key = f ∧ NthAfter S (imported cfg S f pre h).sys.r.now
        (missed cfg S f h (imported cfg S f pre h) es + 1) m.req.when_) ∧
    (¬ There (aboutToSow cfg S f pre h es mid).sys f →
      ∃ m, ((aboutToSow cfg S f pre h es mid).step cfg S f (.sow h false)).sys.log =
        .accepted m :: (aboutToSow cfg S f pre h es mid).sys.log) := by
  replace hmiss := not_there _ _ hmiss
  have hp0 : (imported cfg S f pre h).pos h = some (imported cfg S f pre h).sys.r.now := put_same ..
  obtain ⟨v, hv, hn⟩ := pos_run (S := S) (cfg := cfg) (f := f) es (n := 0) hes hp0 rfl
  rw [Nat.zero_add] at hn
  have hl : (((imported cfg S f pre h).run cfg S f es).step cfg S f (.look h true)).chosen h =
      some (S.next v) := by
    change (look S f _ h true).chosen h = _
    unfold look
    rw [hv]
    simp only [hmiss, Bool.not_false, Bool.and_self, if_true, put_same]
  have hc : (aboutToSow cfg S f pre h es mid).chosen h = some (S.next v) := chosen_run mid hmid hl
  have hsys : ∀ x, ((aboutToSow cfg S f pre h es mid).step cfg S f (.sow h x)).sys =
      if x then (aboutToSow cfg S f pre h es mid).sys else
        Docket.step cfg (aboutToSow cfg S f pre h es mid).sys
          (.add f ⟨f, "", "", S.next v, 1⟩ (aboutToSow cfg S f pre h es mid).sys.r.now) := by
    intro x
    change (sow cfg f _ h x).sys = _
    unfold sow
    rw [hc]
  have hr : Reached cfg (aboutToSow cfg S f pre h es mid).sys :=
    Reached.run mid (Reached.step (Reached.run es (Reached.step (Reached.run pre (Reached.init cfg)) _)) _)
  refine ⟨fun x m hm => ?_, fun hlive => ?_⟩
  · rw [hsys] at hm
    cases x with
    | true =>
      rw [if_pos rfl] at hm
      have := congrArg List.length hm
      simp at this
    | false =>
      rw [if_neg Bool.false_ne_true] at hm
      rcases acc_step cfg hr.wf (.add f ⟨f, "", "", S.next v, 1⟩
        (aboutToSow cfg S f pre h es mid).sys.r.now) m.key with h1 | ⟨m', h1, h2, ha⟩
      · rw [hm, accs_cons, if_pos rfl] at h1
        have := congrArg List.length h1
        simp at this
      · rw [hm] at h1
        cases h1
        rcases ha with ⟨t, heq, _⟩ | ⟨t, heq⟩ | ⟨_, _, _, _, _, heq, _⟩
        · simp only [Op.add.injEq] at heq
          refine ⟨rfl, heq.1.symm, ?_⟩
          rw [← heq.2.1]
          exact ⟨v, hn, next_first S v⟩
        · cases heq
        · cases heq
  · rw [hsys, if_neg Bool.false_ne_true]
    obtain ⟨m, hm, _⟩ := add_accepts cfg f ⟨f, "", "", S.next v, 1⟩ (not_there _ _ hlive)
    exact ⟨m, hm⟩

/-- C83, seeding.  What a process schedules is for the first matching time from the moment it
schedules it, provided that it is the first time since its import that it finds the task missing,
and that no matching time has passed since its import. -/
theorem C83_seeded_next_partial (cfg : Cfg) (S : Schedule) (f : String) (pre : List Ev) (h : Nat)
    (es mid : List Ev) (hes : ∀ e ∈ es, NotStart h e) (hmid : ∀ e ∈ mid, NotBy h e)
    (hmiss : ¬ There ((imported cfg S f pre h).run cfg S f es).sys f)
    (hfirst : missed cfg S f h (imported cfg S f pre h) es = 0)
    (hsoon : NoneIn S (imported cfg S f pre h).sys.r.now
      (aboutToSow cfg S f pre h es mid).sys.r.now) (x : Bool) (m : Msg)
    (hm : ((aboutToSow cfg S f pre h es mid).step cfg S f (.sow h x)).sys.log =
        .accepted m :: (aboutToSow cfg S f pre h es mid).sys.log) :
    m.key = f ∧ FirstAfter S (aboutToSow cfg S f pre h es mid).sys.r.now m.req.when_ := by
  obtain ⟨_, hk, v, hv, hf⟩ := (C83_seeded_exactly cfg S f pre h es mid hes hmid hmiss).1 x m hm
  rw [hfirst] at hv
  cases hv
  refine ⟨hk, hf.later ?_ hsoon⟩
  have hr : Reached cfg (imported cfg S f pre h).sys := Reached.step (Reached.run pre (Reached.init cfg)) _
  refine Nat.le_trans (now_run (S := S) (f := f) es hr) ?_
  exact Nat.le_trans (now_step (Reached.run es hr) _) (now_run mid (Reached.step (Reached.run es hr) _))

theorem entered_run {cfg : Cfg} {S : Schedule} {f : String} {pid b : Nat} (es : List Ev) :
    ∀ {st : St}, st.entered pid = some b → (st.run cfg S f es).entered pid = some b := by
  induction es with
  | nil => intro st h; exact h
  | cons e es ih =>
    intro st h
    refine ih ?_
    rcases entered_step cfg S f st e pid with h1 | ⟨_, h1, _⟩
    · rw [h1]; exact h
    · rw [h] at h1; cases h1

theorem replace_accepts (cfg : Cfg) {s : Sys} (k : Key) (q : Request) :
    ∃ m, (Docket.step cfg s (.replace k q s.r.now)).log = .accepted m :: s.log ∧ m.key = k ∧
      m.req = q := by
  simp only [Docket.step, Nat.le_refl, if_true, doReplace, doSchedule, luaSchedule]
  exact ⟨_, rfl, rfl, rfl⟩

/-- The moment an execution ends: it entered its dependencies after `pre`, then `mid` happened. -/
def aboutToEnd (cfg : Cfg) (S : Schedule) (f : String) (pre : List Ev) (pid : Nat) (mid : List Ev) : St :=
  ((({} : St).run cfg S f pre).step cfg S f (.enter pid)).run cfg S f mid

/-- C83, completion, exactly.  When an execution of the task ends, the task is scheduled for the
first matching time after that execution began, under the same key, with the arguments the body
left; and it is, unless the body cancelled it, the execution was superseded, or the task is
stricken. -/
theorem C83_completed_exactly (cfg : Cfg) (S : Schedule) (f : String) (pre : List Ev) (p : Proc)
    (mid : List Ev) (hp : p ∈ (({} : St).run cfg S f pre).sys.procs) (hph : p.phase = .running)
    (hfn : p.msg.req.fn = f) (hfresh : (({} : St).run cfg S f pre).entered p.pid = none) (i : Inst) :
    (∀ x m, ((aboutToEnd cfg S f pre p.pid mid).step cfg S f (.again p.pid i x)).sys.log =
        .accepted m :: (aboutToEnd cfg S f pre p.pid mid).sys.log →
      x = false ∧ i.cancelled = false ∧
      FirstAfter S (({} : St).run cfg S f pre).sys.r.now m.req.when_ ∧
      ∃ q ∈ (aboutToEnd cfg S f pre p.pid mid).sys.procs, q.pid = p.pid ∧ m.key = q.msg.key ∧
        m.req.fn = q.msg.req.fn ∧ m.req.args = i.args ∧ m.req.kwargs = i.kwargs) ∧
    (∀ q ∈ (aboutToEnd cfg S f pre p.pid mid).sys.procs, q.pid = p.pid → q.phase = .running →
      p.pid ∉ (aboutToEnd cfg S f pre p.pid mid).over → i.cancelled = false →
      NothingNewer (aboutToEnd cfg S f pre p.pid mid).sys q.msg →
      ∃ m, ((aboutToEnd cfg S f pre p.pid mid).step cfg S f (.again p.pid i false)).sys.log =
        .accepted m :: (aboutToEnd cfg S f pre p.pid mid).sys.log) := by
  have hr0 : Reached cfg (({} : St).run cfg S f pre).sys := Reached.run pre (Reached.init cfg)
  have hr : Reached cfg (aboutToEnd cfg S f pre p.pid mid).sys := Reached.run mid (Reached.step hr0 _)
  have he0 : ((({} : St).run cfg S f pre).step cfg S f (.enter p.pid)).entered p.pid =
      some (({} : St).run cfg S f pre).sys.r.now := by
    change (enter f _ p.pid).entered p.pid = _
    unfold enter
    rw [proc?_of_mem hr0.wf hp]
    simp only [hph, hfn, hfresh, and_self, if_true, put_same]
  have he : (aboutToEnd cfg S f pre p.pid mid).entered p.pid =
      some (({} : St).run cfg S f pre).sys.r.now := entered_run mid he0
  generalize (({} : St).run cfg S f pre).sys.r.now = b at he
  generalize aboutToEnd cfg S f pre p.pid mid = st at he hr
  refine ⟨fun x m hm => ?_, fun q hq hqp hqr hov hcan hsup => ?_⟩
  · rcases sys_step cfg S f st (.again p.pid i x) with ⟨o, h0, _⟩ | h1 | ⟨_, _, h0, _⟩ |
      ⟨q, b', i', x', heq, hq, hqr, hqb, h1⟩
    · cases h0
    · rw [h1] at hm
      have := congrArg List.length hm
      simp at this
    · cases h0
    · simp only [Ev.again.injEq] at heq
      obtain ⟨hpid, rfl, rfl⟩ := heq
      rw [← hpid, he] at hqb
      cases hqb
      have hown : ∀ op, (Docket.step cfg st.sys op).log = .accepted m :: st.sys.log →
          Asks st.sys op m := by
        intro op hl
        rcases acc_step cfg hr.wf op m.key with h2 | ⟨m', h2, _, ha⟩
        · rw [hl, accs_cons, if_pos rfl] at h2
          have := congrArg List.length h2
          simp at this
        · rw [hl] at h2; cases h2; exact ha
      rcases h1 with ⟨hx, hcan, _, h1⟩ | ⟨_, h1⟩
      · rw [h1] at hm
        rcases hown _ hm with ⟨t, heq, _⟩ | ⟨t, heq⟩ | ⟨_, _, _, _, _, heq, _⟩
        · cases heq
        · simp only [Op.replace.injEq] at heq
          refine ⟨hx, hcan, ?_, q, hq, hpid.symm, heq.1.symm, ?_⟩
          · rw [← heq.2.1]; exact next_first S b
          · rw [← heq.2.1]; exact ⟨rfl, rfl, rfl⟩
        · cases heq
      · rw [h1, runFrom_cons, runFrom_cons, runFrom_nil] at hm
        exfalso
        have hlen : accs m.key st.sys.log =
            accs m.key (Docket.step cfg (Docket.step cfg st.sys (.cancel q.msg.key))
              (.cancelTtl q.msg.key)).log := by
          rcases acc_step cfg (hr.wf.step (cfg := cfg) (.cancel q.msg.key)) (.cancelTtl q.msg.key)
            m.key with h2 | ⟨_, _, _, ha⟩
          · rw [h2]
            rcases acc_step cfg hr.wf (.cancel q.msg.key) m.key with h3 | ⟨_, _, _, ha⟩
            · exact h3.symm
            · rcases ha with ⟨t, heq, _⟩ | ⟨t, heq⟩ | ⟨_, _, _, _, _, heq, _⟩ <;> cases heq
          · rcases ha with ⟨t, heq, _⟩ | ⟨t, heq⟩ | ⟨_, _, _, _, _, heq, _⟩ <;> cases heq
        rw [hm, accs_cons, if_pos rfl] at hlen
        have := congrArg List.length hlen
        simp at this
  · have hs : (st.step cfg S f (.again p.pid i false)).sys = Docket.step cfg st.sys
        (.replace q.msg.key (againRequest q.msg i (S.next b)) st.sys.r.now) := by
      change (again cfg S st p.pid i false).sys = _
      unfold again
      rw [he, ← hqp, proc?_of_mem hr.wf hq]
      simp only [hqr, hqp, hov, not_false_eq_true, and_self, if_true]
      unfold cronComplete onComplete Inst.at_ nextTime
      dsimp only
      have hsup' : supersededNow st.sys q.msg = false := by
        obtain ⟨g, hg, hle⟩ := hsup
        unfold supersededNow
        split
        · rfl
        · rw [hg]; simpa using hle
      rw [hcan, hsup']
      rfl
    rw [hs]
    obtain ⟨m, hm, _⟩ := replace_accepts cfg (s := st.sys) q.msg.key (againRequest q.msg i (S.next b))
    exact ⟨m, hm⟩

/-- C83, completion.  When an execution of the task ends, the task is scheduled for the first
matching time from that moment, provided that none passed while the execution was in progress. -/
theorem C83_completed_next_partial (cfg : Cfg) (S : Schedule) (f : String) (pre : List Ev) (p : Proc)
    (mid : List Ev) (hp : p ∈ (({} : St).run cfg S f pre).sys.procs) (hph : p.phase = .running)
    (hfn : p.msg.req.fn = f) (hfresh : (({} : St).run cfg S f pre).entered p.pid = none) (i : Inst)
    (hshort : NoneIn S (({} : St).run cfg S f pre).sys.r.now
      (aboutToEnd cfg S f pre p.pid mid).sys.r.now) (x : Bool) (m : Msg)
    (hm : ((aboutToEnd cfg S f pre p.pid mid).step cfg S f (.again p.pid i x)).sys.log =
        .accepted m :: (aboutToEnd cfg S f pre p.pid mid).sys.log) :
    FirstAfter S (aboutToEnd cfg S f pre p.pid mid).sys.r.now m.req.when_ := by
  have h := ((C83_completed_exactly cfg S f pre p mid hp hph hfn hfresh i).1 x m hm).2.2.1
  refine h.later ?_ hshort
  have hr0 : Reached cfg (({} : St).run cfg S f pre).sys := Reached.run pre (Reached.init cfg)
  exact Nat.le_trans (now_step hr0 _) (now_run mid (Reached.step hr0 _))

/-- The full statement of C83: if nobody else schedules anything under the name of the task, then
whenever something is scheduled under it, it is for the first matching time from that moment. -/
def C83_statement : Prop := ∀ (cfg : Cfg) (S : Schedule) (f : String) (es : List Ev) (e : Ev) (m : Msg),
  EachEv cfg S f (OnlyCron f) {} (es ++ [e]) →
  (({} : St).run cfg S f (es ++ [e])).sys.log =
    .accepted m :: (({} : St).run cfg S f es).sys.log → m.key = f →
  FirstAfter S (({} : St).run cfg S f es).sys.r.now m.req.when_

section examples_C83

/-- Every tenth time unit matches. -/
def tens : Schedule where
  hits t := t % 10 = 0
  next t := (t / 10 + 1) * 10
  after t := by omega
  isHit t := by omega
  isFirst t u h1 h2 := by omega

def cfg0 : Cfg := ⟨100, 50⟩

/-- The process is imported and seeds; the task is queued at its time, polled and begun at 10. -/
def firstRun : List Ev :=
  [.start 0, .look 0 true, .sow 0 false, .op (.tick 10), .op (.schedule 10), .op (.poll "w" 1),
    .op (.claim 0)]

def p0 : Proc := ⟨0, "w", 1, ⟨"f", ⟨"f", "", "", 10, 1⟩, 1⟩, false, .running⟩
def i0 : Inst := ⟨0, false, none, "", ""⟩

/-- One whole life: two runs, for 10 and for 20. -/
def twoRuns : List Ev :=
  firstRun ++ [.enter 0, .op (.tick 3), .again 0 i0 false, .op (.finish 0 .completed none false),
    .op (.tick 7), .op (.schedule 20), .op (.poll "w" 1), .op (.claim 1)]

/-- The hypotheses of `C83_on_schedule` hold of it, and the task is run for 10 and for 20. -/
example : EachEv cfg0 tens "f" (OnlyCron "f") {} twoRuns ∧
    Event.started 0 1 p0.msg 10 ∈ (({} : St).run cfg0 tens "f" twoRuns).sys.log ∧
    Event.started 1 2 ⟨"f", ⟨"f", "", "", 20, 1⟩, 2⟩ 20 ∈ (({} : St).run cfg0 tens "f" twoRuns).sys.log := by
  decide +kernel

/-- The hypotheses of `C83_seeded_exactly` and `C83_seeded_next_partial` hold of a process that is
imported at 13 and seeds at 14: it schedules the task for 20. -/
example :
    ¬ There ((imported cfg0 tens "f" [.op (.tick 13)] 0).run cfg0 tens "f" [.op (.tick 1)]).sys "f" ∧
    missed cfg0 tens "f" 0 (imported cfg0 tens "f" [.op (.tick 13)] 0) [.op (.tick 1)] = 0 ∧
    NoneIn tens (imported cfg0 tens "f" [.op (.tick 13)] 0).sys.r.now
      (aboutToSow cfg0 tens "f" [.op (.tick 13)] 0 [.op (.tick 1)] []).sys.r.now ∧
    ((aboutToSow cfg0 tens "f" [.op (.tick 13)] 0 [.op (.tick 1)] []).step cfg0 tens "f"
        (.sow 0 false)).sys.log =
      [.accepted ⟨"f", ⟨"f", "", "", 20, 1⟩, 1⟩] := by
  refine ⟨by decide +kernel, by decide +kernel, ?_, by decide +kernel⟩
  have h1 : (imported cfg0 tens "f" [.op (.tick 13)] 0).sys.r.now = 13 := by decide +kernel
  have h2 : (aboutToSow cfg0 tens "f" [.op (.tick 13)] 0 [.op (.tick 1)] []).sys.r.now = 14 := by
    decide +kernel
  rw [h1, h2]
  intro v h3 h4 h5
  change v % 10 = 0 at h5
  omega

/-- The hypotheses of `C83_completed_exactly` and `C83_completed_next_partial` hold of the first
run of the example, which takes 3: the task is scheduled for 20. -/
example :
    p0 ∈ (({} : St).run cfg0 tens "f" firstRun).sys.procs ∧
    (({} : St).run cfg0 tens "f" firstRun).entered p0.pid = none ∧
    NoneIn tens (({} : St).run cfg0 tens "f" firstRun).sys.r.now
      (aboutToEnd cfg0 tens "f" firstRun p0.pid [.op (.tick 3)]).sys.r.now ∧
    ((aboutToEnd cfg0 tens "f" firstRun p0.pid [.op (.tick 3)]).step cfg0 tens "f"
        (.again 0 i0 false)).sys.log =
      .accepted ⟨"f", ⟨"f", "", "", 20, 1⟩, 2⟩ ::
        (aboutToEnd cfg0 tens "f" firstRun p0.pid [.op (.tick 3)]).sys.log := by
  refine ⟨by decide +kernel, by decide +kernel, ?_, by decide +kernel⟩
  have h1 : (({} : St).run cfg0 tens "f" firstRun).sys.r.now = 10 := by decide +kernel
  have h2 : (aboutToEnd cfg0 tens "f" firstRun p0.pid [.op (.tick 3)]).sys.r.now = 13 := by
    decide +kernel
  rw [h1, h2]
  intro v h3 h4 h5
  change v % 10 = 0 at h5
  omega

/-- The code violates it when a worker starts, or a lost task is sown again, after a matching time
has passed since the import: seeding takes the next time of an iterator begun at import
(_cron.py:92, 101-108), which is in the past, so that the task runs at once. -/
theorem C83_violated_late : ¬ C83_statement := by
  intro h
  have := h cfg0 tens "f" [.start 0, .op (.tick 25), .look 0 true] (.sow 0 false)
    ⟨"f", ⟨"f", "", "", 10, 1⟩, 1⟩ (by decide +kernel) (by decide +kernel) rfl
  have hn : (({} : St).run cfg0 tens "f" [.start 0, .op (.tick 25), .look 0 true]).sys.r.now = 25 := by
    decide +kernel
  rw [hn] at this
  exact absurd this.2.1 (by decide)

/-- The code violates it when the task has been stricken for a while: each seeding takes a time
from the iterator and throws it away (worker.py:983-985, docket.py:413-424), so that once the task
is restored it is scheduled that many matching times too late. -/
theorem C83_violated_stricken : ¬ C83_statement := by
  intro h
  have := h cfg0 tens "f" [.start 0, .look 0 true, .sow 0 true, .op (.tick 1), .look 0 true,
      .sow 0 true, .op (.tick 1), .look 0 true, .sow 0 true, .op (.tick 1), .look 0 true] (.sow 0 false)
    ⟨"f", ⟨"f", "", "", 40, 1⟩, 1⟩ (by decide +kernel) (by decide +kernel) rfl
  have hn : (({} : St).run cfg0 tens "f" [.start 0, .look 0 true, .sow 0 true, .op (.tick 1),
      .look 0 true, .sow 0 true, .op (.tick 1), .look 0 true, .sow 0 true, .op (.tick 1),
      .look 0 true]).sys.r.now = 3 := by decide +kernel
  rw [hn] at this
  exact this.2.2 10 (by decide) (by decide) rfl

/-- The code violates it when a matching time passes while the task runs: the next time is taken
from an iterator begun with the run (_cron.py:96, 116), so that the task runs again at once. -/
theorem C83_violated_long_run : ¬ C83_statement := by
  intro h
  have := h cfg0 tens "f" (firstRun ++ [.enter 0, .op (.tick 15)]) (.again 0 i0 false)
    ⟨"f", ⟨"f", "", "", 20, 1⟩, 2⟩ (by decide +kernel) (by decide +kernel) rfl
  have hn : (({} : St).run cfg0 tens "f" (firstRun ++ [.enter 0, .op (.tick 15)])).sys.r.now = 25 := by
    decide +kernel
  rw [hn] at this
  exact absurd this.2.1 (by decide)

end examples_C83

/-! ### C84 -/

/-- Of two tasks accepted under the name the later one is for a later time; the newest one has the
generation of the record; an execution began no earlier than the time it was for. -/
structure OnceInv (f : String) (st : St) : Prop where
  order : (accs f st.sys.log).Pairwise (fun a b => b.req.when_ < a.req.when_ ∧ b.gen < a.gen)
  current : ∀ m l, accs f st.sys.log = m :: l → st.sys.r.genOf f = some m.gen
  begun : ∀ pid b, st.entered pid = some b →
    ∃ id w r t m, Event.handed pid id w r t m ∈ st.sys.log ∧ m.req.when_ ≤ b

theorem Reached.pids {cfg : Cfg} {s : Sys} (h : Reached cfg s) : PidInv s := by
  obtain ⟨o, rfl⟩ := h; exact PidInv.run cfg o

theorem log_step {cfg : Cfg} {S : Schedule} {f : String} {st : St} (hr : Reached cfg st.sys) (e : Ev) :
    ∃ l, (st.step cfg S f e).sys.log = l ++ st.sys.log := by
  rcases sys_step cfg S f st e with ⟨o, _, h1⟩ | h1 | ⟨_, _, _, _, h1⟩ |
    ⟨_, _, _, _, _, _, _, _, ⟨_, _, _, h1⟩ | ⟨_, h1⟩⟩
  · rw [h1]; exact step_log cfg hr.wf o
  · rw [h1]; exact ⟨[], rfl⟩
  · rw [h1]; exact step_log cfg hr.wf _
  · rw [h1]; exact step_log cfg hr.wf _
  · rw [h1]; exact runFrom_log cfg hr.wf _

/-- An operation that accepts nothing under `k` and leaves a record leaves its generation. -/
theorem gen_op {cfg : Cfg} {s : Sys} (hw : WF s) (o : Op) {k : Key}
    (ha : accs k (Docket.step cfg s o).log = accs k s.log) :
    (Docket.step cfg s o).r.genOf k = none ∨ (Docket.step cfg s o).r.genOf k = s.r.genOf k := by
  rcases gen_step cfg hw o k with h | h | ⟨m, hl, hk, _, _⟩
  · exact Or.inl h
  · exact Or.inr h
  · rw [hl, accs_cons, if_pos hk] at ha
    have := congrArg List.length ha
    simp at this

theorem gen_ev {cfg : Cfg} {S : Schedule} {f : String} {st : St} (hr : Reached cfg st.sys) (e : Ev)
    (ha : accs f (st.step cfg S f e).sys.log = accs f st.sys.log)
    (hrec : HasRecord (st.step cfg S f e).sys f) :
    (st.step cfg S f e).sys.r.genOf f = st.sys.r.genOf f := by
  unfold HasRecord at hrec
  have hone : ∀ o, (st.step cfg S f e).sys = Docket.step cfg st.sys o →
      (st.step cfg S f e).sys.r.genOf f = st.sys.r.genOf f := by
    intro o h1
    rw [h1] at ha hrec ⊢
    rcases gen_op hr.wf o ha with h | h
    · rw [h] at hrec; cases hrec
    · exact h
  rcases sys_step cfg S f st e with ⟨o, _, h1⟩ | h1 | ⟨_, _, _, _, h1⟩ |
    ⟨p, b, i, x, _, _, _, _, ⟨_, _, _, h1⟩ | ⟨_, h1⟩⟩
  · exact hone _ h1
  · rw [h1]
  · exact hone _ h1
  · exact hone _ h1
  · rw [h1, runFrom_cons, runFrom_cons, runFrom_nil] at hrec ⊢
    have hA : ∀ {s : Sys} (_ : WF s) (o : Op), (∀ k q t, o ≠ .add k q t) → (∀ k q t, o ≠ .replace k q t) →
        (∀ pid t a d, o ≠ .reschedule pid t a d) → accs f (Docket.step cfg s o).log = accs f s.log := by
      intro s hw o h1 h2 h3
      rcases acc_step cfg hw o f with h | ⟨m, _, _, ⟨t, heq, _⟩ | ⟨t, heq⟩ | ⟨_, _, t, a, d, heq, _⟩⟩
      · exact h
      · exact absurd heq (h1 _ _ _)
      · exact absurd heq (h2 _ _ _)
      · exact absurd heq (h3 _ _ _ _)
    have hw1 := hr.wf.step (cfg := cfg) (.cancel p.msg.key)
    have a1 := hA hr.wf (.cancel p.msg.key) (by simp) (by simp) (by simp)
    have a2 := hA hw1 (.cancelTtl p.msg.key) (by simp) (by simp) (by simp)
    rcases gen_op hw1 _ a2 with h | h
    · rw [h] at hrec; cases hrec
    · rw [h] at hrec ⊢
      rcases gen_op hr.wf _ a1 with h' | h'
      · rw [h'] at hrec; cases hrec
      · exact h'

theorem OnceInv.step {cfg : Cfg} {S : Schedule} {f : String} {st : St} (hi : OnceInv f st)
    (hr : Reached cfg st.sys) (e : Ev) (ho : OnlyCron f st e) (hk : Kept f st)
    (hk' : Kept f (st.step cfg S f e)) : OnceInv f (st.step cfg S f e) := by
  have hbegun : ∀ pid b, (st.step cfg S f e).entered pid = some b →
      ∃ id w r t m, Event.handed pid id w r t m ∈ (st.step cfg S f e).sys.log ∧ m.req.when_ ≤ b := by
    intro pid b hb
    obtain ⟨l, hl⟩ := log_step (S := S) (f := f) hr e
    rcases entered_step cfg S f st e pid with h1 | ⟨_, _, h1, p, hp, rfl, _, _⟩
    · obtain ⟨id, w, r, t, m, hm, hle⟩ := hi.begun pid b (h1 ▸ hb)
      exact ⟨id, w, r, t, m, by rw [hl]; exact List.mem_append_right _ hm, hle⟩
    · rw [h1] at hb
      cases hb
      obtain ⟨t, ht⟩ := hr.origin.isHanded p hp
      exact ⟨_, _, _, t, p.msg, by rw [hl]; exact List.mem_append_right _ ht, hr.time.procs p hp⟩
  rcases acc_ev (S := S) hr e ho with h1 | ⟨m, hl, hmk, hg1, hg2, h2⟩
  · refine ⟨h1 ▸ hi.order, fun m l hml => ?_, hbegun⟩
    have hrec := (hk' (by rw [hml]; exact List.cons_ne_nil _ _)).2
    rw [gen_ev hr e h1 hrec]
    exact hi.current m l (h1 ▸ hml)
  · have hacc : accs f (st.step cfg S f e).sys.log = m :: accs f st.sys.log := by
      rw [hl, accs_cons, if_pos hmk]
    refine ⟨?_, fun m' l hml => ?_, hbegun⟩
    · rw [hacc, List.pairwise_cons]
      refine ⟨?_, hi.order⟩
      cases hold : accs f st.sys.log with
      | nil => intro b hb; cases hb
      | cons last l =>
        have hne : accs f st.sys.log ≠ [] := by rw [hold]; exact List.cons_ne_nil _ _
        have hcur := hi.current last l hold
        have hgen : last.gen < m.gen := by
          rw [hg2, nextGen_eq, hcur]; simp
        have hwhen : last.req.when_ < m.req.when_ := by
          rcases h2 with ⟨h, _, _, hlive⟩ | ⟨p, b, i, _, hp, hpk, _, hb, hsup, hn⟩
          · rw [(there_iff _ _).2 (hk hne).1] at hlive; cases hlive
          · have hpm : p.msg = last := by
              have hmem : p.msg ∈ accs f st.sys.log := mem_accs (hr.origin.procs p hp) hpk
              rw [hold, List.mem_cons] at hmem
              rcases hmem with h | h
              · exact h
              · exfalso
                have hpw := hi.order
                rw [hold, List.pairwise_cons] at hpw
                have hlt := (hpw.1 _ h).2
                have hpos := hr.origin.pos p.msg (hr.origin.procs p hp)
                unfold supersededNow at hsup
                rw [if_neg (by omega), hpk, hcur] at hsup
                simp only [Option.getD_some, gt_iff_lt, decide_eq_false_iff_not] at hsup
                omega
            obtain ⟨id, w, r, t, m', hm', hle⟩ := hi.begun _ b hb
            obtain ⟨t', ht'⟩ := hr.origin.isHanded p hp
            have := (hr.pids.once _ _ _ _ _ _ _ _ _ _ _ hm' ht').2
            rw [hn, ← hpm, this]
            exact Nat.lt_of_le_of_lt hle (S.after b)
        intro x hx
        rw [List.mem_cons] at hx
        rcases hx with rfl | hx
        · exact ⟨hwhen, hgen⟩
        · have hpw := hi.order
          rw [hold, List.pairwise_cons] at hpw
          have := hpw.1 x hx
          exact ⟨by omega, by omega⟩
    · rw [hacc] at hml
      cases hml
      exact hg1

theorem OnceInv.run {cfg : Cfg} {S : Schedule} {f : String} (es : List Ev) : ∀ {st : St},
    OnceInv f st → Reached cfg st.sys → EachEv cfg S f (OnlyCron f) st es →
    Always cfg S f (Kept f) st es → OnceInv f (st.run cfg S f es) := by
  induction es with
  | nil => intro st h _ _ _; exact h
  | cons e es ih =>
    intro st h hr ho hk
    have hk' : Kept f (st.step cfg S f e) := by
      have := hk.2
      cases es with
      | nil => exact this
      | cons e' es => exact this.1
    exact ih (h.step hr e ho.1 hk.1 hk') (hr.step e) ho.2 hk.2

/-- C84.  If nobody else schedules anything under the name of the task, and from its first
scheduling on the task is never lost (there is always its record, and it is scheduled, queued or
running), then every scheduling of the task is for a later matching time than all before. -/
theorem C84_each_time_once_partial (cfg : Cfg) (S : Schedule) (f : String) (es : List Ev)
    (ho : EachEv cfg S f (OnlyCron f) {} es) (hk : Always cfg S f (Kept f) {} es) :
    (accs f (({} : St).run cfg S f es).sys.log).Pairwise
      (fun newer older => older.req.when_ < newer.req.when_) := by
  have h : OnceInv f (({} : St).run cfg S f es) := by
    refine OnceInv.run es ⟨List.Pairwise.nil, ?_, ?_⟩ (Reached.init cfg) ho hk
    · intro m l h; cases h
    · intro pid b h; cases h
  exact h.order.imp (fun h => h.1)

/-- The full statement of C84: if nobody else schedules anything under the name of the task, no
matching time is scheduled for twice. -/
def C84_statement : Prop := ∀ (cfg : Cfg) (S : Schedule) (f : String) (es : List Ev),
  EachEv cfg S f (OnlyCron f) {} es →
  (accs f (({} : St).run cfg S f es).sys.log).Pairwise
    (fun newer older => newer.req.when_ ≠ older.req.when_)

/-- The hypotheses of `C84_each_time_once_partial` hold of the life above, with two schedulings. -/
example : EachEv cfg0 tens "f" (OnlyCron "f") {} twoRuns ∧
    Always cfg0 tens "f" (Kept "f") {} twoRuns ∧
    (accs "f" (({} : St).run cfg0 tens "f" twoRuns).sys.log).map (·.req.when_) = [20, 10] := by
  decide +kernel

/-- The code violates it when the task gets lost (here because a worker that does not know the
function runs the fallback instead, worker.py:137-153, 925-935) and another process, whose iterator
has not moved since its import, sows it again: the task is run for the same time twice. -/
theorem C84_violated_two_processes : ¬ C84_statement := by
  intro h
  have := h cfg0 tens "f" (.start 1 :: firstRun ++ [.op (.finish 0 .completed none false),
    .op (.tick 60), .look 1 true, .sow 1 false]) (by decide +kernel)
  revert this
  decide +kernel

/-- The code violates it when a run is taken over by another worker and the record gets lost: both
executions schedule the same next time (here the task is cancelled in between). -/
theorem C84_violated_cancelled : ¬ C84_statement := by
  intro h
  have := h ⟨0, 5⟩ tens "f" (firstRun ++ [.enter 0, .op (.tick 5), .op (.redeliver "v" 1), .op (.claim 1),
    .enter 1, .again 0 i0 false, .op (.finish 0 .completed none false), .op (.cancel "f"),
    .op (.cancelTtl "f"), .again 1 i0 false]) (by decide +kernel)
  revert this
  decide +kernel

end Docket.Cron
