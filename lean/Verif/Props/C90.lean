import Verif.Props.C71
import Verif.Worker.Scheduler

/-
C90.  A task is handed to a worker in time.
-/
namespace Docket

open Redis

/-! ### Specification -/

/-- What `P` says happens regularly: a stretch of the history without it lasts at most `L`. -/
def Regular (cfg : Cfg) (P : Sys → Op → Prop) (L : Nat) (s : Sys) (ops : List Op) : Prop :=
  ∀ a b c, ops = a ++ b ++ c → EachStep cfg (fun s op => ¬ P s op) (runFrom cfg s a) b →
    (runFrom cfg s (a ++ b)).r.now ≤ (runFrom cfg s a).r.now + L

/-- The messages no worker was given yet. -/
def waitingMsgs (s : Sys) : List (MsgId × Msg) :=
  s.r.stream.filter (fun e => decide (e.1 ∉ firstHanded s.log))

/-- A worker with room for all of them asks for messages. -/
def AsksWithRoom (s : Sys) (op : Op) : Prop := ∃ w n, op = .poll w n ∧ (waitingMsgs s).length ≤ n

/-- A worker asks for a message. -/
def AsksForSome (_ : Sys) (op : Op) : Prop := ∃ w n, op = .poll w (n + 1)

/-- A scheduler moves what is due, going by a clock that was read at most `lag` ago. -/
def MovesDue (lag : Nat) (s : Sys) (op : Op) : Prop :=
  ∃ t, op = .schedule t ∧ t ≤ s.r.now ∧ s.r.now ≤ t + lag

/-- The task was handed to a worker, by this time. -/
def HandedBy (s : Sys) (m : Msg) (T : Nat) : Prop :=
  ∃ pid id w t, Event.handed pid id w false t m ∈ s.log ∧ t ≤ T

/-- By the clock of whoever schedules the task, its time has come. -/
def Immediate : Op → Prop
  | .add _ q t | .replace _ q t => q.when_ ≤ t
  | .reschedule _ t _ d => t ≤ d
  | _ => False

theorem regular_iff (cfg : Cfg) (P : Sys → Op → Prop) (L : Nat) (s : Sys) (ops : List Op) :
    Regular cfg P L s ops ↔ ∀ i, i < ops.length + 1 → ∀ j, j < ops.length + 1 →
      EachStep cfg (fun s op => ¬ P s op) (runFrom cfg s (ops.take i)) ((ops.drop i).take j) →
        (runFrom cfg s (ops.take i ++ (ops.drop i).take j)).r.now ≤ (runFrom cfg s (ops.take i)).r.now + L := by
  constructor
  · intro h i _ j _ he
    exact h _ _ ((ops.drop i).drop j) (by rw [List.append_assoc, List.take_append_drop, List.take_append_drop]) he
  · intro h a b c hops he
    subst hops
    have := h a.length (by simp; omega) b.length (by simp; omega)
    simp only [List.append_assoc, List.take_left', List.drop_left'] at this
    exact this he

instance (cfg : Cfg) (P : Sys → Op → Prop) [∀ s op, Decidable (P s op)] (L : Nat) (s : Sys) (ops : List Op) :
    Decidable (Regular cfg P L s ops) :=
  decidable_of_iff _ (regular_iff cfg P L s ops).symm

instance (s : Sys) (op : Op) : Decidable (AsksWithRoom s op) :=
  match op with
  | .poll w n => if h : (waitingMsgs s).length ≤ n then isTrue ⟨w, n, rfl, h⟩
    else isFalse (by rintro ⟨w', n', he, h'⟩; injection he with _ he; subst he; exact h h')
  | .tick _ | .add .. | .replace .. | .cancel _ | .cancelTtl _ | .clear | .clearRead | .clearWrite | .schedule _
  | .redeliver .. | .forget _ | .renew .. | .crash _ | .abandon _ | .strikeOut _ | .claim _ | .store .. | .finish ..
  | .reschedule .. | .increment .. | .setTotal .. | .setMessage .. =>
    isFalse (by rintro ⟨w', n', he, _⟩; cases he)

instance (lag : Nat) (s : Sys) (op : Op) : Decidable (MovesDue lag s op) :=
  match op with
  | .schedule t => if h : t ≤ s.r.now ∧ s.r.now ≤ t + lag then isTrue ⟨t, rfl, h⟩
    else isFalse (by rintro ⟨t', he, h'⟩; injection he with he; subst he; exact h h')
  | .tick _ | .add .. | .replace .. | .cancel _ | .cancelTtl _ | .clear | .clearRead | .clearWrite | .poll ..
  | .redeliver .. | .forget _ | .renew .. | .crash _ | .abandon _ | .strikeOut _ | .claim _ | .store .. | .finish ..
  | .reschedule .. | .increment .. | .setTotal .. | .setMessage .. =>
    isFalse (by rintro ⟨t', he, _⟩; cases he)

/-! ### Lemmas -/

theorem eachStep_append_iff (cfg : Cfg) (P : Sys → Op → Prop) (a b : List Op) : ∀ s : Sys,
    EachStep cfg P s (a ++ b) ↔ EachStep cfg P s a ∧ EachStep cfg P (runFrom cfg s a) b := by
  induction a with
  | nil => intro s; simp [EachStep, runFrom]
  | cons o a ih =>
    intro s
    show P s o ∧ EachStep cfg P (step cfg s o) (a ++ b) ↔ _
    rw [ih]
    exact and_assoc.symm

theorem now_le_run (cfg : Cfg) (ops : List Op) : ∀ {s : Sys}, WF s → s.r.now ≤ (runFrom cfg s ops).r.now := by
  induction ops with
  | nil => intro s _; exact Nat.le_refl _
  | cons o ops ih =>
    intro s hw
    exact Nat.le_trans (step_now_le cfg s hw o) (ih (hw.step o))

/-- Only `tick` moves the clock. -/
theorem now_step (cfg : Cfg) {s : Sys} (hw : WF s) (op : Op) (h : ∀ d, op ≠ .tick d) :
    (step cfg s op).r.now = s.r.now := by
  have he := step_eff cfg s hw.queue op
  generalize Docket.step cfg s op = s' at he
  cases he with
  | tick d => exact absurd rfl (h d)
  | _ => rfl

theorem runFrom_snoc (cfg : Cfg) (s : Sys) (a : List Op) (o : Op) :
    runFrom cfg s (a ++ [o]) = step cfg (runFrom cfg s a) o := by
  simp [runFrom]

theorem cross (cfg : Cfg) (W : Nat) (ops : List Op) : ∀ s : Sys, s.r.now ≤ W → W < (runFrom cfg s ops).r.now →
    ∃ a o r, ops = a ++ o :: r ∧ (runFrom cfg s a).r.now ≤ W ∧ W < (runFrom cfg s (a ++ [o])).r.now := by
  induction ops with
  | nil => intro s h1 h2; exact absurd h2 (Nat.not_lt.2 h1)
  | cons o ops ih =>
    intro s h1 h2
    by_cases h : (step cfg s o).r.now ≤ W
    · obtain ⟨a, o', r, rfl, h3, h4⟩ := ih _ h h2
      exact ⟨o :: a, o', r, rfl, h3, h4⟩
    · exact ⟨[], o, ops, rfl, h1, Nat.not_le.1 h⟩

theorem first (cfg : Cfg) (P : Sys → Op → Prop) (ops : List Op) : ∀ s : Sys,
    EachStep cfg (fun s op => ¬ P s op) s ops ∨
    ∃ b op c, ops = b ++ op :: c ∧ EachStep cfg (fun s op => ¬ P s op) s b ∧ P (runFrom cfg s b) op := by
  induction ops with
  | nil => intro s; exact Or.inl trivial
  | cons o ops ih =>
    intro s
    rcases Classical.em (P s o) with h | h
    · exact Or.inr ⟨[], o, ops, rfl, trivial, h⟩
    · rcases ih (step cfg s o) with h1 | ⟨b, op, c, rfl, h1, h2⟩
      · exact Or.inl ⟨h, h1⟩
      · exact Or.inr ⟨o :: b, op, c, rfl, ⟨h, h1⟩, h2⟩

/-- If something happens regularly, it happens soon after any time that is reached. -/
theorem Regular.next {cfg : Cfg} {P : Sys → Op → Prop} (hP : ∀ s d, ¬ P s (.tick d)) {L : Nat} {s : Sys}
    {ops : List Op} (hw : WF s) (h : Regular cfg P L s ops) (W : Nat) (hs : s.r.now ≤ W)
    (hend : W + L < (runFrom cfg s ops).r.now) :
    ∃ a op c, ops = a ++ op :: c ∧ P (runFrom cfg s a) op ∧ W ≤ (runFrom cfg s a).r.now ∧
      (runFrom cfg s a).r.now ≤ W + L := by
  obtain ⟨a, o, r, rfl, h1, h2⟩ := cross cfg W ops s hs (by omega)
  rcases first cfg P (o :: r) (runFrom cfg s a) with hn | ⟨b, op, c, hb, hn, hp⟩
  · have := h a (o :: r) [] (by simp) hn
    omega
  · refine ⟨a ++ b, op, c, by rw [hb]; simp, ?_, ?_, ?_⟩
    · rw [runFrom_append]; exact hp
    · cases b with
      | nil =>
        obtain ⟨rfl, rfl⟩ : o = op ∧ r = c := by simpa using hb
        rw [runFrom_snoc, now_step cfg (hw.runFrom a) o (by rintro d rfl; exact hP _ _ hp)] at h2
        omega
      | cons o' b =>
        obtain ⟨rfl, rfl⟩ : o = o' ∧ r = b ++ op :: c := by simpa using hb
        have e1 : a ++ o :: b = (a ++ [o]) ++ b := by simp
        rw [e1, runFrom_append]
        have := now_le_run cfg b (hw.runFrom (cfg := cfg) (a ++ [o]))
        omega
    · have := h a b (op :: c) (by rw [hb]; simp) hn
      omega

theorem Regular.after {cfg : Cfg} {P : Sys → Op → Prop} {L : Nat} {s : Sys} {a c : List Op}
    (h : Regular cfg P L s (a ++ c)) : Regular cfg P L (runFrom cfg s a) c := by
  intro a' b c' hc hb
  have := h (a ++ a') b c' (by rw [hc]; simp) (by rw [runFrom_append]; exact hb)
  simpa [runFrom_append] using this

/-- Where an accepted task is. -/
theorem place_of_accepted (cfg : Cfg) {s : Sys} (hw : WF s) (op : Op) {m : Msg}
    (hnew : (step cfg s op).log = .accepted m :: s.log) :
    (InSchedule (step cfg s op) m ∧ ¬ Immediate op) ∨ ∃ id, Queued (step cfg s op) id m := by
  have hlt := hw.stream.ldlt
  have he := step_eff cfg s hw.queue op
  generalize Docket.step cfg s op = s' at he hnew
  cases he with
  | addNow k q t ht hwh hx =>
    simp only [List.cons.injEq, Event.accepted.injEq, and_true] at hnew
    subst hnew
    exact Or.inr ⟨_, List.mem_append_right _ (List.mem_singleton.2 rfl), hlt⟩
  | addLater k q t ht hwh hx =>
    simp only [List.cons.injEq, Event.accepted.injEq, and_true] at hnew
    subst hnew
    exact Or.inl ⟨⟨upd_same _ _ _, zinsert_mem.2 (Or.inl rfl)⟩, Nat.not_le.2 hwh⟩
  | replaceNow k q t ht hwh =>
    simp only [List.cons.injEq, Event.accepted.injEq, and_true] at hnew
    subst hnew
    exact Or.inr ⟨_, List.mem_append_right _ (List.mem_singleton.2 rfl), hlt⟩
  | replaceLater k q t ht hwh =>
    simp only [List.cons.injEq, Event.accepted.injEq, and_true] at hnew
    subst hnew
    exact Or.inl ⟨⟨upd_same _ _ _, zinsert_mem.2 (Or.inl rfl)⟩, Nat.not_le.2 hwh⟩
  | rescheduleNow p t a d q =>
    simp only [List.cons.injEq, Event.accepted.injEq, and_true] at hnew
    subst hnew
    exact Or.inr ⟨_, List.mem_append_right _ (List.mem_singleton.2 rfl), hlt⟩
  | rescheduleLater p t a d q _ _ _ _ hwh =>
    simp only [List.cons.injEq, Event.accepted.injEq, and_true] at hnew
    subst hnew
    exact Or.inl ⟨⟨upd_same _ _ _, zinsert_mem.2 (Or.inl rfl)⟩, Nat.not_le.2 hwh⟩
  | poll w n new hnew' =>
    have h1 : (newHanded s.nextPid w false s.r.now new).reverse = [Event.accepted m] :=
      List.append_cancel_right (bs := s.log) hnew
    have h2 : Event.accepted m ∈ newHanded s.nextPid w false s.r.now new := by
      rw [← List.mem_reverse, h1]; simp
    obtain ⟨_, _, h3, _⟩ := mem_newHanded h2
    simp at h3
  | _ => simp at hnew

/-- A poll with room hands out everything. -/
theorem room_hands (cfg : Cfg) {s : Sys} (ho : OrderInv s) {id : MsgId} {m : Msg} (h : Queued s id m) {op : Op}
    (hp : AsksWithRoom s op) : HandedBy (step cfg s op) m s.r.now := by
  obtain ⟨w, n, rfl, hn⟩ := hp
  have hfil : s.r.stream.filter (fun e => decide (s.r.lastDelivered < e.1)) = waitingMsgs s := by
    unfold waitingMsgs
    apply List.filter_congr
    intro e he
    have h1 := ho.all e he
    have h2 := ho.last e.1
    rw [decide_eq_decide]
    constructor
    · intro h3 hc; have := h2 hc; omega
    · intro h3
      by_cases hc : e.1 ≤ s.r.lastDelivered
      · exact absurd (h1 hc) h3
      · omega
  have hm : (id, m) ∈ (s.r.stream.filter (fun e => decide (s.r.lastDelivered < e.1))).take n := by
    rw [hfil, List.take_of_length_le hn, ← hfil]
    simp only [List.mem_filter, decide_eq_true_eq]
    exact h
  obtain ⟨i, hi⟩ := newHanded_of_mem (w := w) (red := false) (t := s.r.now) hm (pid := s.nextPid)
  refine ⟨i, id, w, s.r.now, ?_, Nat.le_refl _⟩
  simp only [step, doPoll, xreadgroup, handOut_eq]
  exact List.mem_append_left _ (List.mem_reverse.2 hi)

theorem HandedBy.later {cfg : Cfg} {s : Sys} {m : Msg} {T : Nat} (h : HandedBy s m T) (hw : WF s) (ops : List Op) :
    HandedBy (runFrom cfg s ops) m T := by
  obtain ⟨pid, id, w, t, h1, h2⟩ := h
  obtain ⟨l, hl⟩ := runFrom_log cfg hw ops
  exact ⟨pid, id, w, t, by rw [hl]; exact List.mem_append_right _ h1, h2⟩

/-- On its way, or handed out. -/
def OnItsWay (s : Sys) (m : Msg) : Prop :=
  InSchedule s m ∨ (∃ id, Queued s id m) ∨ HandedBy s m s.r.now

/-- Queued, or handed out. -/
def InLine (s : Sys) (m : Msg) : Prop := (∃ id, Queued s id m) ∨ HandedBy s m s.r.now

theorem HandedBy.step {cfg : Cfg} {s : Sys} {m : Msg} (h : HandedBy s m s.r.now) (hw : WF s) (op : Op) :
    HandedBy (Docket.step cfg s op) m (Docket.step cfg s op).r.now := by
  obtain ⟨pid, id, w, t, h1, h2⟩ := HandedBy.later (cfg := cfg) h hw [op]
  exact ⟨pid, id, w, t, h1, Nat.le_trans h2 (step_now_le cfg s hw op)⟩

theorem handed_time (cfg : Cfg) {s : Sys} (hw : WF s) (op : Op) {m : Msg} (h : HandsOut cfg s op m) :
    HandedBy (Docket.step cfg s op) m (Docket.step cfg s op).r.now := by
  obtain ⟨l, hl, pid, id, w, t, hm⟩ := h
  refine ⟨pid, id, w, t, by rw [hl]; exact List.mem_append_left _ hm, ?_⟩
  have he := step_eff cfg s hw.queue op
  generalize Docket.step cfg s op = s' at he hl
  have self : s.log = l ++ s.log → l = [] := fun h => List.append_cancel_right (bs := s.log) (by simpa using h.symm)
  have one : ∀ e, e :: s.log = l ++ s.log → l = [e] := fun e h =>
    List.append_cancel_right (bs := s.log) (by simpa using h.symm)
  cases he with
  | poll w n new hnew =>
    have h1 : l = (newHanded s.nextPid w false s.r.now new).reverse :=
      (List.append_cancel_right (bs := s.log) hl).symm
    rw [h1, List.mem_reverse] at hm
    obtain ⟨_, _, h3, _⟩ := mem_newHanded hm
    simp only [Event.handed.injEq] at h3
    exact Nat.le_of_eq h3.2.2.2.2.1
  | redeliver => rw [one _ hl] at hm; simp at hm
  | _ =>
    first
    | (rw [self hl] at hm; cases hm; done)
    | (rw [one _ hl] at hm; simp at hm; done)
    | skip

theorem InLine.step {cfg : Cfg} {s : Sys} {m : Msg} (h : InLine s m) (hw : WF s) (op : Op)
    (hd : ¬ Disturbs m.key s op) : InLine (Docket.step cfg s op) m := by
  rcases h with ⟨id, h⟩ | h
  · rcases poll_handed cfg hw h op hd with ⟨_, h1, _⟩ | ⟨h1, _⟩
    · exact Or.inr (handed_time cfg hw op h1)
    · exact Or.inl ⟨id, h1⟩
  · exact Or.inr (h.step hw op)

theorem OnItsWay.step {cfg : Cfg} {s : Sys} {m : Msg} (h : OnItsWay s m) (hw : WF s) (op : Op)
    (hd : ¬ Disturbs m.key s op) : OnItsWay (Docket.step cfg s op) m := by
  rcases h with h | h
  · rcases waits_step cfg hw h op hd with ⟨h1, _⟩ | h1
    · exact Or.inl h1
    · exact Or.inr (Or.inl h1)
  · exact Or.inr (InLine.step h hw op hd)

theorem InLine.runFrom {cfg : Cfg} {m : Msg} (ops : List Op) : ∀ {s : Sys}, InLine s m → WF s →
    EachStep cfg (fun s op => ¬ Disturbs m.key s op) s ops → InLine (Docket.runFrom cfg s ops) m := by
  induction ops with
  | nil => intro s h _ _; exact h
  | cons o ops ih => intro s h hw hd; exact ih (h.step hw o hd.1) (hw.step o) hd.2

theorem OnItsWay.runFrom {cfg : Cfg} {m : Msg} (ops : List Op) : ∀ {s : Sys}, OnItsWay s m → WF s →
    EachStep cfg (fun s op => ¬ Disturbs m.key s op) s ops → OnItsWay (Docket.runFrom cfg s ops) m := by
  induction ops with
  | nil => intro s h _ _; exact h
  | cons o ops ih => intro s h hw hd; exact ih (h.step hw o hd.1) (hw.step o) hd.2

/-- From the stream to a worker. -/
theorem served (cfg : Cfg) (past fs : List Op) (m : Msg) (D T : Nat)
    (h : InLine (run cfg past) m) (hT : (run cfg past).r.now ≤ T)
    (hcont : EachStep cfg (fun s op => ¬ Disturbs m.key s op) (run cfg past) fs)
    (hpoll : Regular cfg AsksWithRoom D (run cfg past) fs)
    (hend : T + D < (runFrom cfg (run cfg past) fs).r.now) :
    HandedBy (runFrom cfg (run cfg past) fs) m (T + D) := by
  have hw := WF.run cfg past
  obtain ⟨a, op, c, rfl, hp, _, hle⟩ := hpoll.next (by rintro s d ⟨w, n, h, _⟩; cases h) hw T hT hend
  rw [eachStep_append_iff] at hcont
  have hwa := hw.runFrom (cfg := cfg) a
  rw [runFrom_append]
  rcases h.runFrom a hw hcont.1 with ⟨id, hq⟩ | hh
  · have ho : OrderInv (runFrom cfg (run cfg past) a) := by
      have := OrderInv.run cfg (past ++ a)
      rwa [run, runFrom_append] at this
    have := room_hands cfg ho hq hp
    obtain ⟨pid, id, w, t, h1, h2⟩ := HandedBy.later (cfg := cfg) this (hwa.step op) c
    exact ⟨pid, id, w, t, h1, by omega⟩
  · obtain ⟨pid, id, w, t, h1, h2⟩ := HandedBy.later (cfg := cfg) hh hwa (op :: c)
    exact ⟨pid, id, w, t, h1, by omega⟩

/-- In line behind at most `f` others, or handed out. -/
def Behind (f : Nat) (s : Sys) (m : Msg) : Prop :=
  (∃ id, Queued s id m ∧ (front s id).length ≤ f) ∨ HandedBy s m s.r.now

theorem Behind.runFrom {cfg : Cfg} {m : Msg} {f : Nat} (ops : List Op) : ∀ {s : Sys}, Behind f s m → WF s →
    EachStep cfg (fun s op => ¬ Disturbs m.key s op) s ops → Behind f (Docket.runFrom cfg s ops) m := by
  induction ops with
  | nil => intro s h _ _; exact h
  | cons o ops ih =>
    intro s h hw hd
    refine ih ?_ (hw.step o) hd.2
    rcases h with ⟨id, h, hf⟩ | h
    · rcases poll_handed cfg hw h o hd.1 with ⟨_, h1, _⟩ | ⟨h1, h2, _⟩
      · exact Or.inr (handed_time cfg hw o h1)
      · exact Or.inl ⟨id, h1, Nat.le_trans h2 hf⟩
    · exact Or.inr (h.step hw o)

theorem served_one_by_one (cfg : Cfg) (m : Msg) (D : Nat) (f : Nat) : ∀ (s : Sys) (fs : List Op) (T : Nat),
    WF s → Behind f s m → s.r.now ≤ T →
    EachStep cfg (fun s op => ¬ Disturbs m.key s op) s fs →
    Regular cfg AsksForSome D s fs → T + D * (f + 1) < (runFrom cfg s fs).r.now →
    HandedBy (runFrom cfg s fs) m (T + D * (f + 1)) := by
  induction f with
  | zero =>
    intro s fs T hw h hT hcont hpoll hend
    obtain ⟨a, op, c, rfl, ⟨w, n, rfl⟩, _, hle⟩ := hpoll.next (by rintro s d ⟨w, n, h⟩; cases h) hw T hT (by omega)
    rw [eachStep_append_iff] at hcont
    have hwa := hw.runFrom (cfg := cfg) a
    rw [runFrom_append]
    have hh : HandedBy (step cfg (runFrom cfg s a) (.poll w (n + 1))) m (T + D) := by
      rcases h.runFrom a hw hcont.1 with ⟨id, hq, hf⟩ | hh
      · rcases poll_handed cfg hwa hq _ hcont.2.1 with ⟨_, h1, _⟩ | ⟨_, _, h2⟩
        · obtain ⟨pid, id, w', t, h1, h2⟩ := handed_time cfg hwa _ h1
          rw [now_step cfg hwa _ (by intro d h; cases h)] at h2
          exact ⟨pid, id, w', t, h1, by omega⟩
        · have := h2 w n rfl
          omega
      · obtain ⟨pid, id, w', t, h1, h2⟩ := HandedBy.later (cfg := cfg) hh hwa [.poll w (n + 1)]
        exact ⟨pid, id, w', t, h1, by omega⟩
    obtain ⟨pid, id, w', t, h1, h2⟩ := HandedBy.later (cfg := cfg) hh (hwa.step _) c
    exact ⟨pid, id, w', t, h1, by omega⟩
  | succ f ih =>
    intro s fs T hw h hT hcont hpoll hend
    have hmul : D * (f + 1 + 1) = D * (f + 1) + D := by rw [Nat.mul_add D (f + 1) 1, Nat.mul_one]
    obtain ⟨a, op, c, rfl, ⟨w, n, rfl⟩, _, hle⟩ := hpoll.next (by rintro s d ⟨w, n, h⟩; cases h) hw T hT (by omega)
    have e3 : a ++ .poll w (n + 1) :: c = (a ++ [.poll w (n + 1)]) ++ c := by simp
    rw [eachStep_append_iff] at hcont
    have hwa := hw.runFrom (cfg := cfg) a
    rw [e3] at hpoll hend ⊢
    have hp := hpoll.after
    rw [runFrom_append, runFrom_snoc] at hend ⊢
    rw [runFrom_snoc] at hp
    rw [show T + D * (f + 1 + 1) = (T + D) + D * (f + 1) by omega] at hend ⊢
    refine ih _ c (T + D) (hwa.step _) ?_ ?_ hcont.2.2 hp hend
    · rcases h.runFrom a hw hcont.1 with ⟨id, hq, hf⟩ | hh
      · rcases poll_handed cfg hwa hq _ hcont.2.1 with ⟨_, h1, _⟩ | ⟨h1, _, h2⟩
        · exact Or.inr (handed_time cfg hwa _ h1)
        · have := h2 w n rfl
          exact Or.inl ⟨id, h1, by omega⟩
      · exact Or.inr (hh.step hwa _)
    · rw [now_step cfg hwa _ (by intro d h; cases h)]
      exact hle

theorem Queued.behind {s : Sys} (ho : OrderInv s) {id : MsgId} {m : Msg} (h : Queued s id m) (B : Nat)
    (hB : (waitingMsgs s).length ≤ B + 1) : (front s id).length ≤ B := by
  have hm : (id, m) ∈ waitingMsgs s := by
    simp only [waitingMsgs, List.mem_filter, decide_eq_true_eq]
    refine ⟨h.1, fun hc => ?_⟩
    have := ho.last id hc
    have := h.2
    omega
  rw [front_eq ho]
  have hsub : inFront s id = (waitingMsgs s).filter (fun e => decide (e.1 < id)) := by
    unfold inFront waitingMsgs
    rw [List.filter_filter]
    apply List.filter_congr
    intro e _
    simp [Bool.decide_and]
  rw [hsub]
  have hlt : ((waitingMsgs s).filter (fun e => decide (e.1 < id))).length < (waitingMsgs s).length := by
    rw [← List.countP_eq_length_filter]
    rcases Nat.lt_or_ge ((waitingMsgs s).countP (fun e => decide (e.1 < id))) (waitingMsgs s).length with h1 | h1
    · exact h1
    · have := List.countP_eq_length.1 (Nat.le_antisymm List.countP_le_length h1) _ hm
      simp at this
  omega

/-! ### Theorems -/

/-- C90.  Some scheduler moves what is due at least every `L`, going by a clock read at most `lag`
ago; some worker with room asks for messages at least every `D`.  Then a task that is accepted, and
not scheduled again, cancelled or cleared, is handed to a worker at most `lag + L + D` after its time
(or after it was accepted, if its time has passed by then), whatever else happens on the
docket. -/
theorem C90_in_time (cfg : Cfg) (past : List Op) (op : Op) (m : Msg) (fs : List Op) (lag L D : Nat)
    (hnew : (run cfg (past ++ [op])).log = .accepted m :: (run cfg past).log)
    (hcont : EachStep cfg (fun s op => ¬ Disturbs m.key s op) (run cfg (past ++ [op])) fs)
    (hsched : Regular cfg (MovesDue lag) L (run cfg (past ++ [op])) fs)
    (hpoll : Regular cfg AsksWithRoom D (run cfg (past ++ [op])) fs)
    (hend : max (m.req.when_ + lag) (run cfg (past ++ [op])).r.now + L + D <
      (runFrom cfg (run cfg (past ++ [op])) fs).r.now) :
    HandedBy (runFrom cfg (run cfg (past ++ [op])) fs) m
      (max (m.req.when_ + lag) (run cfg (past ++ [op])).r.now + L + D) := by
  have hw := WF.run cfg (past ++ [op])
  have h0 : OnItsWay (run cfg (past ++ [op])) m := by
    have e : run cfg (past ++ [op]) = step cfg (run cfg past) op := runFrom_snoc cfg {} past op
    rw [e] at hnew ⊢
    rcases place_of_accepted cfg (WF.run cfg past) op hnew with ⟨h, _⟩ | h
    · exact Or.inl h
    · exact Or.inr (Or.inl h)
  generalize hW : max (m.req.when_ + lag) (run cfg (past ++ [op])).r.now = W at *
  obtain ⟨a, o, c, rfl, ⟨t, rfl, ht, htl⟩, hge, hle⟩ := hsched.next
    (by rintro s d ⟨t, h, _⟩; cases h) hw W (by omega) (by omega)
  have hcont' := hcont
  rw [eachStep_append_iff] at hcont'
  obtain ⟨hc1, hc2, hc3⟩ := hcont'
  have hwa := hw.runFrom (cfg := cfg) a
  have hline : InLine (step cfg (runFrom cfg (run cfg (past ++ [op])) a) (.schedule t)) m := by
    rcases h0.runFrom a hw hc1 with h | h
    · rcases waits_step cfg hwa h (.schedule t) hc2 with ⟨_, h1⟩ | h1
      · exact absurd rfl (h1 t (by omega) ht)
      · exact Or.inl h1
    · exact InLine.step h hwa _ hc2
  have e2 : run cfg (past ++ [op] ++ (a ++ [.schedule t])) =
      step cfg (runFrom cfg (run cfg (past ++ [op])) a) (.schedule t) := by
    rw [run, runFrom_append, runFrom_snoc]; rfl
  have e3 : a ++ .schedule t :: c = (a ++ [.schedule t]) ++ c := by simp
  have e4 : runFrom cfg (run cfg (past ++ [op])) (a ++ [.schedule t]) =
      run cfg (past ++ [op] ++ (a ++ [.schedule t])) := by rw [e2, runFrom_snoc]
  rw [e3] at hpoll hend ⊢
  rw [runFrom_append] at hend ⊢
  have hp := hpoll.after
  rw [e4] at hp hend ⊢
  refine served cfg _ c m D (W + L) (by rw [e2]; exact hline) ?_ (by rw [e2]; exact hc3) hp hend
  rw [e2, now_step cfg hwa _ (by intro d h; cases h)]
  exact hle

/-- C90, with a backlog.  If workers ask for (at least) one message at least every `D`, and never more
than `B` messages wait for a worker, it takes at most `B` times `D` once its time has come. -/
theorem C90_in_time_backlog (cfg : Cfg) (past : List Op) (op : Op) (m : Msg) (fs : List Op) (lag L D B : Nat)
    (hnew : (run cfg (past ++ [op])).log = .accepted m :: (run cfg past).log)
    (hcont : EachStep cfg (fun s op => ¬ Disturbs m.key s op) (run cfg (past ++ [op])) fs)
    (hsched : Regular cfg (MovesDue lag) L (run cfg (past ++ [op])) fs)
    (hpoll : Regular cfg AsksForSome D (run cfg (past ++ [op])) fs)
    (hback : EachStep cfg (fun s _ => (waitingMsgs s).length ≤ B) (run cfg (past ++ [op])) fs)
    (hend : max (m.req.when_ + lag) (run cfg (past ++ [op])).r.now + L + D * B <
      (runFrom cfg (run cfg (past ++ [op])) fs).r.now) :
    HandedBy (runFrom cfg (run cfg (past ++ [op])) fs) m
      (max (m.req.when_ + lag) (run cfg (past ++ [op])).r.now + L + D * B) := by
  have hw := WF.run cfg (past ++ [op])
  have h0 : OnItsWay (run cfg (past ++ [op])) m := by
    have e : run cfg (past ++ [op]) = step cfg (run cfg past) op := runFrom_snoc cfg {} past op
    rw [e] at hnew ⊢
    rcases place_of_accepted cfg (WF.run cfg past) op hnew with ⟨h, _⟩ | h
    · exact Or.inl h
    · exact Or.inr (Or.inl h)
  generalize hW : max (m.req.when_ + lag) (run cfg (past ++ [op])).r.now = W at *
  obtain ⟨a, o, c, rfl, ⟨t, rfl, ht, htl⟩, hge, hle⟩ := hsched.next
    (by rintro s d ⟨t, h, _⟩; cases h) hw W (by omega) (by omega)
  rw [eachStep_append_iff] at hcont hback
  obtain ⟨hc1, hc2, hc3⟩ := hcont
  have hwa := hw.runFrom (cfg := cfg) a
  have hline : InLine (step cfg (runFrom cfg (run cfg (past ++ [op])) a) (.schedule t)) m := by
    rcases h0.runFrom a hw hc1 with h | h
    · rcases waits_step cfg hwa h (.schedule t) hc2 with ⟨_, h1⟩ | h1
      · exact absurd rfl (h1 t (by omega) ht)
      · exact Or.inl h1
    · exact InLine.step h hwa _ hc2
  have e2 : run cfg (past ++ [op] ++ (a ++ [.schedule t])) =
      step cfg (runFrom cfg (run cfg (past ++ [op])) a) (.schedule t) := by
    rw [run, runFrom_append, runFrom_snoc]; rfl
  have ho := OrderInv.run cfg (past ++ [op] ++ (a ++ [.schedule t]))
  rw [e2] at ho
  have hnow : (step cfg (runFrom cfg (run cfg (past ++ [op])) a) (.schedule t)).r.now ≤ W + L := by
    rw [now_step cfg hwa _ (by intro d h; cases h)]
    exact hle
  have e3 : a ++ .schedule t :: c = (a ++ [.schedule t]) ++ c := by simp
  rw [e3] at hpoll hend ⊢
  have hp := hpoll.after
  rw [runFrom_append, runFrom_snoc] at hend ⊢
  rw [runFrom_snoc] at hp
  have hb : (waitingMsgs (step cfg (runFrom cfg (run cfg (past ++ [op])) a) (.schedule t))).length ≤ B := by
    cases c with
    | nil => simp only [runFrom, List.foldl_nil] at hend hnow; omega
    | cons o c => exact hback.2.2.1
  cases B with
  | zero =>
    rcases hline with ⟨id, hq⟩ | hh
    · exfalso
      have hm : (id, m) ∈ waitingMsgs (step cfg (runFrom cfg (run cfg (past ++ [op])) a) (.schedule t)) := by
        simp only [waitingMsgs, List.mem_filter, decide_eq_true_eq]
        refine ⟨hq.1, fun hc => ?_⟩
        have := ho.last id hc
        have := hq.2
        omega
      have := List.length_pos_of_mem hm
      omega
    · obtain ⟨pid, id, w', t', h1, h2⟩ := HandedBy.later (cfg := cfg) hh (hwa.step _) c
      exact ⟨pid, id, w', t', h1, by omega⟩
  | succ B =>
    refine served_one_by_one cfg m D B _ c (W + L) (hwa.step _) ?_ hnow hc3 hp hend
    rcases hline with ⟨id, hq⟩ | hh
    · exact Or.inl ⟨id, hq, hq.behind ho B hb⟩
    · exact Or.inr hh

instance (s : Sys) (op : Op) : Decidable (AsksForSome s op) :=
  match op with
  | .poll w (n + 1) => isTrue ⟨w, n, rfl⟩
  | .poll _ 0 => isFalse (by rintro ⟨w', n', he⟩; injection he with _ he; cases he)
  | .tick _ | .add .. | .replace .. | .cancel _ | .cancelTtl _ | .clear | .clearRead | .clearWrite | .schedule _
  | .redeliver .. | .forget _ | .renew .. | .crash _ | .abandon _ | .strikeOut _ | .claim _ | .store .. | .finish ..
  | .reschedule .. | .increment .. | .setTotal .. | .setMessage .. =>
    isFalse (by rintro ⟨w', n', he⟩; cases he)

/-- The conditions can be met: a task due in 3, a scheduler every 2, a worker that asks every 2 while up
to two messages wait. -/
example :
    let cfg : Cfg := ⟨900, 300⟩
    let op : Op := .add "k" ⟨"f", "", "", 3, 1⟩ 0
    let m : Msg := ⟨"k", ⟨"f", "", "", 3, 1⟩, 1⟩
    let fs : List Op := [.schedule 0, .add "a" ⟨"f", "", "", 0, 1⟩ 0, .add "b" ⟨"f", "", "", 0, 1⟩ 0,
      .poll "w" 1, .tick 2, .schedule 1, .poll "w" 1, .tick 2, .schedule 4, .add "c" ⟨"f", "", "", 0, 1⟩ 4,
      .poll "w" 1, .tick 2, .schedule 6, .poll "w" 1, .tick 2, .schedule 8, .poll "w" 1, .tick 2, .schedule 10,
      .poll "w" 1, .tick 1]
    (run cfg ([] ++ [op])).log = .accepted m :: (run cfg []).log ∧
    EachStep cfg (fun s op => ¬ Disturbs m.key s op) (run cfg ([] ++ [op])) fs ∧
    Regular cfg (MovesDue 1) 2 (run cfg ([] ++ [op])) fs ∧
    Regular cfg AsksForSome 2 (run cfg ([] ++ [op])) fs ∧
    EachStep cfg (fun s _ => (waitingMsgs s).length ≤ 2) (run cfg ([] ++ [op])) fs ∧
    max (m.req.when_ + 1) (run cfg ([] ++ [op])).r.now + 2 + 2 * 2 < (runFrom cfg (run cfg ([] ++ [op])) fs).r.now := by
  decide +kernel

/-- C90, at once.  A task whose time has come when it is accepted does not need a scheduler: it is
handed out at most `D` later. -/
theorem C90_at_once (cfg : Cfg) (past : List Op) (op : Op) (m : Msg) (fs : List Op) (D : Nat)
    (hnew : (run cfg (past ++ [op])).log = .accepted m :: (run cfg past).log)
    (htime : Immediate op)
    (hcont : EachStep cfg (fun s op => ¬ Disturbs m.key s op) (run cfg (past ++ [op])) fs)
    (hpoll : Regular cfg AsksWithRoom D (run cfg (past ++ [op])) fs)
    (hend : (run cfg (past ++ [op])).r.now + D < (runFrom cfg (run cfg (past ++ [op])) fs).r.now) :
    HandedBy (runFrom cfg (run cfg (past ++ [op])) fs) m ((run cfg (past ++ [op])).r.now + D) := by
  have hw := WF.run cfg (past ++ [op])
  refine served cfg _ fs m D _ ?_ (Nat.le_refl _) hcont hpoll hend
  have e : run cfg (past ++ [op]) = step cfg (run cfg past) op := runFrom_snoc cfg {} past op
  rw [e] at hnew ⊢
  rcases place_of_accepted cfg (WF.run cfg past) op hnew with ⟨_, h⟩ | h
  · exact absurd htime h
  · exact Or.inl h

end Docket

namespace Docket.Scheduler

/-! ### The scheduler loop -/

/-- The operations on the docket in these events, the loop's own calls among them. -/
def opsOf (cfg : Cfg) (resolution : Nat) : State → List Ev → List Op
  | _, [] => []
  | s, .op o :: es => o :: opsOf cfg resolution (step cfg resolution s (.op o)) es
  | s, .go ok :: es =>
    (match s.pc, ok with
      | .calling t, true => [.schedule t]
      | _, _ => []) ++ opsOf cfg resolution (step cfg resolution s (.go ok)) es
  | s, .stop :: es => opsOf cfg resolution (step cfg resolution s .stop) es

/-- The process is on time: it is woken at most `late` after the moment it waited for, goes on
from the head of the loop within `late`, and a call, whether it succeeds or fails, takes at most
`lag`; at most `n` calls in a row fail; and the worker is not told to stop. -/
def Punctual (late lag n : Nat) (s : State) : Ev → Prop
  | .op (.tick d) => match s.pc with
    | .top t => s.sys.r.now + d ≤ t + late
    | .calling t => s.sys.r.now + d ≤ t + lag
    | .waiting t => s.sys.r.now + d ≤ t + late
    | .over => True
  | .op _ => True
  | .go false => match s.pc with
    | .calling _ => s.fails < n
    | _ => True
  | .go true => True
  | .stop => False

/-- At each event. -/
def Each (cfg : Cfg) (resolution : Nat) (P : State → Ev → Prop) : State → List Ev → Prop
  | _, [] => True
  | s, e :: es => P s e ∧ Each cfg resolution P (step cfg resolution s e) es

/-- The longest stretch without a call that succeeded. -/
def longest (resolution late lag n : Nat) : Nat := (n + 1) * (resolution + 2 * late + lag)

theorem opsOf_sys (cfg : Cfg) (res : Nat) (es : List Ev) : ∀ s : State,
    (runFrom cfg res s es).sys = Docket.runFrom cfg s.sys (opsOf cfg res s es) := by
  induction es with
  | nil => intro s; rfl
  | cons e es ih =>
    intro s
    show (runFrom cfg res (step cfg res s e) es).sys = _
    rw [ih]
    cases e with
    | op o => rfl
    | stop => rfl
    | go ok =>
      cases hpc : s.pc with
      | top t => simp only [opsOf, step, go, hpc, List.nil_append]; split <;> rfl
      | calling t => cases ok <;> simp [opsOf, step, go, hpc, Docket.runFrom]
      | waiting u =>
        simp only [opsOf, step, go, hpc, List.nil_append]
        split
        · rfl
        · split <;> rfl
      | over => simp only [opsOf, step, go, hpc, List.nil_append]

theorem opsOf_append (cfg : Cfg) (res : Nat) (a b : List Ev) : ∀ s : State,
    opsOf cfg res s (a ++ b) = opsOf cfg res s a ++ opsOf cfg res (runFrom cfg res s a) b := by
  induction a with
  | nil => intro s; rfl
  | cons e a ih =>
    intro s
    cases e with
    | op o => simp only [List.cons_append, opsOf, ih]; rfl
    | stop => simp only [List.cons_append, opsOf, ih]; rfl
    | go ok => simp only [List.cons_append, opsOf, ih, List.append_assoc]; rfl

theorem each_append (cfg : Cfg) (res : Nat) (P : State → Ev → Prop) (a b : List Ev) : ∀ s : State,
    Each cfg res P s (a ++ b) ↔ Each cfg res P s a ∧ Each cfg res P (runFrom cfg res s a) b := by
  induction a with
  | nil => intro s; simp [Each, runFrom]
  | cons e a ih =>
    intro s
    show P s e ∧ Each cfg res P (step cfg res s e) (a ++ b) ↔ _
    rw [ih]
    exact and_assoc.symm

/-- A part of the operations is made by a part of the events. -/
theorem opsOf_split (cfg : Cfg) (res : Nat) (es : List Ev) : ∀ (s : State) (a b : List Op),
    opsOf cfg res s es = a ++ b → ∃ ea eb, es = ea ++ eb ∧ opsOf cfg res s ea = a ∧
      opsOf cfg res (runFrom cfg res s ea) eb = b := by
  induction es with
  | nil =>
    intro s a b h
    have : a = [] ∧ b = [] := by simpa [opsOf] using h.symm
    exact ⟨[], [], rfl, this.1.symm, this.2.symm⟩
  | cons e es ih =>
    intro s a b h
    have one : opsOf cfg res s (e :: es) = opsOf cfg res s [e] ++ opsOf cfg res (step cfg res s e) es :=
      opsOf_append cfg res [e] es s
    cases a with
    | nil => exact ⟨[], e :: es, rfl, rfl, h⟩
    | cons o a =>
      have hlen : opsOf cfg res s [e] = [] ∨ ∃ o', opsOf cfg res s [e] = [o'] := by
        cases e with
        | op o => exact Or.inr ⟨o, rfl⟩
        | stop => exact Or.inl rfl
        | go ok =>
          cases hpc : s.pc with
          | calling t => cases ok <;> simp [opsOf, hpc]
          | _ => simp [opsOf, hpc]
      rcases hlen with h0 | ⟨o', h0⟩
      · rw [one, h0, List.nil_append] at h
        obtain ⟨ea, eb, rfl, h1, h2⟩ := ih _ _ _ h
        refine ⟨e :: ea, eb, rfl, ?_, h2⟩
        have := opsOf_append cfg res [e] ea s
        rw [h0, List.nil_append] at this
        exact this.trans h1
      · rw [one, h0] at h
        simp only [List.cons_append, List.nil_append, List.cons.injEq] at h
        obtain ⟨rfl, h⟩ := h
        obtain ⟨ea, eb, rfl, h1, h2⟩ := ih _ _ _ h
        refine ⟨e :: ea, eb, rfl, ?_, h2⟩
        have := opsOf_append cfg res [e] ea s
        rw [h0] at this
        refine this.trans ?_
        show o' :: opsOf cfg res (step cfg res s e) ea = o' :: a
        rw [h1]

/-- What the loop is at, at any time. -/
structure Alive (res late lag : Nat) (s : State) : Prop where
  wf : WF s.sys
  stop : s.stopping = false
  pc : match s.pc with
    | .top t => t ≤ s.sys.r.now ∧ s.sys.r.now ≤ t + late
    | .calling t => t ≤ s.sys.r.now ∧ s.sys.r.now ≤ t + lag
    | .waiting u => u ≤ s.sys.r.now + res ∧ s.sys.r.now ≤ u + late
    | .over => False

/-- What the loop is at, `f - f0` failures after `T`, with no success since. -/
def Bound (res late lag T : Nat) (k : Nat) (s : State) : Prop :=
  match s.pc with
  | .top t => t ≤ T + k * (res + 2 * late + lag) + res + late
  | .calling t => t ≤ T + k * (res + 2 * late + lag) + res + 2 * late
  | .waiting u => u ≤ T + k * (res + 2 * late + lag) + res
  | .over => False

theorem tick_now (cfg : Cfg) (s : Sys) (d : Nat) : (Docket.step cfg s (.tick d)).r.now = s.r.now + d := rfl

theorem Alive.step {cfg : Cfg} {res late lag n : Nat} {s : State} (h : Alive res late lag s) (e : Ev)
    (hp : Punctual late lag n s e) : Alive res late lag (Scheduler.step cfg res s e) := by
  obtain ⟨hw, hs, hpc⟩ := h
  cases e with
  | stop => exact absurd hp (by simp [Punctual])
  | op o =>
    refine ⟨hw.step o, hs, ?_⟩
    show match s.pc with
      | .top t => t ≤ (Docket.step cfg s.sys o).r.now ∧ (Docket.step cfg s.sys o).r.now ≤ t + late
      | .calling t => t ≤ (Docket.step cfg s.sys o).r.now ∧ (Docket.step cfg s.sys o).r.now ≤ t + lag
      | .waiting u => u ≤ (Docket.step cfg s.sys o).r.now + res ∧ (Docket.step cfg s.sys o).r.now ≤ u + late
      | .over => False
    by_cases ht : ∃ d, o = .tick d
    · obtain ⟨d, rfl⟩ := ht
      rw [tick_now]
      cases hc : s.pc with
      | top t => simp only [hc, Punctual] at hpc hp ⊢; omega
      | calling t => simp only [hc, Punctual] at hpc hp ⊢; omega
      | waiting t => simp only [hc, Punctual] at hpc hp ⊢; omega
      | over => simp only [hc] at hpc
    · rw [now_step cfg hw o (fun d hd => ht ⟨d, hd⟩)]
      exact hpc
  | go ok =>
    cases hc : s.pc with
    | top t =>
      have e : Scheduler.step cfg res s (.go ok) = { s with pc := .calling s.sys.r.now } := by
        simp [Scheduler.step, go, hc, hs]
      rw [e]
      exact ⟨hw, hs, by simp⟩
    | calling t =>
      cases ok with
      | true =>
        have e : Scheduler.step cfg res s (.go true) = ⟨Docket.step cfg s.sys (.schedule t),
            .waiting (s.sys.r.now + res), s.stopping, 0⟩ := by
          simp [Scheduler.step, go, hc]
        rw [e]
        refine ⟨by exact hw.step (cfg := cfg) (.schedule t), hs, ?_⟩
        simp only [now_step cfg hw (.schedule t) (by intro d h; cases h)]
        omega
      | false =>
        have e : Scheduler.step cfg res s (.go false) = ⟨s.sys, .waiting (s.sys.r.now + res), s.stopping,
            s.fails + 1⟩ := by
          simp [Scheduler.step, go, hc]
        rw [e]
        refine ⟨hw, hs, ?_⟩
        simp only []
        omega
    | waiting u =>
      simp only [hc] at hpc
      have e : Scheduler.step cfg res s (.go ok) =
          if u ≤ s.sys.r.now then { s with pc := .top s.sys.r.now } else s := by
        simp [Scheduler.step, go, hc, hs]
      rw [e]
      split
      · exact ⟨hw, hs, by simp⟩
      · exact ⟨hw, hs, by simp only [hc]; exact hpc⟩
    | over => simp only [hc] at hpc

theorem Alive.runFrom {cfg : Cfg} {res late lag n : Nat} (es : List Ev) : ∀ {s : State}, Alive res late lag s →
    Each cfg res (Punctual late lag n) s es → Alive res late lag (Scheduler.runFrom cfg res s es) := by
  induction es with
  | nil => intro s h _; exact h
  | cons e es ih => intro s h hp; exact ih (h.step e hp.1) hp.2

/-- A stretch without a successful call is short. -/
theorem quiet_short (cfg : Cfg) (res late lag n T : Nat) (es : List Ev) : ∀ (s : State) (k : Nat),
    Alive res late lag s → Bound res late lag T k s → k ≤ s.fails → s.fails ≤ n →
    Each cfg res (Punctual late lag n) s es →
    EachStep cfg (fun s op => ¬ MovesDue lag s op) s.sys (opsOf cfg res s es) →
    (runFrom cfg res s es).sys.r.now ≤ T + longest res late lag n := by
  induction es with
  | nil =>
    intro s k ha hb hk hn _ _
    have hmul : k * (res + 2 * late + lag) ≤ n * (res + 2 * late + lag) :=
      Nat.mul_le_mul_right _ (Nat.le_trans hk hn)
    have hpc := ha.pc
    show s.sys.r.now ≤ _
    unfold longest
    rw [Nat.add_mul, Nat.one_mul]
    unfold Bound at hb
    cases hc : s.pc with
    | top t => simp only [hc] at hpc hb; omega
    | calling t => simp only [hc] at hpc hb; omega
    | waiting t => simp only [hc] at hpc hb; omega
    | over => simp only [hc] at hpc
  | cons e es ih =>
    intro s k ha hb hk hn hp hq
    have ha' := ha.step (cfg := cfg) e hp.1
    cases e with
    | stop => exact absurd hp.1 (by simp [Punctual])
    | op o => exact ih _ k ha' hb hk hn hp.2 hq.2
    | go ok =>
      have hpc := ha.pc
      cases hc : s.pc with
      | top t =>
        have hb' : Bound res late lag T k (step cfg res s (.go ok)) := by
          simp only [hc, Bound] at hpc hb
          simp only [step, go, hc, ha.stop, Bool.false_eq_true, if_false, Bound]
          omega
        refine ih _ k ha' hb' ?_ ?_ hp.2 ?_
        · simpa [step, go, hc, ha.stop] using hk
        · simpa [step, go, hc, ha.stop] using hn
        · have : (step cfg res s (.go ok)).sys = s.sys := by simp [step, go, hc, ha.stop]
          rw [this]
          simpa [opsOf, hc] using hq
      | calling t =>
        simp only [hc] at hpc
        cases ok with
        | true =>
          have : opsOf cfg res s (.go true :: es) = .schedule t :: opsOf cfg res (step cfg res s (.go true)) es := by
            simp [opsOf, hc]
          rw [this] at hq
          exact absurd ⟨t, rfl, hpc⟩ hq.1
        | false =>
          have hb' : Bound res late lag T (k + 1) (step cfg res s (.go false)) := by
            simp only [hc, Bound] at hb
            simp only [step, go, hc, Bool.false_eq_true, if_false, Bound]
            rw [Nat.add_mul, Nat.one_mul]
            omega
          have hf : s.fails < n := by have := hp.1; simpa only [Punctual, hc] using this
          refine ih _ (k + 1) ha' hb' ?_ ?_ hp.2 ?_
          · simpa [step, go, hc] using hk
          · have : (step cfg res s (.go false)).fails = s.fails + 1 := by simp [step, go, hc]
            omega
          · have : (step cfg res s (.go false)).sys = s.sys := by simp [step, go, hc]
            rw [this]
            simpa [opsOf, hc] using hq
      | waiting u =>
        simp only [hc] at hpc
        have hsys : (step cfg res s (.go ok)).sys = s.sys := by
          simp only [step, go, hc, ha.stop, Bool.false_eq_true, if_false]
          split <;> rfl
        have hfl : (step cfg res s (.go ok)).fails = s.fails := by
          simp only [step, go, hc, ha.stop, Bool.false_eq_true, if_false]
          split <;> rfl
        have hb' : Bound res late lag T k (step cfg res s (.go ok)) := by
          simp only [hc, Bound] at hb
          simp only [step, go, hc, ha.stop, Bool.false_eq_true, if_false]
          split
          · simp only [Bound]; omega
          · simp only [Bound, hc]; exact hb
        refine ih _ k ha' hb' (by rw [hfl]; exact hk) (by rw [hfl]; exact hn) hp.2 ?_
        rw [hsys]
        simpa [opsOf, hc] using hq
      | over => simp only [hc] at hpc

theorem fails_le (cfg : Cfg) (res late lag n : Nat) (es : List Ev) : ∀ {s : State}, s.fails ≤ n →
    Each cfg res (Punctual late lag n) s es → (runFrom cfg res s es).fails ≤ n := by
  induction es with
  | nil => intro s h _; exact h
  | cons e es ih =>
    intro s h hp
    refine ih ?_ hp.2
    cases e with
    | op o => exact h
    | stop => exact h
    | go ok =>
      have hp1 := hp.1
      cases hc : s.pc with
      | top t => simp only [step, go, hc]; split <;> exact h
      | calling t =>
        cases ok with
        | true => simp [step, go, hc]
        | false =>
          simp only [Punctual, hc] at hp1
          have : (step cfg res s (.go false)).fails = s.fails + 1 := by simp [step, go, hc]
          omega
      | waiting u =>
        simp only [step, go, hc]
        split
        · exact h
        · split <;> exact h
      | over => simpa only [step, go, hc] using h

/-- C90, the loop.  A scheduler loop that is punctual moves what is due at least every
`(n + 1) * (resolution + 2 * late + lag)`: a failed call is made up for in the next round, it
does not end the loop.  (`opsOf` is what happens to the docket.) -/
theorem C90_scheduler_regular (cfg : Cfg) (res late lag n : Nat) (hist : List Op) (past es : List Ev)
    (hp : Each cfg res (Punctual late lag n) (start cfg hist) (past ++ es)) :
    (run cfg res hist (past ++ es)).sys =
      Docket.runFrom cfg (run cfg res hist past).sys (opsOf cfg res (run cfg res hist past) es) ∧
    Regular cfg (MovesDue lag) (longest res late lag n) (run cfg res hist past).sys
      (opsOf cfg res (run cfg res hist past) es) := by
  refine ⟨by rw [← opsOf_sys]; simp [run, runFrom], ?_⟩
  intro a b c hops hb
  rw [List.append_assoc] at hops
  obtain ⟨ea, ebc, rfl, h1, h2⟩ := opsOf_split cfg res es _ _ _ hops
  obtain ⟨eb, ec, rfl, h3, h4⟩ := opsOf_split cfg res ebc _ _ _ h2
  have h0 : Alive res late lag (start cfg hist) := ⟨WF.run cfg hist, rfl, by simp [start]⟩
  rw [each_append, each_append, each_append] at hp
  obtain ⟨hp1, hp2, hp3, hp4⟩ := hp
  have hal : Alive res late lag (runFrom cfg res (run cfg res hist past) ea) := (h0.runFrom past hp1).runFrom ea hp2
  have hfl : (runFrom cfg res (run cfg res hist past) ea).fails ≤ n :=
    fails_le cfg res late lag n ea (fails_le cfg res late lag n past (Nat.zero_le _) hp1) hp2
  have e1 : Docket.runFrom cfg (run cfg res hist past).sys a = (runFrom cfg res (run cfg res hist past) ea).sys := by
    rw [opsOf_sys, h1]
  have e2 : Docket.runFrom cfg (run cfg res hist past).sys (a ++ b) =
      (runFrom cfg res (runFrom cfg res (run cfg res hist past) ea) eb).sys := by
    rw [Docket.runFrom_append, e1, ← h3, ← opsOf_sys]
  rw [e1] at hb ⊢
  rw [e2]
  have hpc := hal.pc
  refine quiet_short cfg res late lag n _ eb _ 0 hal ?_ (Nat.zero_le _) hfl hp3 (by rw [h3]; exact hb)
  unfold Bound
  cases hc : (runFrom cfg res (run cfg res hist past) ea).pc with
  | top t => simp only [hc] at hpc ⊢; omega
  | calling t => simp only [hc] at hpc ⊢; omega
  | waiting t => simp only [hc] at hpc ⊢; omega
  | over => simp only [hc] at hpc

/-- C90, with the loop of a worker as the scheduler.  In the run of a punctual scheduler loop, with
whatever else happens on the docket in between, a task accepted somewhere on the way is handed to a
worker at most `lag + (n + 1) * (resolution + 2 * late + lag) + D` after its time. -/
theorem C90_worker_in_time (cfg : Cfg) (res late lag n D : Nat) (hist : List Op) (past es : List Ev) (op : Op)
    (m : Msg) (hp : Each cfg res (Punctual late lag n) (start cfg hist) (past ++ .op op :: es))
    (hnew : (run cfg res hist (past ++ [.op op])).sys.log = .accepted m :: (run cfg res hist past).sys.log)
    (hcont : EachStep cfg (fun s op => ¬ Disturbs m.key s op) (run cfg res hist (past ++ [.op op])).sys
      (opsOf cfg res (run cfg res hist (past ++ [.op op])) es))
    (hpoll : Regular cfg AsksWithRoom D (run cfg res hist (past ++ [.op op])).sys
      (opsOf cfg res (run cfg res hist (past ++ [.op op])) es))
    (hend : max (m.req.when_ + lag) (run cfg res hist (past ++ [.op op])).sys.r.now + longest res late lag n + D <
      (run cfg res hist (past ++ .op op :: es)).sys.r.now) :
    HandedBy (run cfg res hist (past ++ .op op :: es)).sys m
      (max (m.req.when_ + lag) (run cfg res hist (past ++ [.op op])).sys.r.now + longest res late lag n + D) := by
  have hsys : ∀ l, (run cfg res hist l).sys = Docket.run cfg (hist ++ opsOf cfg res (start cfg hist) l) := by
    intro l
    rw [run, opsOf_sys, Docket.run, Docket.runFrom_append]
    rfl
  have e1 : past ++ .op op :: es = (past ++ [.op op]) ++ es := by simp
  have hr := (C90_scheduler_regular cfg res late lag n hist (past ++ [.op op]) es (by rw [← e1]; exact hp)).2
  have e2 : (run cfg res hist (past ++ .op op :: es)).sys =
      Docket.runFrom cfg (run cfg res hist (past ++ [.op op])).sys
        (opsOf cfg res (run cfg res hist (past ++ [.op op])) es) := by
    rw [e1, ← opsOf_sys]
    simp [run, runFrom]
  have e3 : (run cfg res hist (past ++ [.op op])).sys =
      Docket.run cfg ((hist ++ opsOf cfg res (start cfg hist) past) ++ [op]) := by
    rw [hsys, opsOf_append]
    simp [opsOf]
  rw [e2] at hend ⊢
  rw [hsys past, e3] at hnew
  rw [e3] at hcont hpoll hend hr ⊢
  exact C90_in_time cfg _ op m _ lag _ D hnew hcont hr hpoll hend

/-- C90, being punctual is possible.  A loop that has been punctual so far can stay so for as long as
one likes: it never gets stuck. -/
theorem C90_can_be_punctual (cfg : Cfg) (res late lag n : Nat) (hres : 0 < res) (hist : List Op) (past : List Ev)
    (hp : Each cfg res (Punctual late lag n) (start cfg hist) past) (T : Nat) :
    ∃ es, Each cfg res (Punctual late lag n) (start cfg hist) (past ++ es) ∧
      (run cfg res hist past).sys.r.now + T ≤ (run cfg res hist (past ++ es)).sys.r.now := by
  have h0 : Alive res late lag (start cfg hist) := ⟨WF.run cfg hist, rfl, by simp [start]⟩
  have hal : Alive res late lag (run cfg res hist past) := h0.runFrom past hp
  have app : ∀ l l', runFrom cfg res (run cfg res hist l) l' = run cfg res hist (l ++ l') := by
    intro l l'; simp [run, runFrom]
  have key : ∀ (T : Nat) (s : State), Alive res late lag s → ∃ es, Each cfg res (Punctual late lag n) s es ∧
      s.sys.r.now + T ≤ (runFrom cfg res s es).sys.r.now := by
    intro T
    induction T with
    | zero => intro s _; exact ⟨[], trivial, Nat.le_refl _⟩
    | succ T ih =>
      intro s ha
      -- one unit of time can pass
      have one : ∃ es, Each cfg res (Punctual late lag n) s es ∧
          s.sys.r.now + 1 ≤ (runFrom cfg res s es).sys.r.now := by
        have wait : ∀ (s : State) (u : Nat), s.pc = .waiting u → s.sys.r.now < u →
            Each cfg res (Punctual late lag n) s [.op (.tick 1)] ∧
            s.sys.r.now + 1 ≤ (runFrom cfg res s [.op (.tick 1)]).sys.r.now := by
          intro s u hc hlt
          refine ⟨⟨?_, trivial⟩, Nat.le_refl _⟩
          simp only [Punctual, hc]
          omega
        have call : ∀ (s : State) (t : Nat), WF s.sys → s.pc = .calling t →
            Each cfg res (Punctual late lag n) s [.go true, .op (.tick 1)] ∧
            s.sys.r.now + 1 ≤ (runFrom cfg res s [.go true, .op (.tick 1)]).sys.r.now := by
          intro s t hw hc
          have e : Scheduler.step cfg res s (.go true) = ⟨Docket.step cfg s.sys (.schedule t),
              .waiting (s.sys.r.now + res), s.stopping, 0⟩ := by
            simp [Scheduler.step, go, hc]
          have hn : (Scheduler.step cfg res s (.go true)).sys.r.now = s.sys.r.now := by
            rw [e]
            exact now_step cfg hw (.schedule t) (by intro d h; cases h)
          obtain ⟨h1, h2⟩ := wait (Scheduler.step cfg res s (.go true)) (s.sys.r.now + res) (by rw [e])
            (by rw [hn]; omega)
          rw [hn] at h2
          exact ⟨⟨trivial, h1⟩, h2⟩
        have top : ∀ (s : State) (t : Nat), WF s.sys → s.stopping = false → s.pc = .top t →
            Each cfg res (Punctual late lag n) s [.go true, .go true, .op (.tick 1)] ∧
            s.sys.r.now + 1 ≤ (runFrom cfg res s [.go true, .go true, .op (.tick 1)]).sys.r.now := by
          intro s t hw hs hc
          have e : Scheduler.step cfg res s (.go true) = { s with pc := .calling s.sys.r.now } := by
            simp [Scheduler.step, go, hc, hs]
          obtain ⟨h1, h2⟩ := call (Scheduler.step cfg res s (.go true)) s.sys.r.now (by rw [e]; exact hw) (by rw [e])
          have hn : (Scheduler.step cfg res s (.go true)).sys.r.now = s.sys.r.now := by rw [e]
          rw [hn] at h2
          exact ⟨⟨trivial, h1⟩, h2⟩
        have hpc := ha.pc
        cases hc : s.pc with
        | top t => exact ⟨_, top s t ha.wf ha.stop hc⟩
        | calling t => exact ⟨_, call s t ha.wf hc⟩
        | waiting u =>
          by_cases hlt : s.sys.r.now < u
          · exact ⟨_, wait s u hc hlt⟩
          · have e : Scheduler.step cfg res s (.go true) = { s with pc := .top s.sys.r.now } := by
              have : u ≤ s.sys.r.now := by omega
              simp [Scheduler.step, go, hc, ha.stop, this]
            obtain ⟨h1, h2⟩ := top (Scheduler.step cfg res s (.go true)) s.sys.r.now (by rw [e]; exact ha.wf)
              (by rw [e]; exact ha.stop) (by rw [e])
            have hn : (Scheduler.step cfg res s (.go true)).sys.r.now = s.sys.r.now := by rw [e]
            rw [hn] at h2
            exact ⟨.go true :: _, ⟨trivial, h1⟩, h2⟩
        | over => simp only [hc] at hpc
      obtain ⟨es, h1, h2⟩ := one
      obtain ⟨es', h3, h4⟩ := ih _ (ha.runFrom es h1)
      refine ⟨es ++ es', (each_append ..).2 ⟨h1, h3⟩, ?_⟩
      have : runFrom cfg res s (es ++ es') = runFrom cfg res (runFrom cfg res s es) es' := by simp [runFrom]
      rw [this]
      omega
  obtain ⟨es, h1, h2⟩ := key T _ hal
  exact ⟨es, (each_append ..).2 ⟨hp, h1⟩, by rw [← app]; exact h2⟩

/-! ### Examples -/

instance (late lag n : Nat) (s : State) (e : Ev) : Decidable (Punctual late lag n s e) := by
  unfold Punctual
  split
  · split <;> infer_instance
  · infer_instance
  · split <;> infer_instance
  · infer_instance
  · infer_instance

instance decEach (cfg : Cfg) (res : Nat) (P : State → Ev → Prop) [∀ s e, Decidable (P s e)] :
    ∀ s es, Decidable (Each cfg res P s es)
  | s, [] => by unfold Each; infer_instance
  | s, e :: es => by
    unfold Each
    have := decEach cfg res P (step cfg res s e) es
    infer_instance

/-- Two rounds of the loop: resolution 4, the first call of the second round fails; a worker with five
slots asks every three ticks. -/
def exEvs : List Ev :=
  [.go true, .go true, .op (.tick 3), .op (.poll "w" 5), .op (.tick 1), .go true, .go true, .op (.tick 1), .go false,
   .op (.tick 1), .op (.poll "w" 5), .op (.tick 3), .go true, .op (.poll "w" 5), .op (.tick 1), .go true, .go true,
   .op (.tick 2), .op (.poll "w" 5), .op (.tick 2), .go true, .op (.tick 1), .op (.poll "w" 5), .go true, .go true,
   .op (.tick 3), .op (.poll "w" 5), .op (.tick 1), .go true, .go true, .go true, .op (.tick 3), .op (.poll "w" 5),
   .op (.tick 1), .go true, .go true, .go true, .op (.tick 2), .op (.poll "w" 5)]

def exMsg : Msg := ⟨"k", ⟨"f", "", "", 5, 1⟩, 1⟩

example :
    let cfg : Cfg := ⟨900, 300⟩
    let op : Op := .add "k" ⟨"f", "", "", 5, 1⟩ 0
    Each cfg 4 (Punctual 1 1 1) (start cfg []) ([] ++ .op op :: exEvs) ∧
    (run cfg 4 [] ([] ++ [.op op])).sys.log = .accepted exMsg :: (run cfg 4 [] []).sys.log ∧
    EachStep cfg (fun s op => ¬ Disturbs exMsg.key s op) (run cfg 4 [] ([] ++ [.op op])).sys
      (opsOf cfg 4 (run cfg 4 [] ([] ++ [.op op])) exEvs) ∧
    Regular cfg AsksWithRoom 4 (run cfg 4 [] ([] ++ [.op op])).sys
      (opsOf cfg 4 (run cfg 4 [] ([] ++ [.op op])) exEvs) ∧
    max (exMsg.req.when_ + 1) (run cfg 4 [] ([] ++ [.op op])).sys.r.now + longest 4 1 1 1 + 4 <
      (run cfg 4 [] ([] ++ .op op :: exEvs)).sys.r.now := by
  decide +kernel

end Docket.Scheduler
