import Verif.Core.Group

/-
C89.  A docket needs no setup: it makes no difference when and by whom its consumer group is
created.
-/
namespace Docket.Group

open Docket Docket.Redis

/-! ### Specification -/

/-- What the others did, in order. -/
def others (es : List Ev) : List Op :=
  es.filterMap (fun e => match e with
    | .op o => if Reads o then none else some o
    | _ => none)

/-- `hist` is the history of a docket whose group was there all along, in which the others did
what they did and only what was asked was read. -/
structure Explains (es : List Ev) (hist : List Op) : Prop where
  others : hist.filter (fun o => !Reads o) = others es
  reads : ∀ o ∈ hist, Reads o = true → ∃ i a, Ev.ask i a ∈ es ∧ o ∈ a.ops

/-- Process `i` does something. -/
def By (i : Nat) : Ev → Prop
  | .op _ => False
  | .ask j _ => j = i
  | .go j => j = i

/-! ### Lemmas -/

theorem untouched (cfg : Cfg) {s : Sys} (hw : WF s) (op : Op) (hr : Reads op = false)
    (hl : s.r.lastDelivered = 0) (hp : s.r.pending = []) :
    (Docket.step cfg s op).r.lastDelivered = 0 ∧ (Docket.step cfg s op).r.pending = [] := by
  have he := step_eff cfg s hw.queue op
  generalize Docket.step cfg s op = s' at he
  cases he with
  | poll w n new hnew => cases hr
  | redeliver w p e hp' he hid hidle => cases hr
  | tick d => exact ⟨hl, by simp [Redis.advance, hp]⟩
  | _ => simp_all

theorem idle_procs (cfg : Cfg) {s : Sys} (hw : WF s) (op : Op) (hr : Reads op = false)
    (hp : s.procs = []) : (Docket.step cfg s op).procs = [] := by
  have he := step_eff cfg s hw.queue op
  generalize Docket.step cfg s op = s' at he
  cases he with
  | poll w n new hnew => cases hr
  | redeliver w p e hp' he hid hidle => cases hr
  | _ => simp_all

theorem core_mk (s : State) (c : Sys) (st : Bool) :
    ({ s with sys := c, stream := st, group := s.group.map (fun _ => ⟨c.r.lastDelivered, c.r.pending⟩) } : State).core =
      if s.group.isSome then c else { c with r := { c.r with lastDelivered := 0, pending := [] } } := by
  cases h : s.group <;> simp [State.core]

theorem core_none (s : State) (h : s.group = none) :
    s.core.r.lastDelivered = 0 ∧ s.core.r.pending = [] := by
  simp [State.core, h]

theorem exec_core_some (cfg : Cfg) (s : State) (ops : List Op) (h : s.group.isSome = true) :
    (exec cfg s ops).core = Docket.runFrom cfg s.core ops := by
  simp only [exec]
  rw [core_mk, if_pos h]

theorem exec_core_one (cfg : Cfg) (s : State) (o : Op) (hw : WF s.core) (hr : Reads o = false) :
    (exec cfg s [o]).core = Docket.step cfg s.core o := by
  by_cases h : s.group.isSome = true
  · exact exec_core_some cfg s [o] h
  · have hn : s.group = none := by simpa using h
    obtain ⟨h1, h2⟩ := core_none s hn
    obtain ⟨h3, h4⟩ := untouched cfg hw o hr h1 h2
    simp only [exec]
    rw [core_mk, if_neg h]
    show ({ Docket.step cfg s.core o with r := { (Docket.step cfg s.core o).r with
      lastDelivered := 0, pending := [] } } : Sys) = Docket.step cfg s.core o
    generalize Docket.step cfg s.core o = c at *
    cases c with
    | mk r procs nextPid ttlJobs clearJobs results log =>
      simp only at h3 h4 ⊢
      cases r
      simp only at h3 h4 ⊢
      rw [h3, h4]

theorem create_core (s : State) : (create s).1.core = s.core := by
  unfold create
  cases h : s.group <;> simp [State.core, h]

@[simp] theorem goto_core (s : State) (i : Nat) (pc : Pc) : (s.goto i pc).core = s.core := rfl
@[simp] theorem goto_group (s : State) (i : Nat) (pc : Pc) : (s.goto i pc).group = s.group := rfl
@[simp] theorem goto_stream (s : State) (i : Nat) (pc : Pc) : (s.goto i pc).stream = s.stream := rfl
@[simp] theorem exec_pcs (cfg : Cfg) (s : State) (ops : List Op) : (exec cfg s ops).pcs = s.pcs := rfl

theorem create_pcs (s : State) : (create s).1.pcs = s.pcs := by
  unfold create
  cases s.group <;> rfl

/-- A group has a stream. -/
def Rooted (s : State) : Prop := s.group.isSome = true → s.stream = true

theorem Rooted.exec {cfg : Cfg} {s : State} (h : Rooted s) (ops : List Op) : Rooted (exec cfg s ops) := by
  intro hs
  have : s.group.isSome = true := by simpa [Group.exec] using hs
  simp [Group.exec, h this]

theorem Rooted.create {s : State} (h : Rooted s) : Rooted (create s).1 := by
  unfold Group.create
  cases hg : s.group with
  | some g => intro _; exact h (by rw [hg]; rfl)
  | none => intro _; rfl

theorem create_group (s : State) : (create s).1.group.isSome = true := by
  unfold create
  cases h : s.group <;> simp [h]

theorem Rooted.step {cfg : Cfg} {s : State} (h : Rooted s) (e : Ev) : Rooted (Group.step cfg s e) := by
  cases e with
  | op o =>
    simp only [Group.step]
    split
    · exact h
    · exact h.exec _
  | ask i a =>
    simp only [Group.step]
    split <;> exact h
  | go i =>
    simp only [Group.step, go]
    cases s.pcs i with
    | idle => exact h
    | failed => exact h
    | asking a =>
      simp only []
      split
      · exact h
      · exact h.exec (cfg := cfg) a.ops
    | creating a => exact h.create

/-- A group stays. -/
theorem group_stays (cfg : Cfg) (s : State) (e : Ev) (h : s.group.isSome = true) :
    (step cfg s e).group.isSome = true := by
  cases e with
  | op o =>
    simp only [step]
    split
    · exact h
    · simpa [exec] using h
  | ask i a =>
    simp only [step]
    split <;> exact h
  | go i =>
    simp only [step, go]
    cases s.pcs i with
    | idle => exact h
    | failed => exact h
    | asking a =>
      simp only []
      split
      · exact h
      · simpa [exec] using h
    | creating a => exact create_group s

theorem pcs_step (cfg : Cfg) (s : State) (e : Ev) (i : Nat) (h : ¬ By i e) :
    (step cfg s e).pcs i = s.pcs i := by
  cases e with
  | op o =>
    simp only [step]
    split <;> rfl
  | ask j a =>
    have hne : i ≠ j := fun hh => h hh.symm
    simp only [step]
    split
    · simp [State.goto, hne]
    · rfl
  | go j =>
    have hne : i ≠ j := fun hh => h hh.symm
    simp only [step, go]
    cases s.pcs j with
    | idle => rfl
    | failed => rfl
    | asking a =>
      simp only []
      split <;> simp [State.goto, hne]
    | creating a => simp [State.goto, hne, create_pcs]

theorem runFrom_pcs (cfg : Cfg) (es : List Ev) (i : Nat) (h : ∀ e ∈ es, ¬ By i e) (s : State) :
    (runFrom cfg s es).pcs i = s.pcs i := by
  induction es generalizing s with
  | nil => rfl
  | cons e es ih =>
    show (runFrom cfg (step cfg s e) es).pcs i = _
    rw [ih (fun e' he => h e' (List.mem_cons_of_mem _ he)), pcs_step cfg s e i (h e List.mem_cons_self)]

theorem runFrom_group (cfg : Cfg) (es : List Ev) (s : State) (h : s.group.isSome = true) :
    (runFrom cfg s es).group.isSome = true := by
  induction es generalizing s with
  | nil => exact h
  | cons e es ih => exact ih _ (group_stays cfg s e h)

theorem runFrom_rooted (cfg : Cfg) (es : List Ev) (s : State) (h : Rooted s) : Rooted (runFrom cfg s es) := by
  induction es generalizing s with
  | nil => exact h
  | cons e es ih => exact ih _ (h.step e)

theorem runFrom_append' (cfg : Cfg) (s : State) (a b : List Ev) :
    runFrom cfg s (a ++ b) = runFrom cfg (runFrom cfg s a) b := by
  simp [runFrom]

/-- Every process that reads has asked. -/
def Asked (es : List Ev) (s : State) : Prop :=
  ∀ i a, s.pcs i = .asking a ∨ s.pcs i = .creating a → ∃ j, Ev.ask j a ∈ es

/-- The same step in the history with the group all along. -/
def Sim (cfg : Cfg) (es : List Ev) (s : State) : Prop :=
  Asked es s ∧ ∃ hist, s.core = Docket.run cfg hist ∧ Explains es hist

theorem ops_reads (a : Ask) : ∀ o ∈ a.ops, Reads o = true := by
  intro o ho
  cases a with
  | new w n => simp [Ask.ops] at ho; rw [ho]; rfl
  | old w ids =>
    obtain ⟨x, _, rfl⟩ := List.mem_map.1 ho
    rfl
  | look => cases ho

theorem ops_filter (a : Ask) : a.ops.filter (fun o => !Reads o) = [] := by
  rw [List.filter_eq_nil_iff]
  intro o ho
  simp [ops_reads a o ho]

theorem others_append (a b : List Ev) : others (a ++ b) = others a ++ others b := by
  simp [others]

theorem Explains.more {es : List Ev} {hist : List Op} (h : Explains es hist) (e : Ev)
    (he : Group.others [e] = []) : Explains (es ++ [e]) hist := by
  refine ⟨?_, ?_⟩
  · rw [others_append, he, List.append_nil]; exact h.others
  · intro o ho hr
    obtain ⟨i, a, h1, h2⟩ := h.reads o ho hr
    exact ⟨i, a, List.mem_append_left _ h1, h2⟩

theorem Sim.step {cfg : Cfg} {es : List Ev} {s : State} (h : Sim cfg es s) (e : Ev) :
    Sim cfg (es ++ [e]) (Group.step cfg s e) := by
  obtain ⟨ha, hist, hc, hx⟩ := h
  have hw : WF s.core := hc ▸ WF.run cfg hist
  have ha' : Asked (es ++ [e]) s := by
    intro i a h
    obtain ⟨j, hj⟩ := ha i a h
    exact ⟨j, List.mem_append_left _ hj⟩
  cases e with
  | op o =>
    by_cases ho : Reads o = true
    · have e1 : Group.step cfg s (.op o) = s := by simp [Group.step, ho]
      rw [e1]
      exact ⟨ha', hist, hc, hx.more _ (by simp [others, ho])⟩
    · have ho' : Reads o = false := by simpa using ho
      have e1 : Group.step cfg s (.op o) = exec cfg s [o] := by simp [Group.step, ho']
      rw [e1]
      refine ⟨ha', hist ++ [o], ?_, ?_, ?_⟩
      · rw [exec_core_one cfg s o hw ho', hc]
        simp [Docket.run, Docket.runFrom]
      · rw [List.filter_append, hx.others, others_append]
        simp [others, ho']
      · intro o' ho1 hr'
        rcases List.mem_append.1 ho1 with h1 | h1
        · obtain ⟨i, a, h2, h3⟩ := hx.reads o' h1 hr'
          exact ⟨i, a, List.mem_append_left _ h2, h3⟩
        · rw [List.mem_singleton.1 h1, ho'] at hr'
          cases hr'
  | ask i a =>
    simp only [Group.step]
    split
    · refine ⟨?_, hist, hc, hx.more _ rfl⟩
      intro j b hj
      by_cases hji : j = i
      · subst hji
        simp only [State.goto, if_true] at hj
        rcases hj with hj | hj
        · injection hj with hj
          exact ⟨j, hj ▸ List.mem_append_right _ List.mem_cons_self⟩
        · cases hj
      · simp only [State.goto, hji, if_false] at hj
        exact ha' j b hj
    · exact ⟨ha', hist, hc, hx.more _ rfl⟩
  | go i =>
    simp only [Group.step, go]
    cases hpc : s.pcs i with
    | idle => exact ⟨ha', hist, hc, hx.more _ rfl⟩
    | failed => exact ⟨ha', hist, hc, hx.more _ rfl⟩
    | asking a =>
      simp only []
      split
      · refine ⟨?_, hist, hc, hx.more _ rfl⟩
        intro j b hj
        by_cases hji : j = i
        · subst hji
          simp only [State.goto, if_true] at hj
          rcases hj with hj | hj
          · cases hj
          · injection hj with hj
            exact ha' j b (Or.inl (hj ▸ hpc))
        · simp only [State.goto, hji, if_false] at hj
          exact ha' j b hj
      · rename_i hg
        have hg' : s.group.isSome = true := by
          cases h : s.group <;> simp [h] at hg ⊢
        refine ⟨?_, hist ++ a.ops, ?_, ?_, ?_⟩
        · intro j b hj
          by_cases hji : j = i
          · subst hji
            simp only [State.goto, if_true] at hj
            rcases hj with hj | hj <;> cases hj
          · simp only [State.goto, hji, if_false, exec_pcs] at hj
            exact ha' j b hj
        · rw [goto_core, exec_core_some cfg s a.ops hg', hc]
          simp [Docket.run, Docket.runFrom]
        · rw [List.filter_append, ops_filter, List.append_nil, hx.others, others_append]
          simp [others]
        · intro o ho1 hr'
          rcases List.mem_append.1 ho1 with h1 | h1
          · obtain ⟨i', a', h2, h3⟩ := hx.reads o h1 hr'
            exact ⟨i', a', List.mem_append_left _ h2, h3⟩
          · obtain ⟨j, hj⟩ := ha i a (Or.inl hpc)
            exact ⟨j, a, List.mem_append_left _ hj, h1⟩
    | creating a =>
      refine ⟨?_, hist, ?_, hx.more _ rfl⟩
      · intro j b hj
        by_cases hji : j = i
        · subst hji
          simp only [State.goto, if_true] at hj
          rcases hj with hj | hj
          · injection hj with hj
            exact ha' j b (Or.inr (hj ▸ hpc))
          · cases hj
        · simp only [State.goto, hji, if_false, create_pcs] at hj
          exact ha' j b hj
      · rw [goto_core, create_core]; exact hc

theorem Sim.run (cfg : Cfg) (es : List Ev) : Sim cfg es (Group.run cfg es) := by
  have gen : ∀ (es' es0 : List Ev) (s : State), Sim cfg es0 s → Sim cfg (es0 ++ es') (runFrom cfg s es') := by
    intro es'
    induction es' with
    | nil => intro es0 s h; rw [List.append_nil]; exact h
    | cons e es' ih =>
      intro es0 s h
      have := ih (es0 ++ [e]) (Group.step cfg s e) (h.step e)
      rw [List.append_assoc] at this
      exact this
  have := gen es [] {} ⟨(by intro i a h; rcases h with h | h <;> cases h), [], rfl, rfl,
    (by intro o h; cases h)⟩
  exact this

/-! ### Theorems -/

/-- C89.  Whatever processes create the group, whenever and however often they try, while others go
on using the docket: the docket is in the state it would be in after the same commands had the
group been there from the beginning. -/
theorem C89_as_if_always_there (cfg : Cfg) (es : List Ev) :
    ∃ hist, (run cfg es).core = Docket.run cfg hist ∧ Explains es hist :=
  (Sim.run cfg es).2

theorem go_asking (cfg : Cfg) (s : State) (i : Nat) (a : Ask) (h : s.pcs i = .asking a) :
    ((go cfg s i).pcs i = .creating a ∧ (go cfg s i).core = s.core) ∨
    ((go cfg s i).pcs i = .idle ∧ (go cfg s i).core = Docket.runFrom cfg s.core a.ops) := by
  simp only [go, h]
  split
  · exact Or.inl ⟨by simp [State.goto], rfl⟩
  · rename_i hg
    have hg' : s.group.isSome = true := by
      cases h : s.group <;> simp [h] at hg ⊢
    exact Or.inr ⟨by simp [State.goto], by rw [goto_core, exec_core_some cfg s a.ops hg']⟩

theorem go_asking_some (cfg : Cfg) (s : State) (i : Nat) (a : Ask) (h : s.pcs i = .asking a) (hr : Rooted s)
    (hg : s.group.isSome = true) :
    (go cfg s i).pcs i = .idle ∧ (go cfg s i).core = Docket.runFrom cfg s.core a.ops := by
  simp only [go, h]
  have hn : s.group.isNone = false := by cases h : s.group <;> simp [h] at hg ⊢
  simp only [hn, hr hg, Bool.not_true, Bool.or_self, Bool.false_eq_true, if_false]
  exact ⟨by simp [State.goto], by rw [goto_core, exec_core_some cfg s a.ops hg]⟩

/-- C89, reading works.  A process that asks is answered, after at most one creation of the group:
however the steps of others fall in between, after three commands of its own it has got what
it asked for, read from the docket as it was at that moment, and no error is left over. -/
theorem C89_reading_works (cfg : Cfg) (past e1 e2 e3 : List Ev) (i : Nat) (a : Ask)
    (hi : (run cfg past).pcs i = .idle)
    (h1 : ∀ e ∈ e1, ¬ By i e) (h2 : ∀ e ∈ e2, ¬ By i e) (h3 : ∀ e ∈ e3, ¬ By i e) :
    ∃ before, before ++ [.go i] <+: e1 ++ [.go i] ++ e2 ++ [.go i] ++ e3 ++ [Ev.go i] ∧
      (run cfg (past ++ .ask i a :: (before ++ [.go i]))).core =
        Docket.runFrom cfg (run cfg (past ++ .ask i a :: before)).core a.ops ∧
      (run cfg (past ++ .ask i a :: (before ++ [.go i]))).pcs i = .idle := by
  have hr : ∀ l, Rooted (run cfg l) := fun l => runFrom_rooted cfg l {} (by intro h; cases h)
  have snoc : ∀ (l l' : List Ev), run cfg (l ++ l') = runFrom cfg (run cfg l) l' :=
    fun l l' => runFrom_append' cfg {} l l'
  have s0 : (run cfg (past ++ [.ask i a])).pcs i = .asking a := by
    rw [snoc]
    show (step cfg (run cfg past) (.ask i a)).pcs i = _
    simp [step, hi, State.goto]
  have s1 : (run cfg (past ++ .ask i a :: e1)).pcs i = .asking a := by
    have : past ++ .ask i a :: e1 = (past ++ [.ask i a]) ++ e1 := by simp
    rw [this, snoc, runFrom_pcs cfg e1 i h1, s0]
  have app : ∀ l : List Ev, past ++ .ask i a :: (l ++ [.go i]) = (past ++ .ask i a :: l) ++ [.go i] := by
    intro l; simp
  have one : ∀ l : List Ev, run cfg (past ++ .ask i a :: (l ++ [.go i])) =
      go cfg (run cfg (past ++ .ask i a :: l)) i := by
    intro l
    rw [app, snoc]
    rfl
  rcases go_asking cfg _ i a s1 with ⟨h4, _⟩ | ⟨h4, h5⟩
  · -- the group was missing
    refine ⟨e1 ++ [.go i] ++ e2 ++ [.go i] ++ e3, List.prefix_rfl, ?_⟩
    rw [one]
    have s2 : (run cfg (past ++ .ask i a :: (e1 ++ [.go i] ++ e2))).pcs i = .creating a := by
      have : past ++ .ask i a :: (e1 ++ [.go i] ++ e2) = (past ++ .ask i a :: (e1 ++ [.go i])) ++ e2 := by simp
      rw [this, snoc, runFrom_pcs cfg e2 i h2, one, h4]
    have s3 : (run cfg (past ++ .ask i a :: (e1 ++ [.go i] ++ e2 ++ [.go i]))).pcs i = .asking a ∧
        (run cfg (past ++ .ask i a :: (e1 ++ [.go i] ++ e2 ++ [.go i]))).group.isSome = true := by
      rw [one]
      simp only [go, s2]
      exact ⟨by simp [State.goto], create_group _⟩
    have e4 : past ++ .ask i a :: (e1 ++ [.go i] ++ e2 ++ [.go i] ++ e3) =
        (past ++ .ask i a :: (e1 ++ [.go i] ++ e2 ++ [.go i])) ++ e3 := by simp
    have s4 : (run cfg (past ++ .ask i a :: (e1 ++ [.go i] ++ e2 ++ [.go i] ++ e3))).pcs i = .asking a := by
      rw [e4, snoc, runFrom_pcs cfg e3 i h3]; exact s3.1
    have g4 : (run cfg (past ++ .ask i a :: (e1 ++ [.go i] ++ e2 ++ [.go i] ++ e3))).group.isSome = true := by
      rw [e4, snoc]; exact runFrom_group cfg e3 _ s3.2
    obtain ⟨h6, h7⟩ := go_asking_some cfg _ i a s4 (hr _) g4
    exact ⟨h7, h6⟩
  · refine ⟨e1, ⟨e2 ++ [.go i] ++ e3 ++ [.go i], by simp⟩, ?_⟩
    rw [one]
    exact ⟨h5, h4⟩

/-- C89, no error.  No process is ended by an error about the group. -/
theorem C89_no_error (cfg : Cfg) (es : List Ev) (i : Nat) : (run cfg es).pcs i ≠ .failed := by
  have gen : ∀ (es : List Ev) (s : State), (∀ j, s.pcs j ≠ .failed) → ∀ j, (runFrom cfg s es).pcs j ≠ .failed := by
    intro es
    induction es with
    | nil => exact fun s h => h
    | cons e es ih =>
      intro s h
      refine ih _ (fun j => ?_)
      cases e with
      | op o =>
        simp only [step]
        split <;> exact h j
      | ask k a =>
        simp only [step]
        split
        · simp only [State.goto]
          split
          · intro hh; cases hh
          · exact h j
        · exact h j
      | go k =>
        simp only [step, go]
        cases s.pcs k with
        | idle => exact h j
        | failed => exact h j
        | asking a =>
          simp only []
          split <;>
          · simp only [State.goto]
            split
            · intro hh; cases hh
            · exact h j
        | creating a =>
          simp only [State.goto]
          split
          · intro hh; cases hh
          · rw [create_pcs]; exact h j
  exact gen es {} (fun _ h => by cases h) i

/-- No worker asked for tasks. -/
def NobodyWorked (es : List Ev) : Prop := ∀ i a, Ev.ask i a ∈ es → a = .look

/-- C89, tasks added before the first worker.  What clients have put on a docket no worker
has ever read from is handed to the first worker that asks, oldest first, as many as it asks
for, no matter who created the group, and when. -/
theorem C89_first_worker_gets_all (cfg : Cfg) (past : List Ev) (hpast : NobodyWorked past) (i : Nat)
    (hi : ∀ e ∈ past, ¬ By i e) (w : WorkerName) (n : Nat) :
    (run cfg (past ++ [.ask i (.new w n), .go i, .go i, .go i])).core.procs.map
        (fun p => (p.worker, p.id, p.msg)) =
      ((Docket.run cfg (others past)).r.stream.take n).map (fun e => (w, e.1, e.2)) := by
  obtain ⟨hist, hc, hx⟩ := C89_as_if_always_there cfg past
  have hno : ∀ o ∈ hist, Reads o = false := by
    intro o ho
    cases hro : Reads o with
    | false => rfl
    | true =>
      obtain ⟨j, a, h1, h2⟩ := hx.reads o ho hro
      rw [hpast j a h1] at h2
      cases h2
  have hh : hist = others past := by
    rw [← hx.others, List.filter_eq_self.2]
    intro o ho
    simp [hno o ho]
  have hquiet : ∀ (l : List Op), (∀ o ∈ l, Reads o = false) → ∀ s : Sys, WF s →
      s.r.lastDelivered = 0 → s.r.pending = [] → s.procs = [] →
      (Docket.runFrom cfg s l).r.pending = [] ∧ (Docket.runFrom cfg s l).procs = [] := by
    intro l
    induction l with
    | nil => intro _ s _ _ h2 h3; exact ⟨h2, h3⟩
    | cons o l ih =>
      intro hl s hw h1 h2 h3
      have ho := hl o List.mem_cons_self
      obtain ⟨h4, h5⟩ := untouched cfg hw o ho h1 h2
      exact ih (fun o' h => hl o' (List.mem_cons_of_mem _ h)) _ (hw.step o) h4 h5
        (idle_procs cfg hw o ho h3)
  obtain ⟨hpe, hpr⟩ := hquiet hist hno {} WF.init rfl rfl rfl
  have hw : WF (Docket.run cfg hist) := WF.run cfg hist
  have hidle : (run cfg past).pcs i = .idle := runFrom_pcs cfg past i hi {}
  have hr : Rooted (run cfg past) := runFrom_rooted cfg past {} (by intro h; cases h)
  have hcore : (run cfg (past ++ [.ask i (.new w n), .go i, .go i, .go i])).core =
      Docket.step cfg (Docket.run cfg hist) (.poll w n) := by
    rw [← hc]
    simp only [run, runFrom_append'] at hidle hr ⊢
    generalize runFrom cfg {} past = s at *
    show (go cfg (go cfg (go cfg (step cfg s (.ask i (.new w n))) i) i) i).core = _
    have e0 : step cfg s (.ask i (.new w n)) = s.goto i (.asking (.new w n)) := by
      simp [step, hidle]
    rw [e0]
    have hidle' : ∀ t : State, t.pcs i = .idle → go cfg t i = t := by
      intro t ht; simp [go, ht]
    have hr1 : Rooted (s.goto i (.asking (.new w n))) := hr
    have hp1 : (s.goto i (.asking (.new w n))).pcs i = .asking (.new w n) := by simp [State.goto]
    have hc1 : (s.goto i (.asking (.new w n))).core = s.core := rfl
    generalize s.goto i (.asking (.new w n)) = t at *
    rcases go_asking cfg t i _ hp1 with ⟨h2, h3⟩ | ⟨h2, h3⟩
    · have hr2 : Rooted (go cfg t i) := hr1.step (cfg := cfg) (.go i)
      have h4 : (go cfg (go cfg t i) i).pcs i = .asking (.new w n) ∧
          (go cfg (go cfg t i) i).group.isSome = true ∧ (go cfg (go cfg t i) i).core = s.core := by
        generalize go cfg t i = u at *
        simp only [go, h2]
        exact ⟨by simp [State.goto], create_group _, by rw [goto_core, create_core, h3, hc1]⟩
      have hr3 : Rooted (go cfg (go cfg t i) i) := hr2.step (cfg := cfg) (.go i)
      rw [(go_asking_some cfg _ i _ h4.1 hr3 h4.2.1).2, h4.2.2]
      rfl
    · rw [hidle' _ h2, hidle' _ h2, h3, hc1]
      rfl
  rw [hcore, ← hh]
  have hall : (Docket.run cfg hist).r.stream.filter
      (fun e => decide ((Docket.run cfg hist).r.lastDelivered < e.1)) = (Docket.run cfg hist).r.stream := by
    rw [List.filter_eq_self]
    intro e he
    by_cases hle : e.1 ≤ (Docket.run cfg hist).r.lastDelivered
    · obtain ⟨p, hp, _⟩ := hw.stream.deliv e he hle
      have hpe' : (Docket.run cfg hist).r.pending = [] := hpe
      rw [hpe'] at hp
      cases hp
    · simpa using hle
  have hpr' : (Docket.run cfg hist).procs = [] := hpr
  have hmap : ∀ (l : List (MsgId × Msg)) (pid : Nat), (newProcs pid w false l).map
      (fun p => (p.worker, p.id, p.msg)) = l.map (fun e => (w, e.1, e.2)) := by
    intro l
    induction l with
    | nil => intro _; rfl
    | cons e l ih => intro pid; simp [newProcs, ih]
  simp only [Docket.step, doPoll, xreadgroup, handOut_eq, hall, hpr', List.nil_append, hmap]

/-! ### Examples -/

/-- Two tasks are added to a fresh docket, a snapshot is taken while two workers start. -/
def exPast : List Ev :=
  [.op (.add "k" ⟨"f", "", "", 0, 1⟩ 0), .ask 7 .look, .go 7, .op (.add "l" ⟨"f", "", "", 0, 1⟩ 0), .go 7, .go 7]

example : NobodyWorked exPast ∧ (∀ e ∈ exPast, ¬ By 1 e) := by
  refine ⟨?_, ?_⟩
  · intro i a h
    simp [exPast] at h
    exact h.2
  · intro e he
    simp [exPast] at he
    rcases he with rfl | rfl | rfl | rfl | rfl <;> simp [By]

/-- Then two workers start at once. -/
example : ((run ⟨900, 300⟩ (exPast ++ [.ask 1 (.new "a" 5), .ask 2 (.new "b" 5), .go 1, .go 2, .go 2,
    .go 1, .go 2, .go 1])).core.procs.map (fun p => (p.worker, p.msg.key))) =
    [("a", "k"), ("a", "l")] := by decide +kernel

/-- Two workers find no group, both create it, both read. -/
example : ((run ⟨900, 300⟩ ([.op (.add "k" ⟨"f", "", "", 0, 1⟩ 0), .ask 1 (.new "a" 5), .ask 2 (.new "b" 5),
    .go 1, .go 2, .go 2, .go 1, .go 2, .op (.add "l" ⟨"f", "", "", 0, 1⟩ 0), .go 1])).core.procs.map
      (fun p => (p.worker, p.msg.key))) = [("b", "k"), ("a", "l")] := by decide +kernel

example : (run ⟨900, 300⟩ exPast).pcs 1 = .idle ∧ ∀ e ∈ [Ev.go 2, .op (.cancel "k")], ¬ By 1 e := by
  refine ⟨by decide +kernel, ?_⟩
  intro e he
  simp at he
  rcases he with rfl | rfl <;> simp [By]

end Docket.Group
