import Verif.Worker.Tidy

/-!
# C113: a cancelled task leaves the line

When a task that waits for a concurrency slot is cancelled while a worker for such tasks is in its
loop, it is taken out of the line, and its backstop is dropped.  No task is taken out of the line
in this way that was not cancelled.
-/

namespace Docket.Tidy

/-! ## Specification -/

/-- The worker is in its loop. -/
def Serving (s : State) : Prop := s.pc ≠ .off

instance (s : State) : Decidable (Serving s) := by unfold Serving; infer_instance

/-- The subscriber of the worker is subscribed. -/
def Subscribed (s : State) : Prop := ∃ u, s.pc = .listening u ∨ ∃ x, s.pc = .cleaning x u

/-- How many signals are ahead of the next one. -/
def ahead (s : State) : Nat :=
  match s.pc with
  | .listening u => u.length
  | .cleaning _ u => u.length + 1
  | _ => 0

/-- Nothing goes wrong, the worker stays, and the task does not come back. -/
def Smooth (k : Key) (es : List Ev) : Prop := .go false ∉ es ∧ .leave ∉ es ∧ .park k ∉ es

/-- C113: a task cancelled while it waits and the worker serves is out of the line once the
subscriber was given enough steps. -/
def C113_statement : Prop :=
  ∀ (able : Bool) (es : List Ev) (k : Key), Serving (run able es) → k ∈ (run able es).line →
    ∃ n, ∀ rest, Smooth k rest → n ≤ rest.count (.go true) →
      k ∉ (run able (es ++ .cancel k :: rest)).line

/-! ## Lemmas -/

theorem run_append (able : Bool) (a b : List Ev) : run able (a ++ b) = runFrom able (run able a) b := by
  simp [run, runFrom, List.foldl_append]

theorem runFrom_cons (able : Bool) (s : State) (e : Ev) (es : List Ev) :
    runFrom able s (e :: es) = runFrom able (step able s e) es := rfl

theorem publish_line (s : State) (x : Signal) : (publish s x).line = s.line := by
  unfold publish; split <;> rfl

theorem publish_backstops (s : State) (x : Signal) : (publish s x).backstops = s.backstops := by
  unfold publish; split <;> rfl

theorem publish_tidied (s : State) (x : Signal) : (publish s x).tidied = s.tidied := by
  unfold publish; split <;> rfl

theorem clean_line (s : State) (x : Signal) (u : List Signal) {k : Key} (h : k ∉ s.line) :
    k ∉ (clean s x u).line := by
  unfold clean
  split
  · exact h
  · split
    · rw [publish_line]; exact fun hk => h (List.mem_filter.1 hk).1
    · exact h

/-- Who is not in the line comes into it only by standing in line. -/
theorem gone_step (able : Bool) (s : State) (e : Ev) {k : Key} (h : k ∉ s.line) (he : e ≠ .park k) :
    k ∉ (step able s e).line := by
  cases e with
  | enter => simp only [step]; split <;> exact h
  | leave => exact h
  | park j =>
    simp only [step]
    split
    · exact h
    · simp only [List.mem_append, List.mem_singleton, not_or]
      exact ⟨h, fun hk => he (by rw [hk])⟩
  | wake j => exact fun hk => h (List.mem_filter.1 hk).1
  | cancel j => simp only [step]; rw [publish_line]; exact h
  | go ok =>
    simp only [step, go]
    split
    · exact h
    · exact h
    · split <;> exact h
    · split
      · split <;> exact h
      · exact h
    · split
      · exact clean_line _ _ _ h
      · exact h

/-- The signal for `k` is under way, with `n` others in front of it: `2 n` steps are needed until it
is read, or `clean`ed. -/
inductive Due (s : State) (k : Key) : Nat → Prop
  | unread {a b : List Signal} (h : s.pc = .listening (a ++ .task k :: b)) : Due s k (2 * a.length + 2)
  | busy {x : Signal} {a b : List Signal} (h : s.pc = .cleaning x (a ++ .task k :: b)) :
      Due s k (2 * a.length + 3)
  | now {b : List Signal} (h : s.pc = .cleaning (.task k) b) : Due s k 1

theorem Due.congr {s s' : State} {k : Key} {n : Nat} (h : Due s k n) (hp : s'.pc = s.pc) : Due s' k n := by
  cases h with
  | unread h => exact .unread (hp.trans h)
  | busy h => exact .busy (hp.trans h)
  | now h => exact .now (hp.trans h)

theorem Due.publish {s : State} {k : Key} {n : Nat} (h : Due s k n) (x : Signal) :
    Due (publish s x) k n := by
  cases h with
  | @unread a b h => exact .unread (a := a) (b := b ++ [x]) (by simp [Tidy.publish, h])
  | @busy y a b h => exact .busy (x := y) (a := a) (b := b ++ [x]) (by simp [Tidy.publish, h])
  | @now b h => exact .now (b := b ++ [x]) (by simp [Tidy.publish, h])

/-- Subscribing to the signal puts it at the end. -/
theorem due_cancel {s : State} (k : Key) (h : Subscribed s) :
    ∃ n, Due (publish s (.task k)) k n ∧ n ≤ 2 * ahead s + 2 := by
  obtain ⟨u, h | ⟨x, h⟩⟩ := h
  · exact ⟨_, .unread (a := u) (b := []) (by simp [publish, h]), by simp [ahead, h]⟩
  · exact ⟨_, .busy (x := x) (a := u) (b := []) (by simp [publish, h]), by simp [ahead, h]; omega⟩

theorem due_step (able : Bool) {s : State} {k : Key} {n : Nat} (h : Due s k n) (e : Ev)
    (h1 : e ≠ .go false) (h2 : e ≠ .leave) (h3 : e ≠ .go true) : Due (step able s e) k n := by
  cases e with
  | enter =>
    simp only [step]
    split
    · rename_i ho; cases h <;> rename_i h <;> rw [h] at ho <;> cases ho
    · exact h
  | leave => exact absurd rfl h2
  | park j =>
    simp only [step]
    split
    · exact h
    · exact h.congr rfl
  | wake j => exact h.congr rfl
  | cancel j => exact h.publish _
  | go ok => cases ok with
    | true => exact absurd rfl h3
    | false => exact absurd rfl h1

theorem due_go (able : Bool) {s : State} {k : Key} {n : Nat} (h : Due s k n) :
    k ∉ (step able s (.go true)).line ∨ ∃ m, Due (step able s (.go true)) k m ∧ m + 1 ≤ n := by
  cases h with
  | @unread a b h =>
    right
    cases a with
    | nil => exact ⟨1, .now (b := b) (by simp [step, go, h]), by simp⟩
    | cons x a =>
      exact ⟨_, .busy (x := x) (a := a) (b := b) (by simp [step, go, h]), by simp; omega⟩
  | @busy x a b h =>
    right
    have hs : step able s (.go true) = clean s x (a ++ .task k :: b) := by simp [step, go, h]
    rw [hs]
    unfold clean
    split
    · exact ⟨_, .unread (a := a) (b := b) rfl, by omega⟩
    · split
      · exact ⟨_, Due.publish (.unread (a := a) (b := b) rfl) _, by omega⟩
      · exact ⟨_, .unread (a := a) (b := b) rfl, by omega⟩
  | @now b h =>
    left
    have hs : step able s (.go true) = clean s (.task k) b := by simp [step, go, h]
    rw [hs]
    unfold clean
    simp only
    split
    · rw [publish_line]; simp
    · assumption

theorem tidied_aux (able : Bool) (k : Key) : ∀ (rest : List Ev) (s : State) (n : Nat), Smooth k rest →
    (k ∉ s.line ∨ Due s k n) → n ≤ rest.count (.go true) → k ∉ s.line ∨ n ≠ 0 →
    k ∉ (runFrom able s rest).line := by
  intro rest
  induction rest with
  | nil =>
    intro s n _ h hn h0
    rcases h0 with h0 | h0
    · exact h0
    · simp at hn; exact absurd hn h0
  | cons e rest ih =>
    intro s n hs h hn h0
    have hs' : Smooth k rest :=
      ⟨fun hm => hs.1 (List.mem_cons_of_mem _ hm), fun hm => hs.2.1 (List.mem_cons_of_mem _ hm),
        fun hm => hs.2.2 (List.mem_cons_of_mem _ hm)⟩
    have he1 : e ≠ .go false := fun he => hs.1 (he ▸ List.mem_cons_self)
    have he2 : e ≠ .leave := fun he => hs.2.1 (he ▸ List.mem_cons_self)
    have he3 : e ≠ .park k := fun he => hs.2.2 (he ▸ List.mem_cons_self)
    rw [runFrom_cons]
    by_cases hg : k ∉ s.line
    · exact ih _ 0 hs' (Or.inl (gone_step able s e hg he3)) (Nat.zero_le _)
        (Or.inl (gone_step able s e hg he3))
    · have hd : Due s k n := h.resolve_left hg
      by_cases hgo : e = .go true
      · subst hgo
        rw [List.count_cons_self] at hn
        rcases due_go able hd with h1 | ⟨m, h1, hm⟩
        · exact ih _ 0 hs' (Or.inl h1) (Nat.zero_le _) (Or.inl h1)
        · refine ih _ m hs' (Or.inr h1) (by omega) (Or.inr ?_)
          cases h1 <;> omega
      · rw [List.count_cons_of_ne hgo] at hn
        exact ih _ n hs' (Or.inr (due_step able hd e he1 he2 hgo)) hn (Or.inr (by cases hd <;> omega))

/-! ## Theorems -/

/-- **C113** (part): if the subscriber is subscribed when the task is cancelled, and nothing goes
wrong, the task is out of the line after two steps for each signal.  Missing, because the code does
otherwise: workers whose subscriber is not subscribed. -/
theorem C113_tidied_partial (able : Bool) (es rest : List Ev) (k : Key) (h : Subscribed (run able es))
    (hs : Smooth k rest) (hn : 2 * ahead (run able es) + 2 ≤ rest.count (.go true)) :
    k ∉ (run able (es ++ .cancel k :: rest)).line := by
  rw [run_append, runFrom_cons]
  obtain ⟨n, hd, hle⟩ := due_cancel k h
  exact tidied_aux able k rest _ n hs (Or.inr hd) (by omega) (Or.inr (by cases hd <;> omega))

/-- What the history says about signals: those under way, and the tasks taken out, were cancelled. -/
def signals (s : State) : List Signal :=
  match s.pc with
  | .listening u => u
  | .cleaning x u => x :: u
  | _ => []

def isCancel (e : Ev) : Bool := match e with | .cancel _ => true | _ => false

def isTask (x : Signal) : Bool := match x with | .task _ => true | _ => false

theorem publish_signals (s : State) (x : Signal) :
    signals (publish s x) = signals s ∨ signals (publish s x) = signals s ++ [x] := by
  unfold publish
  split <;> rename_i h
  · exact Or.inr (by simp [signals, h])
  · exact Or.inr (by simp [signals, h])
  · exact Or.inl rfl

/-- The signals after a step, and the tasks taken out. -/
theorem step_signals (able : Bool) (s : State) (e : Ev) :
    (∀ k, .task k ∈ signals (step able s e) → .task k ∈ signals s ∨ e = .cancel k) ∧
    (∀ k ∈ (step able s e).tidied, k ∈ s.tidied ∨ .task k ∈ signals s) ∧
    (signals (step able s e)).countP isTask + (step able s e).tidied.length ≤
      (signals s).countP isTask + s.tidied.length + (isCancel e).toNat := by
  have same : ∀ s' : State, s'.pc = s.pc → s'.tidied = s.tidied →
      (∀ k, .task k ∈ signals s' → .task k ∈ signals s ∨ e = .cancel k) ∧
      (∀ k ∈ s'.tidied, k ∈ s.tidied ∨ .task k ∈ signals s) ∧
      (signals s').countP isTask + s'.tidied.length ≤
        (signals s).countP isTask + s.tidied.length + (isCancel e).toNat := by
    intro s' h1 h2
    have hsig : signals s' = signals s := by simp [signals, h1]
    rw [hsig, h2]
    exact ⟨fun k h => Or.inl h, fun k h => Or.inl h, by omega⟩
  have none_ : ∀ s' : State, signals s' = [] → s'.tidied = s.tidied →
      (∀ k, .task k ∈ signals s' → .task k ∈ signals s ∨ e = .cancel k) ∧
      (∀ k ∈ s'.tidied, k ∈ s.tidied ∨ .task k ∈ signals s) ∧
      (signals s').countP isTask + s'.tidied.length ≤
        (signals s).countP isTask + s.tidied.length + (isCancel e).toNat := by
    intro s' h1 h2
    rw [h1, h2]
    refine ⟨fun k h => (by cases h), fun k h => Or.inl h, ?_⟩
    simp only [List.countP_nil]; omega
  cases e with
  | enter =>
    simp only [step]
    split
    · exact none_ _ rfl rfl
    · exact same _ rfl rfl
  | leave => exact none_ _ rfl rfl
  | park j => simp only [step]; split <;> exact same _ rfl rfl
  | wake j => exact same _ rfl rfl
  | cancel j =>
    simp only [step]
    rw [publish_tidied]
    rcases publish_signals s (.task j) with h | h <;> rw [h]
    · exact ⟨fun k h => Or.inl h, fun k h => Or.inl h, by omega⟩
    · refine ⟨fun k hk => ?_, fun k h => Or.inl h, ?_⟩
      · rcases List.mem_append.1 hk with hk | hk
        · exact Or.inl hk
        · have := List.mem_singleton.1 hk
          cases this
          exact Or.inr rfl
      · simp [List.countP_append, isTask, isCancel]; omega
  | go ok =>
    simp only [step, go]
    split
    · exact same _ rfl rfl
    · exact same _ rfl rfl
    · split <;> exact none_ _ rfl rfl
    · rename_i u hpc
      split
      · split
        · exact same _ rfl rfl
        · have h1 : signals s = signals { s with pc := .cleaning ‹Signal› ‹List Signal› } := by
            simp [signals, hpc]
          rw [← h1]
          exact ⟨fun k h => Or.inl h, fun k h => Or.inl h, by simp⟩
      · exact none_ _ rfl rfl
    · rename_i x u hpc
      split
      · have hsig : signals s = x :: u := by simp [signals, hpc]
        unfold clean
        split
        · rename_i j
          rw [hsig]
          refine ⟨fun k h => Or.inl (List.mem_cons_of_mem _ h), fun k h => Or.inl h, ?_⟩
          simp [signals, isTask]
        · rename_i j
          split
          · rw [publish_tidied, hsig]
            have h2 : signals (publish { s with
                pc := .listening u, line := s.line.filter (· ≠ j),
                backstops := s.backstops.filter (· ≠ j), tidied := j :: s.tidied } (.backstop j)) =
                u ++ [.backstop j] := by simp [publish, signals]
            rw [h2]
            refine ⟨fun k h => Or.inl ?_, fun k h => ?_, ?_⟩
            · rcases List.mem_append.1 h with h | h
              · exact List.mem_cons_of_mem _ h
              · simp at h
            · rcases List.mem_cons.1 h with rfl | h
              · exact Or.inr List.mem_cons_self
              · exact Or.inl h
            · simp [List.countP_append, List.countP_cons, isTask]; omega
          · rw [hsig]
            refine ⟨fun k h => Or.inl (List.mem_cons_of_mem _ h), fun k h => Or.inl h, ?_⟩
            simp [signals, isTask, List.countP_cons]; omega
      · exact none_ _ rfl rfl

theorem only_aux (able : Bool) : ∀ (es : List Ev) (s : State) (P : List Ev),
    (∀ k, .task k ∈ signals s → .cancel k ∈ P) → (∀ k ∈ s.tidied, .cancel k ∈ P) →
    ∀ k ∈ (runFrom able s es).tidied, .cancel k ∈ P ++ es := by
  intro es
  induction es with
  | nil => intro s P _ h2 k hk; rw [List.append_nil]; exact h2 k hk
  | cons e es ih =>
    intro s P h1 h2 k hk
    rw [runFrom_cons] at hk
    obtain ⟨h3, h4, _⟩ := step_signals able s e
    have := ih (step able s e) (P ++ [e])
      (fun j hj => by
        rcases h3 j hj with h | h
        · exact List.mem_append_left _ (h1 j h)
        · exact List.mem_append_right _ (by rw [h]; exact List.mem_singleton_self _))
      (fun j hj => by
        rcases h4 j hj with h | h
        · exact List.mem_append_left _ (h2 j h)
        · exact List.mem_append_left _ (h1 j h)) k hk
    simpa using this

/-- **C113**: no task is taken out of the line by the subscriber that was not cancelled. -/
theorem C113_only_cancelled (able : Bool) (es : List Ev) (k : Key) (h : k ∈ (run able es).tidied) :
    .cancel k ∈ es := by
  simpa using only_aux able es {} [] (by simp [signals]) (by simp) k h

/-- **C113**: a cancellation takes one task out of the line at most. -/
theorem C113_once (able : Bool) (es : List Ev) :
    (run able es).tidied.length ≤ es.countP isCancel := by
  have key : ∀ (es : List Ev) (s : State),
      (signals (runFrom able s es)).countP isTask + (runFrom able s es).tidied.length ≤
        (signals s).countP isTask + s.tidied.length + es.countP isCancel := by
    intro es
    induction es with
    | nil => intro s; simp [runFrom]
    | cons e es ih =>
      intro s
      have h1 := ih (step able s e)
      have h2 := (step_signals able s e).2.2
      rw [runFrom_cons, List.countP_cons]
      have : (isCancel e).toNat = if isCancel e = true then 1 else 0 := by cases isCancel e <;> rfl
      omega
  have := key es {}
  simp [signals] at this
  unfold run
  omega

/-- **C113**: whoever does not wait has no backstop that is kept: in every history the tasks with
a backstop are those in the line. -/
theorem C113_backstops (able : Bool) (es : List Ev) (k : Key) :
    k ∈ (run able es).backstops ↔ k ∈ (run able es).line := by
  have hstep : ∀ (s : State) (e : Ev), (∀ k, k ∈ s.backstops ↔ k ∈ s.line) →
      ∀ k, k ∈ (step able s e).backstops ↔ k ∈ (step able s e).line := by
    intro s e h
    have hc : ∀ x u k, k ∈ (clean s x u).backstops ↔ k ∈ (clean s x u).line := by
      intro x u k
      unfold clean
      split
      · exact h k
      · split
        · rw [publish_backstops, publish_line]; simp [h k]
        · exact h k
    cases e with
    | enter => simp only [step]; split <;> exact h
    | leave => exact h
    | park j =>
      simp only [step]
      split
      · exact h
      · intro k; simp [h k, or_comm]
    | wake j => intro k; simp [step, h k]
    | cancel j => intro k; simp only [step]; rw [publish_backstops, publish_line]; exact h k
    | go ok =>
      simp only [step, go]
      split
      · exact h
      · exact h
      · split <;> exact h
      · split
        · split <;> exact h
        · exact h
      · split
        · exact hc _ _
        · exact h
  have key : ∀ (es : List Ev) (s : State), (∀ k, k ∈ s.backstops ↔ k ∈ s.line) →
      ∀ k, k ∈ (runFrom able s es).backstops ↔ k ∈ (runFrom able s es).line := by
    intro es
    induction es with
    | nil => intro s h; exact h
    | cons e es ih => intro s h; exact ih _ (hstep s e h)
  exact key es {} (by simp) k

/-! ## Where the code does something else -/

/-- A subscriber that has ended takes nobody out of the line any more, until the worker has left its
loop. -/
theorem dead_stays (able : Bool) : ∀ (es : List Ev) (s : State), s.pc = .dead → .leave ∉ es →
    (runFrom able s es).pc = .dead ∧ (runFrom able s es).tidied = s.tidied := by
  intro es
  induction es with
  | nil => intro s h _; exact ⟨h, rfl⟩
  | cons e es ih =>
    intro s h hl
    have hl' : .leave ∉ es := fun hm => hl (List.mem_cons_of_mem _ hm)
    have : (step able s e).pc = .dead ∧ (step able s e).tidied = s.tidied := by
      cases e with
      | enter => simp [step, h]
      | leave => exact absurd List.mem_cons_self hl
      | park j => simp only [step]; split <;> exact ⟨h, rfl⟩
      | wake j => exact ⟨h, rfl⟩
      | cancel j => simp [step, publish, h]
      | go ok => simp [step, go, h]
    rw [runFrom_cons]
    obtain ⟨h1, h2⟩ := ih _ this.1 hl'
    exact ⟨h1, h2.trans this.2⟩

/-- **Disagreement**, in general: once what the subscriber waits for has raised anything, no
cancelled task is taken out of the line for as long as the worker stays in its loop, whatever else
happens.  (The worker's other ear, `C104_recovers`, subscribes again.) -/
theorem C113_violated_for_good (able : Bool) (es rest : List Ev) (h : Serving (run able es))
    (hl : .leave ∉ rest) :
    (run able (es ++ .go false :: rest)).tidied = (run able es).tidied := by
  rw [run_append, runFrom_cons]
  have hd : (step able (run able es) (.go false)).pc = .dead ∧
      (step able (run able es) (.go false)).tidied = (run able es).tidied := by
    simp only [step, go]
    split <;> rename_i hp
    · exact absurd hp h
    · exact ⟨hp, rfl⟩
    · simp
    · simp
    · simp
  exact (dead_stays able rest _ hd.1 hl).2.trans hd.2

/-- A task waits, the subscriber loses its connection, the worker does not. -/
def deaf : List Ev := [.enter, .go true, .park "a", .go false]

/-- **Disagreement**: after a lost connection the subscriber is gone (_concurrency.py:699-722 catch
only `CancelledError`), and the cancelled task stays in the line. -/
theorem C113_violated_deaf : ¬ C113_statement := by
  intro h
  obtain ⟨n, hn⟩ := h true deaf "a" (by decide) (by decide)
  have h1 := hn (List.replicate n (.go true)) ⟨by simp, by simp, by simp⟩ (by simp)
  apply h1
  have key : ∀ n (s : State), s.pc = .dead → (runFrom true s (List.replicate n (.go true))).line = s.line := by
    intro n
    induction n with
    | zero => intro s _; rfl
    | succ n ih =>
      intro s hs
      rw [List.replicate_succ, runFrom_cons]
      have : step true s (.go true) = s := by simp [step, go, hs]
      rw [this]; exact ih s hs
  rw [run_append, runFrom_cons, key n _ (by decide)]
  decide

/-- **Disagreement**: on a cluster the subscriber asks the cluster's client for a subscription,
which it does not offer, and is gone at once: nobody is ever taken out of the line. -/
theorem C113_violated_cluster (es : List Ev) : (run false es).tidied = [] := by
  have key : ∀ (es : List Ev) (s : State),
      (s.pc = .off ∨ s.pc = .subscribing ∨ s.pc = .dead) ∧ s.tidied = [] →
      (runFrom false s es).tidied = [] := by
    intro es
    induction es with
    | nil => intro s h; exact h.2
    | cons e es ih =>
      intro s h
      rw [runFrom_cons]
      refine ih _ ?_
      obtain ⟨h1, h2⟩ := h
      cases e with
      | enter =>
        simp only [step]
        split
        · exact ⟨Or.inr (Or.inl rfl), h2⟩
        · exact ⟨h1, h2⟩
      | leave => exact ⟨Or.inl rfl, h2⟩
      | park j => simp only [step]; split <;> exact ⟨h1, h2⟩
      | wake j => exact ⟨h1, h2⟩
      | cancel j =>
        have : publish s (.task j) = s := by rcases h1 with h | h | h <;> simp [publish, h]
        simp only [step, this]
        exact ⟨h1, h2⟩
      | go ok => rcases h1 with h | h | h <;> simp [step, go, h, h2]
  exact key es {} ⟨Or.inl rfl, rfl⟩

/-- C113 where nothing has ever gone wrong and the client can subscribe. -/
def C113_calm_statement : Prop :=
  ∀ (es : List Ev) (k : Key), .go false ∉ es → Serving (run true es) → k ∈ (run true es).line →
    ∃ n, ∀ rest, Smooth k rest → n ≤ rest.count (.go true) →
      k ∉ (run true (es ++ .cancel k :: rest)).line

/-- **Disagreement**: the worker takes tasks without waiting for the subscriber (worker.py:746-763
wait for the other ear only), so a task may wait, and be cancelled unheard, before it is subscribed. -/
theorem C113_violated_early : ¬ C113_calm_statement := by
  intro h
  obtain ⟨n, hn⟩ := h [.enter, .park "a"] "a" (by decide) (by decide) (by decide)
  have h1 := hn (.go true :: List.replicate n (.go true)) ⟨by simp, by simp, by simp⟩ (by simp)
  apply h1
  have key : ∀ n (s : State), s.pc = .listening [] →
      (runFrom true s (List.replicate n (.go true))).line = s.line := by
    intro n
    induction n with
    | zero => intro s _; rfl
    | succ n ih =>
      intro s hs
      rw [List.replicate_succ, runFrom_cons]
      have : step true s (.go true) = s := by simp [step, go, hs]
      rw [this]; exact ih s hs
  rw [run_append, runFrom_cons, runFrom_cons, key n _ (by decide)]
  decide

/-! ## The hypotheses can be met -/

/-- Two tasks wait. -/
def good : List Ev := [.enter, .go true, .park "a", .park "b"]

example : Subscribed (run true good) ∧ "b" ∈ (run true good).line := ⟨⟨[], Or.inl rfl⟩, by decide⟩

example : Smooth "a" [.cancel "b", .go true, .go true, .go true] ∧
    2 * ahead (run true good) + 2 ≤ [Ev.cancel "b", .go true, .go true, .go true].count (.go true) :=
  ⟨⟨by decide, by decide, by decide⟩, by decide⟩

example :
    let s := run true (good ++ [.cancel "a", .go true, .go true, .go true, .go true])
    s.line = ["b"] ∧ s.backstops = ["b"] ∧ s.tidied = ["a"] := by decide

end Docket.Tidy
