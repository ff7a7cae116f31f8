import Verif.Worker.MetricsLemmas

/-
C87.  What a worker's counters say about the tasks it has run, with any number of executions
under way at once and interrupted anywhere.
-/
namespace Docket.Metrics

open Docket.Execute

/-! ### Specification -/

/-- A worker has started on the task, and is not done with it. -/
def Underway (e : Exec) : Bool :=
  (e.past.contains (.began true) || e.past.contains (.began false)) && !e.past.contains .ended

/-- The worker is done with the task, one way or another. -/
def Over (e : Exec) : Prop := e.todo = []

/-- The task's function has been called. -/
def Called (e : Exec) : Prop := ∃ kw, Item.eff (.called kw) ∈ e.past

theorem Stage.counts {e : Exec} (h : Stage e) :
    e.past.countP Item.isBegan = e.past.countP (· == .ended) + (if Underway e then 1 else 0) := by
  have key : ∀ m : List Item, Inner m → m.countP Item.isBegan = 0 ∧ m.countP (· == Item.ended) = 0 ∧
      m.contains .ended = false := by
    intro m hm
    refine ⟨hm.count (by intro i; cases i <;> simp [Item.inner, Item.isBegan]),
      hm.count (by intro i; cases i <;> simp [Item.inner]), ?_⟩
    rw [Bool.eq_false_iff]
    intro hc
    have := hm _ (by simpa using hc)
    cases this
  cases h with
  | stricken h hw =>
    cases hp : e.past with
    | nil => simp [Underway, hp]
    | cons x p =>
      rw [hp] at h
      simp only [List.cons_append, List.cons.injEq] at h
      obtain ⟨rfl, h⟩ := h
      cases p with
      | nil => simp [Underway, hp, Item.isBegan]
      | cons y p =>
        simp only [List.cons_append, List.cons.injEq, List.append_eq_nil_iff] at h
        obtain ⟨rfl, rfl, _⟩ := h
        simp [Underway, hp, Item.isBegan]
  | superseded h hs hw =>
    cases hp : e.past with
    | nil => simp [Underway, hp]
    | cons x p =>
      rw [hp] at h
      simp only [List.cons_append, List.cons.injEq, List.append_eq_nil_iff] at h
      obtain ⟨rfl, rfl, _⟩ := h
      simp [Underway, hp, Item.isBegan]
  | dropped h ht =>
    rcases h with h | h <;> simp [Underway, h, Item.isBegan]
  | waiting m hp ht hf hs hw => simp [Underway, hp]
  | going m n hp ht hf hs hw =>
    obtain ⟨k1, k2, k3⟩ := key m hf.inner.left
    have : Underway e = true := by
      simp only [Underway, hp, List.contains_cons]
      rw [k3]
      cases e.redelivered <;> simp
    rw [this, hp, List.countP_cons, List.countP_cons, k1, k2]
    simp [Item.isBegan]
  | over m hp ht hf hs hw =>
    obtain ⟨k1, k2, k3⟩ := key m hf.inner
    have : Underway e = false := by
      simp [Underway, hp]
    rw [this, hp]
    simp only [List.cons_append, List.countP_cons, List.countP_append, k1, k2]
    simp [Item.isBegan]

/-! ### Theorems -/

/-- C87, running.  Whatever executions a worker has under way, however they are interleaved
and wherever they are interrupted: the number shown as running is the number of tasks the
worker has started on and is not done with.  So it is never negative, and 0 once all are done. -/
theorem C87_running_is_what_is_running (ops : List Op) :
    (run ops).counts.running = ((run ops).execs.countP Underway : Nat) ∧
    0 ≤ (run ops).counts.running ∧
    ((∀ e ∈ (run ops).execs, Over e) → (run ops).counts.running = 0) := by
  have h := (Tally.run ops).running
  have hc := total_sub (fun e he => (stages ops e he).counts)
  have h1 : (run ops).counts.running = ((run ops).execs.countP Underway : Nat) := by omega
  refine ⟨h1, by omega, fun hover => ?_⟩
  have h0 : (run ops).execs.countP Underway = 0 := by
    rw [List.countP_eq_zero]
    intro e he hu
    have ht : e.todo = [] := hover e he
    have hcount := (stages ops e he).counts
    cases stages ops e he with
    | going m n hp ht' => rw [ht] at ht'; simp at ht'
    | over m hp ht' => simp [Underway, hp] at hu
    | waiting m hp ht' => rw [ht] at ht'; simp at ht'
    | dropped h ht' => rcases h with h | h <;> simp [Underway, h] at hu
    | stricken h hw =>
      rw [ht, List.append_nil] at h
      simp [Underway, h] at hu
    | superseded h hs hw =>
      rw [ht, List.append_nil] at h
      simp [Underway, h] at hu
  rw [h1, h0]
  rfl

/-- C87, running, per task: a task whose function has been called counts as running until the
worker is done with it. -/
theorem C87_called_counts_as_running (ops : List Op) (e : Exec) (he : e ∈ (run ops).execs)
    (hc : Called e) (hn : ¬ Over e) : Underway e = true := by
  obtain ⟨kw, hkw⟩ := hc
  have two : ∀ a b : Item, e.past ++ e.todo = [a, b] → Item.eff (.called kw) = a ∨
      Item.eff (.called kw) = b := by
    intro a b h
    have : Item.eff (.called kw) ∈ e.past ++ e.todo := List.mem_append_left _ hkw
    rw [h] at this
    simpa using this
  cases stages ops e he with
  | stricken h hw =>
    rcases two _ _ h with h | h
    · injection h with h; cases h
    · cases h
  | superseded h hs hw =>
    have : Item.eff (.called kw) ∈ e.past ++ e.todo := List.mem_append_left _ hkw
    rw [h] at this
    simp at this
  | dropped h ht => exact absurd ht hn
  | waiting m hp ht hf hs hw => rw [hp] at hkw; cases hkw
  | going m n hp ht hf hs hw =>
    have : Item.ended ∉ e.past := by
      intro hm
      rw [hp] at hm
      rcases List.mem_cons.1 hm with h | h
      · cases h
      · have := hf.inner.left _ h
        cases this
    simp only [Underway, Bool.and_eq_true, Bool.not_eq_true', List.contains_eq_mem]
    refine ⟨?_, by simpa using this⟩
    rw [hp]
    cases e.redelivered <;> simp
  | over m hp ht hf hs hw => exact absurd ht hn

/-- C87, started and completed: every task counted as started is either still running or
counted as completed; what was redelivered was started; what succeeded or failed was started,
and nothing succeeds or fails twice. -/
theorem C87_started_is_running_or_completed (ops : List Op) :
    ((run ops).counts.started : Int) = (run ops).counts.completed + (run ops).counts.running ∧
    (run ops).counts.redelivered ≤ (run ops).counts.started ∧
    (run ops).counts.succeeded ≤ (run ops).counts.started ∧
    (run ops).counts.failed ≤ (run ops).counts.started := by
  have h := Tally.run ops
  refine ⟨?_, ?_, ?_, ?_⟩
  · rw [h.started, h.completed, h.running]; omega
  · rw [h.started, h.redelivered]
    refine total_le (fun e _ => List.countP_mono_left (fun i _ hi => ?_))
    rw [beq_iff_eq.1 hi]; rfl
  all_goals
    first | rw [h.started, h.succeeded] | rw [h.started, h.failed]
    refine total_le (fun e he => ?_)
    cases stages ops e he with
    | stricken h hw =>
      have hz : ∀ i ∈ e.past, i = .eff .cancelled ∨ i = .stricken := by
        intro i hi
        have : i ∈ e.past ++ e.todo := List.mem_append_left _ hi
        rw [h] at this
        simpa using this
      rw [List.countP_eq_zero.2 (fun i hi => by rcases hz i hi with rfl | rfl <;> decide)]
      exact Nat.zero_le _
    | superseded h hs hw =>
      have hz : ∀ i ∈ e.past, i = .superseded := by
        intro i hi
        have : i ∈ e.past ++ e.todo := List.mem_append_left _ hi
        rw [h] at this
        simpa using this
      rw [List.countP_eq_zero.2 (fun i hi => by rw [hz i hi]; decide)]
      exact Nat.zero_le _
    | dropped h ht => rcases h with h | h <;> rw [h] <;> decide
    | waiting m hp ht hf hs hw => rw [hp]; decide
    | going m n hp ht hf hs hw =>
      have h1 := hf.once
      have h2 := hf.fails
      simp only [List.count_eq_countP, List.countP_append] at h1 h2
      rw [hp]
      simp only [List.countP_cons, Item.isBegan, if_true]
      simp
      omega
    | over m hp ht hf hs hw =>
      have h1 := hf.once
      have h2 := hf.fails
      simp only [List.count_eq_countP] at h1 h2
      rw [hp]
      simp only [List.cons_append, List.countP_append, List.countP_cons, Item.isBegan, if_true]
      simp
      omega

/-- C87, successes and failures are counted per task: the counters are the numbers of tasks that
have succeeded and that have failed, however often a task is interrupted. -/
theorem C87_successes_and_failures_counted (ops : List Op) :
    (run ops).counts.succeeded = (run ops).execs.countP (fun e => e.past.contains .succeeded) ∧
    (run ops).counts.failed = (run ops).execs.countP (fun e => e.past.contains .failed) := by
  have h := Tally.run ops
  have key : ∀ (l : List Item) (i : Item), l.count i ≤ 1 →
      l.countP (· == i) = if l.contains i then 1 else 0 := by
    intro l i hl
    have hl' : l.countP (· == i) ≤ 1 := hl
    by_cases hc : i ∈ l
    · have : 0 < l.count i := List.count_pos_iff.2 hc
      have this' : 0 < l.countP (· == i) := this
      simp only [List.contains_eq_mem, hc, decide_true, if_true]
      omega
    · have : l.count i = 0 := List.count_eq_zero.2 hc
      have this' : l.countP (· == i) = 0 := this
      simp [hc, this']
  have most : ∀ e ∈ (run ops).execs, e.past.count .succeeded ≤ 1 ∧ e.past.count .failed ≤ 1 := by
    intro e he
    have sub : ∀ l : List Item, e.past ++ e.todo = l → ∀ i, e.past.count i ≤ l.count i := by
      rintro _ rfl i
      rw [List.count_append]
      exact Nat.le_add_right _ _
    cases stages ops e he with
    | stricken h hw => exact ⟨Nat.le_trans (sub _ h _) (by decide), Nat.le_trans (sub _ h _) (by decide)⟩
    | superseded h hs hw =>
      exact ⟨Nat.le_trans (sub _ h _) (by decide), Nat.le_trans (sub _ h _) (by decide)⟩
    | dropped h ht => rcases h with h | h <;> rw [h] <;> decide
    | waiting m hp ht hf hs hw => rw [hp]; decide
    | going m n hp ht hf hs hw =>
      have h1 := hf.once
      have h2 := hf.fails
      rw [List.count_append] at h1 h2
      rw [hp, List.count_cons_of_ne (by intro h; cases h), List.count_cons_of_ne (by intro h; cases h)]
      omega
    | over m hp ht hf hs hw =>
      have h1 := hf.once
      have h2 := hf.fails
      have z1 : [Item.ended].count .succeeded = 0 := by decide
      have z2 : [Item.ended].count .failed = 0 := by decide
      rw [hp, List.cons_append, List.count_cons_of_ne (by intro h; cases h),
        List.count_cons_of_ne (by intro h; cases h), List.count_append, List.count_append, z1, z2]
      omega
  rw [h.succeeded, h.failed]
  exact ⟨total_eq_countP (fun e he => key _ _ (most e he).1),
    total_eq_countP (fun e he => key _ _ (most e he).2)⟩

/-- C87, success: a success is counted only for a task whose function was called and returned;
the function is called at most once. -/
theorem C87_success_only_if_returned (ops : List Op) (e : Exec) (he : e ∈ (run ops).execs) :
    (Item.succeeded ∈ e.past → ∃ kw n, Item.eff (.called kw) ∈ e.past ∧ e.world.body kw = .returned n) ∧
    e.past.countP (fun i => i.eff?.any isCalled) ≤ 1 := by
  have fair : ∀ m n : List Item, Fair e.world (m ++ n) → Item.succeeded ∈ m →
      ∃ kw n, Item.eff (.called kw) ∈ m ∧ e.world.body kw = .returned n := by
    intro m n hf hm
    obtain ⟨a, b, rfl⟩ := List.append_of_mem hm
    obtain ⟨kw, x, h1, h2⟩ := hf.success a (b ++ n) (by simp)
    exact ⟨kw, x, List.mem_append_left _ h1, h2⟩
  cases stages ops e he with
  | stricken h hw =>
    have hz : ∀ i ∈ e.past, i = .eff .cancelled ∨ i = .stricken := by
      intro i hi
      have : i ∈ e.past ++ e.todo := List.mem_append_left _ hi
      rw [h] at this
      simpa using this
    refine ⟨fun hs => ?_, ?_⟩
    · rcases hz _ hs with h | h <;> cases h
    · rw [List.countP_eq_zero.2 (fun i hi => by rcases hz i hi with rfl | rfl <;> decide)]
      exact Nat.zero_le _
  | superseded h hs hw =>
    have hz : ∀ i ∈ e.past, i = .superseded := by
      intro i hi
      have : i ∈ e.past ++ e.todo := List.mem_append_left _ hi
      rw [h] at this
      simpa using this
    refine ⟨fun hs => ?_, ?_⟩
    · cases hz _ hs
    · rw [List.countP_eq_zero.2 (fun i hi => by rw [hz i hi]; decide)]
      exact Nat.zero_le _
  | dropped h ht =>
    refine ⟨fun hs => ?_, ?_⟩
    · rcases h with h | h <;> rw [h] at hs <;> simp at hs
    · rcases h with h | h <;> rw [h] <;> decide
  | waiting m hp ht hf hs hw =>
    rw [hp]
    exact ⟨fun h => (nomatch h), by decide⟩
  | going m n hp ht hf hs hw =>
    rw [hp]
    refine ⟨fun hm => ?_, ?_⟩
    · rcases List.mem_cons.1 hm with h | h
      · cases h
      · obtain ⟨kw, x, h1, h2⟩ := fair m n hf h
        exact ⟨kw, x, List.mem_cons_of_mem _ h1, h2⟩
    · have := hf.calls
      rw [List.countP_append] at this
      rw [List.countP_cons_of_neg (by simp [Item.eff?])]
      omega
  | over m hp ht hf hs hw =>
    rw [hp]
    refine ⟨fun hm => ?_, ?_⟩
    · simp only [List.cons_append, List.mem_cons, List.mem_append, List.not_mem_nil, or_false] at hm
      rcases hm with h | h | h
      · cases h
      · obtain ⟨kw, x, h1, h2⟩ := fair m [] (by simpa using hf) h
        exact ⟨kw, x, by simp [h1], h2⟩
      · cases h
    · have := hf.calls
      rw [List.cons_append, List.countP_cons_of_neg (by simp [Item.eff?]), List.countP_append]
      have hz : [Item.ended].countP (fun i => i.eff?.any isCalled) = 0 := by decide
      rw [hz]
      exact this

/-- Nothing interrupts an execution. -/
def Undisturbed (ops : List Op) : Prop := ∀ op ∈ ops, ∀ i fails effs, op ≠ .cut i fails effs

theorem undisturbed (ops : List Op) (h : Undisturbed ops) :
    ∀ e ∈ (run ops).execs, e.past ++ e.todo = items e.world e.redelivered := by
  have gen : ∀ s : State, (∀ e ∈ s.execs, e.past ++ e.todo = items e.world e.redelivered) →
      ∀ e ∈ (ops.foldl step s).execs, e.past ++ e.todo = items e.world e.redelivered := by
    induction ops with
    | nil => exact fun s hs => hs
    | cons op ops ih =>
      intro s hs
      refine ih (fun o ho => h o (List.mem_cons_of_mem _ ho)) _ ?_
      intro e he
      cases op with
      | deliver w red =>
        rcases List.mem_append.1 he with he | he
        · exact hs e he
        · rw [List.mem_singleton.1 he]; rfl
      | go i =>
        rcases mem_modify he with he | ⟨y, hy, rfl⟩
        · exact hs e he
        · have := hs y hy
          unfold Exec.next
          cases ht : y.todo with
          | nil => exact this
          | cons x r =>
            rw [ht] at this
            simpa using this
      | cut i fails effs => exact absurd rfl (h _ List.mem_cons_self i fails effs)
  exact gen {} (fun e h => (nomatch h))

/-- C87, what is counted.  If nothing interrupts an execution from outside, then once all are
done, every task the worker was given is counted as exactly one of these: as stricken if a strike
matched it, else as superseded if it could not be claimed, else as started and as completed, and as
redelivered if it was redelivered. -/
theorem C87_every_task_counted_once (ops : List Op) (h : Undisturbed ops)
    (hover : ∀ e ∈ (run ops).execs, Over e) :
    (run ops).counts.stricken = (run ops).execs.countP (fun e => e.world.stricken) ∧
    (run ops).counts.superseded =
      (run ops).execs.countP (fun e => !e.world.stricken && !e.world.claimed) ∧
    (run ops).counts.started =
      (run ops).execs.countP (fun e => !e.world.stricken && e.world.claimed) ∧
    (run ops).counts.completed =
      (run ops).execs.countP (fun e => !e.world.stricken && e.world.claimed) ∧
    (run ops).counts.redelivered =
      (run ops).execs.countP (fun e => !e.world.stricken && e.world.claimed && e.redelivered) := by
  have ht := Tally.run ops
  have hp : ∀ e ∈ (run ops).execs, e.past = items e.world e.redelivered := by
    intro e he
    have h1 := undisturbed ops h e he
    have h2 : e.todo = [] := hover e he
    rw [h2, List.append_nil] at h1
    exact h1
  have inner : ∀ (w : World) (p : Item → Bool), (∀ i, i.inner = true → p i = false) →
      (middle w).countP p = 0 := fun w p hp => (middle_inner w).count hp
  rw [ht.stricken, ht.superseded, ht.started, ht.completed, ht.redelivered]
  refine ⟨?_, ?_, ?_, ?_, ?_⟩
  all_goals
    refine total_eq_countP (fun e he => ?_)
    rw [hp e he]
    unfold items
    by_cases hs : e.world.stricken
    · simp [hs, Item.isBegan]
    · by_cases hc : e.world.claimed
      · simp only [hs, hc, Bool.false_eq_true, if_false, Bool.not_true, List.cons_append,
          List.countP_cons, List.countP_append]
        rw [inner _ _ (by intro i; cases i <;> simp [Item.inner, Item.isBegan])]
        cases e.redelivered <;> simp [Item.isBegan]
      · simp [hs, hc, Item.isBegan]

/-- C87, success, the other way: an execution that is not interrupted from outside is counted
as a success exactly if its function was called and returned. -/
theorem C87_success_iff_returned (w : World) (red : Bool) :
    Item.succeeded ∈ items w red ↔
      ∃ kw n, Eff.called kw ∈ (execute w).1 ∧ w.body kw = .returned n := by
  have hmem : ∀ kw, Eff.called kw ∈ (execute w).1 ↔ Item.eff (.called kw) ∈ items w red := by
    intro kw
    rw [← items_effs w red, List.mem_filterMap]
    constructor
    · rintro ⟨i, hi, he⟩
      cases i <;> simp [Item.eff?] at he
      subst he
      exact hi
    · exact fun h => ⟨_, h, rfl⟩
  have hin : ∀ i : Item, i.inner = true → i ≠ .eff .cancelled →
      (i ∈ items w red ↔ w.stricken = false ∧ w.claimed = true ∧ i ∈ middle w) := by
    intro i hi hne
    unfold items
    by_cases hs : w.stricken
    · simp only [hs, if_true]
      constructor
      · intro h
        rcases List.mem_cons.1 h with h | h
        · exact absurd h hne
        · rw [List.mem_singleton.1 h] at hi; cases hi
      · rintro ⟨h, _⟩; cases h
    · by_cases hc : w.claimed
      · simp only [hs, hc, Bool.false_eq_true, if_false, Bool.not_true, List.cons_append]
        constructor
        · intro h
          rcases List.mem_cons.1 h with h | h
          · rw [h] at hi; cases hi
          · rcases List.mem_append.1 h with h | h
            · exact ⟨trivial, trivial, h⟩
            · rw [List.mem_singleton.1 h] at hi; cases hi
        · exact fun h => List.mem_cons_of_mem _ (List.mem_append_left _ h.2.2)
      · simp only [hs, hc, Bool.false_eq_true, if_false, Bool.not_false, if_true]
        constructor
        · intro h
          rw [List.mem_singleton.1 h] at hi; cases hi
        · rintro ⟨_, h, _⟩; cases h
  constructor
  · intro h
    obtain ⟨hs, hc, hm⟩ := (hin .succeeded rfl (by decide)).1 h
    obtain ⟨a, b, hab⟩ := List.append_of_mem hm
    obtain ⟨kw, n, h1, h2⟩ := (middle_fair w).success a b hab
    exact ⟨kw, n, (hmem kw).2 ((hin _ rfl (by intro h; injection h with h; cases h)).2
      ⟨hs, hc, hab ▸ List.mem_append_left _ h1⟩), h2⟩
  · rintro ⟨kw, n, h1, h2⟩
    obtain ⟨hs, hc, hm⟩ := (hin (.eff (.called kw)) rfl (by intro h; injection h with h; cases h)).1
      ((hmem kw).1 h1)
    refine (hin .succeeded rfl (by decide)).2 ⟨hs, hc, ?_⟩
    simp only [middle] at hm ⊢
    rcases List.mem_append.1 hm with hm | hm
    · rcases List.mem_append.1 hm with hm | hm
      · rcases List.mem_append.1 hm with hm | hm
        · obtain ⟨r, _, hr⟩ := List.mem_map.1 hm
          injection hr with hr
          cases hr
        · refine List.mem_append_left _ (List.mem_append_left _ (List.mem_append_right _ ?_))
          by_cases ha : (resolve w).aborted
          · simp [ha] at hm
          · simp only [ha] at hm ⊢
            rcases blockItems_cases w (resolve w).args with ⟨h, _⟩ | ⟨h, h'⟩ | ⟨b, hb, h, _⟩
            · simp [h] at hm
            · simp [h] at hm
              rw [← hm, h2] at h'
              rcases h' with ⟨h', _⟩ | ⟨_, h', _⟩ <;> cases h'
            · simp [h]
      · obtain ⟨x, hx, hr⟩ := List.mem_map.1 hm
        injection hr with hr
        have := unwind_calls _ _ _ x hx
        rw [hr] at this
        cases this
    · have h0 := (outerItems_facts w (if (resolve w).aborted then [] else (resolve w).args)
        (unwind w.exit (resolve w).opened.reverse
          (if (resolve w).aborted then ([], Out.cancelled) else blockItems w (resolve w).args).2).2).2.2
      rw [List.countP_eq_zero] at h0
      have := h0 _ hm
      simp [Item.eff?, isCalled] at this

/-! ### Success, failure and the record -/

/-- The execution is recorded as completed. -/
def RecordedCompleted (w : World) : Prop := ∃ b, Eff.completed b ∈ (settle w).1

/-- The execution is recorded as failed, or its failure handler has rescheduled it. -/
def RecordedFailed (w : World) : Prop := Eff.failed ∈ (settle w).1 ∨ Eff.rescheduled ∈ (execute w).1

/-- The full statement: a claimed task is counted as a success exactly if it is recorded as
completed, and as a failure exactly if it is recorded as failed or retried. -/
def C87_statement : Prop := ∀ (w : World) (red : Bool), w.stricken = false → w.claimed = true →
  ((Item.succeeded ∈ items w red ↔ RecordedCompleted w) ∧
    (Item.failed ∈ items w red ↔ RecordedFailed w))

/-- Nothing raises but the dependencies on entry and the function. -/
structure Smooth (w : World) : Prop where
  stores : w.storeFails = none
  storesError : w.storeErrorFails = none
  onSuccess : ∀ v e, w.onSuccess v ≠ .raised e
  onFailure : ∀ v e, w.onFailure v ≠ .raised e
  handleFailure : ∀ v x e, w.handleFailure v x ≠ .raised e
  exits : ∀ r o, w.exit r o = .pass

theorem unwind_pass {exit : Res → Out → ExitOut} (h : ∀ r o, exit r o = .pass) (rs : List Res)
    (o : Out) : unwind exit rs o = (rs.map .closed, o) := by
  induction rs with
  | nil => rfl
  | cons r rs ih => simp [unwind, h, ih]

theorem Smooth.finish {w : World} (h : Smooth w) (args : List (String × Slot)) (b : Bool) :
    (Execute.finish w args b).2 = .done ∧ (∃ x, Eff.completed x ∈ (Execute.finish w args b).1) ∧
      Eff.failed ∉ (Execute.finish w args b).1 ∧ Eff.rescheduled ∉ (Execute.finish w args b).1 := by
  have hc : (complete w b).2 = .done ∧ (∃ x, Eff.completed x ∈ (complete w b).1) ∧
      Eff.failed ∉ (complete w b).1 ∧ Eff.rescheduled ∉ (complete w b).1 := by
    simp only [complete, h.stores]
    split
    · exact ⟨rfl, ⟨_, List.mem_singleton.2 rfl⟩, by simp, by simp⟩
    · exact ⟨rfl, ⟨true, by simp⟩, by simp, by simp⟩
  simp only [Execute.finish]
  split
  · exact hc
  · rename_i v _
    cases hv : w.onSuccess v with
    | handled => exact ⟨rfl, ⟨false, by simp⟩, by simp, by simp⟩
    | notHandled =>
      obtain ⟨h1, ⟨x, h2⟩, h3, h4⟩ := hc
      exact ⟨h1, ⟨x, List.mem_cons_of_mem _ h2⟩, by simpa using h3, by simpa using h4⟩
    | raised e => exact absurd hv (h.onSuccess v e)

/-- What the `except Exception` clause comes to if nothing else raises. -/
theorem Smooth.onError {w : World} (h : Smooth w) (args : List (String × Slot)) (x : Err) :
    (Execute.onError w args x).2 = .finished ∧
    (∀ b, Eff.completed b ∉ (Execute.onError w args x).1) ∧
    (Eff.failed ∈ (Execute.onError w args x).1 ∨ Eff.rescheduled ∈ (Execute.onError w args x).1 ∨
      (Execute.onError w args x).1.any Eff.settles = false) := by
  have hr : (recordFailure w).2 = .finished ∧ (∀ b, Eff.completed b ∉ (recordFailure w).1) ∧
      Eff.failed ∈ (recordFailure w).1 := by
    simp only [recordFailure, h.storesError]
    split <;> exact ⟨rfl, by simp, by simp⟩
  have hn : (notRetried w args).2 = .finished ∧ (∀ b, Eff.completed b ∉ (notRetried w args).1) ∧
      Eff.failed ∈ (notRetried w args).1 := by
    simp only [notRetried]
    split
    · exact hr
    · rename_i v _
      cases hv : w.onFailure v with
      | raised e => exact absurd hv (h.onFailure v e)
      | handled =>
        exact ⟨hr.1, by simpa using hr.2.1, List.mem_cons_of_mem _ hr.2.2⟩
      | notHandled =>
        exact ⟨hr.1, by simpa using hr.2.1, List.mem_cons_of_mem _ hr.2.2⟩
  simp only [Execute.onError]
  split
  · exact ⟨hn.1, hn.2.1, Or.inl hn.2.2⟩
  · rename_i v _
    cases hv : w.handleFailure v x with
    | raised e => exact absurd hv (h.handleFailure v x e)
    | notHandled => exact ⟨hn.1, by simpa using hn.2.1, Or.inl (List.mem_cons_of_mem _ hn.2.2)⟩
    | handled =>
      refine ⟨rfl, ?_, ?_⟩
      · by_cases ha : w.acks v <;> simp [ha]
      · by_cases ha : w.acks v
        · exact Or.inr (Or.inl (by simp [ha]))
        · exact Or.inr (Or.inr (by simp [ha, Eff.settles]))

/-- How a claimed execution goes if nothing else raises, by cases. -/
theorem Smooth.cases {w : World} (h : Smooth w) (hs : w.stricken = false) (hc : w.claimed = true) :
    (Item.succeeded ∈ middle w ∧ Item.failed ∉ middle w ∧ (execute w).2 = .finished ∧
      (∃ b, Eff.completed b ∈ (execute w).1) ∧ Eff.failed ∉ (execute w).1 ∧
      Eff.rescheduled ∉ (execute w).1) ∨
    (Item.succeeded ∉ middle w ∧ Item.failed ∉ middle w ∧
      ((execute w).2 = .finished ∧ Eff.cancelled ∈ (execute w).1 ∨
        ∃ a b, (execute w).2 = .blocked a b) ∧ (∀ b, Eff.completed b ∉ (execute w).1) ∧
      Eff.failed ∉ (execute w).1 ∧ Eff.rescheduled ∉ (execute w).1) ∨
    (Item.succeeded ∉ middle w ∧ Item.failed ∈ middle w ∧ (execute w).2 = .finished ∧
      (∀ b, Eff.completed b ∉ (execute w).1) ∧
      (Eff.failed ∈ (execute w).1 ∨ Eff.rescheduled ∈ (execute w).1 ∨
        (execute w).1.any Eff.settles = false)) := by
  simp only [execute, middle, hs, hc, Bool.false_eq_true, if_false, Bool.not_true]
  rw [unwind_pass h.exits, unwind_pass h.exits]
  by_cases ha : (resolve w).aborted
  · simp only [ha, if_true, outer, outerItems]
    refine Or.inr (Or.inl ⟨?_, ?_, Or.inl ⟨(by trivial), by simp⟩, ?_, ?_, ?_⟩) <;> simp
  · simp only [ha]
    have e1 := blockItems_out w (resolve w).args
    have e2 := blockItems_effs w (resolve w).args
    generalize (resolve w).opened = ops at *
    generalize (resolve w).args = args at *
    rcases blockItems_cases w args with ⟨hb, e, he⟩ | ⟨hb, ⟨_, he⟩ | ⟨e, _, he⟩⟩ | ⟨n, _, hb, he⟩
    · rw [he] at e1
      rw [hb] at e2
      simp only [List.filterMap_nil] at e2
      simp only [Bool.false_eq_true, if_false, ← e1, he, hb, ← e2]
      cases e with
      | blocked x y =>
        simp only [outer, outerItems]
        refine Or.inr (Or.inl ⟨?_, ?_, Or.inr ⟨x, y, rfl⟩, ?_, ?_, ?_⟩) <;> simp
      | other x =>
        obtain ⟨o1, o2, o3⟩ := h.onError args (.other x)
        simp only [outer, outerItems]
        refine Or.inr (Or.inr ⟨?_, ?_, o1, ?_, ?_⟩)
        · simp
        · simp
        · simpa using o2
        · rcases o3 with o | o | o
          · exact Or.inl (by simp [o])
          · exact Or.inr (Or.inl (by simp [o]))
          · refine Or.inr (Or.inr ?_)
            simp only [List.any_append, o, List.any_map]
            simp [Function.comp_def, Eff.settles]
    · rw [he] at e1
      rw [hb] at e2
      simp only [List.filterMap_cons, List.filterMap_nil, Item.eff?] at e2
      simp only [Bool.false_eq_true, if_false, ← e1, he, hb, ← e2, outer, outerItems]
      refine Or.inr (Or.inl ⟨?_, ?_, Or.inl ⟨(by trivial), by simp⟩, ?_, ?_, ?_⟩) <;> simp
    · rw [he] at e1
      rw [hb] at e2
      simp only [List.filterMap_cons, List.filterMap_nil, Item.eff?] at e2
      simp only [Bool.false_eq_true, if_false, ← e1, he, hb, ← e2]
      cases e with
      | blocked x y =>
        simp only [outer, outerItems]
        refine Or.inr (Or.inl ⟨?_, ?_, Or.inr ⟨x, y, rfl⟩, ?_, ?_, ?_⟩) <;> simp
      | other x =>
        obtain ⟨o1, o2, o3⟩ := h.onError args (.other x)
        simp only [outer, outerItems]
        refine Or.inr (Or.inr ⟨?_, ?_, o1, ?_, ?_⟩)
        · simp
        · simp
        · simpa using o2
        · rcases o3 with o | o | o
          · exact Or.inl (by simp [o])
          · exact Or.inr (Or.inl (by simp [o]))
          · refine Or.inr (Or.inr ?_)
            simp only [List.any_append, o, List.any_map]
            simp [Function.comp_def, Eff.settles]
    · obtain ⟨f1, ⟨b, f2⟩, f3, f4⟩ := h.finish args n
      rw [he, f1] at e1
      rw [hb] at e2
      have e3 : (Item.eff (.called (finalKwargs w args)) :: .succeeded ::
          (Execute.finish w args n).1.map Item.eff).filterMap Item.eff? =
          .called (finalKwargs w args) :: (Execute.finish w args n).1 := by
        show Eff.called _ :: ((Execute.finish w args n).1.map Item.eff).filterMap Item.eff? = _
        rw [filterMap_map_eff]
      rw [e3] at e2
      simp only [Bool.false_eq_true, if_false, ← e1, he, f1, hb, ← e2, outer, outerItems]
      refine Or.inl ⟨?_, ?_, (by trivial), ⟨b, ?_⟩, ?_, ?_⟩
      · simp
      · simp
      · simp [f2]
      · simpa using f3
      · simpa using f4

/-- C87, success and failure.  If results can be stored, and neither handlers nor the exits of
dependencies raise or swallow anything: a claimed task is counted as a success exactly if it is
recorded as completed, as a failure exactly if it is recorded as failed or was retried, and never
as both.  Partial: otherwise the two can disagree, see `C87_violated_unstorable` and
`C87_violated_swallowed`. -/
theorem C87_success_and_failure_as_recorded_partial (w : World) (red : Bool) (hw : Smooth w)
    (hs : w.stricken = false) (hc : w.claimed = true) :
    (Item.succeeded ∈ items w red ↔ RecordedCompleted w) ∧
    (Item.failed ∈ items w red ↔ RecordedFailed w) ∧
    ¬ (Item.succeeded ∈ items w red ∧ Item.failed ∈ items w red) := by
  have i1 : Item.succeeded ∈ items w red ↔ Item.succeeded ∈ middle w := by simp [items, hs, hc]
  have i2 : Item.failed ∈ items w red ↔ Item.failed ∈ middle w := by simp [items, hs, hc]
  rw [i1, i2]
  simp only [RecordedCompleted, RecordedFailed]
  have settled : ∀ l : List Eff, l.any Eff.settles = true → safetyNet w l = l := by
    intro l h; simp [safetyNet, h]
  have any : ∀ (l : List Eff) (e : Eff), e ∈ l → e.settles = true → l.any Eff.settles = true :=
    fun l e h h' => List.any_eq_true.2 ⟨e, h, h'⟩
  rcases hw.cases hs hc with ⟨h1, h2, h3, ⟨b, h4⟩, h5, h6⟩ | ⟨h1, h2, h3, h4, h5, h6⟩ | ⟨h1, h2, h3, h4, h5⟩
  · have : (settle w).1 = (execute w).1 := by
      simp only [settle, h3]
      exact settled _ (any _ _ h4 rfl)
    rw [this]
    exact ⟨iff_of_true h1 ⟨b, h4⟩, iff_of_false h2 (by simp [h5, h6]), fun h => h2 h.2⟩
  · have hset : ∃ t, (settle w).1 = (execute w).1 ++ t ∧ Eff.failed ∉ t ∧ ∀ b, Eff.completed b ∉ t := by
      rcases h3 with ⟨h3, hcan⟩ | ⟨a, b, h3⟩
      · refine ⟨[], ?_, by simp, by simp⟩
        simp only [settle, h3, List.append_nil]
        exact settled _ (any _ _ hcan rfl)
      · cases a with
        | true => exact ⟨[], by simp [settle, h3], by simp, by simp⟩
        | false =>
          cases b with
          | true =>
            refine ⟨[.rescheduled], ?_, by simp, by simp⟩
            simp only [settle, h3]
            exact settled _ (any _ .rescheduled (by simp) rfl)
          | false =>
            refine ⟨[.cancelled], ?_, by simp, by simp⟩
            simp only [settle, h3]
            exact settled _ (any _ .cancelled (by simp) rfl)
    obtain ⟨t, e, t1, t2⟩ := hset
    rw [e]
    refine ⟨iff_of_false h1 ?_, iff_of_false h2 ?_, fun h => h2 h.2⟩
    · rintro ⟨b, hb⟩
      rcases List.mem_append.1 hb with hb | hb
      · exact h4 b hb
      · exact t2 b hb
    · rintro (hb | hb)
      · rcases List.mem_append.1 hb with hb | hb
        · exact h5 hb
        · exact t1 hb
      · exact h6 hb
  · have e : (settle w).1 = safetyNet w (execute w).1 := by simp only [settle, h3]
    rw [e]
    refine ⟨iff_of_false h1 ?_, iff_of_true h2 ?_, fun h => h1 h.1⟩
    · rintro ⟨b, hb⟩
      simp only [safetyNet] at hb
      split at hb
      · exact h4 b hb
      · rcases List.mem_append.1 hb with hb | hb
        · exact h4 b hb
        · simp at hb
    · rcases h5 with h5 | h5 | h5
      · exact Or.inl (by rw [settled _ (any _ _ h5 rfl)]; exact h5)
      · exact Or.inr h5
      · exact Or.inl (by simp [safetyNet, h5, hc])

section examples

/-- A task without parameters that returns 1. -/
def plain : World := { func := ⟨[], [], []⟩, body := fun _ => .returned false }

/-- The same with a result that cannot be serialised. -/
def unstorable : World := { plain with storeFails := some (.other "PicklingError") }

/-- A task that raises, in a dependency whose exit swallows the exception. -/
def swallowed : World :=
  { func := ⟨[], [("cm", .dep ⟨[0], .value ⟨"cm", false, false, false⟩⟩)], []⟩
    body := fun _ => .raised (.other "ValueError")
    exit := fun _ _ => .suppress }

/-- A task for which there is no room. -/
def noRoom : World :=
  { func := ⟨[], [("limit", .dep ⟨[], .error (.blocked false true)⟩)], []⟩
    body := fun _ => .returned true }

/-- **Disagreement.** A task whose function returned something that cannot be stored is counted
as succeeded and as failed, and recorded as failed. -/
theorem C87_violated_unstorable : ¬ C87_statement ∧
    (Item.succeeded ∈ items unstorable false ∧ Item.failed ∈ items unstorable false ∧
      ¬ RecordedCompleted unstorable) := by
  have h3 : ¬ RecordedCompleted unstorable := by
    rintro ⟨b, hb⟩
    revert hb
    cases b <;> decide +kernel
  have h1 : Item.succeeded ∈ items unstorable false := by decide +kernel
  have h2 : Item.failed ∈ items unstorable false := by decide +kernel
  exact ⟨fun h => h3 ((h unstorable false rfl rfl).1.1 h1), h1, h2, h3⟩

/-- **Disagreement.** A task that raised, in a dependency that swallowed the exception, is
recorded as failed and counted neither as succeeded nor as failed. -/
theorem C87_violated_swallowed : ¬ C87_statement ∧
    (Item.succeeded ∉ items swallowed false ∧ Item.failed ∉ items swallowed false ∧
      RecordedFailed swallowed) := by
  have h1 : Item.succeeded ∉ items swallowed false := by decide +kernel
  have h2 : Item.failed ∉ items swallowed false := by decide +kernel
  have h3 : RecordedFailed swallowed := Or.inl (by decide +kernel)
  exact ⟨fun h => h2 ((h swallowed false rfl rfl).2.2 h3), h1, h2, h3⟩

/-- **Disagreement.** A task for which a concurrency limit has no room is counted as started and
as completed though its function is never called and it goes back to the schedule. -/
theorem C87_violated_blocked :
    ¬ (∀ (w : World) (red : Bool), Item.began red ∈ items w red → ∃ kw, Eff.called kw ∈ (execute w).1) ∧
    (Item.began false ∈ items noRoom false ∧ Item.ended ∈ items noRoom false ∧
      (settle noRoom).1 = [.rescheduled]) := by
  have h1 : Item.began false ∈ items noRoom false := by decide +kernel
  have h2 : Item.ended ∈ items noRoom false := by decide +kernel
  have h3 : (settle noRoom).1 = [.rescheduled] := by decide +kernel
  refine ⟨fun h => ?_, h1, h2, h3⟩
  obtain ⟨kw, hk⟩ := h noRoom false h1
  have : (execute noRoom).1 = [] := by decide +kernel
  rw [this] at hk
  cases hk

/-- Two tasks, the second interrupted after its function was called. -/
def twoTasks : List Op :=
  [.deliver plain false, .deliver plain true, .go 0, .go 1, .go 1, .go 0, .cut 1 false [.cancelled]]

example : (run twoTasks).counts.running = 2 ∧ (run twoTasks).counts.started = 2 ∧
    (run twoTasks).counts.redelivered = 1 := by decide +kernel

example : (run (twoTasks ++ [.go 1, .go 1, .go 0])).counts =
    { started := 2, redelivered := 1, running := 1, completed := 1, succeeded := 1 } := by decide +kernel

example : ∃ e ∈ (run twoTasks).execs, Called e ∧ ¬ Over e :=
  ⟨{ world := plain, redelivered := false, past := [.began false, .eff (.called [])],
     todo := [.succeeded, .eff .stored, .eff (.completed true), .ended] },
   List.mem_of_mem_head? rfl,
   ⟨[], by decide⟩, by simp [Over]⟩

/-- An undisturbed run of a stricken, a superseded and a plain task. -/
def threeTasks : List Op :=
  [.deliver { plain with stricken := true } false, .deliver { plain with claimed := false } false,
   .deliver plain true, .go 0, .go 0, .go 1, .go 2, .go 2, .go 2, .go 2, .go 2, .go 2]

example : Undisturbed threeTasks := by
  intro op hop
  simp only [threeTasks, List.mem_cons, List.not_mem_nil, or_false] at hop
  rcases hop with h | h | h | h | h | h | h | h | h | h | h | h <;> subst h <;> intro _ _ _ h <;> cases h

example : (run threeTasks).execs.all (fun e => e.todo.isEmpty) = true ∧
    (run threeTasks).counts = ⟨1, 1, 1, 1, 0, 1, 1, 0⟩ := by decide +kernel

example : Smooth plain := ⟨rfl, rfl, (by intro v e h; cases h), (by intro v e h; cases h),
  (by intro v x e h; cases h), fun _ _ => rfl⟩

end examples

end Docket.Metrics
