import Verif.Worker.Hooks

/-! # C96: a dependency's worker-wide setup is in force around the tasks that use it -/

namespace Docket.Hooks

/-! ## Specification -/

/-- The function's signature mentions the class. -/
def Uses (f : Fn) (c : Cls) : Prop := c ∈ f.defaults ∨ ∃ deps ∈ f.annotated, c ∈ deps

/-- A dependency with a `worker_lifecycle` hook that returns a context manager. -/
def Managed (c : Cls) : Prop := c.dependency = true ∧ c.hook = true ∧ c.manages = true

instance (c : Cls) : Decidable (Managed c) := by unfold Managed; infer_instance

/-- The setups in force after the events (newest first), the last entered first. -/
def opened : List Event → List Cls
  | [] => []
  | .entered c :: e => c :: opened e
  | .exited c :: e => (opened e).erase c
  | _ :: e => opened e

def isBegin : Op → Bool
  | .begin _ => true
  | _ => false

def isLeave : Op → Bool
  | .leave _ => true
  | _ => false

/-- The full property, first half: over the lifetime of a worker each setup is entered at most
once. -/
def C96_once_statement : Prop :=
  ∀ (workerDeps : List Cls) (ops : List Op) (c : Cls),
    ((runFrom workerDeps {} ops).log.filter (fun e => e = .entered c)).length ≤ 1

/-- The full property, second half: whenever a task is being run, the setups of the dependencies
it uses are in force. -/
def C96_around_statement : Prop :=
  ∀ (workerDeps : List Cls) (ops : List Op) (n : Nat) (f : Fn) (c : Cls),
    (n, f) ∈ (runFrom workerDeps {} ops).active → Uses f c → Managed c →
    c ∈ opened (runFrom workerDeps {} ops).log

/-! ## Which classes -/

theorem mem_consider {o : List Cls} {c d : Cls} :
    d ∈ consider o c ↔ d ∈ o ∨ (d = c ∧ c.dependency = true ∧ c.hook = true) := by
  unfold consider
  split
  · simp_all
  · split
    · rename_i h1 h2
      simp only [Bool.or_eq_true, decide_eq_true_eq, Bool.not_eq_true'] at h2
      constructor
      · exact Or.inl
      · rintro (h | ⟨rfl, h3, h4⟩)
        · exact h
        · rcases h2 with h2 | h2
          · exact h2
          · rw [h4] at h2; simp at h2
    · simp_all

theorem nodup_consider {o : List Cls} (h : o.Nodup) (c : Cls) : (consider o c).Nodup := by
  unfold consider
  split
  · exact h
  · split
    · exact h
    · rename_i h1 h2
      simp only [Bool.or_eq_true, decide_eq_true_eq, not_or] at h2
      rw [List.nodup_append]
      refine ⟨h, by simp, ?_⟩
      intro a ha b hb hab
      simp only [List.mem_singleton] at hb
      subst hb; subst hab; exact h2.1 ha

theorem fold_consider (cs : List Cls) : ∀ (o : List Cls),
    (∀ d, d ∈ cs.foldl consider o ↔ d ∈ o ∨ (d ∈ cs ∧ d.dependency = true ∧ d.hook = true)) ∧
    (o.Nodup → (cs.foldl consider o).Nodup) := by
  induction cs with
  | nil => intro o; simp
  | cons c cs ih =>
    intro o
    simp only [List.foldl_cons]
    refine ⟨fun d => ?_, fun h => (ih _).2 (nodup_consider h c)⟩
    rw [(ih _).1, mem_consider, List.mem_cons]
    constructor
    · rintro ((h | ⟨rfl, h⟩) | ⟨h1, h2⟩)
      · exact Or.inl h
      · exact Or.inr ⟨Or.inl rfl, h⟩
      · exact Or.inr ⟨Or.inr h1, h2⟩
    · rintro (h | ⟨rfl | h1, h2⟩)
      · exact Or.inl (Or.inl h)
      · exact Or.inl (Or.inr ⟨rfl, h2⟩)
      · exact Or.inr ⟨h1, h2⟩

theorem fold_annotated (as : List (List Cls)) : ∀ (o : List Cls),
    (∀ d, d ∈ as.foldl (fun o deps => deps.foldl consider o) o ↔
      d ∈ o ∨ ((∃ deps ∈ as, d ∈ deps) ∧ d.dependency = true ∧ d.hook = true)) ∧
    (o.Nodup → (as.foldl (fun o deps => deps.foldl consider o) o).Nodup) := by
  induction as with
  | nil => intro o; simp
  | cons a as ih =>
    intro o
    simp only [List.foldl_cons]
    refine ⟨fun d => ?_, fun h => (ih _).2 ((fold_consider a o).2 h)⟩
    rw [(ih _).1, (fold_consider a o).1]
    constructor
    · rintro ((h | ⟨h1, h2⟩) | ⟨⟨x, h0, h1⟩, h2⟩)
      · exact Or.inl h
      · exact Or.inr ⟨⟨a, by simp, h1⟩, h2⟩
      · exact Or.inr ⟨⟨x, by simp [h0], h1⟩, h2⟩
    · rintro (h | ⟨⟨x, h0, h1⟩, h2⟩)
      · exact Or.inl (Or.inl h)
      · rcases List.mem_cons.1 h0 with rfl | h0
        · exact Or.inl (Or.inr ⟨h1, h2⟩)
        · exact Or.inr ⟨⟨x, h0, h1⟩, h2⟩

theorem fold_tasks (fs : List Fn) : ∀ (o : List Cls),
    (∀ d, d ∈ fs.foldl considerFn o ↔
      d ∈ o ∨ ((∃ f ∈ fs, Uses f d) ∧ d.dependency = true ∧ d.hook = true)) ∧
    (o.Nodup → (fs.foldl considerFn o).Nodup) := by
  induction fs with
  | nil => intro o; simp
  | cons f fs ih =>
    intro o
    simp only [List.foldl_cons]
    have key : ∀ d, d ∈ considerFn o f ↔ d ∈ o ∨ (Uses f d ∧ d.dependency = true ∧ d.hook = true) := by
      intro d
      simp only [considerFn, Uses]
      rw [(fold_annotated _ _).1, (fold_consider _ _).1]
      constructor
      · rintro ((h | ⟨h1, h2⟩) | ⟨h1, h2⟩)
        · exact Or.inl h
        · exact Or.inr ⟨Or.inl h1, h2⟩
        · exact Or.inr ⟨Or.inr h1, h2⟩
      · rintro (h | ⟨h1 | h1, h2⟩)
        · exact Or.inl (Or.inl h)
        · exact Or.inl (Or.inr ⟨h1, h2⟩)
        · exact Or.inr ⟨h1, h2⟩
    refine ⟨fun d => ?_, fun h => (ih _).2 ((fold_annotated _ _).2 ((fold_consider _ _).2 h))⟩
    rw [(ih _).1, key]
    constructor
    · rintro ((h | ⟨h1, h2⟩) | ⟨⟨x, h0, h1⟩, h2⟩)
      · exact Or.inl h
      · exact Or.inr ⟨⟨f, by simp, h1⟩, h2⟩
      · exact Or.inr ⟨⟨x, by simp [h0], h1⟩, h2⟩
    · rintro (h | ⟨⟨x, h0, h1⟩, h2⟩)
      · exact Or.inl (Or.inl h)
      · rcases List.mem_cons.1 h0 with rfl | h0
        · exact Or.inl (Or.inr ⟨h1, h2⟩)
        · exact Or.inr ⟨⟨x, h0, h1⟩, h2⟩

theorem mem_toEnter {tasks : List Fn} {workerDeps : List Cls} {c : Cls} :
    c ∈ toEnter tasks workerDeps ↔
      Managed c ∧ ((∃ f ∈ tasks, Uses f c) ∨ c ∈ workerDeps) := by
  simp only [toEnter, lifecycleClasses, List.mem_filter, Managed]
  rw [(fold_consider _ _).1, (fold_tasks _ _).1]
  constructor
  · rintro ⟨(h | ⟨h1, h2, h3⟩) | ⟨h1, h2, h3⟩, h4⟩
    · simp at h
    · exact ⟨⟨h2, h3, h4⟩, Or.inl h1⟩
    · exact ⟨⟨h2, h3, h4⟩, Or.inr h1⟩
  · rintro ⟨⟨h2, h3, h4⟩, h1 | h1⟩
    · exact ⟨Or.inl (Or.inr ⟨h1, h2, h3⟩), h4⟩
    · exact ⟨Or.inr ⟨h1, h2, h3⟩, h4⟩

theorem nodup_toEnter (tasks : List Fn) (workerDeps : List Cls) : (toEnter tasks workerDeps).Nodup :=
  List.Sublist.nodup List.filter_sublist ((fold_consider _ _).2 ((fold_tasks _ _).2 List.nodup_nil))

/-! ## The invariant -/

/-- Each event fits what is in force before it. -/
def Fits : List Event → Prop
  | [] => True
  | .entered c :: e => c ∉ opened e ∧ Fits e
  | .exited c :: e => (opened e).head? = some c ∧ Fits e
  | _ :: e => Fits e

structure Inv (w : Worker) : Prop where
  opened : opened w.log = w.stack
  nodup : w.stack.Nodup
  outside : w.phase ≠ .looping → w.stack = []
  fits : Fits w.log

theorem opened_enter (cs : List Cls) (log : List Event) :
    opened ((cs.map Event.entered).reverse ++ log) = cs.reverse ++ opened log := by
  induction cs generalizing log with
  | nil => rfl
  | cons c cs ih =>
    simp only [List.map_cons, List.reverse_cons, List.append_assoc, List.singleton_append]
    rw [ih]; rfl

theorem fits_enter (cs : List Cls) (log : List Event) (hn : cs.Nodup)
    (hd : ∀ c ∈ cs, c ∉ opened log) (h : Fits log) :
    Fits ((cs.map Event.entered).reverse ++ log) := by
  induction cs generalizing log with
  | nil => exact h
  | cons c cs ih =>
    simp only [List.map_cons, List.reverse_cons, List.append_assoc, List.singleton_append]
    rw [List.nodup_cons] at hn
    refine ih _ hn.2 (fun d hd' => ?_) ⟨hd c (by simp), h⟩
    simp only [opened, List.mem_cons, not_or]
    exact ⟨by rintro rfl; exact hn.1 hd', hd d (by simp [hd'])⟩

theorem unwind_log (cs : List Cls) (log : List Event) (ho : opened log = cs) (h : Fits log) :
    opened ((cs.map Event.exited).reverse ++ log) = [] ∧ Fits ((cs.map Event.exited).reverse ++ log) := by
  induction cs generalizing log with
  | nil => exact ⟨ho, h⟩
  | cons c cs ih =>
    simp only [List.map_cons, List.reverse_cons, List.append_assoc, List.singleton_append]
    exact ih _ (by simp [opened, ho]) ⟨by simp [ho], h⟩

theorem Inv.enterAll {w : Worker} (h : Inv w) (hs : w.stack = []) {cs : List Cls} (hn : cs.Nodup) :
    Hooks.opened (Hooks.enterAll w cs).log = cs.reverse ∧ Fits (Hooks.enterAll w cs).log := by
  have : Hooks.opened w.log = [] := by rw [h.opened, hs]
  refine ⟨?_, fits_enter _ _ hn (by simp [this]) h.fits⟩
  simp only [Hooks.enterAll]
  rw [opened_enter, this, List.append_nil]

theorem Inv.unwind {w : Worker} (ho : Hooks.opened w.log = w.stack) (h : Fits w.log)
    (p : Phase) : Inv { Hooks.unwind w with phase := p } :=
  ⟨(unwind_log _ _ ho h).1, by simp [Hooks.unwind], by simp [Hooks.unwind], (unwind_log _ _ ho h).2⟩

theorem Inv.settle {w : Worker} (h : Inv w) : Inv (settle w) := by
  unfold Hooks.settle
  split
  · rename_i hp
    split
    · exact ⟨h.opened, h.nodup, fun _ => h.outside (by rw [hp]; simp), h.fits⟩
    · exact h
  · exact h

theorem Inv.step {workerDeps : List Cls} {w : Worker} (h : Inv w) (op : Op) :
    Inv (Hooks.step workerDeps w op) := by
  cases op with
  | register f => exact ⟨h.opened, h.nodup, h.outside, h.fits⟩
  | begin fails =>
    simp only [Hooks.step]
    split
    · rename_i hp
      have hs := h.outside (by rw [hp]; simp)
      cases fails with
      | none =>
        obtain ⟨h1, h2⟩ := h.enterAll hs (nodup_toEnter w.tasks workerDeps)
        exact ⟨h1, by simpa [Hooks.enterAll] using ((List.reverse_perm _).nodup_iff.2 (nodup_toEnter _ _)),
          by simp, h2⟩
      | some n =>
        obtain ⟨h1, h2⟩ := h.enterAll hs (cs := (toEnter w.tasks workerDeps).take n)
          (List.Sublist.nodup (List.take_sublist _ _) (nodup_toEnter w.tasks workerDeps))
        exact Inv.unwind (w := Hooks.enterAll w _) h1 h2 _
    · exact h
  | start f =>
    simp only [Hooks.step]
    split
    · split
      · exact ⟨h.opened, h.nodup, h.outside, h.fits⟩
      · exact h
    · exact h
  | finish n =>
    simp only [Hooks.step]
    split
    · exact Inv.settle ⟨h.opened, h.nodup, h.outside, h.fits⟩
    · exact h
  | leave lost =>
    simp only [Hooks.step]
    split
    · exact (Inv.unwind h.opened h.fits _).settle
    · exact h

theorem Inv.runFrom {workerDeps : List Cls} {w : Worker} (h : Inv w) (ops : List Op) :
    Inv (runFrom workerDeps w ops) := by
  induction ops generalizing w with
  | nil => exact h
  | cons o ops ih => exact ih (h.step o)

theorem Inv.init : Inv {} := ⟨rfl, List.nodup_nil, fun _ => rfl, trivial⟩

theorem Fits.suffix {l e : List Event} (h : Fits (l ++ e)) : Fits e := by
  induction l with
  | nil => exact h
  | cons a l ih => cases a <;> first | exact ih h.2 | exact ih h

/-! ## Theorems -/

/-- **No setup is entered while it is in force.** -/
theorem C96_not_twice_at_once (workerDeps : List Cls) (ops : List Op) (l e : List Event) (c : Cls)
    (h : (runFrom workerDeps {} ops).log = l ++ .entered c :: e) : c ∉ opened e := by
  have := (Inv.init.runFrom (workerDeps := workerDeps) ops).fits
  rw [h] at this
  exact this.suffix.1

/-- **Setups are undone in reverse order**: the one undone is always the one that was entered last
among those in force. -/
theorem C96_last_in_first_out (workerDeps : List Cls) (ops : List Op) (l e : List Event) (c : Cls)
    (h : (runFrom workerDeps {} ops).log = l ++ .exited c :: e) : (opened e).head? = some c := by
  have := (Inv.init.runFrom (workerDeps := workerDeps) ops).fits
  rw [h] at this
  exact this.suffix.1

/-- **Everything is undone** however the loop ends, also when one of the setups fails: outside the
loop nothing is in force. -/
theorem C96_undone (workerDeps : List Cls) (ops : List Op)
    (h : (runFrom workerDeps {} ops).phase ≠ .looping) : opened (runFrom workerDeps {} ops).log = [] := by
  have := Inv.init.runFrom (workerDeps := workerDeps) ops
  rw [this.opened, this.outside h]

theorem opened_tail {workerDeps : List Cls} {w : Worker} {op : Op} (hp : w.phase = .looping)
    (hl : isLeave op = false) : opened (step workerDeps w op).log = opened w.log ∧
      (step workerDeps w op).phase = .looping := by
  cases op with
  | register f => exact ⟨rfl, hp⟩
  | begin fails => simp [step, hp]
  | start f => simp only [step, hp]; split <;> simp [opened, hp]
  | finish n =>
    simp only [step]
    split
    · simp [settle, hp, opened]
    · exact ⟨rfl, hp⟩
  | leave lost => simp [isLeave] at hl

/-- **In force exactly when needed.**  From when a worker begins its loop until it leaves it, the
setups in force are those of the managed dependencies that its tasks registered at the beginning,
or its own dependencies, use: however many tasks use them, and whatever tasks run. -/
theorem C96_in_force_partial (workerDeps : List Cls) (pre post : List Op)
    (hi : (runFrom workerDeps {} pre).phase = .idle) (hl : ∀ op ∈ post, isLeave op = false) (c : Cls) :
    c ∈ opened (runFrom workerDeps {} (pre ++ .begin none :: post)).log ↔
      Managed c ∧ ((∃ f ∈ (runFrom workerDeps {} pre).tasks, Uses f c) ∨ c ∈ workerDeps) := by
  have hinv := Inv.init.runFrom (workerDeps := workerDeps) pre
  have e : runFrom workerDeps {} (pre ++ .begin none :: post) =
      runFrom workerDeps (step workerDeps (runFrom workerDeps {} pre) (.begin none)) post := by
    simp [runFrom]
  rw [e]
  generalize runFrom workerDeps {} pre = w at *
  have h0 : opened (step workerDeps w (.begin none)).log = (toEnter w.tasks workerDeps).reverse ∧
      (step workerDeps w (.begin none)).phase = .looping := by
    simp only [step, hi]
    exact ⟨(hinv.enterAll (hinv.outside (by rw [hi]; simp)) (nodup_toEnter _ _)).1, trivial⟩
  generalize step workerDeps w (.begin none) = v at *
  have key : opened (runFrom workerDeps v post).log = opened v.log := by
    have hp := h0.2
    clear h0 e
    induction post generalizing v with
    | nil => rfl
    | cons o post ih =>
      have := opened_tail (workerDeps := workerDeps) hp (hl o (by simp))
      exact (ih (fun x hx => hl x (by simp [hx])) _ this.2).trans this.1
  rw [key, h0.1, List.mem_reverse, mem_toEnter]

/-- Counting. -/
theorem filter_entered_enterAll (cs : List Cls) (hn : cs.Nodup) (log : List Event) (c : Cls) :
    ((((cs.map Event.entered).reverse ++ log).filter (fun e => decide (e = .entered c))).length) ≤
      1 + (log.filter (fun e => decide (e = .entered c))).length := by
  rw [List.filter_append, List.length_append]
  have : ((cs.map Event.entered).reverse.filter (fun e => decide (e = .entered c))).length ≤ 1 := by
    rw [List.filter_reverse, List.length_reverse]
    induction cs with
    | nil => simp
    | cons d cs ih =>
      rw [List.nodup_cons] at hn
      simp only [List.map_cons, List.filter_cons]
      split
      · rename_i hd
        simp only [decide_eq_true_eq, Event.entered.injEq] at hd
        subst hd
        have : (cs.map Event.entered).filter (fun e => decide (e = .entered d)) = [] := by
          rw [List.filter_eq_nil_iff]
          intro x hx
          obtain ⟨y, hy, rfl⟩ := List.mem_map.1 hx
          simp only [decide_eq_true_eq, Event.entered.injEq]
          rintro rfl
          exact hn.1 hy
        simp [this]
      · exact ih hn.2
  omega

theorem filter_entered_exits (cs : List Cls) (log : List Event) (c : Cls) :
    ((cs.map Event.exited).reverse ++ log).filter (fun e => decide (e = .entered c)) =
      log.filter (fun e => decide (e = .entered c)) := by
  rw [List.filter_append]
  have : (cs.map Event.exited).reverse.filter (fun e => decide (e = .entered c)) = [] := by
    rw [List.filter_eq_nil_iff]
    intro x hx
    obtain ⟨y, hy, rfl⟩ := List.mem_map.1 (List.mem_reverse.1 hx)
    simp
  rw [this, List.nil_append]

theorem settle_log (w : Worker) : (settle w).log = w.log := by
  unfold settle; split <;> try split
  all_goals rfl

theorem count_step (workerDeps : List Cls) (w : Worker) (op : Op) (c : Cls) :
    (((step workerDeps w op).log.filter (fun e => decide (e = .entered c))).length) ≤
      (if isBegin op then 1 else 0) + (w.log.filter (fun e => decide (e = .entered c))).length := by
  cases op with
  | register f => simp [step, isBegin]
  | begin fails =>
    simp only [step, isBegin, if_true]
    split
    · cases fails with
      | none => exact filter_entered_enterAll _ (nodup_toEnter _ _) _ _
      | some n =>
        simp only [unwind]
        rw [filter_entered_exits]
        exact filter_entered_enterAll _ (List.Sublist.nodup (List.take_sublist _ _) (nodup_toEnter _ _)) _ _
    · omega
  | start f =>
    simp only [step, isBegin]
    split
    · split <;> simp
    · simp
  | finish n =>
    simp only [step, isBegin]
    split
    · rw [settle_log]; simp
    · simp
  | leave lost =>
    simp only [step, isBegin]
    split
    · rw [settle_log]
      simp only [unwind]
      rw [filter_entered_exits]
      simp
    · simp

/-- **As often as the loop begins, at most.**  A setup is entered at most once for each time the
worker begins its loop, however many tasks and annotations mention it. -/
theorem C96_once_partial (workerDeps : List Cls) (ops : List Op) (c : Cls) :
    ((runFrom workerDeps {} ops).log.filter (fun e => e = .entered c)).length ≤
      (ops.filter isBegin).length := by
  have : ∀ w, ((runFrom workerDeps w ops).log.filter (fun e => decide (e = .entered c))).length ≤
      (ops.filter isBegin).length + (w.log.filter (fun e => decide (e = .entered c))).length := by
    induction ops with
    | nil => intro w; simp [runFrom]
    | cons o ops ih =>
      intro w
      have h1 := ih (step workerDeps w o)
      have h2 := count_step workerDeps w o c
      have h3 : runFrom workerDeps w (o :: ops) = runFrom workerDeps (step workerDeps w o) ops := rfl
      rw [h3, List.filter_cons]
      split at h2 <;> rename_i hb
      · simp only [hb, if_true, List.length_cons]; omega
      · simp only [hb, Bool.false_eq_true, if_false]; omega
  simpa using this {}

/-- **Tasks are taken up inside the loop only**, so never before the setups are entered: if a task
has just started, the worker is looping. -/
theorem C96_started_inside (workerDeps : List Cls) (w : Worker) (f : Fn)
    (h : (step workerDeps w (.start f)).active ≠ w.active) :
    w.phase = .looping ∧ f ∈ w.tasks := by
  simp only [step] at h
  split at h
  · rename_i hp
    split at h
    · rename_i hf; exact ⟨hp, hf⟩
    · exact absurd rfl h
  · exact absurd rfl h

/-- **And they are taken up there**, and stay until they end. -/
theorem C96_started (workerDeps : List Cls) (w : Worker) (f : Fn) (hp : w.phase = .looping)
    (hf : f ∈ w.tasks) : ∃ n, (n, f) ∈ (step workerDeps w (.start f)).active := by
  refine ⟨w.next, ?_⟩
  simp [step, hp, hf]

theorem settle_draining {w : Worker} {b : Bool} (h : (settle w).phase = .draining b) :
    (settle w).active ≠ [] := by
  unfold settle at h ⊢
  split at h
  · split at h
    · simp at h
    · rename_i h1 h2; simp only [h2, if_false]; exact h2
  · rename_i h1; exact absurd h (h1 b)

/-- **A worker waits for its tasks only**: once it has left the loop and the last task is over, it
can begin again. -/
theorem C96_drained (workerDeps : List Cls) (ops : List Op) (b : Bool)
    (h : (runFrom workerDeps {} ops).phase = .draining b) :
    (runFrom workerDeps {} ops).active ≠ [] := by
  have key : ∀ (w : Worker) (op : Op), (∀ b, w.phase = .draining b → w.active ≠ []) →
      ∀ b, (step workerDeps w op).phase = .draining b → (step workerDeps w op).active ≠ [] := by
    intro w op hw b hb
    cases op with
    | register f => exact hw b hb
    | begin fails =>
      simp only [step] at hb ⊢
      split at hb
      · rename_i hp
        cases fails with
        | none => simp at hb
        | some n => simp [unwind, enterAll, hp] at hb
      · rename_i hp
        exact hw b hb
    | start f =>
      simp only [step] at hb ⊢
      split at hb
      · rename_i hp
        split at hb <;> simp [hp] at hb
      · rename_i hp
        exact hw b hb
    | finish n =>
      cases hf : w.active.find? (fun a => a.1 = n) with
      | none => simp only [step, hf] at hb ⊢; exact hw b hb
      | some a => simp only [step, hf] at hb ⊢; exact settle_draining hb
    | leave lost =>
      simp only [step] at hb ⊢
      split at hb
      · rename_i hp; exact settle_draining hb
      · rename_i hp
        exact hw b hb
  have : ∀ w : Worker, (∀ b, w.phase = .draining b → w.active ≠ []) →
      ∀ b, (runFrom workerDeps w ops).phase = .draining b → (runFrom workerDeps w ops).active ≠ [] := by
    clear h
    induction ops with
    | nil => intro w hw; exact hw
    | cons o ops ih => intro w hw; exact ih _ (key w o hw)
  exact this {} (by simp) b h

/-! ## Concrete cases -/

private def limit : Cls := ⟨1, true, true, true⟩
private def pool : Cls := ⟨2, true, true, true⟩
private def plain : Cls := ⟨3, true, false, false⟩
private def other : Cls := ⟨4, false, true, true⟩
private def quiet : Cls := ⟨5, true, true, false⟩
private def f1 : Fn := ⟨1, [plain, limit], [[pool]]⟩
private def f2 : Fn := ⟨2, [other, limit], [[], [limit, quiet]]⟩

/-- Two tasks that use one limit, a pool, and things that have no setup. -/
private def day : List Op :=
  [.register f1, .register f2, .begin none, .start f1, .start f2, .finish 0, .start f1]

example : opened (runFrom [] {} day).log = [pool, limit] := by decide

example : limit ∈ opened (runFrom [] {} day).log :=
  (C96_in_force_partial [] [.register f1, .register f2] [.start f1, .start f2, .finish 0, .start f1]
    (by decide) (by decide) limit).2 ⟨by decide, Or.inl ⟨f1, by decide, Or.inl (by decide)⟩⟩

/-- A setup that fails undoes the one before it. -/
example : (runFrom [] {} [.register f1, .begin (some 1)]).log = [.exited limit, .entered limit] := by
  decide

/-- Leaving undoes them in reverse order. -/
example : ((runFrom [] {} (day ++ [.leave false])).log.take 2) = [.exited limit, .exited pool] := by
  decide

/-- **Disagreement.**  The setups are entered again each time the worker loses its connection and
begins its loop anew (worker.py:544-568, 745-748), so more than once in its lifetime, against
worker.py:577-578. -/
theorem C96_violated_reconnect : ¬ C96_once_statement := by
  intro h
  have := h [] [.register f1, .begin none, .leave true, .begin none] limit
  revert this
  decide

/-- **Disagreement.**  When a worker leaves its loop it undoes the setups first and then waits for
the tasks that are still running (worker.py:737, 830-840), which go on without them. -/
theorem C96_violated_draining : ¬ C96_around_statement := by
  intro h
  have := h [] [.register f1, .begin none, .start f1, .leave false] 0 f1 limit (by decide)
    (Or.inl (by decide)) (by decide)
  revert this
  decide

/-- **Disagreement.**  The classes are collected once, when the loop begins (worker.py:745): a task
that is registered later runs without the setup of its dependencies. -/
theorem C96_violated_registered_later : ¬ C96_around_statement := by
  intro h
  have := h [] [.begin none, .register f1, .start f1] 0 f1 limit (by decide)
    (Or.inl (by decide)) (by decide)
  revert this
  decide

end Docket.Hooks
