import Verif.Limits.ArgKey
/-
C61 A limit on a parameter is counted per value of the parameter.
-/
namespace Docket.ArgKey

/-- The full statement: two calls of one task share a limit on a parameter exactly if they
give it the same value (as text), however they pass it. -/
def C61_per_value : Prop :=
  ∀ (k : Kind) (scope n : Text) (c d : Call) (v u : PyVal),
    c.task = d.task → c.positional = d.positional → c.defaults = d.defaults →
    c.value n = some v → d.value n = some u →
    (paramKey k scope n c = paramKey k scope n d ↔ v.str = u.str)

/-- **C61, violated**: the limit is bound to the keyword argument only
(_resolution.py:210-212).  Two calls that pass different customers by position both count
under the value `None` and block each other. -/
theorem C61_violated_positional : ¬ C61_per_value := by
  intro h
  have := h .cooldown t!"docket" t!"customer"
    ⟨t!"f", [t!"customer"], [], [⟨1, t!"1"⟩], []⟩ ⟨t!"f", [t!"customer"], [], [⟨2, t!"2"⟩], []⟩
    ⟨1, t!"1"⟩ ⟨2, t!"2"⟩ rfl rfl rfl (by decide +kernel) (by decide +kernel)
  revert this
  decide +kernel

/-- **C61, violated**: the same customer, once by position and once by keyword, is counted
under two keys, so the limit lets both through. -/
theorem C61_violated_mixed :
    let a : Call := ⟨t!"f", [t!"customer"], [], [⟨1, t!"1"⟩], []⟩
    let b : Call := ⟨t!"f", [t!"customer"], [], [], [(t!"customer", ⟨1, t!"1"⟩)]⟩
    a.value t!"customer" = b.value t!"customer" ∧ ∀ k scope, paramKey k scope t!"customer" a ≠ paramKey k scope t!"customer" b := by
  refine ⟨by decide +kernel, ?_⟩
  intro k scope h
  simp only [paramKey] at h
  have := List.append_cancel_left h
  revert this
  decide +kernel

/-- The full statement for different tasks: limits declared on different tasks do not
interfere. -/
def C61_per_task : Prop :=
  ∀ (k : Kind) (scope n m : Text) (c d : Call), c.task ≠ d.task → paramKey k scope n c ≠ paramKey k scope m d

/-- **C61, violated**: the key of a limit on a parameter does not name the task, so two
tasks that limit a parameter of the same name share one window. -/
theorem C61_violated_across_tasks : ¬ C61_per_task := by
  intro h
  refine h .cooldown t!"docket" t!"customer" t!"customer"
    ⟨t!"charge", [], [], [], [(t!"customer", ⟨1, t!"1"⟩)]⟩ ⟨t!"email", [], [], [], [(t!"customer", ⟨1, t!"1"⟩)]⟩ ?_ ?_
  · decide +kernel
  · decide +kernel

/-- **C61, partial**: for calls that pass the parameter by keyword, the limit is shared
exactly by those that give the same value (as text). -/
theorem C61_per_value_partial (k : Kind) (scope n : Text) (c d : Call) (v u : PyVal)
    (hc : find c.kwargs n = some v) (hd : find d.kwargs n = some u) :
    paramKey k scope n c = paramKey k scope n d ↔ v.str = u.str := by
  simp only [paramKey, Call.bound, hc, hd, List.append_assoc]
  constructor
  · intro h
    exact List.append_cancel_left (List.append_cancel_left (List.append_cancel_left
      (List.append_cancel_left (List.append_cancel_left (List.append_cancel_left h)))))
  · intro h; rw [h]

theorem colon_split : ∀ {a b x y : Text}, ':' ∉ a → ':' ∉ b → a ++ (t!":" ++ x) = b ++ (t!":" ++ y) → a = b ∧ x = y := by
  intro a
  induction a with
  | nil =>
    intro b x y _ hb h
    cases b with
    | nil => simpa using h
    | cons e b =>
      simp only [List.nil_append, List.cons_append, List.cons.injEq] at h
      exact absurd (List.mem_cons.2 (Or.inl h.1)) hb
  | cons e a ih =>
    intro b x y ha hb h
    cases b with
    | nil =>
      simp only [List.nil_append, List.cons_append, List.cons.injEq] at h
      exact absurd (List.mem_cons.2 (Or.inl h.1.symm)) ha
    | cons f b =>
      simp only [List.cons_append, List.cons.injEq] at h
      obtain ⟨h1, h2⟩ := ih (fun hh => ha (by simp [hh])) (fun hh => hb (by simp [hh])) h.2
      exact ⟨by rw [h.1, h1], h2⟩

theorem kind_no_colon (k : Kind) : ':' ∉ k.text := by cases k <;> decide

/-- **C61, partial**: limits of different kinds, and limits on parameters with different
names, are separate for names without a colon. -/
theorem C61_names_partial (k j : Kind) (scope n m : Text) (c d : Call)
    (hn : ':' ∉ n) (hm : ':' ∉ m) (h : paramKey k scope n c = paramKey j scope m d) : k = j ∧ n = m := by
  simp only [paramKey, List.append_assoc] at h
  have h := List.append_cancel_left (List.append_cancel_left h)
  obtain ⟨h1, h2⟩ := colon_split (kind_no_colon k) (kind_no_colon j) h
  refine ⟨?_, (colon_split hn hm h2).1⟩
  cases k <;> cases j <;> first | rfl | (exfalso; revert h1; decide)

/-- **C61**: a limit on a whole task is counted per task: two calls share it exactly if they
are calls of the same task; and it is separate from a limit on a parameter, for task names
without a colon. -/
theorem C61_per_task_key (k j : Kind) (scope n : Text) (c d : Call) :
    (taskKey k scope c = taskKey k scope d ↔ c.task = d.task) ∧
    (':' ∉ c.task → taskKey k scope c ≠ paramKey j scope n d) := by
  constructor
  · simp only [taskKey, List.append_assoc]
    constructor
    · intro h
      exact List.append_cancel_left (List.append_cancel_left (List.append_cancel_left (List.append_cancel_left h)))
    · intro h; rw [h]
  · intro hc h
    simp only [taskKey, paramKey, List.append_assoc] at h
    have h := List.append_cancel_left (List.append_cancel_left h)
    obtain ⟨_, h2⟩ := colon_split (kind_no_colon k) (kind_no_colon j) h
    exact hc (by rw [h2]; simp)

/-- **C61**: a concurrency limit looks the argument up the way Python binds it, so it is
counted per value for positional and keyword arguments alike, … -/
theorem C61_concurrency_given (c : Call) (n : Text) (v : PyVal) (h : c.getArgument n = some v) :
    c.value n = some v := by
  simp only [Call.getArgument, Call.value] at *
  split
  · rename_i u hu
    rw [hu] at h; exact h
  · rename_i hu
    rw [hu] at h
    dsimp only at h
    rw [h]

/-- … **violated** when the argument is left to its default: the lookup fails (the task is
then reported as failing to resolve its dependencies) although the parameter has a value. -/
theorem C61_violated_default : ¬ ∀ (c : Call) (n : Text) (v : PyVal), c.value n = some v → c.getArgument n = some v := by
  intro h
  have := h ⟨t!"f", [t!"customer"], [(t!"customer", ⟨1, t!"1"⟩)], [], []⟩ t!"customer" ⟨1, t!"1"⟩ (by decide +kernel)
  revert this
  decide +kernel

/-- The hypotheses of the partial theorems are met. -/
example : find [(t!"customer", (⟨7, t!"7"⟩ : PyVal))] t!"customer" = some ⟨7, t!"7"⟩ ∧ ':' ∉ t!"customer" := by
  decide +kernel

end Docket.ArgKey
