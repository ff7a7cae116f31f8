import Verif.Cli.Watch
/-
C69 `docket watch` runs until the task has ended.
-/
namespace Docket.Watch

/-! ## Specification -/

/-- What is published is what the record says, in the order of time (C17, C20). -/
structure Truthful (w : World) : Prop where
  says : ∀ t s, (t, Ev.state s) ∈ w.pubs → s = w.stateAt t
  sorted : w.pubs.Pairwise (fun a b => a.1 ≤ b.1)

/-- The full property: when `watch` returns, the task has ended. -/
def C69_statement : Prop :=
  ∀ (w : World) (timeout now reread subscribed : Nat) (o : Outcome), Truthful w → 0 < timeout →
    now ≤ reread → reread ≤ subscribed → watch w timeout now reread subscribed = some o →
    (w.stateAt o.at_).terminal = true

/-- Nothing is published from `t` (not included) until `timeout` later. -/
def Silent (w : World) (timeout t : Nat) : Prop := ∀ p ∈ w.pubs, p.1 ≤ t ∨ t + timeout ≤ p.1

/-! ## Proof -/

theorem loop_spec (w : World) (hs : ∀ t s, (t, Ev.state s) ∈ w.pubs → s = w.stateAt t) (timeout : Nat)
    (ps : List (Nat × Ev)) (hsub : ∀ p ∈ ps, p ∈ w.pubs) (hsort : ps.Pairwise (fun a b => a.1 ≤ b.1))
    (now : Nat) (hnow : ∀ p ∈ ps, now ≤ p.1) (current : RunState) (fuel : Nat) (hf : ps.length + 2 ≤ fuel) :
    ∃ o, loop w timeout fuel now current (.listening ps) = some o ∧ now ≤ o.at_ ∧ o.shown = w.stateAt o.at_ ∧
      (stops o.shown = true ∨ ∃ t, now ≤ t ∧ o.at_ = t + timeout ∧ ∀ p ∈ ps, p.1 ≤ t ∨ t + timeout ≤ p.1) := by
  have quiet : ∀ (now : Nat) (current : RunState) (fuel : Nat), 2 ≤ fuel → ∀ g,
      next timeout now g = (.timeout, now + timeout, .finished) →
      ∃ o, loop w timeout fuel now current g = some o ∧ o.at_ = now + timeout ∧ o.shown = w.stateAt o.at_ := by
    intro now current fuel hf g hg
    obtain ⟨fuel, rfl⟩ : ∃ n, fuel = n + 2 := ⟨fuel - 2, by omega⟩
    rw [loop, hg]
    simp only
    split
    · split
      · exact ⟨_, rfl, rfl, rfl⟩
      · rw [loop]; exact ⟨_, rfl, rfl, rfl⟩
    · rename_i h
      rw [loop]
      exact ⟨_, rfl, rfl, (Classical.not_not.1 h).symm⟩
  induction ps generalizing now current fuel with
  | nil =>
    obtain ⟨o, h1, h2, h3⟩ := quiet now current fuel (by simpa using hf) (.listening []) rfl
    exact ⟨o, h1, by omega, h3, .inr ⟨now, Nat.le_refl _, h2, by simp⟩⟩
  | cons p ps ih =>
    obtain ⟨t, e⟩ := p
    have hnt : now ≤ t := hnow (t, e) (List.mem_cons_self ..)
    by_cases hlt : t < now + timeout
    · obtain ⟨fuel, rfl⟩ : ∃ n, fuel = n + 1 := ⟨fuel - 1, by omega⟩
      have hn : next timeout now (.listening ((t, e) :: ps)) = (.item e, t, .listening ps) := by
        simp [next, hlt, Nat.max_eq_left hnt]
      have hrest : ∀ p ∈ ps, t ≤ p.1 := fun p hp => (List.pairwise_cons.1 hsort).1 p hp
      have hgo : ∀ cur, ∃ o, loop w timeout fuel t cur (.listening ps) = some o ∧ now ≤ o.at_ ∧ o.shown = w.stateAt o.at_ ∧
          (stops o.shown = true ∨ ∃ t', now ≤ t' ∧ o.at_ = t' + timeout ∧ ∀ p ∈ (t, e) :: ps, p.1 ≤ t' ∨ t' + timeout ≤ p.1) := by
        intro cur
        obtain ⟨o, h1, h2, h3, h4⟩ := ih (fun p hp => hsub p (List.mem_cons_of_mem _ hp)) (List.pairwise_cons.1 hsort).2 t hrest cur fuel
          (by simp only [List.length_cons] at hf; omega)
        refine ⟨o, h1, by omega, h3, ?_⟩
        rcases h4 with h4 | ⟨t', a, b, c⟩
        · exact .inl h4
        · refine .inr ⟨t', by omega, b, fun p hp => ?_⟩
          rcases List.mem_cons.1 hp with rfl | hp
          · exact .inl a
          · exact c p hp
      rw [loop, hn]
      cases e with
      | progress => exact hgo current
      | state s =>
        simp only
        split
        · rename_i hst
          exact ⟨_, rfl, hnt, hs t s (hsub _ (List.mem_cons_self ..)), .inl hst⟩
        · exact hgo s
    · obtain ⟨o, h1, h2, h3⟩ := quiet now current fuel (by simp only [List.length_cons] at hf; omega) (.listening ((t, e) :: ps))
        (by simp [next, hlt])
      refine ⟨o, h1, by omega, h3, .inr ⟨now, Nat.le_refl _, h2, fun p hp => ?_⟩⟩
      rcases List.mem_cons.1 hp with rfl | hp
      · exact .inr (by simpa using hlt)
      · have := (List.pairwise_cons.1 hsort).1 p hp
        exact .inr (by simp only at this; omega)

/-- **C69**: `watch` always returns, and the state it shows last is the state the task has at
that moment. -/
theorem C69_shows_the_state (w : World) (h : Truthful w) (timeout now reread subscribed : Nat) :
    ∃ o, watch w timeout now reread subscribed = some o ∧ o.shown = w.stateAt o.at_ := by
  unfold watch
  simp only
  split
  · exact ⟨_, rfl, rfl⟩
  · split
    · exact ⟨_, rfl, rfl⟩
    · obtain ⟨o, h1, _, h3, _⟩ := loop_spec w h.says timeout (w.pubs.filter (fun p => subscribed ≤ p.1))
        (fun p hp => (List.mem_filter.1 hp).1) (h.sorted.filter _) subscribed
        (fun p hp => by simpa using (List.mem_filter.1 hp).2) (w.stateAt reread) _ (Nat.le_refl _)
      exact ⟨o, h1, h3⟩

/-- **C69, partial**: `watch` returns because the task has completed or failed, unless nothing
is published about the task for as long as the poll interval (one second): if no such silence
begins once it has subscribed, it stays until the task has ended. -/
theorem C69_until_ended_partial (w : World) (h : Truthful w) (timeout now reread subscribed : Nat) (o : Outcome)
    (ho : watch w timeout now reread subscribed = some o)
    (hquiet : ∀ t, subscribed ≤ t → t + timeout = o.at_ → ¬ Silent w timeout t) :
    w.stateAt o.at_ = .completed ∨ w.stateAt o.at_ = .failed := by
  have hst : stops o.shown = true ∧ o.shown = w.stateAt o.at_ := by
    unfold watch at ho
    simp only at ho
    split at ho
    · rename_i h1; injection ho with ho; subst ho; exact ⟨h1, rfl⟩
    · split at ho
      · rename_i h1; injection ho with ho; subst ho; exact ⟨h1, rfl⟩
      · obtain ⟨o', h1, _, h3, h4⟩ := loop_spec w h.says timeout (w.pubs.filter (fun p => subscribed ≤ p.1))
          (fun p hp => (List.mem_filter.1 hp).1) (h.sorted.filter _) subscribed
          (fun p hp => by simpa using (List.mem_filter.1 hp).2) (w.stateAt reread) _ (Nat.le_refl _)
        rw [h1] at ho
        injection ho with ho
        subst ho
        refine ⟨?_, h3⟩
        rcases h4 with h4 | ⟨t, a, b, c⟩
        · exact h4
        · refine (hquiet t a b.symm (fun p hp => ?_)).elim
          by_cases hp' : subscribed ≤ p.1
          · exact c p (List.mem_filter.2 ⟨hp, by simpa using hp'⟩)
          · exact .inl (by omega)
  rw [← hst.2]
  cases hs : o.shown <;> simp [stops, hs] at hst ⊢

/-- **C69**: a task that has completed or failed is shown at once. -/
theorem C69_already_ended (w : World) (timeout now reread subscribed : Nat)
    (h : w.stateAt now = .completed ∨ w.stateAt now = .failed) :
    watch w timeout now reread subscribed = some ⟨now, w.stateAt now⟩ := by
  unfold watch
  rcases h with h | h <;> simp [h, stops]

/-! ## Where the code disagrees -/

/-- A task that runs for three seconds and publishes nothing in between. -/
def quietTask : World where
  pubs := [(0, .state .running), (3000, .state .completed)]
  stateAt := fun t => if t < 3000 then .running else .completed

theorem quietTask_truthful : Truthful quietTask := by
  constructor
  · intro t s h
    simp [quietTask] at h
    rcases h with ⟨rfl, rfl⟩ | ⟨rfl, rfl⟩ <;> decide
  · decide

/-- **C69 is violated**: the timeout of `iterate_with_timeout` cancels the pending
`__anext__()`, which finishes the generator, so that the next turn ends the iteration.
`watch` returns one second after it has begun to listen, while the task is running. -/
theorem C69_violated_quiet : ¬ C69_statement := by
  intro h
  have := h quietTask 1000 10 20 30 ⟨1030, .running⟩ quietTask_truthful (by decide) (by decide) (by decide) (by decide)
  exact absurd this (by decide)

/-- A task that reports its progress every half second. -/
def busyTask : World where
  pubs := [(0, .state .running), (500, .progress), (1000, .progress), (1500, .state .failed)]
  stateAt := fun t => if t < 1500 then .running else .failed

example : Truthful busyTask := by
  constructor
  · intro t s h
    simp [busyTask] at h
    rcases h with ⟨rfl, rfl⟩ | ⟨rfl, rfl⟩ <;> decide
  · decide

example : watch busyTask 1000 10 20 30 = some ⟨1500, .failed⟩ := by decide

/-- It has no silence of a second that ends where `watch` returns. -/
example : ∀ t, 30 ≤ t → t + 1000 = 1500 → ¬ Silent busyTask 1000 t := by
  intro t _ h2 h
  have : t = 500 := by omega
  subst this
  have := h (1000, .progress) (by simp [busyTask])
  omega

end Docket.Watch
