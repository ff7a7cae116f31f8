import Verif.Worker.Poll
/-
C115: a worker looks around at least once in every check interval.
-/
namespace Docket.Poll

/-- The full statement: whatever positive interval the worker was given, and however tasks
come, it looks around again (for a request to stop, for tasks that have ended) within that
interval. -/
def C115_statement : Prop :=
  ∀ interval, 0 < interval → ∀ now r, ∃ t, next interval now r = some t ∧ t ≤ now + interval

/-- **C115, partial**: an interval of a millisecond or more is kept in every round; and a
worker with a free slot wakes up as soon as a message comes within the whole milliseconds of
the interval.  Missing: shorter intervals (`C115_violated`). -/
theorem C115_interval_partial (interval : Nat) (h : 1000 ≤ interval) (now : Nat) (r : Round) :
    ∃ t, next interval now r = some t ∧ now ≤ t ∧ t ≤ now + interval ∧
      (r.full = false → ∀ a, r.arrival = some a → a ≤ now + interval - interval % 1000 → t = max now a) ∧
      (r.full = false → r.arrival = none → now + interval < t + 1000) ∧
      (r.full = true → t = now + interval) := by
  have hb : block interval ≠ 0 := by simp only [block]; omega
  have hd : block interval * 1000 = interval - interval % 1000 := by simp only [block]; omega
  obtain ⟨full, arrival⟩ := r
  cases full with
  | true => exact ⟨now + interval, rfl, by omega, by omega, by simp, by simp, by simp⟩
  | false =>
    cases arrival with
    | none =>
      refine ⟨now + block interval * 1000, by simp [next, readAnswers, hb], by omega, by omega, by simp, ?_, by simp⟩
      intro _ _; omega
    | some a =>
      refine ⟨min (now + block interval * 1000) (max now a), by simp [next, readAnswers, hb], by omega, by omega, ?_,
        by simp, by simp⟩
      intro _ a' e ha
      injection e with e; subst e
      omega

/-- **C115, partial**: after any number of rounds no more time than as many intervals has gone
by, and the worker never stops looking. -/
theorem C115_rounds_partial (interval : Nat) (h : 1000 ≤ interval) (rs : List Round) (now : Nat) :
    ∃ t, after interval now rs = some t ∧ now ≤ t ∧ t ≤ now + rs.length * interval := by
  induction rs generalizing now with
  | nil => exact ⟨now, rfl, by omega, by simp⟩
  | cons r rs ih =>
    obtain ⟨t, ht, h1, h2, _⟩ := C115_interval_partial interval h now r
    obtain ⟨u, hu, h3, h4⟩ := ih t
    refine ⟨u, by simp only [after, ht, hu], by omega, ?_⟩
    simp only [List.length_cons, Nat.add_mul]; omega

theorem after_snoc (interval : Nat) (rs : List Round) (r : Round) (now t : Nat) (h : after interval now rs = some t) :
    after interval now (rs ++ [r]) = next interval t r := by
  induction rs generalizing now with
  | nil =>
    simp only [after, Option.some.injEq] at h; subst h
    simp only [List.nil_append, after]
    cases next interval now r <;> rfl
  | cons x rs ih =>
    simp only [after] at h
    cases hx : next interval now x with
    | none => rw [hx] at h; cases h
    | some u =>
      rw [hx] at h
      simp only [List.cons_append, after, hx]
      exact ih u h

/-- **C115, partial**: a request to stop that comes while the worker waits is seen when it
looks around next, at most one interval later. -/
theorem C115_stop_partial (interval : Nat) (h : 1000 ≤ interval) (rs : List Round) (r : Round) (start seen stop : Nat)
    (hs : after interval start rs = some seen) (hlt : seen < stop) :
    ∃ t, after interval start (rs ++ [r]) = some t ∧ (stop ≤ t → t < stop + interval) := by
  obtain ⟨t, ht, _, h2, _⟩ := C115_interval_partial interval h seen r
  exact ⟨t, by rw [after_snoc _ _ _ _ _ hs, ht], fun _ => by omega⟩

/-- **C115, partial**: `run_until_finished` finds out within the interval that there is
nothing to do. -/
theorem C115_finishes_partial (interval : Nat) (h : 1000 ≤ interval) (now : Nat) :
    ∃ t, findsNothing interval now = some t ∧ t ≤ now + interval := by
  obtain ⟨t, ht, _, h2⟩ := C115_rounds_partial interval h [⟨false, none⟩] now
  exact ⟨t, ht, by simpa using h2⟩

/-- **C115, violated**: an interval of less than a millisecond is cut to `BLOCK 0`, which
means no limit: unless a message comes the worker waits for ever, whatever it is asked in the
meantime and whatever its tasks do; `run_until_finished` does not return. -/
theorem C115_violated : ¬ C115_statement ∧
    ∀ interval now, interval < 1000 →
      findsNothing interval now = none ∧
      ∀ rs rest, (∃ t, after interval now rs = some t) → after interval now (rs ++ ⟨false, none⟩ :: rest) = none := by
  have key : ∀ interval t, interval < 1000 → next interval t ⟨false, none⟩ = none := by
    intro interval t h
    have : block interval = 0 := by simp only [block]; omega
    simp [next, readAnswers, this]
  refine ⟨fun h => ?_, fun interval now hi => ⟨?_, fun rs rest ⟨t, ht⟩ => ?_⟩⟩
  · obtain ⟨t, ht, _⟩ := h 500 (by omega) 0 ⟨false, none⟩
    rw [key 500 0 (by omega)] at ht; cases ht
  · simp only [findsNothing, after, key interval now hi]
  · induction rs generalizing now with
    | nil => simp only [List.nil_append, after, key interval now hi]
    | cons x rs ih =>
      simp only [after] at ht
      cases hx : next interval now x with
      | none => rw [hx] at ht; cases ht
      | some u =>
        rw [hx] at ht
        simp only [List.cons_append, after, hx]
        exact ih u ⟨t, ht⟩ ht

/-- A worker with the default interval of 100 ms: two rounds, in the second a message comes. -/
example : after 100000 0 [⟨false, none⟩, ⟨false, some 130000⟩, ⟨true, none⟩] = some 230000 := by decide

end Docket.Poll
