import Verif.Worker.Asked
import Verif.Props.C116
/-
C117: what a perpetual task asks of its next run does not stop its worker.
-/
namespace Docket.Execute

/-! Specification -/

/-- Apart from its `Perpetual` nothing goes wrong with the execution. -/
structure Sound (w : World) : Prop where
  storeError : w.storeErrorFails = none
  retry : ∀ v e e', w.handleFailure v e ≠ .raised e'

/-- The full statement: whatever a perpetual task has asked for, no exception goes on to the
loop of the worker. -/
def C117_statement : Prop := ∀ w a superseded, Sound w → (settle (perpetual w a superseded)).2 = false

/-- A perpetual task without other dependencies. -/
def perpetualTask (body : BodyOut) : World :=
  { func := ⟨[], [("perpetual", .dep ⟨[], .value ⟨"perpetual", false, false, true⟩⟩)], []⟩, body := fun _ => body }

/-! Theorems -/

/-- **C117, partial**: the worker goes on if the task has cancelled its next run, or was
superseded, or has asked for arguments that can be pickled and, if for a time, for one with a
time zone, or the interval leads to a date of the calendar.  Missing: other times, arguments and
intervals (`C117_violated_naive`, `C117_violated_arguments`, `C117_violated_interval`). -/
theorem C117_goes_on_partial (w : World) (a : Asked) (superseded : Bool) (h : Sound w)
    (ha : a.cancelled = true ∨ superseded = true ∨ (a.picklable = true ∧ a.next ≠ .naive ∧ (a.next = .byInterval → a.everyFits = true))) :
    (settle (perpetual w a superseded)).2 = false := by
  have hn : ∀ e, a.onComplete superseded ≠ .raised e := by
    intro e
    simp only [Asked.onComplete]
    rcases ha with ha | ha | ⟨h1, h2, h3⟩
    · simp [ha]
    · split
      · simp
      · simp [ha]
    · split
      · simp
      · split
        · simp
        · simp only [h1, Bool.not_true, Bool.false_eq_true, if_false]
          cases hx : a.next with
          | naive => exact absurd hx h2
          | aware => simp
          | byInterval => simp [h3 hx]
  exact settle_ends (w := perpetual w a superseded) h.storeError (fun _ => hn) h.retry

/-- **C117**: asking for a delay, and for a time with a time zone, is always answered: the
task is scheduled again, and this run is recorded as completed or failed. -/
theorem C117_answered (a : Asked) (hc : a.cancelled = false) (hp : a.picklable = true) (b : Bool) (what : String) :
    (∀ a', a' = a.after ∨ a' = a.at_ true →
      a'.onComplete false = .handled ∧
      (∃ kw v, settle (perpetual (perpetualTask (.returned b)) a' false) =
        ([.called kw, .completionHandler v, .completed false], false)) ∧
      ∃ kw v, settle (perpetual (perpetualTask (.raised (.other what))) a' false) =
        ([.called kw, .completionHandler v, .stored, .failed], false)) ∧
    a.cancel.onComplete false = .notHandled := by
  obtain ⟨c, n, p, f⟩ := a
  simp only at hc hp
  subst hc hp
  refine ⟨fun a' h => ?_, rfl⟩
  have : a' = ⟨false, .aware, true, f⟩ := by
    rcases h with h | h <;> (rw [h]; rfl)
  subst this
  exact ⟨rfl, ⟨_, _, rfl⟩, ⟨_, _, rfl⟩⟩

/-- **C117, violated**: a time without a time zone is taken by `at`, and refused only when the
task has ended, first as part of its success and then again as part of its failure.  The run
is not recorded, its message is not acknowledged, and the run of the worker ends; so does that
of the next worker, after it has run the task again. -/
theorem C117_violated_naive : ¬ C117_statement ∧
    ∀ a : Asked, a.cancelled = false → a.picklable = true → ∀ b,
      ∃ kw v, settle (perpetual (perpetualTask (.returned b)) (a.at_ false) false) =
        ([.called kw, .completionHandler v, .completionHandler v], true) := by
  have key : ∀ a : Asked, a.cancelled = false → a.picklable = true → ∀ b,
      ∃ kw v, settle (perpetual (perpetualTask (.returned b)) (a.at_ false) false) =
        ([.called kw, .completionHandler v, .completionHandler v], true) := by
    intro a hc hp b
    obtain ⟨c, n, p, f⟩ := a
    simp only at hc hp
    subst hc hp
    exact ⟨_, _, rfl⟩
  refine ⟨fun h => ?_, key⟩
  have := h (perpetualTask (.returned true)) (({} : Asked).at_ false) false ⟨rfl, fun _ _ _ => by simp [perpetualTask]⟩
  obtain ⟨kw, v, hk⟩ := key {} rfl rfl true
  rw [hk] at this
  cases this

/-- **C117, violated**: the same for arguments that cannot be pickled. -/
theorem C117_violated_arguments (a : Asked) (hc : a.cancelled = false) (he : a.everyFits = true) (b : Bool) :
    ∃ kw v, settle (perpetual (perpetualTask (.returned b)) (a.perpetuate false) false) =
      ([.called kw, .completionHandler v, .completionHandler v], true) := by
  obtain ⟨c, n, p, f⟩ := a
  simp only at hc he
  subst hc he
  cases n <;> exact ⟨_, _, rfl⟩

/-- **C117, violated**: the same for `every=timedelta.max` and other intervals that lead out of
the calendar, if the task asks for no time. -/
theorem C117_violated_interval (a : Asked) (hc : a.cancelled = false) (hn : a.next = .byInterval)
    (he : a.everyFits = false) (b : Bool) :
    ∃ kw v, settle (perpetual (perpetualTask (.returned b)) a false) =
      ([.called kw, .completionHandler v, .completionHandler v], true) := by
  obtain ⟨c, n, p, f⟩ := a
  simp only at hc hn he
  subst hc hn he
  exact ⟨_, _, rfl⟩

/-- The hypotheses are met. -/
example : Sound (perpetualTask (.returned true)) ∧ (({} : Asked).at_ true).next ≠ .naive :=
  ⟨⟨rfl, fun _ _ _ => by simp [perpetualTask]⟩, by decide⟩

end Docket.Execute
