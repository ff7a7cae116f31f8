import Verif.Worker.AskedRetry
import Verif.Props.C116
/-
C119: the retry that a task asks for comes when it was asked for and does not stop the worker.
-/
namespace Docket.Execute

/-! Specification -/

/-- Apart from its `Retry` nothing goes wrong with the execution. -/
structure SoundButRetry (w : World) : Prop where
  storeError : w.storeErrorFails = none
  completion : ∀ v e, w.onFailure v ≠ .raised e

/-- There are attempts left. -/
def AttemptsLeft (r : RetryFor) : Prop := ∀ n, r.attempts = some n → r.attempt < n

/-- The full statement: whatever delay a task was set up with or has asked for, no exception goes
on to the loop of the worker, and if there are attempts left the next run is scheduled. -/
def C119_statement : Prop :=
  ∀ w r now, SoundButRetry w →
    (settle (withRetry w r now)).2 = false ∧
    (AttemptsLeft r → (r.handleFailure now).2 = some (now + r.delay))

/-- A task with a `Retry` that asks to be retried. -/
def retryTask : World :=
  { func := ⟨[], [("retry", .dep ⟨[], .value ⟨"retry", false, true, false⟩⟩)], []⟩
    body := fun _ => .raised (.other "ForcedRetry") }

/-! Theorems -/

theorem attemptsLeft_iff (r : RetryFor) : AttemptsLeft r ↔ r.attempts.any (fun n => r.attempt ≥ n) = false := by
  unfold AttemptsLeft
  cases h : r.attempts with
  | none => simp
  | some n => simp

/-- **C119, partial**: the worker goes on if there are no attempts left, or the next run would be
on a date of the calendar; then it is scheduled, for this very time.  Missing: later dates
(`C119_violated_at`, `C119_violated_delay`). -/
theorem C119_goes_on_partial (w : World) (r : RetryFor) (now : Int) (h : SoundButRetry w)
    (hr : AttemptsLeft r → firstDate ≤ now + r.delay ∧ now + r.delay ≤ lastDate) :
    (settle (withRetry w r now)).2 = false ∧
    (AttemptsLeft r → r.handleFailure now = (.handled, some (now + r.delay))) ∧
    (¬ AttemptsLeft r → r.handleFailure now = (.notHandled, none)) := by
  have key : (AttemptsLeft r → r.handleFailure now = (.handled, some (now + r.delay))) ∧
      (¬ AttemptsLeft r → r.handleFailure now = (.notHandled, none)) := by
    constructor
    · intro hl
      have := hr hl
      unfold RetryFor.handleFailure
      rw [if_neg (by rw [(attemptsLeft_iff r).1 hl]; simp), if_neg (by omega)]
    · intro hl
      unfold RetryFor.handleFailure
      rw [if_pos (by rw [attemptsLeft_iff] at hl; simpa using hl)]
  refine ⟨?_, key⟩
  refine settle_ends (w := withRetry w r now) h.storeError h.completion ?_
  intro v e e'
  show (r.handleFailure now).1 ≠ _
  by_cases hl : AttemptsLeft r
  · rw [key.1 hl]; simp
  · rw [key.2 hl]; simp

/-- **C119, the whole run**: a task that fails with attempts left and a date of the calendar is
scheduled again and nothing is recorded as its outcome; without attempts left it has failed. -/
theorem C119_run_partial (r : RetryFor) (now : Int)
    (hr : firstDate ≤ now + r.delay ∧ now + r.delay ≤ lastDate) :
    (AttemptsLeft r → ∃ kw v, settle (withRetry retryTask r now) =
      ([.called kw, .failureHandler v, .rescheduled], false)) ∧
    (¬ AttemptsLeft r → ∃ kw v, settle (withRetry retryTask r now) =
      ([.called kw, .failureHandler v, .stored, .failed], false)) := by
  obtain ⟨-, k1, k2⟩ := C119_goes_on_partial retryTask r now ⟨rfl, fun _ _ => by simp [retryTask]⟩ (fun _ => hr)
  constructor
  · intro hl
    have e : withRetry retryTask r now = { retryTask with handleFailure := fun _ _ => .handled } := by
      simp [withRetry, k1 hl]
    rw [e]; exact ⟨_, _, rfl⟩
  · intro hl
    have e : withRetry retryTask r now = { retryTask with handleFailure := fun _ _ => .notHandled } := by
      simp [withRetry, k2 hl]
    rw [e]; exact ⟨_, _, rfl⟩

/-- **C119, when**: a task that asks at `asked` for a retry at a time, and whose failure is handled
at `failed`, is scheduled neither before that time nor before `failed`, and for no more than the
time between the two later than that. -/
theorem C119_when_partial (r : RetryFor) (when_ asked failed : Int) (h : asked ≤ failed)
    (hl : AttemptsLeft r) (h0 : firstDate ≤ asked) (h1 : failed ≤ lastDate)
    (hd : when_ + (failed - asked) ≤ lastDate) :
    ∃ t, ((r.at_ when_ asked).handleFailure failed).2 = some t ∧
      when_ ≤ t ∧ failed ≤ t ∧ (t = failed ∨ t = when_ + (failed - asked)) := by
  have hl' : AttemptsLeft (r.at_ when_ asked) := hl
  by_cases hw : when_ - asked ≥ 0
  · have hdel : (r.at_ when_ asked).delay = when_ - asked := by simp only [RetryFor.at_, RetryFor.after]; exact if_pos hw
    obtain ⟨-, k, -⟩ := C119_goes_on_partial retryTask (r.at_ when_ asked) failed
      ⟨rfl, fun _ _ => by simp [retryTask]⟩ (fun _ => by rw [hdel]; omega)
    exact ⟨failed + (when_ - asked), by rw [k hl', hdel], by omega, by omega, .inr (by omega)⟩
  · have hdel : (r.at_ when_ asked).delay = 0 := by simp only [RetryFor.at_, RetryFor.after]; exact if_neg hw
    obtain ⟨-, k, -⟩ := C119_goes_on_partial retryTask (r.at_ when_ asked) failed
      ⟨rfl, fun _ _ => by simp [retryTask]⟩ (fun _ => by rw [hdel]; omega)
    exact ⟨failed, by rw [k hl', hdel]; simp, by omega, by omega, .inl rfl⟩

/-- A retry that would be after the last date of the calendar ends the run of the worker. -/
theorem past_calendar (r : RetryFor) (now : Int) (hl : AttemptsLeft r) (h : lastDate < now + r.delay) :
    ∃ kw v, settle (withRetry retryTask r now) = ([.called kw, .failureHandler v], true) := by
  have k : r.handleFailure now = (.raised (.other "OverflowError"), none) := by
    unfold RetryFor.handleFailure
    rw [if_neg (by rw [(attemptsLeft_iff r).1 hl]; simp), if_pos (.inr h)]
  have e : withRetry retryTask r now =
      { retryTask with handleFailure := fun _ _ => .raised (.other "OverflowError") } := by
    simp [withRetry, k]
  rw [e]; exact ⟨_, _, rfl⟩

/-- **C119, violated**: a task that asks to be retried at `datetime.max`, a common way to say
never, names a date of the calendar; but some time has gone by when the delay is added to the
clock again, which raises in the worker.  Nothing is recorded, the message is not acknowledged,
and the run of the worker ends; so does that of the next worker, after it has run the task
again. -/
theorem C119_violated_at : ¬ C119_statement ∧
    ∀ r asked failed, AttemptsLeft r → asked ≤ lastDate → asked < failed →
      ∃ kw v, settle (withRetry retryTask (r.at_ lastDate asked) failed) =
        ([.called kw, .failureHandler v], true) := by
  have key : ∀ r asked failed, AttemptsLeft r → asked ≤ lastDate → asked < failed →
      ∃ kw v, settle (withRetry retryTask (r.at_ lastDate asked) failed) =
        ([.called kw, .failureHandler v], true) := by
    intro r asked failed hl ha hf
    refine past_calendar _ _ hl ?_
    have hdel : (r.at_ lastDate asked).delay = lastDate - asked := by
      simp only [RetryFor.at_, RetryFor.after]; exact if_pos (by omega)
    rw [hdel]; omega
  refine ⟨fun h => ?_, key⟩
  obtain ⟨kw, v, hk⟩ := key ⟨none, 1, 0⟩ 0 1 (by simp [AttemptsLeft]) (by decide) (by decide)
  have := (h retryTask ((⟨none, 1, 0⟩ : RetryFor).at_ lastDate 0) 1 ⟨rfl, fun _ _ => by simp [retryTask]⟩).1
  rw [hk] at this
  cases this

/-- **C119, violated**: the same for a delay that leads out of the calendar, asked for by `after`
or given to the `Retry`. -/
theorem C119_violated_delay (r : RetryFor) (delay now : Int) (hl : AttemptsLeft r)
    (h : lastDate < now + delay) :
    ∃ kw v, settle (withRetry retryTask (r.after delay) now) = ([.called kw, .failureHandler v], true) :=
  past_calendar _ _ hl h

/-- The hypotheses are met: the second of three attempts fails in November 2026 and asks for a
retry at the start of 2027; and it is scheduled a millisecond after that. -/
example : SoundButRetry retryTask ∧ AttemptsLeft ⟨some 3, 2, 0⟩ ∧
    (((⟨some 3, 2, 0⟩ : RetryFor).at_ 1798761600000000 1794873600000000).handleFailure 1794873600001000).2 =
      some 1798761600001000 :=
  ⟨⟨rfl, fun _ _ => by simp [retryTask]⟩, by intro n h; cases h; decide, by decide⟩

end Docket.Execute
