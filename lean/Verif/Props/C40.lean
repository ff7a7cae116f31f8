import Verif.Worker.Timeout
/-
C40 A timeout fires exactly when the allotted time is used up.
-/
namespace Docket.Timeouts

/-- C40, never early.  Whenever the task is stopped, the time since its start is at least
the base plus all extensions granted so far, and the task had not finished; whatever
wakes the loop up and when. -/
theorem C40_not_before (start base : Int) (b : Body) (wakes : List Wake) (t : Int)
    (h : run start base b wakes = .timedOut t) :
    base + b.granted t ≤ t - start ∧ b.done t = false := by
  have : ∀ (wakes : List Wake) (now : Int), loop start base b now wakes = .timedOut t →
      base + b.granted t ≤ t - start ∧ b.done t = false := by
    intro wakes
    induction wakes with
    | nil =>
      intro now h
      unfold loop at h
      split at h
      · cases h
      · split at h
        · rename_i h1 h2
          cases h
          have h2 := of_decide_eq_true h2
          simp only [deadline] at h2
          exact ⟨by omega, by simpa using h1⟩
        · cases h
    | cons w ws ih =>
      intro now h
      unfold loop at h
      split at h
      · cases h
      · split at h
        · rename_i h1 h2
          cases h
          have h2 := of_decide_eq_true h2
          simp only [deadline] at h2
          exact ⟨by omega, by simpa using h1⟩
        · cases w with
          | result t' => cases h
          | cancelled t' => cases h
          | timer t' => exact ih t' h
  exact this wakes start h

/-- Each timer fires exactly when it was set for (the deadline known when waiting began,
at `now`), and nothing else wakes the loop. -/
def Prompt (start base : Int) (b : Body) : Int → List Wake → Prop
  | _, [] => True
  | now, w :: ws => w = .timer (deadline start base b now) ∧
      Prompt start base b (deadline start base b now) ws

instance (start base : Int) (b : Body) : ∀ now ws, Decidable (Prompt start base b now ws)
  | _, [] => .isTrue trivial
  | now, w :: ws =>
    have := instDecidablePrompt start base b (deadline start base b now) ws
    by unfold Prompt; infer_instance

theorem sum_nonneg (l : List Int) (h : ∀ x ∈ l, 0 ≤ x) : 0 ≤ sum l := by
  induction l with
  | nil => exact Int.le_refl _
  | cons a l ih =>
    have := h a (by simp)
    have := ih (fun x hx => h x (by simp [hx]))
    simp only [sum]; omega

/-- Grants between two moments. -/
theorem granted_split (gs : List (Int × Int)) {c t : Int} (h : c ≤ t) :
    sum ((gs.filter (fun g => g.1 ≤ t)).map (·.2)) = sum ((gs.filter (fun g => g.1 ≤ c)).map (·.2)) +
      sum ((gs.filter (fun g => c < g.1 ∧ g.1 ≤ t)).map (·.2)) := by
  induction gs with
  | nil => rfl
  | cons g gs ih =>
    by_cases h1 : g.1 ≤ c
    · have h2 : g.1 ≤ t := by omega
      have h3 : ¬ (c < g.1 ∧ g.1 ≤ t) := by omega
      rw [List.filter_cons_of_pos (by simpa using h2), List.filter_cons_of_pos (by simpa using h1),
        List.filter_cons_of_neg (by simpa using h3)]
      simp only [List.map_cons, sum]
      omega
    · by_cases h2 : g.1 ≤ t
      · have h3 : c < g.1 ∧ g.1 ≤ t := by omega
        rw [List.filter_cons_of_pos (by simpa using h2), List.filter_cons_of_neg (by simpa using h1),
          List.filter_cons_of_pos (by simpa using h3)]
        simp only [List.map_cons, sum]
        omega
      · have h3 : ¬ (c < g.1 ∧ g.1 ≤ t) := by omega
        rw [List.filter_cons_of_neg (by simpa using h2), List.filter_cons_of_neg (by simpa using h1),
          List.filter_cons_of_neg (by simpa using h3)]
        exact ih

theorem granted_mono {b : Body} (hb : ∀ g ∈ b.grants, 0 ≤ g.2) {c t : Int} (h : c ≤ t) :
    b.granted c ≤ b.granted t := by
  simp only [Body.granted]
  rw [granted_split b.grants h]
  have := sum_nonneg ((b.grants.filter (fun g => c < g.1 ∧ g.1 ≤ t)).map (·.2)) (by
    intro x hx
    obtain ⟨g, hg, rfl⟩ := List.mem_map.1 hx
    exact hb g (List.mem_filter.1 hg).1)
  omega

/-- C40, on time.  With timers that fire when they were set for, and extensions that are
not negative, a task is stopped exactly when the time since its start equals the base plus
all extensions granted by then. -/
theorem C40_on_time (start base : Int) (b : Body) (wakes : List Wake) (t : Int) (hbase : 0 ≤ base)
    (hb : ∀ g ∈ b.grants, 0 ≤ g.2 ∧ start < g.1) (hp : Prompt start base b start wakes)
    (h : run start base b wakes = .timedOut t) : t - start = base + b.granted t := by
  have hb0 : ∀ g ∈ b.grants, 0 ≤ g.2 := fun g hg => (hb g hg).1
  have hst : b.granted start = 0 := by
    have : b.grants.filter (fun g => g.1 ≤ start) = [] := by
      rw [List.filter_eq_nil_iff]
      intro g hg
      have := (hb g hg).2
      simp; omega
    simp [Body.granted, this, sum]
  have main : ∀ (wakes : List Wake) (now : Int),
      (now ≥ deadline start base b now → now = deadline start base b now) →
      Prompt start base b now wakes → loop start base b now wakes = .timedOut t →
      t = deadline start base b t := by
    intro wakes
    induction wakes with
    | nil =>
      intro now hnow _ h
      unfold loop at h
      split at h
      · cases h
      · split at h
        · rename_i h1 h2
          cases h
          exact hnow (by simpa [expired] using h2)
        · cases h
    | cons w ws ih =>
      intro now hnow hp h
      unfold loop at h
      split at h
      · cases h
      · split at h
        · rename_i h1 h2
          cases h
          exact hnow (by simpa [expired] using h2)
        · rename_i h1 h2
          obtain ⟨rfl, hp'⟩ := hp
          refine ih _ ?_ hp' h
          intro _
          have h3 : now < deadline start base b now := by
            simp only [expired, decide_eq_true_eq] at h2; omega
          have := granted_mono hb0 (Int.le_of_lt h3)
          simp only [deadline] at *
          omega
  have := main wakes start (by simp only [deadline, hst]; omega) hp h
  simp only [deadline] at this
  omega

/-- The grants that are still to come after `t`. -/
private def later (b : Body) (t : Int) : Nat := (b.grants.filter (fun g => t < g.1)).length

theorem filter_length_lt {α : Type} (l : List α) (p q : α → Bool) (h : ∀ x ∈ l, p x → q x)
    {y : α} (hy : y ∈ l) (hq : q y = true) (hp : p y = false) :
    (l.filter p).length < (l.filter q).length := by
  induction l with
  | nil => cases hy
  | cons a l ih =>
    have hmono : (l.filter p).length ≤ (l.filter q).length := by
      clear ih hy
      induction l with
      | nil => simp
      | cons c l ih2 =>
        have := h c (by simp)
        have ih2 := ih2 (fun x hx => h x (by simp only [List.mem_cons] at hx ⊢; rcases hx with h | h <;> simp [h]))
        cases hpc : p c <;> cases hqc : q c <;> simp_all
        omega
    rcases List.mem_cons.1 hy with rfl | hy
    · simp [hq, hp]; omega
    · have := ih (fun x hx => h x (by simp [hx])) hy
      have ha := h a (by simp)
      cases hpa : p a <;> cases hqa : q a <;> simp_all
      omega

/-- C40, it does fire.  A task that never finishes, and extends its timeout finitely often
as it must, is stopped: more timers than extensions are never needed. -/
theorem C40_fires (start base : Int) (b : Body) (wakes : List Wake) (hd : b.doneAt = none)
    (hp : Prompt start base b start wakes) (hn : b.grants.length < wakes.length) :
    ∃ t, run start base b wakes = .timedOut t := by
  have main : ∀ (wakes : List Wake) (now : Int), Prompt start base b now wakes →
      later b now < wakes.length → ∃ t, loop start base b now wakes = .timedOut t := by
    intro wakes
    induction wakes with
    | nil => intro now _ h; simp at h
    | cons w ws ih =>
      intro now hp hn
      unfold loop
      have hdone : b.done now = false := by simp [Body.done, hd]
      simp only [hdone, Bool.false_eq_true, if_false]
      cases hx : expired start base b now with
      | true => exact ⟨now, by simp⟩
      | false =>
        simp only [Bool.false_eq_true, if_false]
        obtain ⟨rfl, hp'⟩ := hp
        simp only [expired, decide_eq_false_iff_not] at hx
        by_cases hlt : later b (deadline start base b now) < later b now
        · refine ih _ hp' ?_
          simp only [List.length_cons] at hn
          omega
        · -- no grant in between: it has expired
          refine ⟨deadline start base b now, ?_⟩
          have hnone : ∀ g ∈ b.grants, ¬ (now < g.1 ∧ g.1 ≤ deadline start base b now) := by
            intro g hg hc
            apply hlt
            exact filter_length_lt b.grants _ _ (fun x _ hx => by
              simp only [decide_eq_true_eq] at hx ⊢; omega) hg (by simpa using hc.1)
              (by simpa using hc.2)
          have heq : b.granted (deadline start base b now) = b.granted now := by
            simp only [Body.granted]
            rw [granted_split b.grants (c := now) (t := deadline start base b now) (by omega)]
            have : b.grants.filter (fun g => now < g.1 ∧ g.1 ≤ deadline start base b now) = [] := by
              rw [List.filter_eq_nil_iff]
              intro g hg
              have := hnone g hg
              simp only [decide_eq_true_eq]
              exact this
            rw [this]
            simp [sum]
          have hdone : b.done (deadline start base b now) = false := by simp [Body.done, hd]
          have hexp : expired start base b (deadline start base b now) = true := by
            simp only [expired, decide_eq_true_eq]
            have : deadline start base b (deadline start base b now) = deadline start base b now := by
              simp only [deadline] at heq ⊢
              rw [heq]
            omega
          cases ws <;> simp [loop, hdone, hexp]
  refine main wakes start hp ?_
  have := List.length_filter_le (fun g => decide (start < g.1)) b.grants
  simp only [later]
  omega

/-- C40, the outcome.  If no timer fires at a moment when the task has already finished
(and the task does not finish in no time), what the task did is what is reported: `run`
never returns without it. -/
theorem C40_outcome_reported_partial (start base : Int) (b : Body) (wakes : List Wake) (t : Int)
    (h0 : b.done start = false) (hw : ∀ t, Wake.timer t ∈ wakes → b.done t = false) :
    run start base b wakes ≠ .nothing t := by
  have : ∀ (wakes : List Wake) (now : Int), b.done now = false →
      (∀ t, Wake.timer t ∈ wakes → b.done t = false) → loop start base b now wakes ≠ .nothing t := by
    intro wakes
    induction wakes with
    | nil => intro now hd _ h; unfold loop at h; simp only [hd, Bool.false_eq_true, if_false] at h; split at h <;> cases h
    | cons w ws ih =>
      intro now hd hw h
      unfold loop at h
      simp only [hd, Bool.false_eq_true, if_false] at h
      split at h
      · cases h
      · cases w with
        | result t' => cases h
        | cancelled t' => cases h
        | timer t' => exact ih t' (hw t' (by simp)) (fun t ht => hw t (by simp [ht])) h
  exact this wakes start h0 hw

/-- A task with base 10 that extends by 5 at time 104, and again by 1 at 113: started at 100
it is stopped at 116. -/
example : Prompt 100 10 ⟨none, [(104, 5), (113, 1)]⟩ 100 [.timer 110, .timer 115, .timer 116] ∧
    (∀ g ∈ (⟨none, [(104, 5), (113, 1)]⟩ : Body).grants, 0 ≤ g.2 ∧ 100 < g.1) ∧
    run 100 10 ⟨none, [(104, 5), (113, 1)]⟩ [.timer 110, .timer 115, .timer 116] = .timedOut 116 := by
  decide
/-- One that finishes at 112, after extending. -/
example : (⟨some 112, [(104, 5)]⟩ : Body).done 100 = false ∧
    (∀ t, Wake.timer t ∈ [Wake.timer 110, .result 112] → (⟨some 112, [(104, 5)]⟩ : Body).done t = false) ∧
    run 100 10 ⟨some 112, [(104, 5)]⟩ [.timer 110, .result 112] = .outcome 112 := by
  refine ⟨by decide, ?_, by decide⟩
  intro t ht
  simp at ht
  subst ht
  decide

/-- The full statement of C40's last part: a task that finished within its allowance has
its own outcome reported. -/
def C40_outcome : Prop := ∀ (start base : Int) (b : Body) (wakes : List Wake) (t d : Int),
  (∀ w ∈ wakes, start ≤ w.time) → b.doneAt = some d → start < d → d < deadline start base b d →
  run start base b wakes ≠ .nothing t

/-- The code violates it: when the timer fires and the task finishes before the loop gets to
run again, the loop condition `while not task.done()` ends the loop, and `run` returns
`None` (_timeout.py:81-93): the result of the task, or the exception it raised, is
dropped and the task is recorded as completed.  Here the task, started at 100 with 10,
extends by 5 at 104, then keeps the event loop busy until it returns at 112, when the timer
set for 110 is handled. -/
theorem C40_violated_outcome_lost : ¬ C40_outcome := by
  intro h
  exact h 100 10 ⟨some 112, [(104, 5)]⟩ [.timer 112] 112 112
    (by decide) rfl (by decide) (by decide) (by decide)

end Docket.Timeouts
