import Verif.Worker.AtMost
/-
C120: `run_at_most` limits the worker it is called on, for as long as it runs, and nothing else.
-/
namespace Docket.AtMost

/-! Specification, in terms of what happened (newest first) -/

/-- The limits of the `run_at_most` that the worker is in. -/
def inForce (w : Nat) : List Event → Option Limits
  | [] => none
  | .began v l :: log => if v = w then some l else inForce w log
  | .ended v :: log => if v = w then none else inForce w log
  | _ :: log => inForce w log

/-- How often the worker has started the key since its last `run_at_most` began. -/
def starts (w : Nat) (k : String) : List Event → Nat
  | [] => 0
  | .began v _ :: log => if v = w then 0 else starts w k log
  | .started v k' :: log => if v = w ∧ k' = k then starts w k log + 1 else starts w k log
  | _ :: log => starts w k log

/-- The worker is limited to so many starts of the key, and has made them. -/
def UsedUp (log : List Event) (w : Nat) (k : String) : Prop :=
  ∃ l n, inForce w log = some l ∧ Limits.get? l k = some n ∧ n ≤ starts w k log

/-- The full statement: whatever the workers and clients of a docket do, a delivery to a worker is
refused exactly when the task is stricken or the worker itself has made the starts it was limited
to. -/
def C120_statement : Prop :=
  ∀ cfg ops w k struck claimed,
    (step cfg (run cfg ops) (.deliver w k struck claimed)).log = .refused w k :: (run cfg ops).log ↔
      struck = true ∨ UsedUp (run cfg ops).log w k

/-! The invariant -/

theorem get?_zero (l : Limits) (k : String) :
    Limits.get? (l.map (fun e => (e.1, 0))) k = (Limits.get? l k).map (fun _ => 0) := by
  unfold Limits.get?
  induction l with
  | nil => rfl
  | cons e l ih =>
    by_cases h : e.1 = k
    · simp [h]
    · simpa [h] using ih

theorem get?_count (l : Limits) (k k' : String) :
    Limits.get? (count l k) k' = (Limits.get? l k').map (fun n => if k' = k then n + 1 else n) := by
  unfold Limits.get? count
  induction l with
  | nil => rfl
  | cons e l ih =>
    obtain ⟨a, n⟩ := e
    by_cases h : a = k'
    · subst h
      by_cases h2 : a = k
      · simp [h2]
      · simp [h2]
    · by_cases h2 : a = k
      · subst h2
        simpa [h] using ih
      · simpa [h, h2] using ih

structure Inv (cfg : Cfg) (s : Sys) : Prop where
  conds : ∀ d c, c ∈ s.conds d ↔ cfg c.worker = d ∧ inForce c.worker s.log = some c.limits
  counts : ∀ w l, inForce w s.log = some l → ∀ k,
    (s.counts w).get? k = (Limits.get? l k).map (fun _ => starts w k s.log)

theorem inv_limiting {cfg : Cfg} {s : Sys} (h : Inv cfg s) (w : Nat) :
    s.limiting cfg w = true ↔ ∃ l, inForce w s.log = some l := by
  simp only [Sys.limiting, List.any_eq_true, decide_eq_true_eq]
  constructor
  · rintro ⟨c, hc, rfl⟩
    exact ⟨_, ((h.conds _ _).1 hc).2⟩
  · rintro ⟨l, hl⟩
    exact ⟨⟨w, l⟩, (h.conds _ _).2 ⟨rfl, hl⟩, rfl⟩

theorem inv_quiet {cfg : Cfg} {s : Sys} (h : Inv cfg s) (e : Event)
    (he : ∀ w log, inForce w (e :: log) = inForce w log)
    (hs : ∀ w k log, starts w k (e :: log) = starts w k log) : Inv cfg { s with log := e :: s.log } := by
  constructor
  · intro d c; rw [he]; exact h.conds d c
  · intro w l hl k
    rw [he] at hl
    rw [hs]; exact h.counts w l hl k

theorem inv_step {cfg : Cfg} {s : Sys} (h : Inv cfg s) (op : Op) : Inv cfg (step cfg s op) := by
  cases op with
  | begin_ w limits =>
    simp only [step]
    split
    · exact h
    · rename_i hn
      have hno : inForce w s.log = none := by
        cases e : inForce w s.log with
        | none => rfl
        | some l => exact absurd ((inv_limiting h w).2 ⟨l, e⟩) hn
      constructor
      · intro d c
        obtain ⟨v, l⟩ := c
        simp only [inForce, update]
        by_cases hv : w = v
        · subst hv
          by_cases hd : d = cfg w
          · subst hd
            simp only [if_true, List.mem_cons, h.conds, hno]
            constructor
            · rintro (h | ⟨_, h⟩)
              · cases h; exact ⟨trivial, rfl⟩
              · cases h
            · rintro ⟨_, h⟩; cases h; exact .inl rfl
          · simp only [if_neg hd, if_true, h.conds, hno]
            constructor
            · rintro ⟨_, h⟩; cases h
            · rintro ⟨h, _⟩; exact absurd h.symm hd
        · simp only [if_neg hv]
          by_cases hd : d = cfg w
          · subst hd
            simp only [if_true, List.mem_cons, h.conds]
            constructor
            · rintro (h | h)
              · cases h; exact absurd rfl hv
              · exact h
            · exact .inr
          · simp only [if_neg hd, h.conds]
      · intro v l hl k
        simp only [inForce, starts, update] at hl ⊢
        by_cases hv : w = v
        · subst hv
          simp only [if_true, Option.some.injEq] at hl ⊢
          subst hl
          exact get?_zero _ _
        · rw [if_neg hv] at hl
          rw [if_neg (Ne.symm hv), if_neg hv]
          exact h.counts v l hl k
  | finish w =>
    simp only [step]
    split
    · constructor
      · intro d c
        simp only [inForce, update]
        by_cases hd : d = cfg w
        · subst hd
          simp only [if_true, List.mem_filter, decide_eq_true_eq, h.conds]
          by_cases hv : w = c.worker
          · simp [hv]
          · simp [hv, Ne.symm hv]
        · simp only [if_neg hd, h.conds]
          by_cases hv : w = c.worker
          · rw [if_pos hv]
            constructor
            · rintro ⟨h1, _⟩; exact absurd (by rw [hv]; exact h1.symm) hd
            · rintro ⟨_, h⟩; cases h
          · rw [if_neg hv]
      · intro v l hl k
        simp only [inForce, starts, update] at hl ⊢
        by_cases hv : w = v
        · rw [if_pos hv] at hl; cases hl
        · rw [if_neg hv] at hl
          rw [if_neg (Ne.symm hv)]
          exact h.counts v l hl k
    · exact h
  | deliver w k struck claimed =>
    simp only [step]
    split
    · exact inv_quiet h _ (fun _ _ => rfl) (fun _ _ _ => rfl)
    · split
      · exact inv_quiet h _ (fun _ _ => rfl) (fun _ _ _ => rfl)
      · constructor
        · intro d c; exact h.conds d c
        · intro v l hl k'
          have hl' : inForce v s.log = some l := hl
          have ih := h.counts v l hl' k'
          simp only [update, starts]
          by_cases hv : v = w
          · subst hv
            rw [if_pos rfl, get?_count, ih]
            by_cases hk : k' = k
            · subst hk; simp [Option.map_map, Function.comp_def]
            · simp [hk, Ne.symm hk, Option.map_map, Function.comp_def]
          · rw [if_neg hv, if_neg (fun x => hv x.1.symm)]
            exact ih
  | add d k struck =>
    simp only [step]
    split
    · exact inv_quiet h _ (fun _ _ => rfl) (fun _ _ _ => rfl)
    · exact inv_quiet h _ (fun _ _ => rfl) (fun _ _ _ => rfl)

theorem inv_run (cfg : Cfg) (ops : List Op) : Inv cfg (run cfg ops) := by
  have : ∀ s, Inv cfg s → Inv cfg (ops.foldl (step cfg) s) := by
    induction ops with
    | nil => intro s h; exact h
    | cons o ops ih => intro s h; exact ih _ (inv_step h o)
  refine this {} ⟨fun d c => ?_, fun w l hl => ?_⟩
  · simp [inForce]
  · simp [inForce] at hl

theorem reached_iff {cfg : Cfg} {s : Sys} (h : Inv cfg s) {d : Nat} {c : Cond} (hc : c ∈ s.conds d) (k : String) :
    reached s c k = true ↔ UsedUp s.log c.worker k := by
  have hf := ((h.conds d c).1 hc).2
  have hk := h.counts _ _ hf k
  unfold reached UsedUp
  cases e : Limits.get? c.limits k with
  | none =>
    simp only [Bool.false_eq_true, false_iff]
    rintro ⟨l, n, h1, h2, _⟩
    rw [hf] at h1; cases h1
    rw [e] at h2; cases h2
  | some n =>
    simp only [hk, e, Option.map_some, Option.getD_some, decide_eq_true_eq, ge_iff_le]
    constructor
    · intro hn; exact ⟨_, n, hf, e, hn⟩
    · rintro ⟨l, m, h1, h2, h3⟩
      rw [hf] at h1; cases h1
      rw [e] at h2; cases h2
      exact h3

theorem stricken_iff {cfg : Cfg} {s : Sys} (h : Inv cfg s) (d : Nat) (k : String) (struck : Bool) :
    isStricken s d k struck = true ↔ struck = true ∨ ∃ v, cfg v = d ∧ UsedUp s.log v k := by
  simp only [isStricken, Bool.or_eq_true, List.any_eq_true]
  constructor
  · rintro (⟨c, hc, hr⟩ | hs)
    · exact .inr ⟨c.worker, ((h.conds d c).1 hc).1, (reached_iff h hc k).1 hr⟩
    · exact .inl hs
  · rintro (hs | ⟨v, hv, hu⟩)
    · exact .inr hs
    · obtain ⟨l, n, h1, h2, h3⟩ := hu
      have hc : (⟨v, l⟩ : Cond) ∈ s.conds d := (h.conds d ⟨v, l⟩).2 ⟨hv, h1⟩
      exact .inl ⟨_, hc, (reached_iff h hc k).2 ⟨l, n, h1, h2, h3⟩⟩

theorem refused_iff (cfg : Cfg) (s : Sys) (w : Nat) (k : String) (struck claimed : Bool) :
    (step cfg s (.deliver w k struck claimed)).log = .refused w k :: s.log ↔
      isStricken s (cfg w) k struck = true := by
  simp only [step]
  split
  · rename_i h; simp [h]
  · rename_i h
    split <;> simp [h]

/-! Theorems -/

/-- **C120, exactly**: a delivery is refused if and only if the task is stricken or some worker
that shares the `Docket` object has made the starts that it was limited to, and is still in its
`run_at_most`. -/
theorem C120_refused (cfg : Cfg) (ops : List Op) (w : Nat) (k : String) (struck claimed : Bool) :
    (step cfg (run cfg ops) (.deliver w k struck claimed)).log = .refused w k :: (run cfg ops).log ↔
      struck = true ∨ ∃ v, cfg v = cfg w ∧ UsedUp (run cfg ops).log v k := by
  rw [refused_iff, stricken_iff (inv_run cfg ops)]

/-- **C120, partial**: the full statement for workers that share their `Docket` object with no
other worker that is in a `run_at_most` with a limit for the same key.  Missing: those that do
(`C120_violated`). -/
theorem C120_own_partial (cfg : Cfg) (ops : List Op) (w : Nat) (k : String) (struck claimed : Bool)
    (h : ∀ v l, v ≠ w → cfg v = cfg w → inForce v (run cfg ops).log = some l → Limits.get? l k = none) :
    (step cfg (run cfg ops) (.deliver w k struck claimed)).log = .refused w k :: (run cfg ops).log ↔
      struck = true ∨ UsedUp (run cfg ops).log w k := by
  rw [C120_refused]
  constructor
  · rintro (hs | ⟨v, hv, hu⟩)
    · exact .inl hs
    · by_cases e : v = w
      · subst e; exact .inr hu
      · obtain ⟨l, n, h1, h2, _⟩ := hu
        rw [h v l e hv h1] at h2; cases h2
  · rintro (hs | hu)
    · exact .inl hs
    · exact .inr ⟨w, rfl, hu⟩

/-- **C120, the bound, partial**: during a `run_at_most` its worker starts no key more often than it
was limited to, if a delivery is asked about and claimed before the next one is.  Missing:
deliveries of one key that overlap (`C44_violated_overlap`). -/
theorem C120_bound_partial (cfg : Cfg) (ops : List Op) (w : Nat) (l : Limits) (k : String) (n : Nat)
    (hl : inForce w (run cfg ops).log = some l) (hn : Limits.get? l k = some n) :
    starts w k (run cfg ops).log ≤ n := by
  have key : ∀ (ops : List Op) (s : Sys), Inv cfg s → (∀ w l k n, inForce w s.log = some l → Limits.get? l k = some n → starts w k s.log ≤ n) →
      ∀ w l k n, inForce w (ops.foldl (step cfg) s).log = some l → Limits.get? l k = some n →
        starts w k (ops.foldl (step cfg) s).log ≤ n := by
    intro ops
    induction ops with
    | nil => intro s _ hb; exact hb
    | cons o ops ih =>
      intro s hi hb
      refine ih _ (inv_step hi o) ?_
      intro v l k n hl hn
      cases o with
      | begin_ u limits =>
        simp only [step] at hl ⊢
        split at hl <;> rename_i hu
        · simp only [hu, if_true]; exact hb v l k n hl hn
        · simp only [hu, Bool.false_eq_true, if_false]
          simp only [inForce, starts] at hl ⊢
          by_cases e : u = v
          · simp [e]
          · rw [if_neg e] at hl ⊢; exact hb v l k n hl hn
      | finish u =>
        simp only [step] at hl ⊢
        split at hl <;> rename_i hu
        · simp only [hu, if_true]
          simp only [inForce, starts] at hl ⊢
          by_cases e : u = v
          · rw [if_pos e] at hl; cases hl
          · rw [if_neg e] at hl; exact hb v l k n hl hn
        · simp only [hu, Bool.false_eq_true, if_false]; exact hb v l k n hl hn
      | deliver u k' struck claimed =>
        simp only [step] at hl ⊢
        split at hl <;> rename_i hu
        · simp only [hu, if_true]; exact hb v l k n hl hn
        · simp only [hu, Bool.false_eq_true, if_false]
          split at hl <;> rename_i hc
          · simp only [hc, if_true]; exact hb v l k n hl hn
          · simp only [hc, Bool.false_eq_true, if_false]
            have hl' : inForce v s.log = some l := hl
            simp only [starts]
            split
            · rename_i he
              obtain ⟨rfl, rfl⟩ := he
              have : ¬ UsedUp s.log u k' := fun hx => hu ((stricken_iff hi _ _ _).2 (.inr ⟨u, rfl, hx⟩))
              have hlt : ¬ n ≤ starts u k' s.log := fun hx => this ⟨l, n, hl', hn, hx⟩
              omega
            · exact hb v l k n hl' hn
      | add d k' struck =>
        simp only [step] at hl ⊢
        split at hl <;> rename_i hu
        · simp only [hu, if_true]; exact hb v l k n hl hn
        · simp only [hu, Bool.false_eq_true, if_false]; exact hb v l k n hl hn
  refine key ops {} ⟨fun d c => by simp [inForce], fun w l hl => by simp [inForce] at hl⟩ ?_ w l k n hl hn
  intro w l k n hl; simp [inForce] at hl

/-- **C120, additions**: a task is added through a `Docket` object unless it is stricken or a
worker of the same object has used up its limit for the key. -/
theorem C120_added (cfg : Cfg) (ops : List Op) (d : Nat) (k : String) (struck : Bool) :
    (step cfg (run cfg ops) (.add d k struck)).log = .accepted d k :: (run cfg ops).log ↔
      struck = false ∧ ∀ v, cfg v = d → ¬ UsedUp (run cfg ops).log v k := by
  have hs := stricken_iff (inv_run cfg ops) d k struck
  simp only [step]
  split
  · rename_i h
    simp only [List.cons.injEq, reduceCtorEq, false_and, false_iff]
    rintro ⟨h1, h2⟩
    rcases hs.1 h with x | ⟨v, hv, hu⟩
    · rw [h1] at x; cases x
    · exact h2 v hv hu
  · rename_i h
    simp only [true_iff]
    refine ⟨?_, fun v hv hu => h (hs.2 (.inr ⟨v, hv, hu⟩))⟩
    cases e : struck with
    | false => rfl
    | true => exact absurd (hs.2 (.inl e)) h

/-- **C120, afterwards**: once every `run_at_most` is over, nothing is left of its limits. -/
theorem C120_after (cfg : Cfg) (ops : List Op) (h : ∀ w, inForce w (run cfg ops).log = none) (w d : Nat)
    (k : String) (claimed : Bool) :
    (step cfg (run cfg ops) (.deliver w k false claimed)).log ≠ .refused w k :: (run cfg ops).log ∧
    (step cfg (run cfg ops) (.add d k false)).log = .accepted d k :: (run cfg ops).log := by
  have hu : ∀ v, ¬ UsedUp (run cfg ops).log v k := by
    rintro v ⟨l, n, h1, _⟩
    rw [h v] at h1; cases h1
  refine ⟨fun hx => ?_, (C120_added cfg ops d k false).2 ⟨rfl, fun v _ => hu v⟩⟩
  rcases (C120_refused cfg ops w k false claimed).1 hx with x | ⟨v, _, x⟩
  · cases x
  · exact hu v x

/-- Worker 1 is limited to one start of `k` and makes it. -/
def limited : List Op := [.begin_ 1 [("k", 1)], .deliver 1 "k" false true]

/-- **C120, violated**: two workers are given the same `Docket` object.  One of them is in
`run_at_most` and has made its starts of a key; a task with this key that is handed to the other
worker, which nobody limited, is cancelled. -/
theorem C120_violated : ¬ C120_statement := by
  intro h
  have hx := (h (fun _ => 0) limited 2 "k" false true).1 (by decide)
  rcases hx with x | ⟨l, n, h1, _⟩
  · cases x
  · rw [show inForce 2 (run (fun _ => 0) limited).log = none from by decide] at h1
    cases h1

/-- Two workers with `Docket` objects of their own, one limited: the other one goes on, and so does
the first when it is over. -/
example : (run (fun w => w) (limited ++ [.deliver 2 "k" false true, .deliver 1 "k" false true, .add 1 "k" false,
    .deliver 1 "j" false true, .finish 1, .deliver 1 "k" false true, .add 1 "k" false])).log =
    [.accepted 1 "k", .started 1 "k", .ended 1, .started 1 "j", .dropped 1 "k", .refused 1 "k", .started 2 "k",
      .started 1 "k", .began 1 [("k", 1)]] := by decide

/-- The hypotheses are met. -/
example : inForce 1 (run (fun _ => 0) limited).log = some [("k", 1)] ∧ UsedUp (run (fun _ => 0) limited).log 1 "k" :=
  ⟨by decide, [("k", 1)], 1, by decide, by decide, by decide⟩

end Docket.AtMost
