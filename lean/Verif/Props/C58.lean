import Verif.Cli.Stats

/-! # C58: task statistics add up -/

namespace Docket.Stats

/-- The times of the tasks of one name. -/
def timesOf (l : List (Text × Int)) (name : Text) : List Int := (l.filter (fun e => e.1 = name)).map (·.2)

/-- `o` is the smallest element of `l`, if there is any. -/
def Smallest (l : List Int) (o : Option Int) : Prop :=
  (o = none ↔ l = []) ∧ ∀ x, o = some x → x ∈ l ∧ ∀ y ∈ l, x ≤ y

/-- `o` is the largest element of `l`, if there is any. -/
def Largest (l : List Int) (o : Option Int) : Prop :=
  (o = none ↔ l = []) ∧ ∀ x, o = some x → x ∈ l ∧ ∀ y ∈ l, y ≤ x

/-- What correct statistics of the name are. -/
structure Correct (run fut : List (Text × Int)) (name : Text) (s : TaskStats) : Prop where
  running : s.running = (timesOf run name).length
  queued : s.queued = (timesOf fut name).length
  total : s.total = s.running + s.queued
  oldestStarted : Smallest (timesOf run name) s.oldestStarted
  latestStarted : Largest (timesOf run name) s.latestStarted
  oldestQueued : Smallest (timesOf fut name) s.oldestQueued
  latestQueued : Largest (timesOf fut name) s.latestQueued

/-! ## Proof -/

theorem get_change (f : TaskStats → TaskStats) (d : Dict) (a b : Text) :
    (d.change f a).get? b = if a = b then some (f ((d.get? a).getD {})) else d.get? b := by
  induction d with
  | nil =>
    by_cases h : a = b <;> simp [Dict.change, Dict.get?, h]
  | cons e d ih =>
    obtain ⟨n, t⟩ := e
    simp only [Dict.change]
    by_cases hn : n = a
    · subst hn
      simp only [if_true, Dict.get?]
      split <;> simp
    · simp only [hn, if_false, Dict.get?]
      by_cases hb : n = b
      · subst hb
        have : ¬ a = n := fun hc => hn hc.symm
        simp [this]
      · simp only [hb, if_false, ih]

theorem older_smallest {l : List Int} {o : Option Int} (h : Smallest l o) (t : Int) : Smallest (l ++ [t]) (older o t) := by
  cases o with
  | none =>
    have := h.1.1 rfl
    subst this
    simp [Smallest, older]
  | some x =>
    obtain ⟨hx, hm⟩ := h.2 x rfl
    simp only [older]
    split
    · next hlt =>
      refine ⟨by simp, fun z hz => ?_⟩
      cases hz
      refine ⟨by simp, fun y hy => ?_⟩
      rcases List.mem_append.1 hy with hy | hy
      · have := hm y hy; omega
      · have := List.mem_singleton.1 hy; omega
    · next hlt =>
      refine ⟨by simp, fun z hz => ?_⟩
      cases hz
      refine ⟨by simp [hx], fun y hy => ?_⟩
      rcases List.mem_append.1 hy with hy | hy
      · exact hm y hy
      · have := List.mem_singleton.1 hy; omega

theorem later_largest {l : List Int} {o : Option Int} (h : Largest l o) (t : Int) : Largest (l ++ [t]) (later o t) := by
  cases o with
  | none =>
    have := h.1.1 rfl
    subst this
    simp [Largest, later]
  | some x =>
    obtain ⟨hx, hm⟩ := h.2 x rfl
    simp only [later]
    split
    · next hlt =>
      refine ⟨by simp, fun z hz => ?_⟩
      cases hz
      refine ⟨by simp, fun y hy => ?_⟩
      rcases List.mem_append.1 hy with hy | hy
      · have := hm y hy; omega
      · have := List.mem_singleton.1 hy; omega
    · next hlt =>
      refine ⟨by simp, fun z hz => ?_⟩
      cases hz
      refine ⟨by simp [hx], fun y hy => ?_⟩
      rcases List.mem_append.1 hy with hy | hy
      · exact hm y hy
      · have := List.mem_singleton.1 hy; omega

theorem timesOf_snoc (l : List (Text × Int)) (e : Text × Int) (name : Text) :
    timesOf (l ++ [e]) name = if e.1 = name then timesOf l name ++ [e.2] else timesOf l name := by
  unfold timesOf
  rw [List.filter_append, List.map_append]
  by_cases h : e.1 = name <;> simp [h]

/-- The invariant of both loops. -/
def Inv (running future : List (Text × Int)) (d : Dict) : Prop :=
  ∀ name, Correct running future name ((d.get? name).getD {}) ∧
    (d.get? name = none ↔ timesOf running name = [] ∧ timesOf future name = [])

theorem Inv.nil : Inv [] [] [] := by
  intro name
  refine ⟨⟨rfl, rfl, rfl, ?_, ?_, ?_, ?_⟩, ?_⟩ <;> simp [Dict.get?, timesOf, Smallest, Largest]

theorem Inv.running {r f : List (Text × Int)} {d : Dict} (h : Inv r f d) (e : Text × Int) :
    Inv (r ++ [e]) f (d.change (countRunning e.2) e.1) := by
  intro name
  rw [get_change]
  obtain ⟨c, hn⟩ := h name
  by_cases he : e.1 = name
  · subst he
    simp only [if_true, Option.getD_some]
    generalize (d.get? e.1).getD {} = s at c
    refine ⟨⟨?_, ?_, ?_, ?_, ?_, ?_, ?_⟩, ?_⟩
    · rw [timesOf_snoc]; simp [countRunning, c.running]
    · exact c.queued
    · have := c.total; simp only [countRunning]; omega
    · rw [timesOf_snoc, if_pos rfl]; exact older_smallest c.oldestStarted _
    · rw [timesOf_snoc, if_pos rfl]; exact later_largest c.latestStarted _
    · exact c.oldestQueued
    · exact c.latestQueued
    · rw [timesOf_snoc, if_pos rfl]; simp
  · have ht : timesOf (r ++ [e]) name = timesOf r name := by rw [timesOf_snoc, if_neg he]
    rw [if_neg he, ht]
    exact ⟨⟨by rw [ht]; exact c.running, c.queued, c.total, by rw [ht]; exact c.oldestStarted, by rw [ht]; exact c.latestStarted,
      c.oldestQueued, c.latestQueued⟩, hn⟩

theorem Inv.future {r f : List (Text × Int)} {d : Dict} (h : Inv r f d) (e : Text × Int) :
    Inv r (f ++ [e]) (d.change (countFuture e.2) e.1) := by
  intro name
  rw [get_change]
  obtain ⟨c, hn⟩ := h name
  by_cases he : e.1 = name
  · subst he
    simp only [if_true, Option.getD_some]
    generalize (d.get? e.1).getD {} = s at c
    refine ⟨⟨?_, ?_, ?_, ?_, ?_, ?_, ?_⟩, ?_⟩
    · exact c.running
    · rw [timesOf_snoc]; simp [countFuture, c.queued]
    · have := c.total; simp only [countFuture]; omega
    · exact c.oldestStarted
    · exact c.latestStarted
    · rw [timesOf_snoc, if_pos rfl]; exact older_smallest c.oldestQueued _
    · rw [timesOf_snoc, if_pos rfl]; exact later_largest c.latestQueued _
    · rw [timesOf_snoc, if_pos rfl]; simp
  · have ht : timesOf (f ++ [e]) name = timesOf f name := by rw [timesOf_snoc, if_neg he]
    rw [if_neg he, ht]
    exact ⟨⟨c.running, by rw [ht]; exact c.queued, c.total, c.oldestStarted, c.latestStarted, by rw [ht]; exact c.oldestQueued,
      by rw [ht]; exact c.latestQueued⟩, hn⟩

theorem Inv.runningAll (l : List (Text × Int)) {r f : List (Text × Int)} {d : Dict} (h : Inv r f d) :
    Inv (r ++ l) f (l.foldl (fun d e => d.change (countRunning e.2) e.1) d) := by
  induction l generalizing r d with
  | nil => simpa using h
  | cons e l ih =>
    have := ih (h.running e)
    rwa [List.append_assoc] at this

theorem Inv.futureAll (l : List (Text × Int)) {r f : List (Text × Int)} {d : Dict} (h : Inv r f d) :
    Inv r (f ++ l) (l.foldl (fun d e => d.change (countFuture e.2) e.1) d) := by
  induction l generalizing f d with
  | nil => simpa using h
  | cons e l ih =>
    have := ih (h.future e)
    rwa [List.append_assoc] at this

/-- **C58**: for every snapshot, the statistics of a name are correct, and the names listed are
those of the tasks in the snapshot. -/
theorem C58_correct (running future : List (Text × Int)) (name : Text) :
    (∀ s, (getTaskStats running future).get? name = some s → Correct running future name s) ∧
    ((getTaskStats running future).get? name = none ↔ ∀ e ∈ running ++ future, e.1 ≠ name) := by
  have h := (Inv.nil.runningAll running).futureAll future
  simp only [List.nil_append] at h
  obtain ⟨hc, hn⟩ := h name
  refine ⟨?_, ?_⟩
  · intro s hs
    unfold getTaskStats at hs
    rw [hs] at hc
    exact hc
  · unfold getTaskStats
    rw [hn]
    simp only [timesOf, List.map_eq_nil_iff, List.filter_eq_nil_iff, List.mem_append, decide_eq_true_eq]
    constructor
    · rintro ⟨h1, h2⟩ e (he | he)
      · exact h1 e he
      · exact h2 e he
    · intro h
      exact ⟨fun e he => h e (Or.inl he), fun e he => h e (Or.inr he)⟩

theorem change_names (f : TaskStats → TaskStats) (d : Dict) (a : Text) (h : (d.map (·.1)).Nodup) :
    ((d.change f a).map (·.1)).Nodup ∧ ∀ n, n ∈ (d.change f a).map (·.1) ↔ n = a ∨ n ∈ d.map (·.1) := by
  induction d with
  | nil => simp [Dict.change]
  | cons e d ih =>
    obtain ⟨n, t⟩ := e
    simp only [List.map_cons, List.nodup_cons] at h
    simp only [Dict.change]
    by_cases hn : n = a
    · subst hn
      simp only [if_true, List.map_cons, List.nodup_cons]
      exact ⟨h, by simp⟩
    · obtain ⟨h1, h2⟩ := ih h.2
      simp only [hn, if_false, List.map_cons, List.nodup_cons]
      refine ⟨⟨?_, h1⟩, ?_⟩
      · rw [h2]
        rintro (hc | hc)
        · exact hn hc
        · exact h.1 hc
      · intro m
        simp only [List.mem_cons, h2]
        constructor
        · rintro (h | h | h) <;> simp [h]
        · rintro (h | h | h) <;> simp [h]

/-- **C58**: no name is listed twice. -/
theorem C58_once (running future : List (Text × Int)) : ((getTaskStats running future).map (·.1)).Nodup := by
  have key : ∀ (g : Int → TaskStats → TaskStats) (l : List (Text × Int)) (d : Dict), (d.map (·.1)).Nodup →
      ((l.foldl (fun d e => d.change (g e.2) e.1) d).map (·.1)).Nodup := by
    intro g l
    induction l with
    | nil => intro d h; exact h
    | cons e l ih => intro d h; exact ih _ (change_names _ d _ h).1
  exact key _ _ _ (key _ _ _ (by simp))

example : getTaskStats [(t!"a", 5), (t!"b", 3), (t!"a", 2)] [(t!"a", 9), (t!"c", 1)] =
    [(t!"a", ⟨2, 1, 3, some 9, some 9, some 2, some 5⟩), (t!"b", ⟨1, 0, 1, none, none, some 3, some 3⟩),
     (t!"c", ⟨0, 1, 1, some 1, some 1, none, none⟩)] := by decide

end Docket.Stats
