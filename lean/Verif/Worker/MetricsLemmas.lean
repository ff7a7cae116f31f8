import Verif.Worker.Metrics

namespace Docket.Metrics

open Docket.Execute

/-! ### Items of one execution -/

theorem filterMap_map_eff (l : List Eff) : (l.map Item.eff).filterMap Item.eff? = l := by
  induction l with
  | nil => rfl
  | cons a l ih => simpa [Item.eff?] using ih

theorem filterMap_opened (l : List Res) :
    (l.map (Item.eff ∘ Eff.opened)).filterMap Item.eff? = l.map Eff.opened := by
  induction l with
  | nil => rfl
  | cons a l ih => simpa [Item.eff?] using ih

theorem blockItems_out (w : World) (args : List (String × Slot)) :
    (blockItems w args).2 = (block w args).2 := by
  simp only [blockItems, block]
  cases (args.filterMap (fun e => e.2.err?)).find? Err.isBlocked with
  | some e => rfl
  | none =>
    by_cases hf : args.filterMap (fun e => e.2.err?) = []
    · by_cases hc : clash w (finalKwargs w args)
      · simp [hf, hc]
      · simp only [hf, hc]
        cases w.body (finalKwargs w args) <;> rfl
    · simp [hf]

theorem blockItems_effs (w : World) (args : List (String × Slot)) :
    (blockItems w args).1.filterMap Item.eff? = (block w args).1 := by
  simp only [blockItems, block]
  cases (args.filterMap (fun e => e.2.err?)).find? Err.isBlocked with
  | some e => rfl
  | none =>
    by_cases hf : args.filterMap (fun e => e.2.err?) = []
    · by_cases hc : clash w (finalKwargs w args)
      · simp [hf, hc]
      · simp only [hf, hc]
        cases w.body (finalKwargs w args) with
        | cancelled => rfl
        | raised e => rfl
        | returned b =>
          simp [Item.eff?]
          exact filterMap_map_eff _
    · simp [hf]

theorem outerItems_effs (w : World) (args : List (String × Slot)) (o : Out) :
    (outerItems w args o).filterMap Item.eff? = (outer w args o).1 := by
  cases o with
  | done => rfl
  | cancelled => rfl
  | raised e =>
    cases e with
    | blocked => rfl
    | other x => simp only [outerItems, outer, List.filterMap_cons, Item.eff?, filterMap_map_eff]

theorem items_effs (w : World) (red : Bool) :
    (items w red).filterMap Item.eff? = (execute w).1 := by
  simp only [items, execute]
  by_cases hs : w.stricken
  · simp [hs, Item.eff?]
  · by_cases hc : w.claimed
    · simp only [hs, hc, Bool.false_eq_true, if_false, Bool.not_true, middle, List.cons_append,
        List.filterMap_append, List.filterMap_cons, List.filterMap_nil, Item.eff?, filterMap_opened,
        filterMap_map_eff, outerItems_effs, List.append_nil]
      by_cases ha : (resolve w).aborted
      · simp [ha]
      · simp [ha, blockItems_effs, blockItems_out]
    · simp [hs, hc, Item.eff?]

/-! ### The shape of an execution -/

/-- Items that only happen between `began` and `ended`. -/
def Item.inner : Item → Bool
  | .eff _ | .succeeded | .failed => true
  | _ => false

def Inner (l : List Item) : Prop := ∀ i ∈ l, i.inner = true

theorem Inner.map_eff (l : List Eff) : Inner (l.map Item.eff) := by
  intro i hi
  obtain ⟨e, _, rfl⟩ := List.mem_map.1 hi
  rfl

theorem Inner.append {a b : List Item} (ha : Inner a) (hb : Inner b) : Inner (a ++ b) := by
  intro i hi
  rcases List.mem_append.1 hi with h | h
  · exact ha i h
  · exact hb i h

theorem Inner.cons {a : Item} {b : List Item} (ha : a.inner = true) (hb : Inner b) :
    Inner (a :: b) := by
  intro i hi
  rcases List.mem_cons.1 hi with h | h
  · exact h ▸ ha
  · exact hb i h

theorem Inner.nil : Inner [] := fun _ h => nomatch h

theorem Inner.left {a b : List Item} (h : Inner (a ++ b)) : Inner a :=
  fun i hi => h i (List.mem_append_left _ hi)

theorem Inner.right {a b : List Item} (h : Inner (a ++ b)) : Inner b :=
  fun i hi => h i (List.mem_append_right _ hi)

theorem blockItems_inner (w : World) (args : List (String × Slot)) : Inner (blockItems w args).1 := by
  simp only [blockItems]
  split
  · exact .nil
  · split
    · exact .nil
    · split
      · exact .nil
      · cases w.body (finalKwargs w args) with
        | cancelled => exact .cons rfl .nil
        | raised e => exact .cons rfl .nil
        | returned b => exact .cons rfl (.cons rfl (.map_eff _))

theorem outerItems_inner (w : World) (args : List (String × Slot)) (o : Out) :
    Inner (outerItems w args o) := by
  cases o with
  | done => exact .map_eff _
  | cancelled => exact .map_eff _
  | raised e =>
    cases e with
    | blocked => exact .map_eff _
    | other x => exact .cons rfl (.map_eff _)

theorem middle_inner (w : World) : Inner (middle w) := by
  simp only [middle]
  refine .append (.append (.append ?_ ?_) (.map_eff _)) (outerItems_inner _ _ _)
  · rw [← List.map_map]; exact .map_eff _
  · split
    · exact .nil
    · exact blockItems_inner _ _

/-- A success is only counted after the function was called and returned; a success and a
failure are counted at most once. -/
structure Fair (w : World) (l : List Item) : Prop where
  inner : Inner l
  success : ∀ a b, l = a ++ .succeeded :: b →
    ∃ kw n, Item.eff (.called kw) ∈ a ∧ w.body kw = .returned n
  once : l.count .succeeded ≤ 1
  fails : l.count .failed ≤ 1
  calls : l.countP (fun i => i.eff?.any isCalled) ≤ 1

theorem count_map_eff (l : List Eff) (i : Item) (h : i.eff? = none) : (l.map Item.eff).count i = 0 := by
  rw [List.count_eq_zero]
  intro hi
  obtain ⟨e, _, rfl⟩ := List.mem_map.1 hi
  cases h

theorem calls_map_eff (l : List Eff) (h : ∀ e ∈ l, isCalled e = false) :
    (l.map Item.eff).countP (fun i => i.eff?.any isCalled) = 0 := by
  rw [List.countP_eq_zero]
  intro i hi
  obtain ⟨e, he, rfl⟩ := List.mem_map.1 hi
  simp [Item.eff?, h e he]

theorem unwind_calls (exit : Res → Out → ExitOut) (rs : List Res) (o : Out) :
    ∀ e ∈ (unwind exit rs o).1, isCalled e = false := by
  induction rs generalizing o with
  | nil => intro e h; cases h
  | cons r rs ih =>
    intro e h
    simp only [unwind] at h
    rcases List.mem_cons.1 h with h | h
    · exact h ▸ rfl
    · exact ih _ e h

theorem complete_calls (w : World) (b : Bool) : ∀ e ∈ (complete w b).1, isCalled e = false := by
  intro e h
  simp only [complete] at h
  split at h
  · simp at h; exact h ▸ rfl
  · split at h
    · simp at h
    · simp at h; rcases h with h | h <;> exact h ▸ rfl

theorem finish_calls (w : World) (args : List (String × Slot)) (b : Bool) :
    ∀ e ∈ (finish w args b).1, isCalled e = false := by
  intro e h
  simp only [finish] at h
  split at h
  · exact complete_calls _ _ e h
  · split at h
    · simp at h; rcases h with h | h <;> exact h ▸ rfl
    · rcases List.mem_cons.1 h with h | h
      · exact h ▸ rfl
      · exact complete_calls _ _ e h
    · simp at h; exact h ▸ rfl

theorem recordFailure_calls (w : World) : ∀ e ∈ (recordFailure w).1, isCalled e = false := by
  intro e h
  simp only [recordFailure] at h
  split at h
  · simp at h; exact h ▸ rfl
  · split at h
    · simp at h
    · simp at h; rcases h with h | h <;> exact h ▸ rfl

theorem notRetried_calls (w : World) (args : List (String × Slot)) :
    ∀ e ∈ (notRetried w args).1, isCalled e = false := by
  intro e h
  simp only [notRetried] at h
  split at h
  · exact recordFailure_calls _ e h
  · split at h
    · simp at h; exact h ▸ rfl
    · rcases List.mem_cons.1 h with h | h
      · exact h ▸ rfl
      · exact recordFailure_calls _ e h

theorem onError_calls (w : World) (args : List (String × Slot)) (x : Err) :
    ∀ e ∈ (onError w args x).1, isCalled e = false := by
  intro e h
  simp only [onError] at h
  split at h
  · exact notRetried_calls _ _ e h
  · split at h
    · simp at h
      rcases h with h | h
      · exact h ▸ rfl
      · exact h.2 ▸ rfl
    · simp at h; exact h ▸ rfl
    · rcases List.mem_cons.1 h with h | h
      · exact h ▸ rfl
      · exact notRetried_calls _ _ e h

theorem outer_calls (w : World) (args : List (String × Slot)) (o : Out) :
    ∀ e ∈ (outer w args o).1, isCalled e = false := by
  cases o with
  | done => intro e h; cases h
  | cancelled => intro e h; simp [outer] at h; exact h ▸ rfl
  | raised x =>
    cases x with
    | blocked => intro e h; cases h
    | other x => exact onError_calls _ _ _

theorem outerItems_facts (w : World) (args : List (String × Slot)) (o : Out) :
    (outerItems w args o).count .succeeded = 0 ∧ (outerItems w args o).count .failed ≤ 1 ∧
      (outerItems w args o).countP (fun i => i.eff?.any isCalled) = 0 := by
  have key : ∀ l : List Eff, (∀ e ∈ l, isCalled e = false) →
      (l.map Item.eff).count .succeeded = 0 ∧ (l.map Item.eff).count .failed ≤ 1 ∧
      (l.map Item.eff).countP (fun i => i.eff?.any isCalled) = 0 := fun l h =>
    ⟨count_map_eff l _ rfl, by rw [count_map_eff l _ rfl]; exact Nat.zero_le _, calls_map_eff l h⟩
  cases o with
  | done => exact key _ (outer_calls w args .done)
  | cancelled => exact key _ (outer_calls w args .cancelled)
  | raised e =>
    cases e with
    | blocked h r => exact key _ (outer_calls w args (.raised (.blocked h r)))
    | other x =>
      refine ⟨?_, ?_, ?_⟩
      · simp only [outerItems]
        rw [List.count_cons_of_ne (by decide)]
        exact count_map_eff _ _ rfl
      · simp only [outerItems, List.count_cons_self]
        rw [count_map_eff _ _ rfl]
        exact Nat.le_refl _
      · simp only [outerItems]
        rw [List.countP_cons_of_neg (by simp [Item.eff?])]
        exact calls_map_eff _ (onError_calls _ _ _)

/-- What the block does, by cases. -/
theorem blockItems_cases (w : World) (args : List (String × Slot)) :
    ((blockItems w args).1 = [] ∧ ∃ e, (blockItems w args).2 = .raised e) ∨
    ((blockItems w args).1 = [.eff (.called (finalKwargs w args))] ∧
      (w.body (finalKwargs w args) = .cancelled ∧ (blockItems w args).2 = .cancelled ∨
        ∃ e, w.body (finalKwargs w args) = .raised e ∧ (blockItems w args).2 = .raised e)) ∨
    (∃ b, w.body (finalKwargs w args) = .returned b ∧
      (blockItems w args).1 = .eff (.called (finalKwargs w args)) :: .succeeded ::
        (finish w args b).1.map .eff ∧
      (blockItems w args).2 = (finish w args b).2) := by
  simp only [blockItems]
  split
  · exact Or.inl ⟨rfl, _, rfl⟩
  · split
    · exact Or.inl ⟨rfl, _, rfl⟩
    · split
      · exact Or.inl ⟨rfl, _, rfl⟩
      · cases h : w.body (finalKwargs w args) with
        | cancelled => exact Or.inr (Or.inl ⟨rfl, Or.inl ⟨rfl, rfl⟩⟩)
        | raised e => exact Or.inr (Or.inl ⟨rfl, Or.inr ⟨e, rfl, rfl⟩⟩)
        | returned b => exact Or.inr (Or.inr ⟨b, rfl, rfl, rfl⟩)

theorem blockItems_facts (w : World) (args : List (String × Slot)) :
    (blockItems w args).1.count .succeeded ≤ 1 ∧ (blockItems w args).1.count .failed = 0 ∧
      (blockItems w args).1.countP (fun i => i.eff?.any isCalled) ≤ 1 ∧
      ∀ a b, (blockItems w args).1 = a ++ .succeeded :: b →
        ∃ kw n, Item.eff (.called kw) ∈ a ∧ w.body kw = .returned n := by
  rcases blockItems_cases w args with ⟨h, _⟩ | ⟨h, _⟩ | ⟨n, hb, h, _⟩
  · rw [h]
    exact ⟨Nat.zero_le _, rfl, Nat.zero_le _, fun a b e => by cases a <;> simp at e⟩
  · rw [h]
    refine ⟨?_, ?_, ?_, fun a b e => ?_⟩
    · rw [List.count_cons_of_ne (fun h => by injection h)]; exact Nat.zero_le _
    · rw [List.count_cons_of_ne (fun h => by injection h)]; rfl
    · exact List.countP_le_length
    · cases a with
      | nil => simp at e
      | cons x a => cases a <;> simp at e
  · rw [h]
    refine ⟨?_, ?_, ?_, fun a b e => ?_⟩
    · rw [List.count_cons_of_ne (fun h => by injection h), List.count_cons_self, count_map_eff _ _ rfl]
      exact Nat.le_refl _
    · rw [List.count_cons_of_ne (fun h => by injection h), List.count_cons_of_ne (by decide),
        count_map_eff _ _ rfl]
    · have h0 := calls_map_eff (finish w args n).1 (finish_calls w args n)
      simp only [List.countP_cons]
      rw [h0]
      simp [Item.eff?, isCalled]
    · cases a with
      | nil => simp at e
      | cons x a =>
        simp only [List.cons_append, List.cons.injEq] at e
        exact ⟨_, n, e.1 ▸ List.mem_cons_self, hb⟩

/-- An item that is not in the part before is in the part after. -/
theorem split_in {α : Type} {x : α} {p q a b : List α} (h : p ++ q = a ++ x :: b) (hx : x ∉ p) :
    ∃ a', a = p ++ a' ∧ q = a' ++ x :: b := by
  induction p generalizing a with
  | nil => exact ⟨a, rfl, h⟩
  | cons y p ih =>
    cases a with
    | nil =>
      simp only [List.cons_append, List.nil_append, List.cons.injEq] at h
      exact absurd (h.1 ▸ List.mem_cons_self) hx
    | cons z a =>
      simp only [List.cons_append, List.cons.injEq] at h
      obtain ⟨a', h1, h2⟩ := ih h.2 (fun hm => hx (List.mem_cons_of_mem _ hm))
      exact ⟨a', by rw [h1, h.1]; rfl, h2⟩

theorem split_in_left {α : Type} {x : α} {p q a b : List α} (h : p ++ q = a ++ x :: b) (hx : x ∉ q) :
    ∃ b', p = a ++ x :: b' := by
  induction p generalizing a with
  | nil =>
    simp only [List.nil_append] at h
    exact absurd (h ▸ List.mem_append_right _ List.mem_cons_self) hx
  | cons y p ih =>
    cases a with
    | nil =>
      simp only [List.cons_append, List.nil_append, List.cons.injEq] at h
      exact ⟨p, by rw [h.1]; rfl⟩
    | cons z a =>
      simp only [List.cons_append, List.cons.injEq] at h
      obtain ⟨b', hb⟩ := ih h.2
      exact ⟨b', by rw [hb, h.1]; rfl⟩

theorem notMem_map_eff (l : List Eff) (i : Item) (h : i.eff? = none) : i ∉ l.map Item.eff := by
  intro hi
  obtain ⟨e, _, rfl⟩ := List.mem_map.1 hi
  cases h

theorem middle_fair (w : World) : Fair w (middle w) := by
  have hop : (resolve w).opened.map (Item.eff ∘ Eff.opened) =
      ((resolve w).opened.map Eff.opened).map Item.eff := (List.map_map).symm
  have hopc : ∀ e ∈ (resolve w).opened.map Eff.opened, isCalled e = false := by
    intro e he
    obtain ⟨r, _, rfl⟩ := List.mem_map.1 he
    rfl
  have hi := middle_inner w
  simp only [middle] at hi ⊢
  rw [hop] at hi ⊢
  generalize hin : (if (resolve w).aborted then ([], Out.cancelled) else blockItems w (resolve w).args) = inner at *
  have hf : inner.1.count .succeeded ≤ 1 ∧ inner.1.count .failed = 0 ∧
      inner.1.countP (fun i => i.eff?.any isCalled) ≤ 1 ∧
      ∀ a b, inner.1 = a ++ .succeeded :: b →
        ∃ kw n, Item.eff (.called kw) ∈ a ∧ w.body kw = .returned n := by
    rw [← hin]
    split
    · exact ⟨Nat.zero_le _, rfl, Nat.zero_le _, fun a b e => by cases a <;> simp at e⟩
    · exact blockItems_facts _ _
  generalize hu : unwind w.exit (resolve w).opened.reverse inner.2 = u at *
  have hu' : ∀ e ∈ u.1, isCalled e = false := hu ▸ unwind_calls _ _ _
  obtain ⟨o1, o2, o3⟩ := outerItems_facts w (if (resolve w).aborted then [] else (resolve w).args) u.2
  generalize outerItems w (if (resolve w).aborted then [] else (resolve w).args) u.2 = o at *
  refine ⟨hi, ?_, ?_, ?_, ?_⟩
  · intro a b e
    obtain ⟨b1, e1⟩ := split_in_left e (List.count_eq_zero.1 o1)
    obtain ⟨b2, e2⟩ := split_in_left e1 (notMem_map_eff _ _ rfl)
    obtain ⟨a', ha, e3⟩ := split_in e2 (notMem_map_eff _ _ rfl)
    obtain ⟨kw, n, h1, h2⟩ := hf.2.2.2 _ _ e3
    exact ⟨kw, n, ha ▸ List.mem_append_right _ h1, h2⟩
  · simp only [List.count_append]
    rw [count_map_eff _ _ rfl, count_map_eff _ _ rfl, o1]
    have := hf.1
    omega
  · simp only [List.count_append]
    rw [count_map_eff _ _ rfl, count_map_eff _ _ rfl]
    have := hf.2.1
    omega
  · simp only [List.countP_append]
    rw [calls_map_eff _ hopc, calls_map_eff _ hu', o3]
    have := hf.2.2.1
    omega

/-! ### How an execution goes -/

/-- Where an execution can be. -/
inductive Stage (e : Exec) : Prop
  | stricken (h : e.past ++ e.todo = [.eff .cancelled, .stricken]) (hw : e.world.stricken = true)
  | superseded (h : e.past ++ e.todo = [.superseded]) (hs : e.world.stricken = false)
      (hw : e.world.claimed = false)
  | dropped (h : e.past = [] ∨ e.past = [.eff .cancelled]) (ht : e.todo = [])
  | waiting (m : List Item) (hp : e.past = []) (ht : e.todo = .began e.redelivered :: m ++ [.ended])
      (hf : Fair e.world m) (hs : e.world.stricken = false) (hw : e.world.claimed = true)
  | going (m n : List Item) (hp : e.past = .began e.redelivered :: m) (ht : e.todo = n ++ [.ended])
      (hf : Fair e.world (m ++ n)) (hs : e.world.stricken = false) (hw : e.world.claimed = true)
  | over (m : List Item) (hp : e.past = .began e.redelivered :: m ++ [.ended]) (ht : e.todo = [])
      (hf : Fair e.world m) (hs : e.world.stricken = false) (hw : e.world.claimed = true)

theorem Stage.init (w : World) (red : Bool) :
    Stage { world := w, redelivered := red, todo := items w red } := by
  by_cases hs : w.stricken
  · exact .stricken (by simp [items, hs]) hs
  · by_cases hc : w.claimed
    · exact .waiting (middle w) rfl (by simp [items, hs, hc]) (middle_fair w) (by simpa using hs) hc
    · exact .superseded (by simp [items, hs, hc]) (by simpa using hs) (by simpa using hc)

theorem append_cons_assoc {α : Type} (a : List α) (x : α) (b : List α) :
    a ++ [x] ++ b = a ++ x :: b := by simp

theorem Stage.next {e : Exec} (h : Stage e) : Stage e.next := by
  unfold Exec.next
  cases ht : e.todo with
  | nil => exact h
  | cons x rest =>
    simp only []
    cases h with
    | stricken h hw =>
      rw [ht] at h
      exact .stricken (by simpa using h) hw
    | superseded h hs hw =>
      rw [ht] at h
      exact .superseded (by simpa using h) hs hw
    | dropped h ht' => rw [ht] at ht'; cases ht'
    | waiting m hp ht' hf hs hw =>
      rw [ht] at ht'
      simp only [List.cons_append, List.cons.injEq] at ht'
      exact .going [] m (by rw [hp, ht'.1]; rfl) ht'.2 hf hs hw
    | going m n hp ht' hf hs hw =>
      rw [ht] at ht'
      cases n with
      | nil =>
        simp only [List.nil_append, List.cons.injEq] at ht'
        exact .over m (by rw [hp, ht'.1]) ht'.2 (by simpa using hf) hs hw
      | cons y n =>
        simp only [List.cons_append, List.cons.injEq] at ht'
        exact .going (m ++ [x]) n (by rw [hp]; rfl) ht'.2
          (by rw [append_cons_assoc, ht'.1]; exact hf) hs hw
    | over m hp ht' => rw [ht] at ht'; cases ht'

theorem Fair.cut {w : World} {m n : List Item} (h : Fair w (m ++ n)) (fails : Bool) (effs : List Eff) :
    Fair w (m ++ ((if fails && !(m.contains .failed) then [.failed] else []) ++
      (effs.filter (fun x => !isCalled x)).map Item.eff)) := by
  have hc : ∀ e ∈ effs.filter (fun x => !isCalled x), isCalled e = false := by
    intro e he
    have := (List.mem_filter.1 he).2
    simpa using this
  generalize effs.filter (fun x => !isCalled x) = l at *
  have hs1 : ((if fails && !(m.contains .failed) then [Item.failed] else []) : List Item).count .succeeded = 0 := by
    split <;> decide
  have hs2 : ((if fails && !(m.contains .failed) then [Item.failed] else []) : List Item).countP
      (fun i => i.eff?.any isCalled) = 0 := by
    split <;> decide
  have h1 := h.once
  have h2 := h.fails
  have h3 := h.calls
  simp only [List.count_append, List.countP_append] at h1 h2 h3
  refine ⟨?_, ?_, ?_, ?_, ?_⟩
  · refine .append h.inner.left (.append ?_ (.map_eff _))
    split
    · exact .cons rfl .nil
    · exact .nil
  · intro a b e
    rw [← List.append_assoc] at e
    obtain ⟨b1, e1⟩ := split_in_left e (notMem_map_eff _ _ rfl)
    obtain ⟨b2, e2⟩ := split_in_left e1 (List.count_eq_zero.1 hs1)
    exact h.success a (b2 ++ n) (by rw [e2]; simp)
  · simp only [List.count_append]
    rw [hs1, count_map_eff _ _ rfl]
    omega
  · simp only [List.count_append]
    rw [count_map_eff _ _ rfl]
    by_cases hm : m.contains .failed
    · simp only [hm, Bool.not_true, Bool.and_false, Bool.false_eq_true, if_false, List.count_nil]
      omega
    · have : m.count .failed = 0 := List.count_eq_zero.2 (by simpa using hm)
      rw [this]
      split
      · decide
      · simp
  · simp only [List.countP_append]
    rw [hs2, calls_map_eff _ hc]
    omega

theorem Stage.cut {e : Exec} (h : Stage e) (fails : Bool) (effs : List Eff) :
    Stage (e.cut fails effs) := by
  unfold Exec.cut
  by_cases ht : e.todo = []
  · rw [if_pos ht]; exact h
  · rw [if_neg ht]
    have drop : (e.past = [] ∨ e.past = [.eff .cancelled]) →
        e.past.any (fun i => i == .began e.redelivered) = false := by
      rintro (h | h) <;> rw [h] <;> rfl
    cases h with
    | stricken h hw =>
      have hp : e.past = [] ∨ e.past = [.eff .cancelled] := by
        cases hp : e.past with
        | nil => exact Or.inl rfl
        | cons x p =>
          rw [hp] at h
          simp only [List.cons_append, List.cons.injEq] at h
          cases p with
          | nil => exact Or.inr (by rw [h.1])
          | cons y p =>
            simp only [List.cons_append, List.cons.injEq, List.append_eq_nil_iff] at h
            exact absurd h.2.2.2 ht
      rw [drop hp, if_neg (by simp)]
      exact .dropped hp rfl
    | superseded h hs hw =>
      have hp : e.past = [] := by
        cases hp : e.past with
        | nil => rfl
        | cons x p =>
          rw [hp] at h
          simp only [List.cons_append, List.cons.injEq, List.append_eq_nil_iff] at h
          exact absurd h.2.2 ht
      rw [drop (Or.inl hp), if_neg (by simp)]
      exact .dropped (Or.inl hp) rfl
    | dropped h ht' => exact absurd ht' ht
    | waiting m hp ht' hf hs hw =>
      rw [drop (Or.inl hp), if_neg (by simp)]
      exact .dropped (Or.inl hp) rfl
    | going m n hp ht' hf hs hw =>
      rw [if_pos (by rw [hp]; simp)]
      have : e.past.contains .failed = m.contains .failed := by
        rw [hp]; simp
      rw [this]
      exact .going m _ hp rfl (Fair.cut hf fails effs) hs hw
    | over m hp ht' => exact absurd ht' ht

theorem mem_modify {α : Type} {l : List α} {i : Nat} {f : α → α} {x : α} (h : x ∈ l.modify i f) :
    x ∈ l ∨ ∃ y ∈ l, x = f y := by
  induction l generalizing i with
  | nil => simp at h
  | cons a l ih =>
    cases i with
    | zero =>
      simp only [List.modify_zero_cons] at h
      rcases List.mem_cons.1 h with h | h
      · exact Or.inr ⟨a, List.mem_cons_self, h⟩
      · exact Or.inl (List.mem_cons_of_mem _ h)
    | succ i =>
      simp only [List.modify_succ_cons] at h
      rcases List.mem_cons.1 h with h | h
      · exact Or.inl (h ▸ List.mem_cons_self)
      · rcases ih h with h | ⟨y, h1, h2⟩
        · exact Or.inl (List.mem_cons_of_mem _ h)
        · exact Or.inr ⟨y, List.mem_cons_of_mem _ h1, h2⟩

/-! ### Totals -/

/-- How many of the things done were `p`. -/
def total (p : Item → Bool) (es : List Exec) : Nat := (es.map (fun e => e.past.countP p)).sum

theorem total_append (p : Item → Bool) (a b : List Exec) : total p (a ++ b) = total p a + total p b := by
  simp [total]

theorem total_cut (p : Item → Bool) (es : List Exec) (i : Nat) (fails : Bool) (effs : List Eff) :
    total p (es.modify i (Exec.cut fails effs)) = total p es := by
  have hc : ∀ e : Exec, (e.cut fails effs).past = e.past := by
    intro e
    unfold Exec.cut
    split
    · rfl
    · split <;> rfl
  induction es generalizing i with
  | nil => simp
  | cons a es ih =>
    cases i with
    | zero => simp [total, hc]
    | succ i =>
      have := ih i
      simp only [total] at this
      simp [total, this]

theorem total_go (p : Item → Bool) (es : List Exec) (i : Nat) :
    total p (es.modify i Exec.next) = total p es +
      (match es[i]? with
        | none => 0
        | some e => match e.todo with
          | [] => 0
          | x :: _ => if p x then 1 else 0) := by
  induction es generalizing i with
  | nil => simp [total]
  | cons a es ih =>
    cases i with
    | zero =>
      simp only [total, List.modify_zero_cons, List.map_cons, List.sum_cons, List.getElem?_cons_zero,
        Exec.next]
      cases a.todo with
      | nil => simp
      | cons x r =>
        simp only [List.countP_append, List.countP_singleton]
        omega
    | succ i =>
      have := ih i
      simp only [total, List.modify_succ_cons, List.map_cons, List.sum_cons, List.getElem?_cons_succ] at *
      omega

def Item.isBegan : Item → Bool
  | .began _ => true
  | _ => false

/-- The counters are the totals of what was done. -/
structure Tally (s : State) : Prop where
  stricken : s.counts.stricken = total (· == .stricken) s.execs
  superseded : s.counts.superseded = total (· == .superseded) s.execs
  started : s.counts.started = total Item.isBegan s.execs
  redelivered : s.counts.redelivered = total (· == .began true) s.execs
  running : s.counts.running = (total Item.isBegan s.execs : Int) - total (· == .ended) s.execs
  completed : s.counts.completed = total (· == .ended) s.execs
  succeeded : s.counts.succeeded = total (· == .succeeded) s.execs
  failed : s.counts.failed = total (· == .failed) s.execs

theorem Tally.step {s : State} (h : Tally s) (op : Op) : Tally (Metrics.step s op) := by
  cases op with
  | deliver w red =>
    have z : ∀ p, total p [({ world := w, redelivered := red, todo := items w red } : Exec)] = 0 := by
      intro p; simp [total]
    constructor <;> simp only [Metrics.step, total_append, z, Nat.add_zero]
    · exact h.stricken
    · exact h.superseded
    · exact h.started
    · exact h.redelivered
    · exact h.running
    · exact h.completed
    · exact h.succeeded
    · exact h.failed
  | cut i fails effs =>
    constructor <;> simp only [Metrics.step, total_cut]
    · exact h.stricken
    · exact h.superseded
    · exact h.started
    · exact h.redelivered
    · exact h.running
    · exact h.completed
    · exact h.succeeded
    · exact h.failed
  | go i =>
    obtain ⟨h1, h2, h3, h4, h5, h6, h7, h8⟩ := h
    constructor <;> simp only [Metrics.step, total_go]
    all_goals
      cases s.execs[i]? with
      | none => simpa using by assumption
      | some e =>
        simp only []
        cases e.todo with
        | nil => simpa using by assumption
        | cons x r =>
          cases x with
          | began red => cases red <;> simp [Counts.add, Item.isBegan] <;> omega
          | _ => simp [Counts.add, Item.isBegan] <;> omega

theorem run_always {I : State → Prop} (h0 : I {}) (hs : ∀ s op, I s → I (step s op)) (ops : List Op) :
    I (run ops) := by
  have : ∀ s, I s → I (ops.foldl step s) := by
    induction ops with
    | nil => exact fun s h => h
    | cons op ops ih => exact fun s h => ih _ (hs s op h)
  exact this _ h0

theorem Tally.run (ops : List Op) : Tally (Metrics.run ops) :=
  run_always (I := Tally) ⟨rfl, rfl, rfl, rfl, rfl, rfl, rfl, rfl⟩ (fun _ op h => h.step op) ops

theorem stages (ops : List Op) : ∀ e ∈ (run ops).execs, Stage e := by
  refine run_always (I := fun s => ∀ e ∈ s.execs, Stage e) (by intro e h; cases h) ?_ ops
  intro s op h e he
  cases op with
  | deliver w red =>
    rcases List.mem_append.1 he with he | he
    · exact h e he
    · rw [List.mem_singleton.1 he]; exact Stage.init w red
  | go i =>
    rcases mem_modify he with he | ⟨y, hy, rfl⟩
    · exact h e he
    · exact (h y hy).next
  | cut i fails effs =>
    rcases mem_modify he with he | ⟨y, hy, rfl⟩
    · exact h e he
    · exact (h y hy).cut fails effs

theorem total_le {p q : Item → Bool} {es : List Exec}
    (h : ∀ e ∈ es, e.past.countP p ≤ e.past.countP q) : total p es ≤ total q es := by
  induction es with
  | nil => exact Nat.le_refl _
  | cons a es ih =>
    have h1 := h a List.mem_cons_self
    have h2 := ih (fun e he => h e (List.mem_cons_of_mem _ he))
    simp only [total] at h2
    simp only [total, List.map_cons, List.sum_cons]
    omega

/-- A total of things each execution does at most once is a number of executions. -/
theorem total_eq_countP {p : Item → Bool} {c : Exec → Bool} {es : List Exec}
    (h : ∀ e ∈ es, e.past.countP p = if c e then 1 else 0) : total p es = es.countP c := by
  induction es with
  | nil => rfl
  | cons a es ih =>
    have h1 := h a List.mem_cons_self
    have h2 := ih (fun e he => h e (List.mem_cons_of_mem _ he))
    simp only [total] at h2
    simp only [total, List.map_cons, List.sum_cons, List.countP_cons]
    omega

theorem total_sub {p q : Item → Bool} {c : Exec → Bool} {es : List Exec}
    (h : ∀ e ∈ es, e.past.countP p = e.past.countP q + if c e then 1 else 0) :
    total p es = total q es + es.countP c := by
  induction es with
  | nil => rfl
  | cons a es ih =>
    have h1 := h a List.mem_cons_self
    have h2 := ih (fun e he => h e (List.mem_cons_of_mem _ he))
    simp only [total] at h2
    simp only [total, List.map_cons, List.sum_cons, List.countP_cons]
    omega

theorem Inner.count {l : List Item} (h : Inner l) {p : Item → Bool}
    (hp : ∀ i, i.inner = true → p i = false) : l.countP p = 0 := by
  rw [List.countP_eq_zero]
  intro i hi
  simp [hp i (h i hi)]

end Docket.Metrics
