import Verif.Worker.Given
import Verif.Props.C102
/-
C106: the dependencies a worker is created with are those it enters for every task.
-/
namespace Docket.Execute

/-! ### Specification -/


/-- The things that were given, in order. -/
def Given.things : Given → List Thing
  | .nothing => []
  | .mapping items => items.map (·.2)
  | .sequence items => items

/-- The names that were given. -/
def Given.names : Given → List String
  | .mapping items => items.map (·.1)
  | _ => []

/-- A mapping has each name once. -/
def Given.Proper (g : Given) : Prop := g.names.Nodup

theorem put_new {α : Type} (d : List (String × α)) (k : String) (v : α) (h : k ∉ d.map (·.1)) : put d k v = d ++ [(k, v)] := by
  induction d with
  | nil => rfl
  | cons e d ih =>
    obtain ⟨k', v'⟩ := e
    simp only [List.map_cons, List.mem_cons, not_or] at h
    rw [put, if_neg (Ne.symm h.1), ih h.2]
    rfl

theorem positionName_inj {i j : Nat} (h : positionName i = positionName j) : i = j := by
  have h' := congrArg String.toList h
  simp only [positionName, String.toList_append, String.toList_ofList] at h'
  exact Decimal.dec_inj (List.append_cancel_left (List.append_cancel_right h'))

/-- The mapping case of the loop. -/
theorem collect_named (items : List (String × Thing)) (i : Nat) (acc : List (String × Dep))
    (hd : (acc.map (·.1) ++ items.map (·.1)).Nodup) (l : List (String × Dep)) :
    collect i (items.map (fun e => (some e.1, e.2))) acc = .ok l ↔
      (∀ n ∈ items.map (·.1), n.startsWith "__" = false) ∧
      ∃ ds, items.map (·.2) = ds.map Thing.dependency ∧ l = acc ++ (items.map (·.1)).zip ds := by
  induction items generalizing i acc with
  | nil =>
    simp only [List.map_nil, collect, Except.ok.injEq, List.not_mem_nil, false_implies, implies_true, true_and,
      List.zip_nil_left, List.append_nil]
    constructor
    · rintro rfl; exact ⟨[], rfl, rfl⟩
    · rintro ⟨ds, -, rfl⟩; rfl
  | cons e items ih =>
    obtain ⟨n, t⟩ := e
    simp only [List.map_cons, collect]
    by_cases hn : n.startsWith "__" = true
    · rw [if_pos hn]
      constructor
      · intro h; cases h
      · rintro ⟨h, -⟩
        have := h n (by simp)
        rw [hn] at this; exact Bool.noConfusion this
    · rw [if_neg hn]
      cases t with
      | other ty =>
        constructor
        · intro h; cases h
        · rintro ⟨-, ds, hds, -⟩
          cases ds with
          | nil => simp at hds
          | cons d ds => simp at hds
      | dependency d =>
        have hnew : n ∉ acc.map (·.1) := by
          intro hm
          rw [List.nodup_append] at hd
          exact hd.2.2 n hm n (by simp) rfl
        simp only []
        rw [put_new _ _ _ hnew, ih (i + 1) (acc ++ [(n, d)]) (by simpa using hd)]
        constructor
        · rintro ⟨h, ds, hds, rfl⟩
          refine ⟨?_, d :: ds, by simp [hds], by simp⟩
          intro m hm
          rcases List.mem_cons.1 hm with rfl | hm
          · simpa using hn
          · exact h m hm
        · rintro ⟨h, ds, hds, rfl⟩
          refine ⟨fun m hm => h m (List.mem_cons_of_mem _ hm), ?_⟩
          cases ds with
          | nil => simp at hds
          | cons d' ds =>
            simp only [List.map_cons, List.cons.injEq, Thing.dependency.injEq] at hds
            exact ⟨ds, hds.2, by rw [hds.1]; simp⟩

/-- The sequence case. -/
theorem collect_placed (items : List Thing) (i : Nat) (acc : List (String × Dep))
    (hd : ∀ j, i ≤ j → positionName j ∉ acc.map (·.1)) (l : List (String × Dep)) :
    collect i (items.map (fun t => (none, t))) acc = .ok l ↔
      ∃ ds, items = ds.map Thing.dependency ∧
        l = acc ++ ((List.range' i ds.length).map positionName).zip ds := by
  induction items generalizing i acc with
  | nil =>
    simp only [List.map_nil, collect, Except.ok.injEq]
    constructor
    · rintro rfl; exact ⟨[], rfl, by simp⟩
    · rintro ⟨ds, hds, rfl⟩
      cases ds with
      | nil => simp
      | cons d ds => simp at hds
  | cons t items ih =>
    simp only [List.map_cons, collect]
    cases t with
    | other ty =>
      constructor
      · intro h; cases h
      · rintro ⟨ds, hds, -⟩
        cases ds with
        | nil => simp at hds
        | cons d ds => simp at hds
    | dependency d =>
      simp only []
      rw [put_new _ _ _ (hd i (Nat.le_refl i)), ih (i + 1) (acc ++ [(positionName i, d)])]
      · constructor
        · rintro ⟨ds, rfl, rfl⟩
          exact ⟨d :: ds, by simp, by simp [List.range'_succ]⟩
        · rintro ⟨ds, hds, rfl⟩
          cases ds with
          | nil => simp at hds
          | cons d' ds =>
            simp only [List.map_cons, List.cons.injEq, Thing.dependency.injEq] at hds
            exact ⟨ds, hds.2, by rw [hds.1]; simp [List.range'_succ]⟩
      · intro j hj hm
        simp only [List.map_append, List.mem_append, List.map_cons, List.map_nil, List.mem_singleton] at hm
        rcases hm with hm | hm
        · exact hd j (by omega) hm
        · have := positionName_inj hm
          omega

/-- **C106**: the worker is accepted exactly if all things given are dependencies and no given name
begins with two underscores; then it has exactly the dependencies that were given, in their order, and
under names that are all different. -/
theorem C106_accepted (g : Given) (hg : g.Proper) :
    ((∃ l, validate g = .ok l) ↔ (∀ t ∈ g.things, ∃ d, t = .dependency d) ∧ ∀ n ∈ g.names, n.startsWith "__" = false) ∧
    ∀ l, validate g = .ok l → g.things = l.map (fun e => Thing.dependency e.2) ∧ (l.map (·.1)).Nodup := by
  have hall : ∀ ts : List Thing, (∀ t ∈ ts, ∃ d, t = Thing.dependency d) ↔ ∃ ds : List Dep, ts = ds.map Thing.dependency := by
    intro ts
    induction ts with
    | nil => exact ⟨fun _ => ⟨[], rfl⟩, fun _ => by simp⟩
    | cons t ts ih =>
      constructor
      · intro h
        obtain ⟨d, rfl⟩ := h t (by simp)
        obtain ⟨ds, rfl⟩ := ih.1 (fun t ht => h t (List.mem_cons_of_mem _ ht))
        exact ⟨d :: ds, rfl⟩
      · rintro ⟨ds, hds⟩ t ht
        rw [hds] at ht
        obtain ⟨d, -, rfl⟩ := List.mem_map.1 ht
        exact ⟨d, rfl⟩
  rw [hall]
  cases g with
  | nothing =>
    refine ⟨⟨fun _ => ⟨⟨[], rfl⟩, by simp [Given.names]⟩, fun _ => ⟨[], rfl⟩⟩, ?_⟩
    intro l hl
    cases hl
    exact ⟨rfl, List.nodup_nil⟩
  | mapping items =>
    have hc := collect_named items 0 [] (by simpa [Given.Proper, Given.names] using hg)
    constructor
    · constructor
      · rintro ⟨l, hl⟩
        obtain ⟨hn, ds, hds, -⟩ := (hc l).1 hl
        exact ⟨⟨ds, hds⟩, hn⟩
      · rintro ⟨⟨ds, hds⟩, hn⟩
        exact ⟨_, (hc _).2 ⟨hn, ds, hds, rfl⟩⟩
    · intro l hl
      obtain ⟨hn, ds, hds, rfl⟩ := (hc l).1 hl
      have hlen : (items.map (·.1)).length = ds.length := by
        have := congrArg List.length hds
        simpa using this
      have h1 : ((items.map (·.1)).zip ds).map (·.1) = items.map (·.1) := List.map_fst_zip (by omega)
      have h2 : ((items.map (·.1)).zip ds).map (·.2) = ds := List.map_snd_zip (by omega)
      refine ⟨?_, ?_⟩
      · show items.map (·.2) = _
        rw [hds, List.nil_append]
        rw [show (fun e : String × Dep => Thing.dependency e.2) = Thing.dependency ∘ (·.2) from rfl, ← List.map_map, h2]
      · rw [List.nil_append, h1]; exact hg
  | sequence items =>
    have hc := collect_placed items 0 [] (by simp)
    constructor
    · constructor
      · rintro ⟨l, hl⟩
        obtain ⟨ds, hds, -⟩ := (hc l).1 hl
        exact ⟨⟨ds, hds⟩, by simp [Given.names]⟩
      · rintro ⟨⟨ds, hds⟩, -⟩
        exact ⟨_, (hc _).2 ⟨ds, hds, rfl⟩⟩
    · intro l hl
      obtain ⟨ds, hds, rfl⟩ := (hc l).1 hl
      have h1 : (((List.range' 0 ds.length).map positionName).zip ds).map (·.1) = (List.range' 0 ds.length).map positionName :=
        List.map_fst_zip (by simp)
      have h2 : (((List.range' 0 ds.length).map positionName).zip ds).map (·.2) = ds := List.map_snd_zip (by simp)
      refine ⟨?_, ?_⟩
      · show items = _
        rw [hds, List.nil_append]
        rw [show (fun e : String × Dep => Thing.dependency e.2) = Thing.dependency ∘ (·.2) from rfl, ← List.map_map, h2]
      · rw [List.nil_append, h1]
        exact List.Pairwise.map _ (fun a b hab h => hab (positionName_inj h)) (List.nodup_range' (step := 1))

/-- Beside it: two dependencies under names, and three in a row. -/
example : ∃ l, validate (.mapping [("retry", .dependency ⟨[], .value ⟨"r", false, true, false⟩⟩), ("db", .dependency ⟨[], .value ⟨"d", false, false, false⟩⟩)]) = .ok l :=
  (C106_accepted _ (by simp [Given.Proper, Given.names])).1.2 (by simp [Given.things, Given.names])
example : ∃ l, validate (.sequence [.dependency ⟨[], .cancelled⟩, .dependency ⟨[], .cancelled⟩, .dependency ⟨[], .cancelled⟩]) = .ok l :=
  (C106_accepted _ (by simp [Given.Proper, Given.names])).1.2 (by simp [Given.things, Given.names])

/-- What is wrong with an item, if anything, seen by itself: a name that begins with two underscores
comes before a thing that is no dependency; the latter is called by its name or by its place. -/
def fault (index : Nat) (name : Option String) (t : Thing) : Option Refusal :=
  match name, t with
  | some n, .dependency _ => if n.startsWith "__" then some (.reserved n) else none
  | some n, .other ty => if n.startsWith "__" then some (.reserved n) else some (.notADependency n ty)
  | none, .dependency _ => none
  | none, .other ty => some (.notADependency ("index " ++ String.ofList (Decimal.dec index)) ty)

theorem collect_error (items : List (Option String × Thing)) (i : Nat) (acc : List (String × Dep)) (e : Refusal) :
    collect i items acc = .error e ↔
      ∃ before it after, items = before ++ it :: after ∧ fault (i + before.length) it.1 it.2 = some e ∧
        ∀ j (h : j < before.length), fault (i + j) before[j].1 before[j].2 = none := by
  induction items generalizing i acc with
  | nil =>
    simp only [collect]
    constructor
    · intro h; cases h
    · rintro ⟨b, it, a, h, -⟩; simp at h
  | cons x items ih =>
    have hstep : ∀ acc', (collect (i + 1) items acc' = .error e ∧ fault i x.1 x.2 = none) →
        ∃ before it after, x :: items = before ++ it :: after ∧ fault (i + before.length) it.1 it.2 = some e ∧
        ∀ j (h : j < before.length), fault (i + j) before[j].1 before[j].2 = none := by
      rintro acc' ⟨h, hx⟩
      obtain ⟨b, it, a, rfl, h1, h2⟩ := (ih (i + 1) acc').1 h
      refine ⟨x :: b, it, a, rfl, by rw [← h1]; congr 1; simp; omega, ?_⟩
      intro j hj
      cases j with
      | zero => exact hx
      | succ j =>
        have := h2 j (by simpa using hj)
        rw [← this]
        simp only [List.getElem_cons_succ]
        congr 1; omega
    have hback : ∀ acc', fault i x.1 x.2 = none →
        (∃ before it after, x :: items = before ++ it :: after ∧ fault (i + before.length) it.1 it.2 = some e ∧
        ∀ j (h : j < before.length), fault (i + j) before[j].1 before[j].2 = none) → collect (i + 1) items acc' = .error e := by
      rintro acc' hx ⟨b, it, a, h, h1, h2⟩
      cases b with
      | nil =>
        simp only [List.nil_append, List.cons.injEq] at h
        rw [← h.1] at h1
        simp only [List.length_nil, Nat.add_zero, hx] at h1
        cases h1
      | cons y b =>
        simp only [List.cons_append, List.cons.injEq] at h
        refine (ih (i + 1) acc').2 ⟨b, it, a, h.2, by rw [← h1]; congr 1; simp; omega, ?_⟩
        intro j hj
        have := h2 (j + 1) (by simpa using hj)
        rw [← this]
        simp only [List.getElem_cons_succ]
        congr 1; omega
    have hhere : ∀ e', fault i x.1 x.2 = some e' →
        ((Except.error e' : Except Refusal (List (String × Dep))) = .error e ↔
        ∃ before it after, x :: items = before ++ it :: after ∧ fault (i + before.length) it.1 it.2 = some e ∧
        ∀ j (h : j < before.length), fault (i + j) before[j].1 before[j].2 = none) := by
      intro e' he
      constructor
      · intro h
        cases h
        exact ⟨[], x, items, rfl, he, by simp⟩
      · rintro ⟨b, it, a, h, h1, h2⟩
        cases b with
        | nil =>
          simp only [List.nil_append, List.cons.injEq] at h
          rw [← h.1] at h1
          simp only [List.length_nil, Nat.add_zero, he, Option.some.injEq] at h1
          rw [h1]
        | cons y b =>
          simp only [List.cons_append, List.cons.injEq] at h
          have := h2 0 (by simp)
          simp only [List.getElem_cons_zero, Nat.add_zero] at this
          rw [← h.1, he] at this
          cases this
    obtain ⟨n, t⟩ := x
    cases n with
    | none =>
      cases t with
      | dependency d => exact ⟨fun h => hstep _ ⟨h, rfl⟩, fun h => hback _ rfl h⟩
      | other ty => exact hhere _ rfl
    | some n =>
      simp only [collect]
      by_cases hn : n.startsWith "__" = true
      · rw [if_pos hn]
        refine hhere _ ?_
        cases t <;> simp [fault, hn]
      · rw [if_neg hn]
        cases t with
        | dependency d => exact ⟨fun h => hstep _ ⟨h, by simp [fault, hn]⟩, fun h => hback _ (by simp [fault, hn]) h⟩
        | other ty => exact hhere _ (by simp [fault, hn])

/-- **C106**: a worker is refused for the first item with a fault, and told which. -/
theorem C106_refused (g : Given) (e : Refusal) :
    validate g = .error e ↔
      ∃ before it after, g.items = before ++ it :: after ∧ fault before.length it.1 it.2 = some e ∧
        ∀ j (h : j < before.length), fault j before[j].1 before[j].2 = none := by
  have := collect_error g.items 0 [] e
  simp only [Nat.zero_add] at this
  exact this

/-- Beside it: the second of two is a number. -/
example : validate (.sequence [.dependency ⟨[], .cancelled⟩, .other "int"]) = .error (.notADependency "index 1" "int") :=
  (C106_refused _ _).2 ⟨[(none, .dependency ⟨[], .cancelled⟩)], (none, .other "int"), [], rfl, by decide +kernel, by
    intro j hj
    obtain rfl : j = 0 := by simpa using hj
    rfl⟩

/-- **C106**: no task is called by the worker unless every one of the dependencies it was given was
entered for it and gave a value. -/
theorem C106_in_force (g : Given) (hg : g.Proper) (w : World) (hv : validate g = .ok w.workerDeps)
    (hp : Dict w.func.params) (ha : Dict w.func.annotations) (hk : Dict w.kwargs)
    (hplain : ∀ n ∈ w.func.params.map (·.1) ++ w.func.annotations.map (·.1) ++ w.kwargs.map (·.1),
      n.startsWith "__worker_dep__" = false)
    {kw : List (String × Val)} (h : Eff.called kw ∈ (execute w).1) :
    ∀ t ∈ g.things, ∃ d v, t = .dependency d ∧ d.entered = .value v ∧ ∀ x ∈ d.opens, x ∈ (resolve w).opened := by
  obtain ⟨hth, hnd⟩ := (C106_accepted g hg).2 _ hv
  have hn : NamesOK w := ⟨hnd, hp, ha, hk,
    fun e he => hplain e.1 (by simp only [List.mem_append, List.mem_map]; exact .inl (.inl ⟨e, he, rfl⟩)),
    fun e he => hplain e.1 (by simp only [List.mem_append, List.mem_map]; exact .inl (.inr ⟨e, he, rfl⟩)),
    fun e he => hplain e.1 (by simp only [List.mem_append, List.mem_map]; exact .inr ⟨e, he, rfl⟩)⟩
  obtain ⟨h1, h2, h3, h4, h5⟩ := called_block h
  have hr := resolved w hn h3
  intro t ht
  rw [hth] at ht
  obtain ⟨⟨n, d⟩, hm, rfl⟩ := List.mem_map.1 ht
  obtain ⟨ho, hsome, hl⟩ := hr.worker n d hm
  have hl' := hl.resolve_right (not_failed_of h4)
  cases he : d.entered with
  | value v => exact ⟨d, v, rfl, he, ho⟩
  | error er =>
    rw [he] at hl'
    exact absurd ⟨_, _, hl'⟩ (not_failed_of h4)
  | cancelled => rw [he] at hsome; simp [slotOf] at hsome

/-- Beside it: a worker with a retry policy and a connection, and a task without parameters. -/
def furnished : World :=
  { func := { positional := [], params := [], annotations := [] }
    workerDeps := [(positionName 0, ⟨[1], .value ⟨"retry", false, true, false⟩⟩), (positionName 1, ⟨[2], .value ⟨"db", false, false, false⟩⟩)]
    body := fun _ => .returned true }

example : validate (.sequence [.dependency ⟨[1], .value ⟨"retry", false, true, false⟩⟩, .dependency ⟨[2], .value ⟨"db", false, false, false⟩⟩])
    = .ok furnished.workerDeps :=
  (collect_placed _ 0 [] (by simp) _).2 ⟨[⟨[1], .value ⟨"retry", false, true, false⟩⟩, ⟨[2], .value ⟨"db", false, false, false⟩⟩], rfl, rfl⟩
example : Eff.called [] ∈ (execute furnished).1 := by decide +kernel

end Docket.Execute
