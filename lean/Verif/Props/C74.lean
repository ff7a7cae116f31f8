import Verif.Worker.TaskArgument

/-! # C74: a dependency that asks for a task argument gets the value the task gets -/

namespace Docket.TaskArg

variable {α : Type}

/-! ## Specification -/

/-- Python's rules: the caller of the task passes the value `v` for the parameter `n`. -/
inductive Passes (w : World α) (kwargs : List (Text × α)) : Text → α → Prop where
  | position (i : Nat) (p : Param α) (v : α) : w.sig.pos[i]? = some p → w.args[i]? = some v → Passes w kwargs p.name v
  | keyword (p : Param α) (v : α) : p ∈ w.sig.pos ++ w.sig.kwOnly → (p.name, v) ∈ kwargs → Passes w kwargs p.name v
  | rest (n : Text) : w.sig.star = some n → w.sig.pos.length < w.args.length →
      Passes w kwargs n (w.tuple (w.args.drop w.sig.pos.length))
  | named (n : Text) (l : List (Text × α)) : w.sig.stars = some n → l ≠ [] →
      l = kwargs.filter (fun e => decide (∀ p ∈ w.sig.pos ++ w.sig.kwOnly, p.name ≠ e.1)) →
      Passes w kwargs n (w.dict l)

/-- The name a `TaskArgument` standing at the parameter `n` asks for: its own, or `n`. -/
inductive Names (objs : Heap) (n : Text) (o : Nat) : Text → Prop where
  | here : (objs o).parameter = none → Names objs n o n
  | empty : (objs o).parameter = some [] → Names objs n o n
  | own (p : Text) : (objs o).parameter = some p → p ≠ [] → Names objs n o p

/-- The names asked for by a dependency standing at the parameter `n`, at any depth. -/
inductive Asks (w : World α) (objs : Heap) : Text → Dep α → Text → Prop where
  | arg (n : Text) (o : Nat) (p : Text) : Names objs n o p → Asks w objs n (.arg o) p
  | inside (n : Text) (f : Nat) (m : Text) (d : Dep α) (p : Text) : (m, d) ∈ w.factories f → Asks w objs m d p →
      Asks w objs n (.depends f) p

mutual
/-- The value of a dependency standing at the parameter `n`, if the task's arguments are those
in `look`: a `TaskArgument` is the argument it names (`None` if it is optional and there is
none), and `Depends(f)` is what `f` makes of its own dependencies. -/
inductive Gets (w : World α) (objs : Heap) (look : Text → α → Prop) : Text → Dep α → α → Prop where
  | plain (n : Text) (v : α) : Gets w objs look n (.plain v) v
  | arg (n : Text) (o : Nat) (p : Text) (v : α) : Names objs n o p → look p v → Gets w objs look n (.arg o) v
  | absent (n : Text) (o : Nat) (p : Text) : Names objs n o p → (∀ v, ¬ look p v) → (objs o).optional = true →
      Gets w objs look n (.arg o) w.none
  | depends (n : Text) (f : Nat) (vs : List (Text × α)) (v : α) : GetsAll w objs look (w.factories f) vs →
      w.make f vs = some v → Gets w objs look n (.depends f) v
inductive GetsAll (w : World α) (objs : Heap) (look : Text → α → Prop) : List (Text × Dep α) → List (Text × α) → Prop where
  | nil : GetsAll w objs look [] []
  | cons (n : Text) (d : Dep α) (ps : List (Text × Dep α)) (v : α) (vs : List (Text × α)) : Gets w objs look n d v →
      GetsAll w objs look ps vs → GetsAll w objs look ((n, d) :: ps) ((n, v) :: vs)
end

/-- The `TaskArgument` object `o` is the default of a parameter called `n`. -/
def StandsAt (w : World α) (o : Nat) (n : Text) : Prop :=
  (∃ f, (n, Dep.arg o) ∈ w.factories f) ∨ (n, Dep.arg o) ∈ w.sig.depParams

/-- A `TaskArgument` without a name stands at parameters of one name only. -/
def OwnObjects (w : World α) (objs : Heap) : Prop :=
  ∀ o n m, (objs o).parameter = none ∨ (objs o).parameter = some [] → StandsAt w o n → StandsAt w o m → n = m

/-- What Python itself makes sure of: parameters have different names, keyword arguments too,
and other executions enter `TaskArgument` objects where they stand. -/
structure Python (w : World α) : Prop where
  names : (w.sig.pos.map (·.name) ++ w.sig.star.toList ++ w.sig.kwOnly.map (·.name) ++ w.sig.stars.toList).Nodup
  kwargs : (w.kwargs.map (·.1)).Nodup
  others : ∀ t, ∀ e ∈ w.others t, StandsAt w e.2 e.1

/-! ## Dicts -/

theorem find_some_mem {β : Type} {d : List (Text × β)} {n : Text} {v : β} (h : find d n = some v) : (n, v) ∈ d := by
  simp only [find, Option.map_eq_some_iff] at h
  obtain ⟨e, he, rfl⟩ := h
  have h1 := List.mem_of_find?_eq_some he
  have h2 := List.find?_some he
  simp only [decide_eq_true_eq] at h2
  rw [← h2]
  exact h1

theorem find_none {β : Type} {d : List (Text × β)} {n : Text} : find d n = none ↔ ∀ v, (n, v) ∉ d := by
  simp only [find, Option.map_eq_none_iff, List.find?_eq_none, decide_eq_true_eq]
  exact ⟨fun h v hv => h _ hv rfl, fun h e he hn => h e.2 (by rw [← hn]; exact he)⟩

theorem find_of_mem {β : Type} {d : List (Text × β)} (hd : (d.map (·.1)).Nodup) {n : Text} {v : β} (h : (n, v) ∈ d) :
    find d n = some v := by
  induction d with
  | nil => cases h
  | cons e d ih =>
    simp only [List.map_cons, List.nodup_cons] at hd
    rcases List.mem_cons.1 h with rfl | h
    · simp [find]
    · have : e.1 ≠ n := fun he => hd.1 (he ▸ List.mem_map_of_mem h)
      have ih := ih hd.2 h
      simp only [find] at ih ⊢
      rw [List.find?_cons_of_neg (by simpa using this)]
      exact ih

theorem find_put {β : Type} (d : List (Text × β)) (k n : Text) (v : β) :
    find (put d k v) n = if k = n then some v else find d n := by
  induction d with
  | nil => by_cases h : k = n <;> simp [put, find, h]
  | cons e d ih =>
    by_cases h : e.1 = k
    · by_cases h' : k = n <;> simp [put, find, h, h']
    · rw [put, if_neg h]
      by_cases h' : e.1 = n
      · have : k ≠ n := fun hk => h (h'.trans hk.symm)
        simp [find, h', this]
      · have key : ∀ l : List (Text × β), find (e :: l) n = find l n := by intro l; simp [find, h']
        rw [key, key, ih]

theorem keys_put {β : Type} (d : List (Text × β)) (k : Text) (v : β) (x : Text) :
    x ∈ (put d k v).map (·.1) ↔ x = k ∨ x ∈ d.map (·.1) := by
  induction d with
  | nil => simp [put]
  | cons e d ih =>
    by_cases h : e.1 = k
    · simp [put, h]
    · simp only [put, if_neg h, List.map_cons, List.mem_cons, ih]
      constructor
      · rintro (h | h | h) <;> simp [h]
      · rintro (h | h | h) <;> simp [h]

theorem nodup_put {β : Type} {d : List (Text × β)} (h : (d.map (·.1)).Nodup) (k : Text) (v : β) :
    ((put d k v).map (·.1)).Nodup := by
  induction d with
  | nil => simp [put]
  | cons e d ih =>
    simp only [List.map_cons, List.nodup_cons] at h
    by_cases hk : e.1 = k
    · rw [put, if_pos hk, List.map_cons, List.nodup_cons, ← hk]
      exact h
    · simp only [put, if_neg hk, List.map_cons, List.nodup_cons]
      refine ⟨?_, ih h.2⟩
      rw [keys_put]
      rintro (h' | h')
      · exact hk h'
      · exact h.1 h'

theorem nodup_union {β : Type} {a b : List (Text × β)} (h : (a.map (·.1)).Nodup) : ((union a b).map (·.1)).Nodup := by
  unfold union
  induction b generalizing a with
  | nil => exact h
  | cons e b ih => exact ih (nodup_put h _ _)

theorem keys_union {β : Type} (a b : List (Text × β)) (x : Text) :
    x ∈ (union a b).map (·.1) ↔ x ∈ a.map (·.1) ∨ x ∈ b.map (·.1) := by
  unfold union
  induction b generalizing a with
  | nil => simp
  | cons e b ih =>
    rw [List.foldl_cons, ih, keys_put, List.map_cons, List.mem_cons]
    constructor
    · rintro ((h | h) | h) <;> simp [h]
    · rintro (h | h | h) <;> simp [h]

theorem find_union {β : Type} (a b : List (Text × β)) (hb : (b.map (·.1)).Nodup) (n : Text) :
    find (union a b) n = match find b n with
      | some v => some v
      | none => find a n := by
  unfold union
  induction b generalizing a with
  | nil => simp [find]
  | cons e b ih =>
    simp only [List.map_cons, List.nodup_cons] at hb
    rw [List.foldl_cons, ih _ hb.2, find_put]
    by_cases h : e.1 = n
    · have : find b n = none := find_none.2 (fun v hv => hb.1 (h ▸ List.mem_map_of_mem hv))
      rw [this]
      simp [find, h]
    · simp only [if_neg h]
      have : find (e :: b) n = find b n := by simp [find, h]
      rw [this]

/-! ## Binding does what Python's rules say -/

theorem bindKw_mem {kwargs : List (Text × α)} (hk : (kwargs.map (·.1)).Nodup) {ps : List (Param α)} {b : List (Text × α)}
    (h : bindKw kwargs ps = some b) (n : Text) (v : α) :
    (n, v) ∈ b ↔ ∃ p ∈ ps, p.name = n ∧ (n, v) ∈ kwargs := by
  induction ps generalizing b with
  | nil => simp only [bindKw, Option.some.injEq] at h; subst h; simp
  | cons p ps ih =>
    rw [bindKw] at h
    cases hf : find kwargs p.name with
    | some u =>
      rw [hf] at h
      simp only [Option.map_eq_some_iff] at h
      obtain ⟨b', hb', rfl⟩ := h
      rw [List.mem_cons, ih hb']
      constructor
      · rintro (h | ⟨q, hq, h⟩)
        · cases h; exact ⟨p, List.mem_cons_self, rfl, find_some_mem hf⟩
        · exact ⟨q, List.mem_cons_of_mem _ hq, h⟩
      · rintro ⟨q, hq, rfl, h⟩
        rcases List.mem_cons.1 hq with rfl | hq
        · have := find_of_mem hk h
          rw [hf] at this
          exact .inl (by rw [Option.some.inj this])
        · exact .inr ⟨q, hq, rfl, h⟩
    | none =>
      rw [hf] at h
      have h : bindKw kwargs ps = some b := by
        cases hd : p.default with
        | required => simp [hd] at h
        | _ => simpa [hd] using h
      rw [ih h]
      constructor
      · rintro ⟨q, hq, h⟩; exact ⟨q, List.mem_cons_of_mem _ hq, h⟩
      · rintro ⟨q, hq, rfl, h⟩
        rcases List.mem_cons.1 hq with rfl | hq
        · exact (find_none.1 hf v (by assumption)).elim
        · exact ⟨q, hq, rfl, (by assumption)⟩

theorem bindPos_mem (w : World α) {kwargs : List (Text × α)} (hk : (kwargs.map (·.1)).Nodup) {ps : List (Param α)}
    {as : List α} {b : List (Text × α)} (h : bindPos w kwargs ps as = some b) (n : Text) (v : α) :
    (n, v) ∈ b ↔ (∃ (i : Nat) (p : Param α), ps[i]? = some p ∧ as[i]? = some v ∧ p.name = n) ∨
      (∃ p ∈ ps ++ w.sig.kwOnly, p.name = n ∧ (n, v) ∈ kwargs) ∨
      (w.sig.star = some n ∧ ps.length < as.length ∧ v = w.tuple (as.drop ps.length)) := by
  induction ps generalizing as b with
  | nil =>
    cases as with
    | nil => rw [bindPos] at h; rw [bindKw_mem hk h]; simp
    | cons a as =>
      rw [bindPos] at h
      cases hs : w.sig.star with
      | none => simp [hs] at h
      | some m =>
        simp only [hs, Option.map_eq_some_iff] at h
        obtain ⟨b', hb', rfl⟩ := h
        rw [List.mem_cons, bindKw_mem hk hb']
        constructor
        · rintro (h | h)
          · cases h; exact .inr (.inr ⟨rfl, by simp, by simp⟩)
          · exact .inr (.inl (by simpa using h))
        · rintro (⟨i, p, h, _⟩ | h | ⟨h, _, rfl⟩)
          · simp at h
          · exact .inr (by simpa using h)
          · cases h; exact .inl (by simp)
  | cons p ps ih =>
    cases as with
    | nil => rw [bindPos] at h; rw [bindKw_mem hk h]; simp
    | cons a as =>
      rw [bindPos] at h
      cases hf : find kwargs p.name with
      | some _ => simp [hf] at h
      | none =>
        simp only [hf, Option.map_eq_some_iff] at h
        obtain ⟨b', hb', rfl⟩ := h
        rw [List.mem_cons, ih hb']
        constructor
        · rintro (h | ⟨i, q, h⟩ | ⟨q, hq, h⟩ | h)
          · cases h; exact .inl ⟨0, p, by simp⟩
          · exact .inl ⟨i + 1, q, by simpa using h⟩
          · exact .inr (.inl ⟨q, by simp at hq ⊢; exact .inr hq, h⟩)
          · exact .inr (.inr (by simpa using h))
        · rintro (⟨i, q, h1, h2, h3⟩ | ⟨q, hq, h3, h⟩ | h)
          · cases i with
            | zero =>
              simp only [List.getElem?_cons_zero, Option.some.injEq] at h1 h2
              subst h1 h2 h3
              exact .inl rfl
            | succ i => exact .inr (.inl ⟨i, q, by simpa using h1, by simpa using h2, h3⟩)
          · simp only [List.cons_append, List.mem_cons] at hq
            rcases hq with rfl | hq
            · subst h3; exact absurd h (find_none.1 hf v)
            · exact .inr (.inr (.inl ⟨q, hq, h3, h⟩))
          · exact .inr (.inr (.inr (by simpa using h)))

theorem extra_eq (s : Sig α) (kwargs : List (Text × α)) :
    extra s kwargs = kwargs.filter (fun e => decide (∀ p ∈ s.pos ++ s.kwOnly, p.name ≠ e.1)) := by
  unfold extra
  congr 1
  funext e
  rw [Bool.eq_iff_iff]
  simp [or_imp, forall_and]

/-- `Signature.bind` gives a parameter exactly what the caller passes for it. -/
theorem bind_mem (w : World α) {kwargs : List (Text × α)} (hk : (kwargs.map (·.1)).Nodup) {b : List (Text × α)}
    (h : bind w kwargs = some b) (n : Text) (v : α) : (n, v) ∈ b ↔ Passes w kwargs n v := by
  have key : ∀ b0, bindPos w kwargs w.sig.pos w.args = some b0 →
      ((n, v) ∈ b ↔ (n, v) ∈ b0 ∨ (w.sig.stars = some n ∧ extra w.sig kwargs ≠ [] ∧ v = w.dict (extra w.sig kwargs))) := by
    intro b0 hb0
    unfold bind at h
    rw [hb0] at h
    cases he : extra w.sig kwargs with
    | nil => simp only [he, Option.some.injEq] at h; subst h; simp
    | cons e es =>
      cases hs : w.sig.stars with
      | none => simp [he, hs] at h
      | some m =>
        simp only [he, hs, Option.some.injEq] at h
        subst h
        simp only [List.mem_append, List.mem_singleton, Prod.mk.injEq, Option.some.injEq, ne_eq, reduceCtorEq,
          not_false_eq_true, true_and]
        constructor
        · rintro (h | ⟨rfl, rfl⟩)
          · exact .inl h
          · exact .inr ⟨rfl, rfl⟩
        · rintro (h | ⟨rfl, rfl⟩)
          · exact .inl h
          · exact .inr ⟨rfl, rfl⟩
  cases hb0 : bindPos w kwargs w.sig.pos w.args with
  | none => simp [bind, hb0] at h
  | some b0 =>
    rw [key b0 hb0, bindPos_mem w hk hb0]
    constructor
    · rintro ((⟨i, p, h1, h2, rfl⟩ | ⟨p, hp, rfl, h⟩ | ⟨h1, h2, rfl⟩) | ⟨h1, h2, rfl⟩)
      · exact .position i p v h1 h2
      · exact .keyword p v hp h
      · exact .rest n h1 h2
      · exact .named n _ h1 h2 (extra_eq _ _)
    · rintro (⟨i, p, _, h1, h2⟩ | ⟨p, _, hp, h⟩ | ⟨_, h1, h2⟩ | ⟨_, l, h1, h2, rfl⟩)
      · exact .inl (.inl ⟨i, p, h1, h2, rfl⟩)
      · exact .inl (.inr (.inl ⟨p, hp, rfl, h⟩))
      · exact .inl (.inr (.inr ⟨h1, h2, rfl⟩))
      · refine .inr ⟨h1, ?_, ?_⟩ <;> rw [extra_eq]
        exact h2

theorem bindKw_keys {kwargs : List (Text × α)} {ps : List (Param α)} {b : List (Text × α)} (h : bindKw kwargs ps = some b) :
    (b.map (·.1)).Sublist (ps.map (·.name)) := by
  induction ps generalizing b with
  | nil => simp only [bindKw, Option.some.injEq] at h; subst h; simp
  | cons p ps ih =>
    rw [bindKw] at h
    cases hf : find kwargs p.name with
    | some u =>
      rw [hf] at h
      simp only [Option.map_eq_some_iff] at h
      obtain ⟨b', hb', rfl⟩ := h
      exact (ih hb').cons_cons _
    | none =>
      rw [hf] at h
      have h : bindKw kwargs ps = some b := by
        cases hd : p.default with
        | required => simp [hd] at h
        | _ => simpa [hd] using h
      exact (ih h).cons _

theorem bindPos_keys (w : World α) {kwargs : List (Text × α)} {ps : List (Param α)} {as : List α} {b : List (Text × α)}
    (h : bindPos w kwargs ps as = some b) :
    (b.map (·.1)).Sublist (ps.map (·.name) ++ w.sig.star.toList ++ w.sig.kwOnly.map (·.name)) := by
  induction ps generalizing as b with
  | nil =>
    cases as with
    | nil =>
      rw [bindPos] at h
      exact (bindKw_keys h).trans (by simp)
    | cons a as =>
      rw [bindPos] at h
      cases hs : w.sig.star with
      | none => simp [hs] at h
      | some m =>
        simp only [hs, Option.map_eq_some_iff] at h
        obtain ⟨b', hb', rfl⟩ := h
        exact (bindKw_keys hb').cons_cons _
  | cons p ps ih =>
    cases as with
    | nil =>
      rw [bindPos] at h
      refine (bindKw_keys h).trans ?_
      simp only [List.map_append, List.cons_append, List.map_cons, List.append_assoc]
      exact List.Sublist.cons_cons _ (List.Sublist.append_left (List.sublist_append_right _ _) _)
    | cons a as =>
      rw [bindPos] at h
      cases hf : find kwargs p.name with
      | some _ => simp [hf] at h
      | none =>
        simp only [hf, Option.map_eq_some_iff] at h
        obtain ⟨b', hb', rfl⟩ := h
        exact (ih hb').cons_cons _

theorem bind_keys (w : World α) {kwargs : List (Text × α)} {b : List (Text × α)} (h : bind w kwargs = some b) :
    (b.map (·.1)).Sublist (w.sig.pos.map (·.name) ++ w.sig.star.toList ++ w.sig.kwOnly.map (·.name) ++ w.sig.stars.toList) := by
  unfold bind at h
  cases hb0 : bindPos w kwargs w.sig.pos w.args with
  | none => simp [hb0] at h
  | some b0 =>
    have hs0 := bindPos_keys w hb0
    rw [hb0] at h
    cases he : extra w.sig kwargs with
    | nil =>
      simp only [he, Option.some.injEq] at h
      subst h
      exact hs0.trans (List.sublist_append_left _ _)
    | cons e es =>
      cases hs : w.sig.stars with
      | none => simp [he, hs] at h
      | some m =>
        simp only [he, hs, Option.some.injEq] at h
        subst h
        rw [List.map_append]
        exact hs0.append (by simp)

theorem bind_find (w : World α) {kwargs : List (Text × α)} (hn : (w.sig.pos.map (·.name) ++ w.sig.star.toList ++
      w.sig.kwOnly.map (·.name) ++ w.sig.stars.toList).Nodup) (hk : (kwargs.map (·.1)).Nodup) {b : List (Text × α)}
    (h : bind w kwargs = some b) (n : Text) (v : α) : find b n = some v ↔ Passes w kwargs n v := by
  rw [← bind_mem w hk h]
  exact ⟨find_some_mem, find_of_mem (hn.sublist (bind_keys w h))⟩

/-! ## Resolving -/

theorem missing_iff (o : Obj) : o.missing = true ↔ o.parameter = none ∨ o.parameter = some [] := by simp [Obj.missing]

/-- The objects differ from how they were created only in names taken from where they stand. -/
def HeapOk (w : World α) (objs h : Heap) : Prop :=
  ∀ o, (h o).optional = (objs o).optional ∧
    ((h o).parameter = (objs o).parameter ∨ ((objs o).missing = true ∧ ∃ n, StandsAt w o n ∧ (h o).parameter = some n))

theorem HeapOk.infer {w : World α} {objs h : Heap} (hh : HeapOk w objs h) {n : Text} {o : Nat} (hs : StandsAt w o n) :
    HeapOk w objs (infer n o h) := by
  intro o'
  unfold TaskArg.infer
  by_cases hm : (h o).missing = true
  · rw [if_pos hm]
    by_cases ho : o' = o
    · subst ho
      simp only [if_pos]
      refine ⟨(hh o').1, .inr ⟨?_, n, hs, rfl⟩⟩
      rcases (hh o').2 with h' | ⟨h', _⟩
      · rw [missing_iff, ← h', ← missing_iff]; exact hm
      · exact h'
    · simp only [if_neg ho]; exact hh o'
  · rw [if_neg hm]; exact hh o'

/-- What is in the state while dependencies are resolved. -/
structure Sound (w : World α) (objs : Heap) (s : St α) : Prop where
  heap : HeapOk w objs s.heap
  cache : ∀ e ∈ s.cache, ∀ n, Gets w objs (Passes w w.kwargs) n (.depends e.1) e.2

theorem Sound.meanwhile {w : World α} (hp : Python w) {objs : Heap} {s : St α} (hs : Sound w objs s) :
    Sound w objs (meanwhile w s) := by
  refine ⟨?_, hs.cache⟩
  have : ∀ l : List (Text × Nat), (∀ e ∈ l, StandsAt w e.2 e.1) → ∀ h, HeapOk w objs h →
      HeapOk w objs (l.foldl (fun h e => infer e.1 e.2 h) h) := by
    intro l
    induction l with
    | nil => intro _ h hh; exact hh
    | cons e l ih => intro hl h hh; exact ih (fun x hx => hl x (List.mem_cons_of_mem _ hx)) _ (hh.infer (hl e List.mem_cons_self))
  exact this _ (hp.others _) _ hs.heap

/-- A `TaskArgument` carries the name it is to ask for. -/
def Ready (objs : Heap) (s : St α) (n : Text) (d : Dep α) : Prop :=
  ∀ o, d = .arg o → ∃ p, (s.heap o).parameter = some p ∧ Names objs n o p

theorem names_of_ok {w : World α} {objs h : Heap} (ho : OwnObjects w objs) (hh : HeapOk w objs h) {n : Text} {o : Nat}
    (hs : StandsAt w o n) (hm : (h o).missing = false) : ∃ p, (h o).parameter = some p ∧ Names objs n o p := by
  cases hp : (h o).parameter with
  | none => simp [Obj.missing, hp] at hm
  | some p =>
    refine ⟨p, rfl, ?_⟩
    have hne : p ≠ [] := by rintro rfl; simp [Obj.missing, hp] at hm
    rcases (hh o).2 with h' | ⟨h', m, hm', hpm⟩
    · exact .own p (h' ▸ hp) hne
    · rw [hp, Option.some.injEq] at hpm
      subst hpm
      have := ho o n p ((missing_iff _).1 h') hs hm'
      subst this
      rcases (missing_iff _).1 h' with h' | h'
      · exact .here h'
      · exact .empty h'

theorem ready_infer {w : World α} {objs : Heap} (ho : OwnObjects w objs) {s : St α} (hh : HeapOk w objs s.heap) {n : Text}
    {d : Dep α} (hs : ∀ o, d = .arg o → StandsAt w o n) :
    HeapOk w objs (inferAt n d s.heap) ∧ Ready objs { s with heap := inferAt n d s.heap } n d := by
  cases d with
  | plain v => exact ⟨hh, fun o h => by cases h⟩
  | depends f => exact ⟨hh, fun o h => by cases h⟩
  | arg o =>
    have hs := hs o rfl
    have hh' := hh.infer hs
    refine ⟨hh', ?_⟩
    rintro o' h
    cases h
    by_cases hm : (s.heap o).missing = true
    · refine ⟨n, by simp [inferAt, infer, hm], ?_⟩
      rcases (hh o).2 with h' | ⟨h', _⟩
      · rcases (missing_iff _).1 hm with h | h
        · exact .here (h' ▸ h)
        · exact .empty (h' ▸ h)
      · rcases (missing_iff _).1 h' with h' | h'
        · exact .here h'
        · exact .empty h'
    · have : inferAt n (Dep.arg (α := α) o) s.heap = s.heap := by simp [inferAt, infer, hm]
      simp only [this]
      exact names_of_ok ho hh hs (by simpa using hm)

theorem enterArg_gets {w : World α} (hp : Python w) {objs : Heap} {n : Text} {o : Nat} {p : Text} {ob : Obj}
    (hop : ob.optional = (objs o).optional) (hpar : ob.parameter = some p) (hn : Names objs n o p) {v : α}
    (h : enterArg w ob = some v) : Gets w objs (Passes w w.kwargs) n (.arg o) v := by
  unfold enterArg at h
  rw [hpar] at h
  cases hb : bind w w.kwargs with
  | none => simp [hb] at h
  | some b =>
    have hf := bind_find w hp.names hp.kwargs hb p
    cases hfb : find b p with
    | some u =>
      simp only [hb, hfb, Option.some.injEq] at h
      subst h
      exact .arg n o p u hn ((hf u).1 hfb)
    | none =>
      by_cases hopt : ob.optional = true
      · simp only [hb, hfb, hopt, if_true, Option.some.injEq] at h
        subst h
        refine .absent n o p hn (fun v hv => ?_) (hop ▸ hopt)
        have := (hf v).2 hv
        rw [hfb] at this
        cases this
      · simp [hb, hfb, hopt] at h

theorem resolveParams_sound {w : World α} (hp : Python w) {objs : Heap} (ho : OwnObjects w objs)
    {go : Dep α → St α → Option α × St α}
    (hgo : ∀ d s n, Sound w objs s → Sound w objs (go d s).2 ∧
      (Ready objs s n d → ∀ v, (go d s).1 = some v → Gets w objs (Passes w w.kwargs) n d v))
    (ps : List (Text × Dep α)) (hst : ∀ n o, (n, Dep.arg o) ∈ ps → StandsAt w o n) (s : St α) (hs : Sound w objs s) :
    Sound w objs (resolveParams w go ps s).2 ∧
      ∀ vs, (resolveParams w go ps s).1 = some vs → GetsAll w objs (Passes w w.kwargs) ps vs := by
  induction ps generalizing s with
  | nil =>
    refine ⟨hs, fun vs h => ?_⟩
    simp only [resolveParams, Option.some.injEq] at h
    subst h
    exact .nil
  | cons e ps ih =>
    obtain ⟨n, d⟩ := e
    have hr := ready_infer ho (s := meanwhile w s) (n := n) (d := d) (hs.meanwhile hp).heap
      (fun o h => hst n o (h ▸ List.mem_cons_self))
    obtain ⟨h1, h2⟩ := hgo d { meanwhile w s with heap := inferAt n d (meanwhile w s).heap } n
      ⟨hr.1, (hs.meanwhile hp).cache⟩
    have h2 := h2 hr.2
    rw [resolveParams]
    generalize go d { meanwhile w s with heap := inferAt n d (meanwhile w s).heap } = r at h1 h2
    obtain ⟨r, s1⟩ := r
    cases r with
    | none => exact ⟨h1, fun vs h => by cases h⟩
    | some v =>
      obtain ⟨h3, h4⟩ := ih (fun n o h => hst n o (List.mem_cons_of_mem _ h)) s1 h1
      simp only
      generalize resolveParams w go ps s1 = q at h3 h4
      obtain ⟨q, s2⟩ := q
      cases q with
      | none => exact ⟨h3, fun vs h => by cases h⟩
      | some vs =>
        refine ⟨h3, fun vs' h => ?_⟩
        simp only [Option.some.injEq] at h
        subst h
        exact .cons n d ps v vs (h2 v rfl) (h4 vs rfl)

theorem enter_sound {w : World α} (hp : Python w) {objs : Heap} (ho : OwnObjects w objs) (depth : Nat) :
    ∀ d s n, Sound w objs s → Sound w objs (enter w depth d s).2 ∧
      (Ready objs s n d → ∀ v, (enter w depth d s).1 = some v → Gets w objs (Passes w w.kwargs) n d v) := by
  induction depth with
  | zero =>
    intro d s n hs
    cases d with
    | plain v =>
      refine ⟨hs, fun _ u h => ?_⟩
      simp only [enter, Option.some.injEq] at h
      subst h
      exact .plain n v
    | arg o =>
      refine ⟨hs, fun hr v h => ?_⟩
      obtain ⟨p, h1, h2⟩ := hr o rfl
      exact enterArg_gets hp (hs.heap o).1 h1 h2 h
    | depends f => exact ⟨hs, fun _ v h => by cases h⟩
  | succ depth ih =>
    intro d s n hs
    cases d with
    | plain v =>
      refine ⟨hs, fun _ u h => ?_⟩
      simp only [enter, Option.some.injEq] at h
      subst h
      exact .plain n v
    | arg o =>
      refine ⟨hs, fun hr v h => ?_⟩
      obtain ⟨p, h1, h2⟩ := hr o rfl
      exact enterArg_gets hp (hs.heap o).1 h1 h2 h
    | depends f =>
      rw [enter]
      cases hc : s.cache.find? (fun e => e.1 = f) with
      | some e =>
        refine ⟨hs, fun _ v h => ?_⟩
        simp only [Option.some.injEq] at h
        subst h
        have h1 := List.find?_some hc
        simp only [decide_eq_true_eq] at h1
        subst h1
        exact hs.cache e (List.mem_of_find?_eq_some hc) n
      | none =>
        obtain ⟨h1, h2⟩ := resolveParams_sound hp ho ih (w.factories f) (fun n o h => .inl ⟨f, h⟩) s hs
        simp only
        generalize resolveParams w (enter w depth) (w.factories f) s = q at h1 h2
        obtain ⟨q, s1⟩ := q
        cases q with
        | none => exact ⟨h1, fun _ v h => by cases h⟩
        | some vs =>
          simp only
          cases hm : w.make f vs with
          | none => exact ⟨h1, fun _ v h => by cases h⟩
          | some v =>
            refine ⟨⟨h1.heap, ?_⟩, fun _ u h => ?_⟩
            · intro e he m
              rcases List.mem_cons.1 he with rfl | he
              · exact .depends m f vs v (h2 vs rfl) hm
              · exact h1.cache e he m
            · simp only [Option.some.injEq] at h
              subst h
              exact .depends n f vs v (h2 vs rfl) hm

theorem resolveWorker_sound {w : World α} (hp : Python w) {objs : Heap} (ho : OwnObjects w objs) (ds : List (Dep α))
    (s : St α) (hs : Sound w objs s) : Sound w objs (resolveWorker w ds s).2 := by
  induction ds generalizing s with
  | nil => exact hs
  | cons d ds ih =>
    rw [resolveWorker]
    exact ih _ ((enter_sound hp ho _ d _ [] (hs.meanwhile hp)).1)

theorem resolveParam_sound {w : World α} (hp : Python w) {objs : Heap} (ho : OwnObjects w objs) {n : Text} {d : Dep α}
    (hst : ∀ o, d = .arg o → StandsAt w o n) (s : St α) (hs : Sound w objs s) :
    Sound w objs (resolveParam w n d s).2 ∧ ∀ v, (resolveParam w n d s).1 = some v →
      find w.kwargs n = some v ∨ find w.kwargs n = none ∧ Gets w objs (Passes w w.kwargs) n d v := by
  have hs' := hs.meanwhile hp
  unfold resolveParam
  cases hk : find w.kwargs n with
  | some u => exact ⟨hs, fun v h => .inl (by simpa using h)⟩
  | none =>
    cases d with
    | plain v => exact ⟨(enter_sound hp ho _ _ _ n hs').1, fun v h => .inr ⟨rfl, (enter_sound hp ho _ _ _ n hs').2 (fun o h => by cases h) v h⟩⟩
    | depends f => exact ⟨(enter_sound hp ho _ _ _ n hs').1, fun v h => .inr ⟨rfl, (enter_sound hp ho _ _ _ n hs').2 (fun o h => by cases h) v h⟩⟩
    | arg o =>
      by_cases hm : ((meanwhile w s).heap o).missing = true
      · simp only [hm, if_true]
        exact ⟨hs', fun v h => by cases h⟩
      · simp only [hm, Bool.false_eq_true, if_false]
        refine ⟨(enter_sound hp ho _ _ _ n hs').1, fun v h => .inr ⟨trivial, (enter_sound hp ho _ _ _ n hs').2 ?_ v h⟩⟩
        rintro o' ho'
        cases ho'
        exact names_of_ok ho hs'.heap (hst o rfl) (by simpa using hm)

theorem resolveTask_sound {w : World α} (hp : Python w) {objs : Heap} (ho : OwnObjects w objs) (ps : List (Text × Dep α))
    (hst : ∀ n o, (n, Dep.arg o) ∈ ps → StandsAt w o n) (s : St α) (hs : Sound w objs s) (vs : List (Text × α))
    (h : (resolveTask w ps s).1 = some vs) :
    vs.map (·.1) = ps.map (·.1) ∧ ∀ n d, (n, d) ∈ ps → ∃ v, (n, v) ∈ vs ∧
      (find w.kwargs n = some v ∨ find w.kwargs n = none ∧ Gets w objs (Passes w w.kwargs) n d v) := by
  induction ps generalizing s vs with
  | nil =>
    simp only [resolveTask, Option.some.injEq] at h
    subst h
    exact ⟨rfl, fun n d h => by cases h⟩
  | cons e ps ih =>
    obtain ⟨n, d⟩ := e
    obtain ⟨h1, h2⟩ := resolveParam_sound hp ho (n := n) (d := d) (fun o h => hst n o (h ▸ List.mem_cons_self)) s hs
    have ih := ih (fun n o h => hst n o (List.mem_cons_of_mem _ h)) (resolveParam w n d s).2 h1
    rw [resolveTask] at h
    generalize resolveParam w n d s = r at *
    obtain ⟨r, s1⟩ := r
    simp only at h ih
    generalize resolveTask w ps s1 = q at *
    obtain ⟨q, s2⟩ := q
    cases r with
    | none => simp at h
    | some v =>
      cases q with
      | none => simp at h
      | some us =>
        simp only [Option.some.injEq] at h
        subst h
        obtain ⟨h3, h4⟩ := ih us rfl
        refine ⟨by simp [h3], fun m d' hm => ?_⟩
        rcases List.mem_cons.1 hm with hm | hm
        · cases hm
          exact ⟨v, List.mem_cons_self, h2 v rfl⟩
        · obtain ⟨v', h5, h6⟩ := h4 m d' hm
          exact ⟨v', List.mem_cons_of_mem _ h5, h6⟩

/-! ## The call -/

theorem depParams_names (s : Sig α) : (s.depParams.map (·.1)).Sublist ((s.pos ++ s.kwOnly).map (·.name)) := by
  unfold Sig.depParams
  induction s.pos ++ s.kwOnly with
  | nil => simp
  | cons p l ih =>
    rw [List.filterMap_cons]
    cases p.default with
    | required => exact ih.cons _
    | value _ => exact ih.cons _
    | dep d => exact ih.cons_cons _

theorem mem_depParams {s : Sig α} {n : Text} {d : Dep α} :
    (n, d) ∈ s.depParams ↔ ∃ p ∈ s.pos ++ s.kwOnly, p.name = n ∧ p.default = .dep d := by
  simp only [Sig.depParams, List.mem_filterMap]
  constructor
  · rintro ⟨p, hp, h⟩
    cases hd : p.default with
    | required => simp [hd] at h
    | value _ => simp [hd] at h
    | dep d' =>
      simp only [hd, Option.some.injEq, Prod.mk.injEq] at h
      obtain ⟨h1, rfl⟩ := h
      exact ⟨p, hp, h1, hd⟩
  · rintro ⟨p, hp, rfl, hd⟩
    exact ⟨p, hp, by simp [hd]⟩

theorem Python.params {w : World α} (hp : Python w) : ((w.sig.pos ++ w.sig.kwOnly).map (·.name)).Nodup := by
  refine hp.names.sublist ?_
  rw [List.map_append]
  refine List.Sublist.trans ?_ (List.sublist_append_left _ _)
  rw [List.append_assoc]
  exact List.Sublist.append_left (List.sublist_append_right _ _) _

/-- What the body's parameters are made of. -/
theorem body_cases {w : World α} (hp : Python w) {objs : Heap} (ho : OwnObjects w objs) {fr : List (Text × α)}
    (h : body w objs = some fr) :
    ∃ deps, deps.map (·.1) = w.sig.depParams.map (·.1) ∧ call w (union w.kwargs deps) = some fr ∧
      ∀ n d, (n, d) ∈ w.sig.depParams → ∃ v, (n, v) ∈ deps ∧
        (find w.kwargs n = some v ∨ find w.kwargs n = none ∧ Gets w objs (Passes w w.kwargs) n d v) := by
  have hs0 : Sound w objs { heap := objs } := ⟨fun o => ⟨rfl, .inl rfl⟩, fun e he => by cases he⟩
  have hs1 := resolveWorker_sound hp ho w.worker _ hs0
  unfold body at h
  generalize resolveWorker w w.worker { heap := objs } = r at *
  obtain ⟨r, s1⟩ := r
  cases r with
  | false => simp at h
  | true =>
    have hk := resolveTask_sound hp ho w.sig.depParams (fun n o h => .inr h) s1 hs1
    simp only at h
    generalize resolveTask w w.sig.depParams s1 = q at *
    obtain ⟨q, s2⟩ := q
    cases q with
    | none => simp at h
    | some deps =>
      obtain ⟨h1, h2⟩ := hk deps rfl
      exact ⟨deps, h1, h, h2⟩

theorem call_mem {w : World α} {kwargs : List (Text × α)} (hk : (kwargs.map (·.1)).Nodup) {fr : List (Text × α)}
    (h : call w kwargs = some fr) {n : Text} {v : α} (hp : Passes w kwargs n v) : (n, v) ∈ fr := by
  simp only [call, Option.map_eq_some_iff] at h
  obtain ⟨b, hb, rfl⟩ := h
  simp only [List.append_assoc, List.mem_append]
  exact .inl ((bind_mem w hk hb n v).2 hp)

/-- What is passed to the task is passed on to its body. -/
theorem passes_body {w : World α} (hp : Python w) {deps : List (Text × α)}
    (hkeys : deps.map (·.1) = w.sig.depParams.map (·.1))
    (hval : ∀ n d, (n, d) ∈ w.sig.depParams → ∀ u, find w.kwargs n = some u → (n, u) ∈ deps) {n : Text} {v : α}
    (h : Passes w w.kwargs n v) : Passes w (union w.kwargs deps) n v := by
  have hdn : (deps.map (·.1)).Nodup := by rw [hkeys]; exact hp.params.sublist (depParams_names w.sig)
  have hfind : ∀ m u, find w.kwargs m = some u → find (union w.kwargs deps) m = some u := by
    intro m u hu
    rw [find_union _ _ hdn]
    cases hd : find deps m with
    | none => exact hu
    | some x =>
      have hm : m ∈ w.sig.depParams.map (·.1) := hkeys ▸ List.mem_map_of_mem (find_some_mem hd)
      simp only [List.mem_map] at hm
      obtain ⟨⟨m', d⟩, hmem, rfl⟩ := hm
      have := find_of_mem hdn (hval _ d hmem u hu)
      rw [hd] at this
      exact this
  cases h with
  | position i p v h1 h2 => exact .position i p v h1 h2
  | keyword p v h1 h2 => exact .keyword p v h1 (find_some_mem (hfind _ _ (find_of_mem hp.kwargs h2)))
  | rest n h1 h2 => exact .rest n h1 h2
  | named n l h1 h2 h3 =>
    refine .named n l h1 h2 (h3.trans ?_)
    have hin : ∀ e ∈ deps, ¬ (∀ p ∈ w.sig.pos ++ w.sig.kwOnly, p.name ≠ e.1) := by
      intro e he hc
      have hm : e.1 ∈ w.sig.depParams.map (·.1) := hkeys ▸ List.mem_map_of_mem he
      obtain ⟨p, hpm, hpn⟩ := List.mem_map.1 ((depParams_names w.sig).subset hm)
      exact hc p hpm hpn
    unfold union
    clear h3 hfind hval hdn hkeys
    generalize w.kwargs = a
    induction deps generalizing a with
    | nil => rfl
    | cons e deps ih =>
      rw [List.foldl_cons, ← ih (fun x hx => hin x (List.mem_cons_of_mem _ hx))]
      have he := hin e List.mem_cons_self
      clear ih
      induction a with
      | nil => simp only [put, List.filter_nil]; rw [List.filter_cons_of_neg (by simpa using he), List.filter_nil]
      | cons x a ih =>
        rw [put]
        by_cases hx : x.1 = e.1
        · rw [if_pos hx, List.filter_cons_of_neg (by rw [hx]; simpa using he),
            List.filter_cons_of_neg (by simpa using he)]
        · rw [if_neg hx, List.filter_cons, List.filter_cons, ih]

theorem Gets.mono {w : World α} {objs : Heap} {look look' : Text → α → Prop} {n : Text} {d : Dep α} {v : α}
    (h : Gets w objs look n d v) (hk : ∀ p u, look p u → look' p u) (hall : ∀ p, Asks w objs n d p → ∃ u, look p u) :
    Gets w objs look' n d v := by
  refine Gets.rec (motive_1 := fun n d v _ => (∀ p, Asks w objs n d p → ∃ u, look p u) → Gets w objs look' n d v)
    (motive_2 := fun ps vs _ => (∀ n d, (n, d) ∈ ps → ∀ p, Asks w objs n d p → ∃ u, look p u) → GetsAll w objs look' ps vs)
    ?_ ?_ ?_ ?_ ?_ ?_ h hall
  · exact fun n v _ => .plain n v
  · exact fun n o p v h1 h2 _ => .arg n o p v h1 (hk _ _ h2)
  · intro n o p h1 h2 _ hall
    obtain ⟨u, hu⟩ := hall p (.arg n o p h1)
    exact absurd hu (h2 u)
  · exact fun n f vs v _ h2 ih hall => .depends n f vs v (ih (fun m d hm p hp => hall p (.inside n f m d p hm hp))) h2
  · exact fun _ => .nil
  · exact fun n d ps v vs _ _ ih1 ih2 hall => .cons n d ps v vs (ih1 (hall n d List.mem_cons_self))
      (ih2 (fun m d hm => hall m d (List.mem_cons_of_mem _ hm)))

/-! ## The body gets what it should -/

/-- The full property: a dependency of a task whose body runs, not replaced by a keyword
argument, has the value its `TaskArgument`s give it, these being what the task's own parameters
are. -/
def C74_statement : Prop :=
  ∀ (w : World Nat) (objs : Heap) (fr : List (Text × Nat)), Python w → body w objs = some fr →
    ∀ n d, (n, d) ∈ w.sig.depParams → n ∉ w.kwargs.map (·.1) →
      ∃ v, (n, v) ∈ fr ∧ Gets w objs (fun p u => (p, u) ∈ fr) n d v

/-- Every `TaskArgument` in a dependency of a running task is the argument that was passed to
the task under its name (or, if optional and nothing was passed, `None`), for all tasks, calls,
dependency functions, and whatever else ran or runs in the process, provided a `TaskArgument`
without a name stands at parameters of one name. -/
theorem C74_passed_partial (w : World α) (objs : Heap) (fr : List (Text × α)) (hp : Python w) (ho : OwnObjects w objs)
    (h : body w objs = some fr) (n : Text) (d : Dep α) (hd : (n, d) ∈ w.sig.depParams) (hn : n ∉ w.kwargs.map (·.1)) :
    ∃ v, (n, v) ∈ fr ∧ Gets w objs (Passes w w.kwargs) n d v := by
  obtain ⟨deps, hkeys, hcall, hval⟩ := body_cases hp ho h
  obtain ⟨v, hv, hg⟩ := hval n d hd
  have hg : Gets w objs (Passes w w.kwargs) n d v := by
    rcases hg with hg | hg
    · exact absurd (List.mem_map_of_mem (find_some_mem hg)) hn
    · exact hg.2
  refine ⟨v, call_mem (nodup_union hp.kwargs) hcall ?_, hg⟩
  obtain ⟨p, hpm, rfl, _⟩ := mem_depParams.1 hd
  refine .keyword p v hpm (find_some_mem ?_)
  have hdn : (deps.map (·.1)).Nodup := by rw [hkeys]; exact hp.params.sublist (depParams_names w.sig)
  rw [find_union _ _ hdn, find_of_mem hdn hv]

/-- What the caller passes for a parameter is what the parameter is inside the task. -/
theorem C74_frame (w : World α) (objs : Heap) (fr : List (Text × α)) (hp : Python w) (ho : OwnObjects w objs)
    (h : body w objs = some fr) (n : Text) (v : α) (hv : Passes w w.kwargs n v) : (n, v) ∈ fr := by
  obtain ⟨deps, hkeys, hcall, hval⟩ := body_cases hp ho h
  refine call_mem (nodup_union hp.kwargs) hcall (passes_body hp hkeys (fun m d hm u hu => ?_) hv)
  obtain ⟨x, hx, hg⟩ := hval m d hm
  rcases hg with hg | hg
  · rw [hu] at hg; cases hg; exact hx
  · rw [hu] at hg; cases hg.1

/-- **Partial**: a dependency of a running task has the value its `TaskArgument`s give it, these
being what the task's own parameters are, if the caller passed the arguments asked for (missing:
arguments left at their default) and every `TaskArgument` without a name stands at parameters of
one name (missing: objects shared under several names). -/
theorem C74_same_value_partial (w : World α) (objs : Heap) (fr : List (Text × α)) (hp : Python w) (ho : OwnObjects w objs)
    (h : body w objs = some fr) (n : Text) (d : Dep α) (hd : (n, d) ∈ w.sig.depParams) (hn : n ∉ w.kwargs.map (·.1))
    (hpass : ∀ p, Asks w objs n d p → ∃ v, Passes w w.kwargs p v) :
    ∃ v, (n, v) ∈ fr ∧ Gets w objs (fun p u => (p, u) ∈ fr) n d v := by
  obtain ⟨v, hv, hg⟩ := C74_passed_partial w objs fr hp ho h n d hd hn
  exact ⟨v, hv, hg.mono (fun p u hu => C74_frame w objs fr hp ho h p u hu) hpass⟩

theorem defaults_names (s : Sig α) (b : List (Text × α)) :
    ((defaults s b).map (·.1)).Sublist ((s.pos ++ s.kwOnly).map (·.name)) := by
  unfold defaults
  induction s.pos ++ s.kwOnly with
  | nil => simp
  | cons p l ih =>
    rw [List.filterMap_cons]
    cases find b p.name with
    | some _ => exact ih.cons _
    | none => cases p.default with
      | required => exact ih.cons _
      | dep _ => exact ih.cons _
      | value v => exact ih.cons_cons _

theorem defaults_none {s : Sig α} {b : List (Text × α)} {n : Text} (h : n ∈ (defaults s b).map (·.1)) : find b n = none := by
  simp only [defaults, List.mem_map, List.mem_filterMap] at h
  obtain ⟨e, ⟨p, _, h⟩, rfl⟩ := h
  cases hf : find b p.name with
  | some _ => simp [hf] at h
  | none =>
    cases hd : p.default with
    | required => simp [hf, hd] at h
    | dep _ => simp [hf, hd] at h
    | value v => simp only [hf, hd, Option.some.injEq] at h; subst h; exact hf

/-- Inside the task every parameter has one value. -/
theorem C74_one_value (w : World α) (objs : Heap) (fr : List (Text × α)) (hp : Python w) (ho : OwnObjects w objs)
    (h : body w objs = some fr) (n : Text) (u v : α) (hu : (n, u) ∈ fr) (hv : (n, v) ∈ fr) : u = v := by
  obtain ⟨deps, _, hcall, _⟩ := body_cases hp ho h
  suffices hnd : (fr.map (·.1)).Nodup by
    have h1 := find_of_mem hnd hu
    rw [find_of_mem hnd hv] at h1
    exact (Option.some.inj h1).symm
  simp only [call, Option.map_eq_some_iff] at hcall
  obtain ⟨b, hb, rfl⟩ := hcall
  have hnames := hp.names
  have hbn : (b.map (·.1)).Nodup := hnames.sublist (bind_keys w hb)
  have hnone : ∀ m, find b m = none → m ∉ b.map (·.1) := by
    intro m hm hc
    obtain ⟨e, he, rfl⟩ := List.mem_map.1 hc
    exact find_none.1 hm e.2 he
  have hdef : ∀ m ∈ (defaults w.sig b).map (·.1), m ∈ w.sig.pos.map (·.name) ∨ m ∈ w.sig.kwOnly.map (·.name) := by
    intro m hm
    simpa using (defaults_names w.sig b).subset hm
  have hstar : ∀ (o : Option Text) (k : α), (o.toList.filter (fun n => (find b n).isNone)).map (fun n => ((n, k) : Text × α).1) =
      o.toList.filter (fun n => (find b n).isNone) := by
    intro o k; simp
  simp only [List.map_append, List.map_map, Function.comp_def]
  rw [hstar w.sig.star (w.tuple []), hstar w.sig.stars (w.dict [])]
  simp only [List.nodup_append, List.mem_append, List.mem_filter, Option.mem_toList, Option.isNone_iff_eq_none] at hnames ⊢
  have hone : ∀ o : Option Text, (o.toList.filter (fun n => (find b n).isNone)).Nodup := by
    intro o
    have h : o.toList.Nodup := by cases o <;> simp
    exact h.sublist (List.filter_sublist)
  refine ⟨⟨⟨hbn, hp.params.sublist (defaults_names w.sig b), ?_⟩, hone _, ?_⟩, hone _, ?_⟩
  · rintro a ha m hm rfl
    exact hnone a (defaults_none hm) ha
  · rintro a (ha | ha) m ⟨hm, hf⟩ rfl
    · exact hnone a hf ha
    · rcases hdef a ha with ha | ha
      · exact hnames.1.1.2.2 a ha a (by simpa using hm) rfl
      · exact hnames.1.2.2 a (.inr (by simpa using hm)) a ha rfl
  · rintro a ((ha | ha) | ⟨ha, _⟩) m ⟨hm, hf⟩ rfl
    · exact hnone a hf ha
    · rcases hdef a ha with ha | ha
      · exact hnames.2.2 a (.inl (.inl ha)) a (by simpa using hm) rfl
      · exact hnames.2.2 a (.inr ha) a (by simpa using hm) rfl
    · exact hnames.2.2 a (.inl (.inr (by simpa using ha))) a (by simpa using hm) rfl

/-! ## The body runs -/

/-- Python's rules: the call fits the signature, and no dependency is replaced by a positional
argument. -/
structure Fits (w : World α) : Prop where
  count : w.args.length ≤ w.sig.pos.length ∨ w.sig.star.isSome
  known : ∀ e ∈ w.kwargs, (∃ p ∈ w.sig.pos ++ w.sig.kwOnly, p.name = e.1) ∨ w.sig.stars.isSome
  once : ∀ p ∈ w.sig.pos.take w.args.length, p.name ∉ w.kwargs.map (·.1)
  required : ∀ p ∈ w.sig.pos.drop w.args.length ++ w.sig.kwOnly, p.default = .required → p.name ∈ w.kwargs.map (·.1)
  deps : ∀ p ∈ w.sig.pos.take w.args.length, ∀ d, p.default ≠ .dep d

/-- Dependency functions use functions that existed before them, deep calls are no problem, and
no dependency function raises. -/
structure Sane (w : World α) : Prop where
  order : ∀ f, ∀ e ∈ w.factories f, ∀ g, e.2 = .depends g → g < f
  depth : ∀ g, (.depends g ∈ w.worker ∨ ∃ n, (n, .depends g) ∈ w.sig.depParams) → g < w.depth
  make : ∀ f vs, (w.make f vs).isSome

/-- Something the dependency asks for without it being optional. -/
inductive Needs (w : World α) (objs : Heap) : Text → Dep α → Text → Prop where
  | arg (n : Text) (o : Nat) (p : Text) : Names objs n o p → (objs o).optional = false → Needs w objs n (.arg o) p
  | inside (n : Text) (f : Nat) (m : Text) (d : Dep α) (p : Text) : (m, d) ∈ w.factories f → Needs w objs m d p →
      Needs w objs n (.depends f) p

theorem bindKw_some {kwargs : List (Text × α)} {ps : List (Param α)}
    (h : ∀ p ∈ ps, p.default = .required → p.name ∈ kwargs.map (·.1)) : (bindKw kwargs ps).isSome := by
  induction ps with
  | nil => rfl
  | cons p ps ih =>
    have ih := ih (fun q hq => h q (List.mem_cons_of_mem _ hq))
    rw [bindKw]
    cases hf : find kwargs p.name with
    | some v => simpa using ih
    | none =>
      cases hd : p.default with
      | required =>
        have := h p List.mem_cons_self hd
        obtain ⟨e, he, hn⟩ := List.mem_map.1 this
        exact absurd he (by have := find_none.1 hf e.2; rw [← hn] at this; exact this)
      | value _ => simpa using ih
      | dep _ => simpa using ih

theorem bindPos_some (w : World α) {kwargs : List (Text × α)} {ps : List (Param α)} {as : List α}
    (hc : as.length ≤ ps.length ∨ w.sig.star.isSome) (ho : ∀ p ∈ ps.take as.length, p.name ∉ kwargs.map (·.1))
    (hr : ∀ p ∈ ps.drop as.length ++ w.sig.kwOnly, p.default = .required → p.name ∈ kwargs.map (·.1)) :
    (bindPos w kwargs ps as).isSome := by
  induction ps generalizing as with
  | nil =>
    have hr : ∀ p ∈ w.sig.kwOnly, p.default = .required → p.name ∈ kwargs.map (·.1) := by simpa using hr
    cases as with
    | nil => exact bindKw_some hr
    | cons a as =>
      rw [bindPos]
      cases hs : w.sig.star with
      | none => simp [hs] at hc
      | some m => simpa using bindKw_some hr
  | cons p ps ih =>
    cases as with
    | nil => exact bindKw_some (by simpa using hr)
    | cons a as =>
      rw [bindPos]
      have hf : find kwargs p.name = none :=
        find_none.2 (fun v hv => ho p (by simp) (List.mem_map_of_mem hv))
      rw [hf]
      simpa using ih (by simpa using hc) (fun q hq => ho q (by simp [hq])) (by simpa using hr)

theorem bind_some (w : World α) {kwargs : List (Text × α)} (hc : w.args.length ≤ w.sig.pos.length ∨ w.sig.star.isSome)
    (hk : ∀ e ∈ kwargs, (∃ p ∈ w.sig.pos ++ w.sig.kwOnly, p.name = e.1) ∨ w.sig.stars.isSome)
    (ho : ∀ p ∈ w.sig.pos.take w.args.length, p.name ∉ kwargs.map (·.1))
    (hr : ∀ p ∈ w.sig.pos.drop w.args.length ++ w.sig.kwOnly, p.default = .required → p.name ∈ kwargs.map (·.1)) :
    (bind w kwargs).isSome := by
  have h := bindPos_some w hc ho hr
  unfold bind
  cases hb : bindPos w kwargs w.sig.pos w.args with
  | none => simp [hb] at h
  | some b =>
    cases he : extra w.sig kwargs with
    | nil => rfl
    | cons e es =>
      cases hs : w.sig.stars with
      | some m => rfl
      | none =>
        have hm : e ∈ extra w.sig kwargs := he ▸ List.mem_cons_self
        rw [extra_eq] at hm
        simp only [List.mem_filter, decide_eq_true_eq] at hm
        rcases hk e hm.1 with ⟨p, hp, hn⟩ | h
        · exact absurd hn (hm.2 p hp)
        · simp [hs] at h

theorem enterArg_some {w : World α} (hp : Python w) {objs : Heap} (hb : (bind w w.kwargs).isSome) {n : Text} {o : Nat}
    {p : Text} {ob : Obj} (hop : ob.optional = (objs o).optional) (hpar : ob.parameter = some p) (hn : Names objs n o p)
    (hneed : ∀ q, Needs w objs n (.arg o) q → ∃ v, Passes w w.kwargs q v) : (enterArg w ob).isSome := by
  unfold enterArg
  rw [hpar]
  obtain ⟨b, hb⟩ := Option.isSome_iff_exists.1 hb
  simp only [hb]
  cases hf : find b p with
  | some v => rfl
  | none =>
    cases hopt : ob.optional with
    | true => rfl
    | false =>
      obtain ⟨v, hv⟩ := hneed p (.arg n o p hn (hop ▸ hopt))
      rw [← bind_find w hp.names hp.kwargs hb, hf] at hv
      cases hv

theorem resolveParams_some {w : World α} (hp : Python w) {objs : Heap} (ho : OwnObjects w objs)
    {go : Dep α → St α → Option α × St α} (ps : List (Text × Dep α))
    (hgo : ∀ d s, Sound w objs s → Sound w objs (go d s).2)
    (hsome : ∀ n d s, (n, d) ∈ ps → Sound w objs s → Ready objs s n d → (go d s).1.isSome)
    (hst : ∀ n o, (n, Dep.arg o) ∈ ps → StandsAt w o n) (s : St α) (hs : Sound w objs s) :
    (resolveParams w go ps s).1.isSome := by
  induction ps generalizing s with
  | nil => rfl
  | cons e ps ih =>
    obtain ⟨n, d⟩ := e
    have hr := ready_infer ho (s := meanwhile w s) (n := n) (d := d) (hs.meanwhile hp).heap
      (fun o h => hst n o (h ▸ List.mem_cons_self))
    have h1 := hgo d { meanwhile w s with heap := inferAt n d (meanwhile w s).heap } ⟨hr.1, (hs.meanwhile hp).cache⟩
    have h2 := hsome n d { meanwhile w s with heap := inferAt n d (meanwhile w s).heap } List.mem_cons_self ⟨hr.1, (hs.meanwhile hp).cache⟩ hr.2
    rw [resolveParams]
    generalize go d { meanwhile w s with heap := inferAt n d (meanwhile w s).heap } = r at h1 h2
    obtain ⟨r, s1⟩ := r
    cases r with
    | none => simp at h2
    | some v =>
      have h3 := ih (fun n d s h => hsome n d s (List.mem_cons_of_mem _ h)) (fun n o h => hst n o (List.mem_cons_of_mem _ h)) s1 h1
      simp only
      generalize resolveParams w go ps s1 = q at h3
      obtain ⟨q, s2⟩ := q
      cases q with
      | none => simp at h3
      | some vs => rfl

theorem enter_some {w : World α} (hp : Python w) {objs : Heap} (ho : OwnObjects w objs) (hsane : Sane w)
    (hb : (bind w w.kwargs).isSome) (depth : Nat) :
    ∀ d s n, Sound w objs s → Ready objs s n d → (∀ g, d = .depends g → g < depth) →
      (∀ q, Needs w objs n d q → ∃ v, Passes w w.kwargs q v) → (enter w depth d s).1.isSome := by
  induction depth with
  | zero =>
    intro d s n hs hr hg hneed
    cases d with
    | plain v => rfl
    | arg o =>
      obtain ⟨p, h1, h2⟩ := hr o rfl
      exact enterArg_some hp hb (hs.heap o).1 h1 h2 hneed
    | depends f => exact absurd (hg f rfl) (Nat.not_lt_zero _)
  | succ depth ih =>
    intro d s n hs hr hg hneed
    cases d with
    | plain v => rfl
    | arg o =>
      obtain ⟨p, h1, h2⟩ := hr o rfl
      exact enterArg_some hp hb (hs.heap o).1 h1 h2 hneed
    | depends f =>
      have hf := hg f rfl
      rw [enter]
      cases hc : s.cache.find? (fun e => e.1 = f) with
      | some e => rfl
      | none =>
        have h1 := resolveParams_some hp ho (go := enter w depth) (w.factories f)
          (fun d s hs => (enter_sound hp ho depth d s [] hs).1)
          (fun m d s hm hs hr => ih d s m hs hr (fun g hd => by have := hsane.order f _ hm g hd; omega)
            (fun q hq => hneed q (.inside n f m d q hm hq)))
          (fun n o h => .inl ⟨f, h⟩) s hs
        simp only
        generalize resolveParams w (enter w depth) (w.factories f) s = q at h1
        obtain ⟨q, s1⟩ := q
        cases q with
        | none => simp at h1
        | some vs =>
          have := hsane.make f vs
          simp only
          cases hm : w.make f vs with
          | none => simp [hm] at this
          | some v => rfl

/-- A `TaskArgument` that was given a name. -/
def Named (objs : Heap) (o : Nat) : Prop := ∃ p, p ≠ [] ∧ (objs o).parameter = some p

theorem ready_named {w : World α} {objs : Heap} {s : St α} (hs : Sound w objs s) (n : Text) (d : Dep α)
    (h : ∀ o, d = .arg o → Named objs o) : Ready objs s n d := by
  intro o hd
  obtain ⟨p, h1, h2⟩ := h o hd
  refine ⟨p, ?_, .own p h2 h1⟩
  rcases (hs.heap o).2 with h | ⟨h, _⟩
  · rw [h, h2]
  · simp [Obj.missing, h2, h1] at h

theorem resolveWorker_true {w : World α} (hp : Python w) {objs : Heap} (ho : OwnObjects w objs) (hsane : Sane w)
    (hb : (bind w w.kwargs).isSome) (ds : List (Dep α)) (hmem : ∀ d ∈ ds, d ∈ w.worker)
    (hnamed : ∀ o, .arg o ∈ ds → Named objs o)
    (hneed : ∀ d ∈ ds, ∀ n q, Needs w objs n d q → ∃ v, Passes w w.kwargs q v) (s : St α) (hs : Sound w objs s) :
    (resolveWorker w ds s).1 = true := by
  induction ds generalizing s with
  | nil => rfl
  | cons d ds ih =>
    rw [resolveWorker]
    have hs' := hs.meanwhile hp
    have h1 := enter_some hp ho hsane hb w.depth d _ [] hs'
      (ready_named hs' _ _ (fun o h => hnamed o (h ▸ List.mem_cons_self)))
      (fun g hd => hsane.depth g (.inl (hd ▸ hmem d List.mem_cons_self))) (hneed d List.mem_cons_self [])
    have h2 := ih (fun d h => hmem d (List.mem_cons_of_mem _ h)) (fun o h => hnamed o (List.mem_cons_of_mem _ h))
      (fun d h => hneed d (List.mem_cons_of_mem _ h)) _ (enter_sound hp ho w.depth d _ [] hs').1
    simp only [h1, h2, Bool.and_self]

theorem resolveTask_some {w : World α} (hp : Python w) {objs : Heap} (ho : OwnObjects w objs) (hsane : Sane w)
    (hb : (bind w w.kwargs).isSome) (ps : List (Text × Dep α)) (hmem : ∀ e ∈ ps, e ∈ w.sig.depParams)
    (hnamed : ∀ n o, (n, .arg o) ∈ ps → n ∉ w.kwargs.map (·.1) → Named objs o)
    (hneed : ∀ n d, (n, d) ∈ ps → n ∉ w.kwargs.map (·.1) → ∀ q, Needs w objs n d q → ∃ v, Passes w w.kwargs q v)
    (s : St α) (hs : Sound w objs s) : (resolveTask w ps s).1.isSome := by
  induction ps generalizing s with
  | nil => rfl
  | cons e ps ih =>
    obtain ⟨n, d⟩ := e
    have hs' := hs.meanwhile hp
    have h1 : (resolveParam w n d s).1.isSome := by
      unfold resolveParam
      cases hk : find w.kwargs n with
      | some _ => rfl
      | none =>
        have hn : n ∉ w.kwargs.map (·.1) := by
          intro hc
          obtain ⟨e, he, rfl⟩ := List.mem_map.1 hc
          exact find_none.1 hk e.2 he
        have hr : Ready objs (meanwhile w s) n d :=
          ready_named hs' n d (fun o h => hnamed n o (h ▸ List.mem_cons_self) hn)
        have he := enter_some hp ho hsane hb w.depth d _ n hs' hr
          (fun g hd => hsane.depth g (.inr ⟨n, hd ▸ hmem _ List.mem_cons_self⟩)) (hneed n d List.mem_cons_self hn)
        cases d with
        | plain v => exact he
        | depends f => exact he
        | arg o =>
          obtain ⟨p, hp1, hp2⟩ := hr o rfl
          obtain ⟨q, hq1, hq2⟩ := hnamed n o List.mem_cons_self hn
          have hpq : p ≠ [] := by
            cases hp2 with
            | here h => rw [h] at hq2; cases hq2
            | empty h => rw [h] at hq2; cases hq2; exact absurd rfl hq1
            | own _ _ h => exact h
          have hm : ((meanwhile w s).heap o).missing = false := by simp [Obj.missing, hp1, hpq]
          simp only [hm]
          exact he
    have h2 := ih (fun e h => hmem e (List.mem_cons_of_mem _ h)) (fun n o h => hnamed n o (List.mem_cons_of_mem _ h))
      (fun n d h => hneed n d (List.mem_cons_of_mem _ h)) (resolveParam w n d s).2
      (resolveParam_sound hp ho (n := n) (d := d)
        (fun o h => .inr (h ▸ hmem _ List.mem_cons_self)) s hs).1
    rw [resolveTask]
    generalize resolveParam w n d s = r at *
    obtain ⟨r, s1⟩ := r
    simp only at h1 h2 ⊢
    generalize resolveTask w ps s1 = q at *
    obtain ⟨q, s2⟩ := q
    cases r with
    | none => simp at h1
    | some v => cases q with
      | none => simp at h2
      | some vs => rfl

theorem name_inj {l : List (Param α)} (h : (l.map (·.name)).Nodup) {p q : Param α} (hp : p ∈ l) (hq : q ∈ l)
    (hn : p.name = q.name) : p = q := by
  induction l with
  | nil => cases hp
  | cons r l ih =>
    simp only [List.map_cons, List.nodup_cons] at h
    rcases List.mem_cons.1 hp with rfl | hp <;> rcases List.mem_cons.1 hq with rfl | hq
    · rfl
    · exact absurd (hn ▸ List.mem_map_of_mem hq) h.1
    · exact absurd (hn ▸ List.mem_map_of_mem (by assumption)) h.1
    · exact ih h.2 (by assumption) hq

/-- **Partial**: the body of a task runs, with all its dependencies, if its call fits, no
dependency function raises, and every argument asked for by a `TaskArgument` that is not
optional was passed (missing: arguments left at their default).  `TaskArgument`s standing at
parameters of the task itself or used as dependencies of the worker need a name. -/
theorem C74_runs_partial (w : World α) (objs : Heap) (hp : Python w) (ho : OwnObjects w objs) (hsane : Sane w) (hf : Fits w)
    (hnamed : ∀ o, (.arg o ∈ w.worker ∨ ∃ n, (n, .arg o) ∈ w.sig.depParams ∧ n ∉ w.kwargs.map (·.1)) → Named objs o)
    (hneed : ∀ n d, (d ∈ w.worker ∨ (n, d) ∈ w.sig.depParams ∧ n ∉ w.kwargs.map (·.1)) →
      ∀ q, Needs w objs n d q → ∃ v, Passes w w.kwargs q v) :
    (body w objs).isSome := by
  have hb := bind_some w hf.count hf.known hf.once hf.required
  have hs0 : Sound w objs { heap := objs } := ⟨fun o => ⟨rfl, .inl rfl⟩, fun e he => by cases he⟩
  have hs1 := resolveWorker_sound hp ho w.worker _ hs0
  have h1 := resolveWorker_true hp ho hsane hb w.worker (fun d h => h) (fun o h => hnamed o (.inl h))
    (fun d h n => hneed n d (.inl h)) _ hs0
  unfold body
  generalize resolveWorker w w.worker { heap := objs } = r at *
  obtain ⟨r, s1⟩ := r
  simp only at h1
  subst h1
  have h2 := resolveTask_some hp ho hsane hb w.sig.depParams (fun e h => h) (fun n o h hn => hnamed o (.inr ⟨n, h, hn⟩))
    (fun n d h hn => hneed n d (.inr ⟨h, hn⟩)) s1 hs1
  have h3 := resolveTask_sound hp ho w.sig.depParams (fun n o h => .inr h) s1 hs1
  simp only
  generalize resolveTask w w.sig.depParams s1 = q at *
  obtain ⟨q, s2⟩ := q
  cases q with
  | none => simp at h2
  | some deps =>
    have hkeys := (h3 deps rfl).1
    simp only [call, Option.isSome_map]
    refine bind_some w hf.count ?_ ?_ ?_
    · intro e he
      have hk : e.1 ∈ (union w.kwargs deps).map (·.1) := List.mem_map_of_mem he
      rw [keys_union, hkeys] at hk
      rcases hk with hk | hk
      · obtain ⟨e', he', hn⟩ := List.mem_map.1 hk
        rw [← hn]
        exact hf.known e' he'
      · exact .inl (List.mem_map.1 ((depParams_names w.sig).subset hk))
    · intro p hpm hc
      rw [keys_union, hkeys] at hc
      rcases hc with hc | hc
      · exact hf.once p hpm hc
      · obtain ⟨⟨m, d⟩, hm, hn⟩ := List.mem_map.1 hc
        obtain ⟨p', hp', hn', hd⟩ := mem_depParams.1 hm
        have : p' = p := by
          have hnd := hp.params
          have hpm' : p ∈ w.sig.pos ++ w.sig.kwOnly := List.mem_append_left _ (List.mem_of_mem_take hpm)
          exact name_inj hnd hp' hpm' (hn'.trans hn)
        subst this
        exact hf.deps p' hpm d hd
    · intro p hpm hd
      rw [keys_union]
      exact .inl (hf.required p hpm hd)

/-! ## A call that meets the hypotheses -/

namespace Example

/-- ```
def name(customer: int = TaskArgument()): ...
def greeting(who = Depends(name), lang = TaskArgument("language", optional=True)): ...
async def greet(customer, text=5, *, again=Depends(name), full=Depends(greeting)): ...
docket.add(greet)(7)
``` -/
def w : World Nat where
  sig := { pos := [⟨t!"customer", .required⟩, ⟨t!"text", .value 5⟩]
           kwOnly := [⟨t!"again", .dep (.depends 0)⟩, ⟨t!"full", .dep (.depends 1)⟩] }
  args := [7]
  kwargs := []
  factories := fun f => if f = 0 then [(t!"customer", .arg 0)]
    else if f = 1 then [(t!"who", .depends 0), (t!"lang", .arg 1)] else []
  make := fun f vs => some (100 * (f + 1) + (vs.map (·.2)).sum)
  none := 0
  tuple := fun l => l.sum
  dict := fun l => (l.map (·.2)).sum

def objs : Heap := fun o => if o = 0 then {} else if o = 1 then ⟨some t!"language", true⟩ else {}

theorem python : Python w := ⟨by decide, by decide, fun t e he => by cases he⟩

theorem factories_mem {f : Nat} {e : Text × Dep Nat} (h : e ∈ w.factories f) :
    f = 0 ∧ e = (t!"customer", .arg 0) ∨ f = 1 ∧ (e = (t!"who", .depends 0) ∨ e = (t!"lang", .arg 1)) := by
  by_cases h0 : f = 0
  · subst h0; exact .inl ⟨rfl, by simpa [w] using h⟩
  · by_cases h1 : f = 1
    · subst h1; exact .inr ⟨rfl, by simpa [w] using h⟩
    · simp [w, h0, h1] at h

theorem own : OwnObjects w objs := by
  have key : ∀ o n, (objs o).parameter = none ∨ (objs o).parameter = some [] → StandsAt w o n → n = t!"customer" := by
    rintro o n ho (⟨f, h⟩ | h)
    · rcases factories_mem h with ⟨_, h⟩ | ⟨_, h | h⟩
      · cases h; rfl
      · cases h
      · cases h; simp [objs] at ho
    · simp [Sig.depParams, w] at h
  exact fun o n m h h1 h2 => (key o n h h1).trans (key o m h h2).symm

/-- The body of the example runs, and its dependencies are made from the argument 7. -/
example : body w objs = some [(t!"customer", 7), (t!"again", 107), (t!"full", 307), (t!"text", 5)] := by decide +kernel

theorem fits : Fits w := ⟨by decide, fun e he => (by cases he), by decide, by decide, by
  intro p hp d; simp [w] at hp; subst hp; simp⟩

theorem sane : Sane w where
  order := by
    intro f e he g hg
    rcases factories_mem he with ⟨_, h⟩ | ⟨hf, h | h⟩
    · subst h; cases hg
    · subst h; cases hg; omega
    · subst h; cases hg
  depth := by
    rintro g (h | ⟨n, h⟩)
    · cases h
    · simp [Sig.depParams, w] at h
      show g < 100
      omega
  make := fun f vs => rfl

theorem asks {n : Text} {d : Dep Nat} {p : Text} (h : Asks w objs n d p) :
    d = .depends 0 → p = t!"customer" := by
  rintro rfl
  cases h with
  | inside _ _ m d _ hm h =>
    rcases factories_mem hm with ⟨_, h'⟩ | ⟨h', _⟩
    · cases h'
      cases h with
      | arg _ _ _ hn =>
        cases hn with
        | here => rfl
        | empty => rfl
        | own _ h => simp [objs] at h
    · simp at h'

/-- The hypotheses of `C74_same_value_partial` are met. -/
example : ∃ v, (t!"again", v) ∈ [(t!"customer", 7), (t!"again", 107), (t!"full", 307), (t!"text", 5)] ∧
    Gets w objs (fun p u => (p, u) ∈ [(t!"customer", 7), (t!"again", 107), (t!"full", 307), (t!"text", 5)])
      t!"again" (.depends 0) v :=
  C74_same_value_partial w objs _ python own (by decide +kernel) _ _ (by decide) (by decide)
    (fun p hp => ⟨7, (asks hp rfl) ▸ .position 0 ⟨t!"customer", .required⟩ 7 rfl rfl⟩)

theorem needs {n : Text} {d : Dep Nat} {p : Text} (h : Needs w objs n d p) :
    ((∃ g, d = .depends g) ∨ ∃ f, (n, d) ∈ w.factories f) → p = t!"customer" := by
  induction h with
  | arg n o p hn hopt =>
    rintro (⟨g, h⟩ | ⟨f, h⟩)
    · cases h
    · rcases factories_mem h with ⟨_, h⟩ | ⟨_, h | h⟩
      · cases h
        cases hn with
        | here => rfl
        | empty => rfl
        | own _ h => simp [objs] at h
      · cases h
      · cases h; simp [objs] at hopt
  | inside n f m d p hm hn ih => exact fun _ => ih (.inr ⟨f, hm⟩)

/-- The hypotheses of `C74_runs_partial` are met. -/
example : (body w objs).isSome :=
  C74_runs_partial w objs python own sane fits
    (by
      rintro o (h | ⟨n, h, _⟩)
      · cases h
      · simp [Sig.depParams, w] at h)
    (by
      rintro n d (h | ⟨h, _⟩) q hq
      · cases h
      · have hg : ∃ g, d = .depends g := by
          simp [Sig.depParams, w] at h
          rcases h with ⟨_, rfl⟩ | ⟨_, rfl⟩
          · exact ⟨_, rfl⟩
          · exact ⟨_, rfl⟩
        exact ⟨7, (needs hq (.inl hg)) ▸ .position 0 ⟨t!"customer", .required⟩ 7 rfl rfl⟩)

end Example

/-! ## Where the code disagrees -/

namespace Bad

/-- ```
def config(limit: int | None = TaskArgument(optional=True)): ...
async def task(limit=7, cfg=Depends(config)): ...
docket.add(task)()
``` -/
def w : World Nat where
  sig := { pos := [⟨t!"limit", .value 7⟩, ⟨t!"cfg", .dep (.depends 0)⟩] }
  args := []
  kwargs := []
  factories := fun f => if f = 0 then [(t!"limit", .arg 0)] else []
  make := fun _ vs => some (100 + (vs.map (·.2)).sum)
  none := 0
  tuple := fun l => l.sum
  dict := fun l => (l.map (·.2)).sum

/-- ```
it = TaskArgument()
def first(a=it): ...
def second(b=it): ...
async def task(a, b, x=Depends(first), y=Depends(second)): ...
docket.add(task)(1, 2)
``` -/
def shared : World Nat where
  sig := { pos := [⟨t!"a", .required⟩, ⟨t!"b", .required⟩, ⟨t!"x", .dep (.depends 0)⟩, ⟨t!"y", .dep (.depends 1)⟩] }
  args := [1, 2]
  kwargs := []
  factories := fun f => if f = 0 then [(t!"a", .arg 0)] else if f = 1 then [(t!"b", .arg 0)] else []
  make := fun _ vs => some (100 + (vs.map (·.2)).sum)
  none := 0
  tuple := fun l => l.sum
  dict := fun l => (l.map (·.2)).sum

end Bad

/-- The code disagrees: an argument that the caller leaves at its default is `None` for an
optional `TaskArgument`, not the default the task itself gets. -/
theorem C74_violated_default : ¬ C74_statement := by
  intro h
  obtain ⟨v, h1, h2⟩ := h Bad.w (fun _ => ⟨none, true⟩) [(t!"cfg", 100), (t!"limit", 7)]
    ⟨by decide, by decide, fun t e he => by cases he⟩ (by decide +kernel) t!"cfg" (.depends 0) (by decide) (by decide)
  have hv : v = 100 := by simpa using h1
  subst hv
  cases h2 with
  | depends _ _ vs _ h3 h4 =>
    have hfac : Bad.w.factories 0 = [(t!"limit", .arg 0)] := rfl
    rw [hfac] at h3
    cases h3 with
    | cons _ _ _ u us h5 h6 =>
      cases h6
      have hu : u = 0 := by simpa [Bad.w] using h4
      subst hu
      cases h5 with
      | arg _ _ p _ hn hl =>
        cases hn with
        | here => simp at hl
        | empty h => cases h
        | own _ h => cases h
      | absent _ _ p hn hl _ =>
        cases hn with
        | here => exact hl 7 (by simp)
        | empty h => cases h
        | own _ h => cases h

/-- The code disagrees: one `TaskArgument()` used at parameters of different names keeps the
name it was first entered under, so the second dependency gets the other argument. -/
theorem C74_violated_shared : ¬ C74_statement := by
  intro h
  obtain ⟨v, h1, h2⟩ := h Bad.shared (fun _ => {}) [(t!"a", 1), (t!"b", 2), (t!"x", 101), (t!"y", 101)]
    ⟨by decide, by decide, fun t e he => by cases he⟩ (by decide +kernel) t!"y" (.depends 1) (by decide) (by decide)
  have hv : v = 101 := by simpa using h1
  subst hv
  cases h2 with
  | depends _ _ vs _ h3 h4 =>
    have hfac : Bad.shared.factories 1 = [(t!"b", .arg 0)] := rfl
    rw [hfac] at h3
    cases h3 with
    | cons _ _ _ u us h5 h6 =>
      cases h6
      have hu : 100 + u = 101 := by simpa [Bad.shared] using h4
      have hu : u = 1 := by omega
      subst hu
      cases h5 with
      | arg _ _ p _ hn hl =>
        cases hn with
        | here => simp at hl
        | empty h => cases h
        | own _ h => cases h

/-- The full claim that a dependency can be resolved: the body of a task runs if its call fits,
no dependency function raises, and every argument asked for is one the task itself gets, be it
passed or left at its default. -/
def C74_runs_statement : Prop :=
  ∀ (w : World Nat) (objs : Heap), Python w → OwnObjects w objs → Sane w → Fits w →
    (∀ o, (.arg o ∈ w.worker ∨ ∃ n, (n, .arg o) ∈ w.sig.depParams ∧ n ∉ w.kwargs.map (·.1)) → Named objs o) →
    (∀ n d, (d ∈ w.worker ∨ (n, d) ∈ w.sig.depParams ∧ n ∉ w.kwargs.map (·.1)) → ∀ q, Needs w objs n d q →
      (∃ v, Passes w w.kwargs q v) ∨ ∃ v, ⟨q, .value v⟩ ∈ w.sig.pos ++ w.sig.kwOnly) →
    (body w objs).isSome

/-- The code disagrees: a `TaskArgument()` for an argument left at its default fails, and the
task never runs. -/
theorem C74_violated_fails : ¬ C74_runs_statement := by
  intro h
  have hfac : ∀ f e, e ∈ Bad.w.factories f → f = 0 ∧ e = (t!"limit", .arg 0) := by
    intro f e he
    by_cases h0 : f = 0
    · subst h0; exact ⟨rfl, by simpa [Bad.w] using he⟩
    · simp [Bad.w, h0] at he
  have hdep : ∀ n d, (n, d) ∈ Bad.w.sig.depParams → n = t!"cfg" ∧ d = .depends 0 := by
    intro n d hd
    simpa [Sig.depParams, Bad.w] using hd
  have := h Bad.w (fun _ => {}) ⟨by decide, by decide, fun t e he => by cases he⟩
    (by
      have key : ∀ o n, StandsAt Bad.w o n → n = t!"limit" := by
        rintro o n (⟨f, h⟩ | h)
        · have := (hfac _ _ h).2; cases this; rfl
        · have := (hdep _ _ h).2; cases this
      exact fun o n m _ h1 h2 => (key o n h1).trans (key o m h2).symm)
    ⟨fun f e he g hg => (by have := (hfac f e he).2; subst this; cases hg), by
      rintro g (h | ⟨n, h⟩)
      · cases h
      · have := (hdep _ _ h).2; cases this; decide, fun _ _ => rfl⟩
    ⟨by decide, fun e he => (by cases he), by decide, by decide, fun p hp => by cases hp⟩
    (by
      rintro o (h | ⟨n, h, _⟩)
      · cases h
      · have := (hdep _ _ h).2; cases this)
    (by
      rintro n d (h | ⟨h, _⟩) q hq
      · cases h
      · have := (hdep _ _ h).2
        subst this
        cases hq with
        | inside _ _ m d _ hm hq =>
          have := (hfac _ _ hm).2
          cases this
          cases hq with
          | arg _ _ _ hn _ =>
            cases hn with
            | here => exact .inr ⟨7, by simp [Bad.w]⟩
            | empty h => cases h
            | own _ h => cases h)
  have hno : body Bad.w (fun _ => {}) = none := by decide +kernel
  rw [hno] at this
  cases this


/-- Nothing is remembered of a dependency. -/
def Unmade (f : Nat) (s : St α) : Prop := ∀ e ∈ s.cache, e.1 ≠ f

theorem Unmade.meanwhile {f : Nat} {s : St α} (w : World α) (h : Unmade f s) : Unmade f (meanwhile w s) := h

theorem resolveParams_unmade {w : World α} {f : Nat} {en : Dep α → St α → Option α × St α}
    (hen : ∀ d s, Unmade f s → Unmade f (en d s).2) (ps : List (Text × Dep α)) :
    ∀ s, Unmade f s → Unmade f (resolveParams w en ps s).2 := by
  induction ps with
  | nil => exact fun s h => h
  | cons p ps ih =>
    intro s h
    obtain ⟨n, d⟩ := p
    have h1 := hen d { Docket.TaskArg.meanwhile w s with heap := inferAt n d (Docket.TaskArg.meanwhile w s).heap } (h.meanwhile w)
    rw [resolveParams]
    split
    · next s' he => rw [he] at h1; exact h1
    · next v s' he =>
      rw [he] at h1
      have h2 := ih s' h1
      split
      · next s'' he' => rw [he'] at h2; exact h2
      · next vs s'' he' => rw [he'] at h2; exact h2

theorem enter_unmade {w : World α} {f : Nat} (hf : ∀ vs, w.make f vs = none) (n : Nat) :
    ∀ (d : Dep α) (s : St α), Unmade f s → Unmade f (enter w n d s).2 ∧ (d = .depends f → (enter w n d s).1 = none) := by
  induction n with
  | zero =>
    intro d s h
    cases d with
    | plain v => rw [enter]; exact ⟨h, fun e => nomatch e⟩
    | arg o => rw [enter]; exact ⟨h, fun e => nomatch e⟩
    | depends g => rw [enter]; exact ⟨h, fun _ => rfl⟩
  | succ n ih =>
    intro d s h
    cases d with
    | plain v => rw [enter]; exact ⟨h, fun e => nomatch e⟩
    | arg o => rw [enter]; exact ⟨h, fun e => nomatch e⟩
    | depends g =>
      rw [enter]
      split
      · next e he =>
        refine ⟨h, fun hd => ?_⟩
        have hg : e.1 = g := by have := List.find?_some he; exact of_decide_eq_true this
        cases hd
        exact absurd hg (h e (List.mem_of_find?_eq_some he))
      · next he =>
        have h1 := resolveParams_unmade (w := w) (fun d s hs => (ih d s hs).1) (w.factories g) s h
        split
        · next s' hr => rw [hr] at h1; exact ⟨h1, fun _ => rfl⟩
        · next vs s' hr =>
          rw [hr] at h1
          split
          · exact ⟨h1, fun _ => rfl⟩
          · next v hv =>
            have hgf : g ≠ f := by rintro rfl; rw [hf] at hv; cases hv
            refine ⟨?_, fun hd => absurd (by cases hd; rfl) hgf⟩
            intro e he
            rcases List.mem_cons.1 he with rfl | he
            · exact hgf
            · exact h1 e he

/-- **C74**, the other way round: if a dependency of the worker, or one that is the default of
a parameter not passed by keyword, always raises, then the body does not run. -/
theorem C74_fails (w : World α) (heap : Heap) (f : Nat) (hf : ∀ vs, w.make f vs = none)
    (h : .depends f ∈ w.worker ∨ ∃ n, (n, .depends f) ∈ w.sig.depParams ∧ find w.kwargs n = none) :
    body w heap = none := by
  have hw : ∀ (ds : List (Dep α)) (s : St α), Unmade f s → Unmade f (resolveWorker w ds s).2 ∧
      (.depends f ∈ ds → (resolveWorker w ds s).1 = false) := by
    intro ds
    induction ds with
    | nil => exact fun s h => ⟨h, fun h => nomatch h⟩
    | cons d ds ih =>
      intro s h
      have h1 := enter_unmade hf w.depth d _ (h.meanwhile w)
      rw [resolveWorker]
      generalize enter w w.depth d (meanwhile w s) = r at *
      obtain ⟨v, s'⟩ := r
      have h2 := ih s' h1.1
      simp only
      generalize resolveWorker w ds s' = r' at *
      obtain ⟨ok, s''⟩ := r'
      refine ⟨h2.1, fun hm => ?_⟩
      rcases List.mem_cons.1 hm with hm | hm
      · have := h1.2 hm.symm
        simp only at this
        simp [this]
      · have := h2.2 hm
        simp only at this
        simp [this]
  have hp : ∀ (n : Text) (d : Dep α) (s : St α), Unmade f s → Unmade f (resolveParam w n d s).2 ∧
      (d = .depends f → find w.kwargs n = none → (resolveParam w n d s).1 = none) := by
    intro n d s h
    have h1 := enter_unmade hf w.depth d _ (h.meanwhile w)
    unfold resolveParam
    cases hk : find w.kwargs n with
    | some v => exact ⟨h, fun _ h => nomatch h⟩
    | none =>
      cases d with
      | arg o =>
        simp only
        split
        · exact ⟨h, fun h => nomatch h⟩
        · exact ⟨h1.1, fun h => nomatch h⟩
      | depends g => exact ⟨h1.1, fun hd _ => h1.2 hd⟩
      | plain v => exact ⟨h1.1, fun hd _ => h1.2 hd⟩
  have ht : ∀ (ps : List (Text × Dep α)) (s : St α), Unmade f s →
      (∃ n, (n, .depends f) ∈ ps ∧ find w.kwargs n = none) → (resolveTask w ps s).1 = none := by
    intro ps
    induction ps with
    | nil => rintro s _ ⟨n, hm, _⟩; cases hm
    | cons p ps ih =>
      rintro s h ⟨n, hm, hn⟩
      obtain ⟨n', d⟩ := p
      have h1 := hp n' d s h
      rw [resolveTask]
      generalize resolveParam w n' d s = r at *
      obtain ⟨v, s'⟩ := r
      simp only
      rcases List.mem_cons.1 hm with hm | hm
      · cases hm
        have : v = none := h1.2 rfl hn
        subst this
        generalize resolveTask w ps s' = r'
        obtain ⟨vs, s''⟩ := r'
        rfl
      · have h2 := ih s' h1.1 ⟨n, hm, hn⟩
        generalize resolveTask w ps s' = r' at *
        obtain ⟨vs, s''⟩ := r'
        simp only at h2
        subst h2
        cases v <;> rfl
  have h0 : Unmade f ({ heap := heap } : St α) := fun e he => nomatch he
  have h1 := hw w.worker _ h0
  unfold body
  generalize resolveWorker w w.worker { heap := heap } = r at *
  obtain ⟨ok, s⟩ := r
  rcases h with h | h
  · have := h1.2 h
    simp only at this
    subst this
    rfl
  · cases ok with
    | false => rfl
    | true =>
      have h2 := ht _ s h1.1 h
      simp only
      generalize resolveTask w w.sig.depParams s = r' at *
      obtain ⟨vs, s''⟩ := r'
      simp only at h2
      subst h2
      rfl

example (w : World Nat) (n : Text) (hk : w.kwargs = []) (hd : w.sig.depParams = [(n, .depends 3)]) :
    body { w with make := fun _ _ => none } (fun _ => {}) = none :=
  C74_fails _ _ 3 (fun _ => rfl) (.inr ⟨n, by simp [hd], by simp [hk, find]⟩)

end Docket.TaskArg
