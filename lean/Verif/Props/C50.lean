import Verif.Views.Heartbeat

/-! # C50: worker listings show exactly the workers with a recent heartbeat -/

namespace Docket.Beat

/-! ## Specification -/

/-- A heartbeat of a worker that has tasks, in a process where the maximum age is `age`. -/
def GoodBeat (age : Nat) : Op → Prop
  | .beat _ tasks _ a => tasks ≠ [] ∧ a = age
  | .leave _ _ _ => True
  | .list _ a => a = age
  | .listTask _ _ a => a = age

/-- All processes use the same maximum age, and their docket has tasks (a docket always has the
standard ones). -/
def SameSettings (age : Nat) (ops : List Op) : Prop := ∀ o ∈ ops, GoodBeat age o

/-- An operation of worker `w` itself: a heartbeat or its departure. -/
def Of (w : String) : Op → Prop
  | .beat v _ _ _ | .leave v _ _ => v = w
  | _ => False

/-- The last thing `w` did was a heartbeat at time `t`, announcing `tasks`. -/
def LastBeat (ops : List Op) (w : String) (t : Nat) (tasks : List String) : Prop :=
  ∃ pre age post, ops = pre ++ .beat w tasks t age :: post ∧ ∀ o ∈ post, ¬ Of w o

/-- The tasks that an operation of a worker is about. -/
def Op.tasks : Op → List String
  | .beat _ tasks _ _ | .leave _ tasks _ => tasks
  | _ => []

/-- A worker name never comes back with fewer tasks without departing in between. -/
def Grows (ops : List Op) : Prop :=
  ∀ w pre tasks t age mid o post, ops = pre ++ .beat w tasks t age :: (mid ++ o :: post) →
    (∀ x ∈ mid, ¬ Of w x) → Of w o → tasks ⊆ o.tasks

/-! ## One sorted set -/

/-- What happens to one of the sorted sets: `sel` says which operations touch it. -/
def app (sel : Op → Bool) (l : List (String × Nat)) (o : Op) : List (String × Nat) :=
  if sel o then
    match o with
    | .beat w _ now age => zadd w now (zrem0 ((now : Int) - age) l)
    | .leave w _ _ => zrem w l
    | .list now age => zrem0 ((now : Int) - age) l
    | .listTask _ now age => zrem0 ((now : Int) - age) l
  else l

def selW : Op → Bool
  | .beat _ _ _ _ => true
  | .leave _ _ _ => true
  | .list _ _ => true
  | .listTask _ _ _ => false

def selT (k : String) : Op → Bool
  | .beat _ tasks _ _ => k ∈ tasks
  | .leave _ tasks _ => k ∈ tasks
  | .list _ _ => false
  | .listTask k' _ _ => k = k'

theorem run_workers {age : Nat} {ops : List Op} (h : SameSettings age ops) :
    (run ops).workers = ops.foldl (app selW) [] := by
  have key : ∀ (s : S) (ops : List Op), SameSettings age ops → (ops.foldl step s).workers = ops.foldl (app selW) s.workers := by
    intro s ops
    induction ops generalizing s with
    | nil => intro _; rfl
    | cons o ops ih =>
      intro h
      rw [List.foldl_cons, List.foldl_cons, ih _ (fun x hx => h x (by simp [hx]))]
      congr 1
      have ho := h o (by simp)
      cases o with
      | beat w tasks now a => simp [step, heartbeat, ho.1, app, selW]
      | leave w tasks now => simp [step, removeHeartbeat, app, selW]
      | list now a => simp [step, workers, app, selW]
      | listTask k now a => simp [step, taskWorkers, app, selW]
  exact key S.init ops h

theorem run_taskWorkers {age : Nat} {ops : List Op} (h : SameSettings age ops) (k : String) :
    (run ops).taskWorkers k = ops.foldl (app (selT k)) [] := by
  have key : ∀ (s : S) (ops : List Op), SameSettings age ops →
      (ops.foldl step s).taskWorkers k = ops.foldl (app (selT k)) (s.taskWorkers k) := by
    intro s ops
    induction ops generalizing s with
    | nil => intro _; rfl
    | cons o ops ih =>
      intro h
      rw [List.foldl_cons, List.foldl_cons, ih _ (fun x hx => h x (by simp [hx]))]
      congr 1
      have ho := h o (by simp)
      cases o with
      | beat w tasks now a => simp [step, heartbeat, ho.1, app, selT]
      | leave w tasks now => simp [step, removeHeartbeat, app, selT]
      | list now a => simp [step, workers, app, selT]
      | listTask k' now a =>
        by_cases hk : k = k'
        · subst hk; simp [step, taskWorkers, app, selT]
        · simp [step, taskWorkers, app, selT, hk]
  exact key S.init ops h

/-- The last selected operation of `w` was a heartbeat at `t`. -/
def LastSel (sel : Op → Bool) (ops : List Op) (w : String) (t : Nat) : Prop :=
  ∃ pre tasks age post, ops = pre ++ .beat w tasks t age :: post ∧ sel (.beat w tasks t age) = true ∧
    ∀ o ∈ post, Of w o → sel o = false

theorem lastSel_snoc (sel : Op → Bool) (ops : List Op) (o : Op) (w : String) (t : Nat) :
    LastSel sel (ops ++ [o]) w t ↔
      (sel o = true ∧ ∃ tasks age, o = .beat w tasks t age) ∨ ((Of w o → sel o = false) ∧ LastSel sel ops w t) := by
  constructor
  · rintro ⟨pre, tasks, age, post, he, hs, hp⟩
    rcases List.eq_nil_or_concat post with rfl | ⟨post, x, rfl⟩
    · obtain ⟨_, h⟩ := List.append_inj' he rfl
      cases h
      exact Or.inl ⟨hs, _, _, rfl⟩
    · rw [List.concat_eq_append, ← List.cons_append, ← List.append_assoc] at he
      obtain ⟨h1, h2⟩ := List.append_inj' he rfl
      cases h2
      refine Or.inr ⟨hp o (by simp), pre, tasks, age, post, h1, hs, fun x hx => hp x (by simp [hx])⟩
  · rintro (⟨hs, tasks, age, rfl⟩ | ⟨ho, pre, tasks, age, post, rfl, hs, hp⟩)
    · exact ⟨ops, tasks, age, [], rfl, hs, by simp⟩
    · refine ⟨pre, tasks, age, post ++ [o], by simp, hs, ?_⟩
      intro x hx
      rcases List.mem_append.1 hx with hx | hx
      · exact hp x hx
      · rw [List.mem_singleton.1 hx]; exact ho

structure SetInv (age : Nat) (sel : Op → Bool) (ops : List Op) (l : List (String × Nat)) : Prop where
  nodup : (l.map (·.1)).Nodup
  sound : ∀ w t, (w, t) ∈ l → LastSel sel ops w t
  complete : ∀ w t, LastSel sel ops w t → (w, t) ∈ l ∨ ∃ o ∈ ops, t + age ≤ o.now

theorem zrem0_mem {now age : Nat} {l : List (String × Nat)} {e : String × Nat} :
    e ∈ zrem0 ((now : Int) - age) l ↔ e ∈ l ∧ now < e.2 + age := by
  simp only [zrem0, List.mem_filter, Bool.not_eq_true', Bool.and_eq_false_imp, decide_eq_true_eq, decide_eq_false_iff_not]
  constructor
  · rintro ⟨h1, h2⟩
    exact ⟨h1, by have := h2 (by omega); omega⟩
  · rintro ⟨h1, h2⟩
    exact ⟨h1, fun _ => by omega⟩

theorem zrem0_nodup {i : Int} {l : List (String × Nat)} (h : (l.map (·.1)).Nodup) : ((zrem0 i l).map (·.1)).Nodup :=
  List.Nodup.sublist (List.filter_sublist.map _) h

theorem zrem_nodup {w : String} {l : List (String × Nat)} (h : (l.map (·.1)).Nodup) : ((zrem w l).map (·.1)).Nodup :=
  List.Nodup.sublist (List.filter_sublist.map _) h

theorem zrem_mem {w : String} {l : List (String × Nat)} {e : String × Nat} : e ∈ zrem w l ↔ e ∈ l ∧ e.1 ≠ w := by
  simp [zrem, List.mem_filter]

theorem zadd_mem {w : String} {t : Nat} {l : List (String × Nat)} {e : String × Nat} :
    e ∈ zadd w t l ↔ (e ∈ l ∧ e.1 ≠ w) ∨ e = (w, t) := by
  simp [zadd, List.mem_filter]

theorem zadd_nodup {w : String} {t : Nat} {l : List (String × Nat)} (h : (l.map (·.1)).Nodup) : ((zadd w t l).map (·.1)).Nodup := by
  have := zrem_nodup (w := w) h
  simp only [zadd, List.map_append, List.map_cons, List.map_nil]
  rw [List.nodup_append]
  refine ⟨this, by simp, ?_⟩
  intro a ha b hb
  simp only [List.mem_singleton] at hb
  subst hb
  obtain ⟨e, he, rfl⟩ := List.mem_map.1 ha
  simp only [List.mem_filter, decide_eq_true_eq] at he
  exact he.2

theorem snocInd {α : Type} {P : List α → Prop} (nil : P []) (snoc : ∀ l a, P l → P (l ++ [a])) (l : List α) : P l := by
  have key : ∀ l : List α, P l.reverse := by
    intro l
    induction l with
    | nil => exact nil
    | cons x l ih => rw [List.reverse_cons]; exact snoc _ _ ih
  have := key l.reverse
  rwa [List.reverse_reverse] at this

theorem setInv {age : Nat} (sel : Op → Bool) {ops : List Op} (h : SameSettings age ops) :
    SetInv age sel ops (ops.foldl (app sel) []) := by
  revert h
  refine snocInd (P := fun ops => SameSettings age ops → SetInv age sel ops (ops.foldl (app sel) [])) ?_ ?_ ops
  · intro _
    refine ⟨by simp, by simp, ?_⟩
    rintro w t ⟨pre, tasks, a, post, he, _⟩
    simp at he
  · intro ops o ih h
    have hi := ih (fun x hx => h x (by simp [hx]))
    have ho := h o (by simp)
    rw [List.foldl_append]
    simp only [List.foldl_cons, List.foldl_nil]
    generalize ops.foldl (app sel) [] = l at *
    have hnow : ∀ {t : Nat}, (∃ o ∈ ops, t + age ≤ o.now) → ∃ x ∈ ops ++ [o], t + age ≤ x.now := by
      rintro t ⟨x, hx, hh⟩
      exact ⟨x, by simp [hx], hh⟩
    cases hs : sel o with
    | false =>
      have happ : app sel l o = l := by simp [app, hs]
      rw [happ]
      refine ⟨hi.nodup, ?_, ?_⟩
      · intro w t hm
        rw [lastSel_snoc]
        exact Or.inr ⟨fun _ => hs, hi.sound w t hm⟩
      · intro w t hl
        rw [lastSel_snoc] at hl
        rcases hl with ⟨hc, _⟩ | ⟨_, hl⟩
        · rw [hs] at hc; cases hc
        · exact (hi.complete w t hl).imp id hnow
    | true =>
      cases o with
      | beat v tasks now a =>
        obtain ⟨_, rfl⟩ := ho
        have happ : app sel l (.beat v tasks now a) = zadd v now (zrem0 ((now : Int) - a) l) := by simp [app, hs]
        rw [happ]
        refine ⟨zadd_nodup (zrem0_nodup hi.nodup), ?_, ?_⟩
        · intro w t hm
          rw [lastSel_snoc]
          rw [zadd_mem, zrem0_mem] at hm
          rcases hm with ⟨⟨hm, _⟩, hne⟩ | hm
          · exact Or.inr ⟨fun hc => absurd hc.symm hne, hi.sound w t hm⟩
          · cases hm; exact Or.inl ⟨hs, _, _, rfl⟩
        · intro w t hl
          rw [lastSel_snoc] at hl
          rw [zadd_mem, zrem0_mem]
          rcases hl with ⟨_, _, _, hc⟩ | ⟨hne, hl⟩
          · cases hc; exact Or.inl (Or.inr rfl)
          · have hwv : w ≠ v := by
              intro hc
              subst hc
              have := hne rfl
              rw [hs] at this
              cases this
            rcases hi.complete w t hl with hm | hm
            · by_cases hlt : now < t + a
              · exact Or.inl (Or.inl ⟨⟨hm, hlt⟩, hwv⟩)
              · exact Or.inr ⟨_, List.mem_append_right _ (List.mem_singleton_self _), by simp only [Op.now]; omega⟩
            · exact Or.inr (hnow hm)
      | leave v tasks now =>
        have happ : app sel l (.leave v tasks now) = zrem v l := by simp [app, hs]
        rw [happ]
        refine ⟨zrem_nodup hi.nodup, ?_, ?_⟩
        · intro w t hm
          rw [lastSel_snoc]
          rw [zrem_mem] at hm
          exact Or.inr ⟨fun hc => absurd hc.symm hm.2, hi.sound w t hm.1⟩
        · intro w t hl
          rw [lastSel_snoc] at hl
          rw [zrem_mem]
          rcases hl with ⟨_, _, _, hc⟩ | ⟨hne, hl⟩
          · cases hc
          · have hwv : w ≠ v := by
              intro hc
              subst hc
              have := hne rfl
              rw [hs] at this
              cases this
            exact (hi.complete w t hl).imp (fun hm => ⟨hm, hwv⟩) hnow
      | list now a =>
        have ha : a = age := ho
        subst ha
        have happ : app sel l (.list now a) = zrem0 ((now : Int) - a) l := by simp [app, hs]
        rw [happ]
        refine ⟨zrem0_nodup hi.nodup, ?_, ?_⟩
        · intro w t hm
          rw [lastSel_snoc]
          rw [zrem0_mem] at hm
          exact Or.inr ⟨fun hc => hc.elim, hi.sound w t hm.1⟩
        · intro w t hl
          rw [lastSel_snoc] at hl
          rw [zrem0_mem]
          rcases hl with ⟨_, _, _, hc⟩ | ⟨_, hl⟩
          · cases hc
          · rcases hi.complete w t hl with hm | hm
            · by_cases hlt : now < t + a
              · exact Or.inl ⟨hm, hlt⟩
              · exact Or.inr ⟨_, List.mem_append_right _ (List.mem_singleton_self _), by simp only [Op.now]; omega⟩
            · exact Or.inr (hnow hm)
      | listTask k now a =>
        have ha : a = age := ho
        subst ha
        have happ : app sel l (.listTask k now a) = zrem0 ((now : Int) - a) l := by simp [app, hs]
        rw [happ]
        refine ⟨zrem0_nodup hi.nodup, ?_, ?_⟩
        · intro w t hm
          rw [lastSel_snoc]
          rw [zrem0_mem] at hm
          exact Or.inr ⟨fun hc => hc.elim, hi.sound w t hm.1⟩
        · intro w t hl
          rw [lastSel_snoc] at hl
          rw [zrem0_mem]
          rcases hl with ⟨_, _, _, hc⟩ | ⟨_, hl⟩
          · cases hc
          · rcases hi.complete w t hl with hm | hm
            · by_cases hlt : now < t + a
              · exact Or.inl ⟨hm, hlt⟩
              · exact Or.inr ⟨_, List.mem_append_right _ (List.mem_singleton_self _), by simp only [Op.now]; omega⟩
            · exact Or.inr (hnow hm)

theorem SetInv.listed {age : Nat} {sel : Op → Bool} {ops : List Op} {l : List (String × Nat)} (hi : SetInv age sel ops l)
    {now : Nat} (hclock : ∀ o ∈ ops, o.now ≤ now) (w : String) (t : Nat) :
    (w, t) ∈ zrem0 ((now : Int) - age) l ↔ LastSel sel ops w t ∧ now < t + age := by
  rw [zrem0_mem]
  constructor
  · rintro ⟨h1, h2⟩
    exact ⟨hi.sound w t h1, h2⟩
  · rintro ⟨h1, h2⟩
    rcases hi.complete w t h1 with hm | ⟨o, ho, hh⟩
    · exact ⟨hm, h2⟩
    · have := hclock o ho
      exfalso
      omega

theorem lastSel_selW (ops : List Op) (w : String) (t : Nat) : LastSel selW ops w t ↔ ∃ tasks, LastBeat ops w t tasks := by
  constructor
  · rintro ⟨pre, tasks, a, post, he, _, hp⟩
    refine ⟨tasks, pre, a, post, he, ?_⟩
    intro o ho hc
    have := hp o ho hc
    cases o <;> simp_all [selW, Of]
  · rintro ⟨tasks, pre, a, post, he, hp⟩
    exact ⟨pre, tasks, a, post, he, rfl, fun o ho hc => absurd hc (hp o ho)⟩

theorem first_of {P : Op → Prop} {l : List Op} (h : ∃ o ∈ l, P o) :
    ∃ mid o post, l = mid ++ o :: post ∧ (∀ x ∈ mid, ¬ P x) ∧ P o := by
  induction l with
  | nil => obtain ⟨o, ho, _⟩ := h; cases ho
  | cons x l ih =>
    by_cases hx : P x
    · exact ⟨[], x, l, rfl, by simp, hx⟩
    · obtain ⟨mid, o, post, rfl, h1, h2⟩ := ih (by
        obtain ⟨o, ho, hp⟩ := h
        rcases List.mem_cons.1 ho with rfl | ho
        · exact absurd hp hx
        · exact ⟨o, ho, hp⟩)
      refine ⟨x :: mid, o, post, rfl, ?_, h2⟩
      intro y hy
      rcases List.mem_cons.1 hy with rfl | hy
      · exact hx
      · exact h1 y hy

theorem lastSel_selT {ops : List Op} (hg : Grows ops) (k : String) (w : String) (t : Nat) :
    LastSel (selT k) ops w t ↔ ∃ tasks, k ∈ tasks ∧ LastBeat ops w t tasks := by
  constructor
  · rintro ⟨pre, tasks, a, post, he, hk, hp⟩
    have hk' : k ∈ tasks := by simpa [selT] using hk
    refine ⟨tasks, hk', pre, a, post, he, ?_⟩
    intro o ho hc
    obtain ⟨mid, x, post', hpost, hmid, hx⟩ := first_of (P := Of w) ⟨o, ho, hc⟩
    have hsub := hg w pre tasks t a mid x post' (by rw [he, hpost]) hmid hx
    have hxk : k ∈ x.tasks := hsub hk'
    have := hp x (by rw [hpost]; simp) hx
    cases x <;> simp_all [selT, Of, Op.tasks]
  · rintro ⟨tasks, hk, pre, a, post, he, hp⟩
    exact ⟨pre, tasks, a, post, he, by simpa [selT] using hk, fun o ho hc => absurd hc (hp o ho)⟩

/-! ## The names of a worker's tasks -/

theorem lastBeat_snoc (ops : List Op) (o : Op) (w : String) (t : Nat) (tasks : List String) :
    LastBeat (ops ++ [o]) w t tasks ↔ (∃ age, o = .beat w tasks t age) ∨ (¬ Of w o ∧ LastBeat ops w t tasks) := by
  constructor
  · rintro ⟨pre, age, post, he, hp⟩
    rcases List.eq_nil_or_concat post with rfl | ⟨post, x, rfl⟩
    · obtain ⟨_, h⟩ := List.append_inj' he rfl
      cases h
      exact Or.inl ⟨_, rfl⟩
    · rw [List.concat_eq_append, ← List.cons_append, ← List.append_assoc] at he
      obtain ⟨h1, h2⟩ := List.append_inj' he rfl
      cases h2
      exact Or.inr ⟨hp o (by simp), pre, age, post, h1, fun x hx => hp x (by simp [hx])⟩
  · rintro (⟨age, rfl⟩ | ⟨ho, pre, age, post, rfl, hp⟩)
    · exact ⟨ops, age, [], rfl, by simp⟩
    · refine ⟨pre, age, post ++ [o], by simp, ?_⟩
      intro x hx
      rcases List.mem_append.1 hx with hx | hx
      · exact hp x hx
      · rw [List.mem_singleton.1 hx]; exact ho

theorem Grows.init {ops : List Op} {o : Op} (h : Grows (ops ++ [o])) : Grows ops := by
  intro w pre tasks t age mid x post he hm hx
  exact h w pre tasks t age mid x (post ++ [o]) (by rw [he]; simp) hm hx

/-- The names kept for `w` are those of its last heartbeat; nothing is kept before the first
heartbeat and after a departure. -/
structure NamesInv (age : Nat) (ops : List Op) (s : S) : Prop where
  some : ∀ w l d, s.names w = some (l, d) → ∃ t tasks, LastBeat ops w t tasks ∧ d = t + ttl age ∧ ∀ k, k ∈ l ↔ k ∈ tasks
  none : ∀ w t tasks, LastBeat ops w t tasks → s.names w ≠ none

theorem LastBeat.unique {ops : List Op} {w : String} {t t' : Nat} {a b : List String} (h1 : LastBeat ops w t a)
    (h2 : LastBeat ops w t' b) : t = t' ∧ a = b := by
  revert h1 h2
  refine snocInd (P := fun ops => LastBeat ops w t a → LastBeat ops w t' b → t = t' ∧ a = b) ?_ ?_ ops
  · rintro ⟨pre, age, post, he, _⟩
    simp at he
  · intro ops o ih h1 h2
    rw [lastBeat_snoc] at h1 h2
    rcases h1 with ⟨g, rfl⟩ | ⟨h1, h1'⟩
    · rcases h2 with ⟨g', he⟩ | ⟨hc, _⟩
      · cases he; exact ⟨rfl, rfl⟩
      · exact absurd rfl hc
    · rcases h2 with ⟨g', rfl⟩ | ⟨_, h2'⟩
      · exact absurd rfl h1
      · exact ih h1' h2'

theorem namesInv {age : Nat} {ops : List Op} (h : SameSettings age ops) (hg : Grows ops) : NamesInv age ops (run ops) := by
  revert h hg
  refine snocInd (P := fun ops => SameSettings age ops → Grows ops → NamesInv age ops (run ops)) ?_ ?_ ops
  · intro _ _
    refine ⟨(by intro w l d hh; cases hh), ?_⟩
    rintro w t tasks ⟨pre, a, post, he, _⟩
    simp at he
  · intro ops o ih h hg
    have hi := ih (fun x hx => h x (by simp [hx])) hg.init
    have ho := h o (by simp)
    have hrun : run (ops ++ [o]) = step (run ops) o := by simp [run]
    rw [hrun]
    generalize run ops = s at *
    cases o with
    | beat v tasks now a =>
      obtain ⟨hne, rfl⟩ := ho
      have hnames : ∀ u, (step s (.beat v tasks now a)).names u = if u = v then Option.some (sadd s v now tasks, now + ttl a) else s.names u := by
        intro u; simp [step, heartbeat, hne]
      constructor
      · intro w l d hl
        rw [hnames] at hl
        by_cases hwv : w = v
        · subst hwv
          rw [if_pos rfl] at hl
          cases hl
          refine ⟨now, tasks, (lastBeat_snoc _ _ _ _ _).2 (Or.inl ⟨_, rfl⟩), rfl, ?_⟩
          have hold : ∀ k ∈ namesAt s w now, k ∈ tasks := by
            intro k hk
            unfold namesAt at hk
            rcases hq : s.names w with _ | ⟨l, d⟩
            · simp [hq] at hk
            · obtain ⟨t', tasks', hlast, _, hmem⟩ := hi.some w l d hq
              have hkl : k ∈ l := by
                rw [hq] at hk
                dsimp only at hk
                split at hk
                · exact hk
                · cases hk
              have hkt := (hmem k).1 hkl
              obtain ⟨pre, a', post, he, hp⟩ := hlast
              have hsub := hg w pre tasks' t' a' post (.beat w tasks now a) [] (by rw [he]; simp) hp rfl
              exact hsub hkt
          intro k
          simp only [sadd, List.mem_append, List.mem_filter, decide_eq_true_eq]
          constructor
          · rintro (hk | hk)
            · exact hold k hk
            · exact hk.1
          · intro hk
            by_cases hkn : k ∈ namesAt s w now
            · exact Or.inl hkn
            · exact Or.inr ⟨hk, hkn⟩
        · rw [if_neg hwv] at hl
          obtain ⟨t, tasks', h1, h2, h3⟩ := hi.some w l d hl
          exact ⟨t, tasks', (lastBeat_snoc _ _ _ _ _).2 (Or.inr ⟨fun hc => hwv hc.symm, h1⟩), h2, h3⟩
      · intro w t tasks' hl
        rw [hnames]
        by_cases hwv : w = v
        · rw [if_pos hwv]; simp
        · rw [if_neg hwv]
          rw [lastBeat_snoc] at hl
          rcases hl with ⟨_, hc⟩ | ⟨_, hl⟩
          · cases hc; exact absurd rfl hwv
          · exact hi.none w t tasks' hl
    | leave v tasks now =>
      have hnames : ∀ u, (step s (.leave v tasks now)).names u = if u = v then Option.none else s.names u := by
        intro u; simp [step, removeHeartbeat]
      constructor
      · intro w l d hl
        rw [hnames] at hl
        by_cases hwv : w = v
        · rw [if_pos hwv] at hl; cases hl
        · rw [if_neg hwv] at hl
          obtain ⟨t, tasks', h1, h2, h3⟩ := hi.some w l d hl
          exact ⟨t, tasks', (lastBeat_snoc _ _ _ _ _).2 (Or.inr ⟨fun hc => hwv hc.symm, h1⟩), h2, h3⟩
      · intro w t tasks' hl
        rw [hnames]
        rw [lastBeat_snoc] at hl
        rcases hl with ⟨_, hc⟩ | ⟨hne, hl⟩
        · cases hc
        · rw [if_neg (fun hc => hne hc.symm)]
          exact hi.none w t tasks' hl
    | list now a =>
      constructor
      · intro w l d hl
        obtain ⟨t, tasks', h1, h2, h3⟩ := hi.some w l d hl
        exact ⟨t, tasks', (lastBeat_snoc _ _ _ _ _).2 (Or.inr ⟨fun hc => hc, h1⟩), h2, h3⟩
      · intro w t tasks' hl
        rw [lastBeat_snoc] at hl
        rcases hl with ⟨_, hc⟩ | ⟨hne, hl⟩
        · cases hc
        · exact hi.none w t tasks' hl
    | listTask k now a =>
      constructor
      · intro w l d hl
        obtain ⟨t, tasks', h1, h2, h3⟩ := hi.some w l d hl
        exact ⟨t, tasks', (lastBeat_snoc _ _ _ _ _).2 (Or.inr ⟨fun hc => hc, h1⟩), h2, h3⟩
      · intro w t tasks' hl
        rw [lastBeat_snoc] at hl
        rcases hl with ⟨_, hc⟩ | ⟨hne, hl⟩
        · cases hc
        · exact hi.none w t tasks' hl

/-! ## The property -/

/-- A listing is right: each worker at most once, and exactly those whose last heartbeat is
less than `age` old and, if a task is given, announced it; with the time of that heartbeat and
the tasks it announced. -/
structure Right (ops : List Op) (now age : Nat) (task : Option String) (listing : List Info) : Prop where
  once : (listing.map (·.name)).Nodup
  exact : ∀ w t, (∃ i ∈ listing, i.name = w ∧ i.lastSeen = t) ↔
    ∃ tasks, LastBeat ops w t tasks ∧ now < t + age ∧ ∀ k, task = some k → k ∈ tasks
  names : ∀ i ∈ listing, ∃ tasks, LastBeat ops i.name i.lastSeen tasks ∧ ∀ k, k ∈ i.tasks ↔ k ∈ tasks

theorem names_right {age : Nat} {ops : List Op} (h : SameSettings age ops) (hg : Grows ops) (hsec : age % second = 0)
    {w : String} {t now : Nat} {tasks : List String} (hl : LastBeat ops w t tasks) (hnow : now < t + age) :
    ∀ k, k ∈ namesAt (run ops) w now ↔ k ∈ tasks := by
  have hi := namesInv h hg
  rcases hq : (run ops).names w with _ | ⟨l, d⟩
  · exact absurd hq (hi.none w t tasks hl)
  · obtain ⟨t', tasks', h1, h2, h3⟩ := hi.some w l d hq
    obtain ⟨rfl, rfl⟩ := hl.unique h1
    have hle : age ≤ ttl age := by
      unfold ttl
      have hm : age = age / second * second := by
        have := Nat.div_add_mod age second
        rw [Nat.mul_comm]
        omega
      rw [hm]
      refine Nat.mul_le_mul_right _ ?_
      rw [← hm]
      exact Nat.div_le_div_right (Nat.le_max_left _ _)
    intro k
    rw [namesAt, hq]
    dsimp only
    rw [if_pos (by omega)]
    exact h3 k

theorem right_of {age now : Nat} {ops : List Op} (hset : SameSettings age ops)
    (hclock : ∀ o ∈ ops, o.now ≤ now) (hg : Grows ops) (hsec : age % second = 0) {sel : Op → Bool}
    {l : List (String × Nat)} (hi : SetInv age sel ops l) (task : Option String)
    (hsel : ∀ w t, LastSel sel ops w t ↔ ∃ tasks, (∀ k, task = some k → k ∈ tasks) ∧ LastBeat ops w t tasks) :
    Right ops now age task ((zrem0 ((now : Int) - age) l).map (fun e => ⟨e.1, e.2, namesAt (run ops) e.1 now⟩)) := by
  have hm := hi.listed hclock
  refine ⟨?_, ?_, ?_⟩
  · rw [List.map_map]
    exact zrem0_nodup hi.nodup
  · intro w t
    constructor
    · rintro ⟨i, hmem, rfl, rfl⟩
      obtain ⟨e, he, rfl⟩ := List.mem_map.1 hmem
      obtain ⟨h1, h2⟩ := (hm e.1 e.2).1 he
      obtain ⟨tasks, h3, h4⟩ := (hsel _ _).1 h1
      exact ⟨tasks, h4, h2, h3⟩
    · rintro ⟨tasks, h1, h2, h3⟩
      exact ⟨_, List.mem_map.2 ⟨(w, t), (hm w t).2 ⟨(hsel w t).2 ⟨tasks, h3, h1⟩, h2⟩, rfl⟩, rfl, rfl⟩
  · intro i hmem
    obtain ⟨e, he, rfl⟩ := List.mem_map.1 hmem
    obtain ⟨h1, h2⟩ := (hm e.1 e.2).1 he
    obtain ⟨tasks, _, h4⟩ := (hsel _ _).1 h1
    exact ⟨tasks, h4, names_right hset hg hsec h4 h2⟩

/-- **C50**, partial: after every sequence of heartbeats, departures and listings, `workers()`
lists exactly the workers whose last heartbeat is recent.  Assumed: one clock, the same
settings in all processes (`C50_violated_settings`), worker names that do not come back with
fewer tasks (`C50_violated_stale_names`) and a maximum age of whole seconds
(`C50_violated_fraction`). -/
theorem C50_workers_partial (age : Nat) (ops : List Op) (now : Nat) (hset : SameSettings age ops)
    (hclock : ∀ o ∈ ops, o.now ≤ now) (hg : Grows ops) (hsec : age % second = 0) :
    Right ops now age none (workers (run ops) now age).2 := by
  have hi := setInv selW hset
  rw [← run_workers hset] at hi
  refine right_of hset hclock hg hsec hi none ?_
  intro w t
  rw [lastSel_selW]
  simp

/-- **C50**, partial: likewise `task_workers(task)` lists exactly the workers with a recent
heartbeat that announced the task. -/
theorem C50_task_workers_partial (age : Nat) (ops : List Op) (task : String) (now : Nat) (hset : SameSettings age ops)
    (hclock : ∀ o ∈ ops, o.now ≤ now) (hg : Grows ops) (hsec : age % second = 0) :
    Right ops now age (some task) (taskWorkers (run ops) task now age).2 := by
  have hi := setInv (selT task) hset
  rw [← run_taskWorkers hset] at hi
  refine right_of hset hclock hg hsec hi (some task) ?_
  intro w t
  rw [lastSel_selT hg]
  simp

/-- Two workers; one departs, the other is heard of twice, with a new task the second time. -/
def sampleOps : List Op :=
  [.beat "a" ["f"] 5 10000000, .beat "b" ["f", "g"] 7 10000000, .list 8 10000000, .leave "b" ["f", "g"] 9,
    .beat "a" ["f", "h"] 11 10000000]

example : SameSettings 10000000 sampleOps ∧ (∀ o ∈ sampleOps, o.now ≤ 12) := by
  refine ⟨?_, by decide⟩
  intro o ho
  simp only [sampleOps, List.mem_cons, List.not_mem_nil, or_false] at ho
  rcases ho with rfl | rfl | rfl | rfl | rfl <;> simp [GoodBeat]

/-- The hypothesis about names holds if every operation of a worker has the same tasks as its
earlier ones, or more. -/
theorem grows_of {ops : List Op} (h : ops.Pairwise (fun a b => ∀ w, Of w a → Of w b → a.tasks ⊆ b.tasks)) : Grows ops := by
  rintro w pre tasks t age mid o post rfl _ ho
  rw [List.pairwise_append] at h
  have := (List.pairwise_cons.1 h.2.1).1 o (by simp) w rfl ho
  exact this

example : Grows sampleOps := by
  apply grows_of
  simp [sampleOps, Of, Op.tasks]

example : (workers (run sampleOps) 12 10000000).2 = [⟨"a", 11, ["f", "h"]⟩] := by decide +kernel
example : (workers (run sampleOps) 10000010 10000000).2 = [⟨"a", 11, ["f", "h"]⟩] := by decide +kernel
example : (workers (run sampleOps) 10000011 10000000).2 = [] := by decide +kernel
example : (taskWorkers (run sampleOps) "g" 12 10000000).2 = [] := by decide +kernel
example : (workers (run (sampleOps.take 3)) 8 10000000).2 = [⟨"a", 5, ["f"]⟩, ⟨"b", 7, ["f", "g"]⟩] := by decide +kernel

/-! ## The full statement and where it fails -/

/-- C50 for a docket with maximum age `age`, whatever the other processes do. -/
def C50_listings : Prop :=
  ∀ (age : Nat) (ops : List Op) (now : Nat), (∀ o ∈ ops, o.now ≤ now) → ops.Pairwise (fun a b => a.now ≤ b.now) →
    Right ops now age none (workers (run ops) now age).2

/-- **C50, violated**: a process with a shorter heartbeat interval (such as the command line
tools, which always use the defaults) removes workers that are alive by the settings of the
others. -/
theorem C50_violated_settings : ¬ C50_listings := by
  intro h
  have hr := h 100000000 [.beat "a" ["f"] 5 100000000, .list 20000000 10000000] 20000000 (by decide) (by decide)
  have := (hr.exact "a" 5).2 ⟨["f"], ⟨[], _, _, rfl, by simp [Of]⟩, by decide, by simp⟩
  obtain ⟨i, hi, _⟩ := this
  revert hi
  have h0 : (workers (run [.beat "a" ["f"] 5 100000000, .list 20000000 10000000]) 20000000 100000000).2 = [] := by decide +kernel
  rw [h0]
  simp

/-- **C50, violated**: a worker that crashes and comes back under the same name without one of
its tasks is still listed with it, for as long as it lives. -/
theorem C50_violated_stale_names : ¬ C50_listings := by
  intro h
  have hr := h 10000000 [.beat "a" ["f", "g"] 5 10000000, .beat "a" ["f"] 6000000 10000000, .beat "a" ["f"] 12000000 10000000] 12000001
    (by decide) (by decide)
  obtain ⟨tasks, h1, h2⟩ := hr.names ⟨"a", 12000000, ["f", "g"]⟩ (by decide +kernel)
  have h3 : LastBeat [.beat "a" ["f", "g"] 5 10000000, .beat "a" ["f"] 6000000 10000000, .beat "a" ["f"] 12000000 10000000]
    "a" 12000000 ["f"] := ⟨[_, _], _, [], rfl, by simp⟩
  obtain ⟨_, rfl⟩ := h1.unique h3
  have := (h2 "g").1 (by decide)
  revert this
  decide

/-- **C50, violated**: with a maximum age that is not a whole number of seconds, a worker that
is still listed can have lost its tasks: they expire after the whole seconds. -/
theorem C50_violated_fraction : ¬ C50_listings := by
  intro h
  have hr := h 7500000 [.beat "a" ["f"] 0 7500000] 7200000 (by decide) (by decide)
  obtain ⟨tasks, h1, h2⟩ := hr.names ⟨"a", 0, []⟩ (by decide +kernel)
  have h3 : LastBeat [.beat "a" ["f"] 0 7500000] "a" 0 ["f"] := ⟨[], _, [], rfl, by simp⟩
  obtain ⟨_, rfl⟩ := h1.unique h3
  have := (h2 "f").2 (by decide)
  revert this
  decide

end Docket.Beat
