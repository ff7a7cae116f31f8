import Verif.Views.Results

/-! # C52: stored results behave like a keyed store with expiry -/

namespace Docket.Results

variable {V : Type}

/-! ## Specification

What a client does, event by event: values written under a collection and key, removals, and
time passing. -/

inductive Ev (V : Type) where
  | wrote (c k : Text) (v : V) (ttl : Option Nat)
  | removed (c k : Text)
  | passed (d : Nat)

/-- The events of an operation.  Times to live of less than a second are refused. -/
def events : Op V → List (Ev V)
  | .put c k v ttl => if ttl.all (1000 ≤ ·) then [.wrote c k v ttl] else []
  | .putMany c ks vs ttl => if ttl.all (1000 ≤ ·) then (ks.zip vs).map (fun e => .wrote c e.1 e.2 ttl) else []
  | .delete c k => [.removed c k]
  | .deleteMany c ks => ks.map (fun k => .removed c k)
  | .tick d => [.passed d]

/-- The time at the end of a history. -/
def clock : List (Ev V) → Nat
  | [] => 0
  | .passed d :: l => d + clock l
  | _ :: l => clock l

/-- The event is about this collection and key. -/
def Ev.about (c k : Text) : Ev V → Prop
  | .wrote c' k' _ _ => c' = c ∧ k' = k
  | .removed c' k' => c' = c ∧ k' = k
  | .passed _ => False

/-- The last event about `(c, k)` wrote `v`, and less than the whole seconds of its time to live
have passed since. -/
def Current (h : List (Ev V)) (c k : Text) (v : V) : Prop :=
  ∃ pre ttl post, h = pre ++ .wrote c k v ttl :: post ∧ (∀ e ∈ post, ¬ e.about c k) ∧
    ∀ t, ttl = some t → clock post ≤ 1000 * (t / 1000)

/-! ## Proof -/

theorem clock_append (a b : List (Ev V)) : clock (a ++ b) = clock a + clock b := by
  induction a with
  | nil => simp [clock]
  | cons e a ih =>
    cases e <;> simp [clock, ih] <;> omega

/-- What one event does to the store. -/
def apply (s : S V) : Ev V → S V
  | .wrote c k v ttl => set s (makeKey c k) (some (v, ttl.map (fun t => s.now + 1000 * (t / 1000))))
  | .removed c k => set s (makeKey c k) none
  | .passed d => { s with now := s.now + d }

theorem put_good (s : S V) (c k : Text) (v : V) (ttl : Option Nat) (h : ttl.all (1000 ≤ ·) = true) :
    put s c k v ttl = (apply s (.wrote c k v ttl), true) := by
  cases ttl with
  | none => rfl
  | some t =>
    simp at h
    have : ∃ m, t / 1000 = m + 1 := ⟨t / 1000 - 1, by omega⟩
    obtain ⟨m, hm⟩ := this
    simp only [put, Option.map_some, hm, setEx, apply]

theorem put_bad (s : S V) (c k : Text) (v : V) (ttl : Option Nat) (h : ¬ ttl.all (1000 ≤ ·) = true) :
    put s c k v ttl = (s, false) := by
  cases ttl with
  | none => simp at h
  | some t =>
    simp at h
    have : t / 1000 = 0 := by omega
    simp only [put, Option.map_some, this, setEx]

theorem putMany_good (c : Text) (ttl : Option Nat) (h : ttl.all (1000 ≤ ·) = true) (ks : List Text) (vs : List V) (s : S V) :
    (putMany s c ttl ks vs).1 = ((ks.zip vs).map (fun e => Ev.wrote c e.1 e.2 ttl)).foldl apply s := by
  induction ks generalizing vs s with
  | nil => cases vs <;> rfl
  | cons k ks ih =>
    cases vs with
    | nil => rfl
    | cons v vs =>
      simp only [putMany, put_good s c k v ttl h, if_true, List.zip_cons_cons, List.map_cons, List.foldl_cons]
      exact ih vs _

theorem putMany_bad (c : Text) (ttl : Option Nat) (h : ¬ ttl.all (1000 ≤ ·) = true) (ks : List Text) (vs : List V) (s : S V) :
    (putMany s c ttl ks vs).1 = s := by
  cases ks with
  | nil => cases vs <;> rfl
  | cons k ks =>
    cases vs with
    | nil => rfl
    | cons v vs => simp [putMany, put_bad s c k v ttl h]

theorem del_eq (c : Text) (ks : List Text) (s : S V) :
    (del s (ks.map (makeKey c))).1 = (ks.map (fun k => Ev.removed c k)).foldl apply s := by
  induction ks generalizing s with
  | nil => rfl
  | cons k ks ih => simp only [List.map_cons, del, List.foldl_cons]; exact ih _

theorem step_eq (s : S V) (o : Op V) : step s o = (events o).foldl apply s := by
  cases o with
  | put c k v ttl =>
    simp only [step, events]
    split
    · next h => rw [put_good s c k v ttl h]; rfl
    · next h => rw [put_bad s c k v ttl h]; rfl
  | putMany c ks vs ttl =>
    simp only [step, events, putManyTop]
    by_cases hk : ks = []
    · subst hk; simp
    · rw [if_neg hk]
      split
      · next h => exact putMany_good c ttl h ks vs s
      · next h => exact putMany_bad c ttl h ks vs s
  | delete c k => exact del_eq c [k] s
  | deleteMany c ks =>
    simp only [step, events, deleteMany]
    by_cases hk : ks = []
    · subst hk; rfl
    · rw [if_neg hk]; exact del_eq c ks s
  | tick d => rfl

theorem run_eq (ops : List (Op V)) : run ops = (ops.flatMap events).foldl apply S.init := by
  unfold run
  generalize (S.init : S V) = s
  induction ops generalizing s with
  | nil => rfl
  | cons o ops ih => rw [List.foldl_cons, ih, step_eq, List.flatMap_cons, List.foldl_append]

theorem snocInd {α : Type} {P : List α → Prop} (nil : P []) (snoc : ∀ l a, P l → P (l ++ [a])) (l : List α) : P l := by
  have key : ∀ l : List α, P l.reverse := by
    intro l
    induction l with
    | nil => exact nil
    | cons x l ih => rw [List.reverse_cons]; exact snoc _ _ ih
  have := key l.reverse
  rwa [List.reverse_reverse] at this

/-- The Redis key of an event. -/
def Ev.rk : Ev V → Option Text
  | .wrote c k _ _ => some (makeKey c k)
  | .removed c k => some (makeKey c k)
  | .passed _ => none

theorem now_eq (h : List (Ev V)) : (h.foldl apply S.init).now = clock h := by
  refine snocInd (P := fun h => (List.foldl apply S.init h).now = clock h) rfl ?_ h
  intro h e ih
  rw [List.foldl_append, clock_append]
  cases e with
  | passed d => simp only [List.foldl_cons, List.foldl_nil, apply, clock]; omega
  | _ => simp only [List.foldl_cons, List.foldl_nil, apply, clock, set]; omega

/-- What is in the store under a Redis key is what the last event of that key put there. -/
theorem data_iff (h : List (Ev V)) (rk : Text) (v : V) (d : Option Nat) :
    (h.foldl apply S.init).data rk = some (v, d) ↔
    ∃ pre c k ttl post, h = pre ++ .wrote c k v ttl :: post ∧ makeKey c k = rk ∧ (∀ e ∈ post, e.rk ≠ some rk) ∧
      d = ttl.map (fun t => clock pre + 1000 * (t / 1000)) := by
  refine snocInd (P := fun h => (List.foldl apply S.init h).data rk = some (v, d) ↔
    ∃ pre c k ttl post, h = pre ++ .wrote c k v ttl :: post ∧ makeKey c k = rk ∧ (∀ e ∈ post, e.rk ≠ some rk) ∧
      d = ttl.map (fun t => clock pre + 1000 * (t / 1000))) ?_ ?_ h
  · constructor
    · intro hh; cases hh
    · rintro ⟨pre, c, k, ttl, post, he, _⟩; simp at he
  · intro h e ih
    rw [List.foldl_append]
    simp only [List.foldl_cons, List.foldl_nil]
    have hnow := now_eq h
    generalize List.foldl apply S.init h = s at *
    by_cases hrk : e.rk = some rk
    · cases e with
      | passed d => cases hrk
      | removed c k =>
        have hrk' : makeKey c k = rk := Option.some.inj hrk
        simp only [apply, set, hrk', if_true]
        constructor
        · intro hh; cases hh
        · rintro ⟨pre, c', k', ttl, post, he, _, hp, _⟩
          rcases List.eq_nil_or_concat post with rfl | ⟨post, x, rfl⟩
          · obtain ⟨_, h⟩ := List.append_inj' he rfl
            cases h
          · rw [List.concat_eq_append, ← List.cons_append, ← List.append_assoc] at he
            obtain ⟨_, h2⟩ := List.append_inj' he rfl
            cases h2
            exact absurd hrk (hp _ (by simp))
      | wrote c k v' ttl =>
        have hrk' : makeKey c k = rk := Option.some.inj hrk
        simp only [apply, set, hrk', if_true]
        constructor
        · intro hh
          cases hh
          exact ⟨h, c, k, ttl, [], rfl, hrk', by simp, by rw [hnow]⟩
        · rintro ⟨pre, c', k', ttl', post, he, _, hp, hd⟩
          rcases List.eq_nil_or_concat post with rfl | ⟨post, x, rfl⟩
          · obtain ⟨h1, h2⟩ := List.append_inj' he rfl
            cases h2
            subst h1
            rw [hd, hnow]
          · rw [List.concat_eq_append, ← List.cons_append, ← List.append_assoc] at he
            obtain ⟨_, h2⟩ := List.append_inj' he rfl
            cases h2
            exact absurd hrk (hp _ (by simp))
    · have hsame : (apply s e).data rk = s.data rk := by
        cases e with
        | passed d => rfl
        | removed c k =>
          have : ¬ rk = makeKey c k := fun hc => hrk (by rw [hc]; rfl)
          simp [apply, set, this]
        | wrote c k v' ttl =>
          have : ¬ rk = makeKey c k := fun hc => hrk (by rw [hc]; rfl)
          simp [apply, set, this]
      rw [hsame, ih]
      constructor
      · rintro ⟨pre, c, k, ttl, post, rfl, hk, hp, hd⟩
        refine ⟨pre, c, k, ttl, post ++ [e], by simp, hk, ?_, hd⟩
        intro x hx
        rcases List.mem_append.1 hx with hx | hx
        · exact hp x hx
        · rw [List.mem_singleton.1 hx]; exact hrk
      · rintro ⟨pre, c, k, ttl, post, he, hk, hp, hd⟩
        rcases List.eq_nil_or_concat post with rfl | ⟨post, x, rfl⟩
        · obtain ⟨_, h2⟩ := List.append_inj' he rfl
          cases h2
          exact absurd (by rw [← hk]; rfl) hrk
        · rw [List.concat_eq_append, ← List.cons_append, ← List.append_assoc] at he
          obtain ⟨h1, h2⟩ := List.append_inj' he rfl
          cases h2
          exact ⟨pre, c, k, ttl, post, h1, hk, fun x hx => hp x (by simp [hx]), hd⟩

/-- The collection and key of an event. -/
def Ev.at? : Ev V → Option (Text × Text)
  | .wrote c k _ _ => some (c, k)
  | .removed c k => some (c, k)
  | .passed _ => none

/-- No other collection and key used in the history has the same Redis key as `(c, k)`. -/
def NoCollision (h : List (Ev V)) (c k : Text) : Prop :=
  ∀ e ∈ h, ∀ c' k', e.at? = some (c', k') → c' ++ t!":" ++ k' = c ++ t!":" ++ k → c' = c ∧ k' = k

/-- **C52**, partial: after every sequence of single and batched puts and deletes and of clock
advances, a value is read back if and only if it is the last one put under that collection and
key, not deleted since, and within the whole seconds of its time to live.  Missing: collections
and keys that make the same Redis key, where it fails (`C52_violated_collision`). -/
theorem C52_get_partial (ops : List (Op V)) (c k : Text) (v : V) (hc : NoCollision (ops.flatMap events) c k) :
    get (run ops) c k = some v ↔ Current (ops.flatMap events) c k v := by
  rw [run_eq]
  generalize ops.flatMap events = h at *
  have hd := data_iff h (makeKey c k) v
  have hn := now_eq h
  have hrk : ∀ e ∈ h, e.rk = some (makeKey c k) ↔ e.about c k := by
    intro e he
    cases e with
    | passed d => simp [Ev.rk, Ev.about]
    | wrote c' k' v' ttl =>
      simp only [Ev.rk, Ev.about, Option.some.injEq]
      exact ⟨fun hh => hc _ he c' k' rfl hh, fun hh => by rw [hh.1, hh.2]⟩
    | removed c' k' =>
      simp only [Ev.rk, Ev.about, Option.some.injEq]
      exact ⟨fun hh => hc _ he c' k' rfl hh, fun hh => by rw [hh.1, hh.2]⟩
  have hget : get (h.foldl apply S.init) c k = some v ↔
      ∃ d, (h.foldl apply S.init).data (makeKey c k) = some (v, d) ∧ ∀ t, d = some t → (h.foldl apply S.init).now ≤ t := by
    unfold get S.read
    rcases (h.foldl apply S.init).data (makeKey c k) with _ | ⟨v', _ | t⟩
    · simp
    · simp only [Option.map_some, Option.some.injEq, Prod.mk.injEq]
      constructor
      · rintro rfl; exact ⟨none, ⟨rfl, rfl⟩, fun x hx => by cases hx⟩
      · rintro ⟨d, ⟨rfl, _⟩, _⟩; rfl
    · simp only
      by_cases ht : (h.foldl apply S.init).now ≤ t
      · simp only [ht, if_true, Option.map_some, Option.some.injEq, Prod.mk.injEq]
        constructor
        · rintro rfl; exact ⟨some t, ⟨rfl, rfl⟩, fun x hx => by cases hx; exact ht⟩
        · rintro ⟨d, ⟨rfl, _⟩, _⟩; rfl
      · simp only [ht, if_false, Option.map_none]
        constructor
        · intro hh; cases hh
        · rintro ⟨d, hh, hle⟩
          simp only [Option.some.injEq, Prod.mk.injEq] at hh
          exact absurd (hle t hh.2.symm) ht
  rw [hget]
  constructor
  · rintro ⟨d, hdd, hle⟩
    obtain ⟨pre, c', k', ttl, post, rfl, hk, hp, rfl⟩ := (hd d).1 hdd
    obtain ⟨rfl, rfl⟩ := hc (.wrote c' k' v ttl) (by simp) c' k' rfl hk
    refine ⟨pre, ttl, post, rfl, ?_, ?_⟩
    · intro e he ha
      exact hp e he ((hrk e (by simp [he])).2 ha)
    · rintro t rfl
      have := hle _ rfl
      rw [hn, clock_append] at this
      simp only [clock] at this
      omega
  · rintro ⟨pre, ttl, post, rfl, hp, ht⟩
    refine ⟨_, (hd _).2 ⟨pre, c, k, ttl, post, rfl, rfl, ?_, rfl⟩, ?_⟩
    · intro e he ha
      exact hp e he ((hrk e (by simp [he])).1 ha)
    · intro t htt
      cases ttl with
      | none => cases htt
      | some x =>
        cases htt
        rw [hn, clock_append]
        simp only [clock]
        have := ht x rfl
        omega

theorem append_inj_first {c c' k k' : Text} (hc : ':' ∉ c) (hc' : ':' ∉ c') (h : c' ++ t!":" ++ k' = c ++ t!":" ++ k) :
    c' = c ∧ k' = k := by
  induction c' generalizing c with
  | nil =>
    cases c with
    | nil => simpa using h
    | cons x c => simp at h; simp [← h.1] at hc
  | cons y c' ih =>
    cases c with
    | nil => simp at h; simp [h.1] at hc'
    | cons x c =>
      simp only [List.cons_append, List.cons.injEq] at h
      obtain ⟨rfl, h⟩ := h
      obtain ⟨rfl, rfl⟩ := ih (by simp at hc; exact hc.2) (by simp at hc'; exact hc'.2) h
      exact ⟨rfl, rfl⟩

/-- **C52**: this covers every history in which the collections have no colon. -/
theorem C52_no_collision_colon (h : List (Ev V)) (c k : Text) (hc : ':' ∉ c)
    (hh : ∀ e ∈ h, ∀ c' k', e.at? = some (c', k') → ':' ∉ c') : NoCollision h c k :=
  fun e he c' k' ha heq => append_inj_first hc (hh e he c' k' ha) heq

/-- **C52**: and, whatever the names, every history that uses one collection only, as a docket
does for its results. -/
theorem C52_no_collision_same (h : List (Ev V)) (c k : Text) (hh : ∀ e ∈ h, ∀ c' k', e.at? = some (c', k') → c' = c) :
    NoCollision h c k := by
  intro e he c' k' ha heq
  have := hh e he c' k' ha
  subst this
  exact ⟨rfl, List.append_cancel_left heq⟩

/-- **C52**: a batched read gives what single reads would. -/
theorem C52_get_many (s : S V) (c : Text) (ks : List Text) :
    getMany s c ks = ks.map (get s c) ∧ (ttlMany s c ks).map (·.1) = ks.map (get s c) := by
  constructor
  · unfold getMany
    split
    · next h => subst h; rfl
    · simp only [List.map_map]; rfl
  · unfold ttlMany
    rw [List.map_map]
    apply List.map_congr_left
    intro k _
    simp only [Function.comp, getTtl, get]
    cases s.read (makeKey c k) with
    | none => rfl
    | some e => obtain ⟨v, _ | d⟩ := e <;> rfl

/-- **C52**: reading with the time to live gives the value, and the time until it goes rounded
to the nearest second; no time if it stays (or is not there).  The value is there for exactly
`left` more milliseconds. -/
theorem C52_ttl (s : S V) (c k : Text) :
    (getTtl s c k).1 = get s c k ∧
    (∀ n, (getTtl s c k).2 = some n → ∃ left, (∀ d, (get (step s (.tick d)) c k).isSome ↔ d ≤ left) ∧
      1000 * n ≤ left + 500 ∧ left < 1000 * n + 500) ∧
    ((getTtl s c k).2 = none → ∀ d, get (step s (.tick d)) c k = get s c k) := by
  simp only [getTtl, get, step, S.read]
  cases h : s.data (makeKey c k) with
  | none => simp
  | some e =>
    obtain ⟨v, _ | t⟩ := e
    · simp
    · by_cases ht : s.now ≤ t
      · simp only [ht, if_true]
        refine ⟨rfl, ?_, by simp⟩
        intro n hn
        simp only [Option.some.injEq] at hn
        refine ⟨t - s.now, ?_, by omega, by omega⟩
        intro d
        by_cases hd : s.now + d ≤ t
        · simp only [hd, if_true, Option.map_some, Option.isSome_some, true_iff]; omega
        · simp only [hd, if_false, Option.map_none, Option.isSome_none, Bool.false_eq_true, false_iff]; omega
      · simp only [ht, if_false]
        refine ⟨rfl, by simp, ?_⟩
        intro _ d
        have : ¬ s.now + d ≤ t := by omega
        simp only [this, if_false]

theorem read_set_other (s : S V) {a b : Text} (h : b ≠ a) (x : Option (V × Option Nat)) : (set s a x).read b = s.read b := by
  have : (set s a x).data b = s.data b := by simp [set, h]
  unfold S.read
  rw [this]
  rfl

theorem read_set_none (s : S V) (a : Text) : (set s a none).read a = none := by
  simp [S.read, set]

/-- **C52**: deleting reports how many different values there were; afterwards there are none
of them, and the other keys of the collection are as before. -/
theorem C52_delete_many (s : S V) (c : Text) (ks : List Text) (hn : ks.Nodup) :
    (deleteMany s c ks).2 = (ks.filter (fun k => (get s c k).isSome)).length ∧
    (∀ k ∈ ks, get (deleteMany s c ks).1 c k = none) ∧
    ∀ k, k ∉ ks → get (deleteMany s c ks).1 c k = get s c k := by
  have hkey : ∀ k k', makeKey c k = makeKey c k' → k = k' := fun k k' h => List.append_cancel_left h
  have key : ∀ (ks : List Text) (s : S V), ks.Nodup →
      (del s (ks.map (makeKey c))).2 = (ks.filter (fun k => (get s c k).isSome)).length ∧
      (∀ k ∈ ks, (del s (ks.map (makeKey c))).1.read (makeKey c k) = none) ∧
      ∀ k, k ∉ ks → (del s (ks.map (makeKey c))).1.read (makeKey c k) = s.read (makeKey c k) := by
    intro ks
    induction ks with
    | nil => intro s _; exact ⟨rfl, by simp, fun _ _ => rfl⟩
    | cons x ks ih =>
      intro s hn
      simp only [List.nodup_cons] at hn
      obtain ⟨h1, h2, h3⟩ := ih (set s (makeKey c x) none) hn.2
      simp only [List.map_cons, del]
      refine ⟨?_, ?_, ?_⟩
      · rw [h1]
        have hf : ks.filter (fun k => (get (set s (makeKey c x) none) c k).isSome) = ks.filter (fun k => (get s c k).isSome) := by
          apply List.filter_congr
          intro k hk
          rw [get, read_set_other _ (fun hc => by have := hkey _ _ hc; subst this; exact hn.1 hk)]
          rfl
        rw [hf, List.filter_cons]
        have : (get s c x).isSome = (s.read (makeKey c x)).isSome := by simp [get]
        rw [this]
        split <;> simp [Nat.add_comm]
      · intro k hk
        by_cases hkx : k ∈ ks
        · exact h2 k hkx
        · rw [h3 k hkx]
          rcases List.mem_cons.1 hk with rfl | hk
          · exact read_set_none _ _
          · exact absurd hk hkx
      · intro k hk
        simp only [List.mem_cons, not_or] at hk
        rw [h3 k hk.2, read_set_other _ (fun hc => hk.1 (hkey _ _ hc))]
  unfold deleteMany
  split
  · next h => subst h; exact ⟨rfl, by simp, fun _ _ => rfl⟩
  · obtain ⟨h1, h2, h3⟩ := key ks s hn
    exact ⟨h1, fun k hk => by rw [get, h2 k hk]; rfl, fun k hk => by rw [get, h3 k hk]; rfl⟩

/-- **C52**: a single delete reports whether there was a value. -/
theorem C52_delete (s : S V) (c k : Text) : (delete s c k).2 = (get s c k).isSome := by
  simp only [delete, del, get, Option.isSome_map]
  split <;> simp_all

/-! ## Examples and violations -/

def sampleOps : List (Op Nat) :=
  [.put t!"r" t!"a" 1 (some 2500), .tick 1000, .putMany t!"r" [t!"b", t!"c"] [2, 3] none, .put t!"r" t!"a" 4 (some 1500),
   .deleteMany t!"r" [t!"c", t!"x"], .tick 1000]

example : NoCollision (sampleOps.flatMap events) t!"r" t!"a" := by
  apply C52_no_collision_same
  intro e he c' k' ha
  simp [sampleOps, events] at he
  rcases he with rfl | rfl | rfl | rfl | rfl | rfl | rfl | rfl <;> simp [Ev.at?] at ha <;> exact ha.1.symm
example : getMany (run sampleOps) t!"r" [t!"a", t!"b", t!"c"] = [some 4, some 2, none] := by decide +kernel
example : getTtl (run (sampleOps.dropLast)) t!"r" t!"a" = (some 4, some 1) := by decide +kernel
example : get (run (sampleOps ++ [.tick 1])) t!"r" t!"a" = none := by decide +kernel

/-- The full statement: whatever the collections and keys. -/
def C52_get : Prop :=
  ∀ (ops : List (Op Nat)) (c k : Text) (v : Nat), get (run ops) c k = some v ↔ Current (ops.flatMap events) c k v

/-- **C52, violated**: collection `a` with key `b:c` and collection `a:b` with key `c` share one
Redis key. -/
theorem C52_violated_collision : ¬ C52_get := by
  intro h
  have := (h [.put t!"a" t!"b:c" 1 none] t!"a:b" t!"c" 1).1 (by decide +kernel)
  obtain ⟨pre, ttl, post, he, _⟩ := this
  simp [events] at he
  rcases pre with _ | ⟨x, pre⟩
  · simp at he
  · simp at he

/-- Every put is carried out. -/
def C52_put : Prop := ∀ (s : S Nat) (c k : Text) (v : Nat) (ttl : Option Nat), (∀ t, ttl = some t → 0 < t) → (put s c k v ttl).2 = true

/-- **C52, violated**: a time to live of less than a second is cut down to zero, which Redis
refuses. -/
theorem C52_violated_fraction : ¬ C52_put := by
  intro h
  have := h S.init t!"c" t!"k" 1 (some 500) (by intro t ht; cases ht; decide)
  revert this
  decide

/-- **C52**: a batched write succeeds exactly when there is nothing to write, or as many values
as keys and a time to live of at least a second (or none). -/
theorem C52_put_many (s : S V) (c : Text) (ttl : Option Nat) (ks : List Text) (vs : List V) :
    (putManyTop s c ttl ks vs).2 = true ↔ ks = [] ∨ (ks.length = vs.length ∧ ∀ n, ttl = some n → 1000 ≤ n) := by
  have hput : ∀ (s : S V) k v, (put s c k v ttl).2 = true ↔ ∀ n, ttl = some n → 1000 ≤ n := by
    intro s k v
    cases ttl with
    | none => simp [put, setEx]
    | some n =>
      simp only [put, Option.map_some]
      cases h : n / 1000 with
      | zero => simp [setEx]; omega
      | succ m => simp [setEx]; omega
  have key : ∀ (ks : List Text) (vs : List V) (s : S V), ks ≠ [] →
      ((putMany s c ttl ks vs).2 = true ↔ ks.length = vs.length ∧ ∀ n, ttl = some n → 1000 ≤ n) := by
    intro ks
    induction ks with
    | nil => intro _ _ h; exact absurd rfl h
    | cons k ks ih =>
      intro vs s _
      cases vs with
      | nil => simp [putMany]
      | cons v vs =>
        simp only [putMany]
        split
        · next hr =>
          have hr' := (hput s k v).1 hr
          cases ks with
          | nil => cases vs <;> simp [putMany] ; exact hr'
          | cons k' ks =>
            rw [ih vs _ (by simp)]
            simp
        · next hr =>
          have : ¬ ∀ n, ttl = some n → 1000 ≤ n := fun h => hr ((hput s k v).2 h)
          constructor
          · intro h; cases h
          · intro h; exact absurd h.2 this
  unfold putManyTop
  split
  · next h => simp [h]
  · next h => rw [key ks vs s h]; simp [h]

end Docket.Results
