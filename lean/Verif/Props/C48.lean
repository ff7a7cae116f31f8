import Verif.Agenda.Model
/-
C48 scatter() spreads tasks evenly inside the window, all or nothing.
-/
namespace Docket.Agenda

variable {A : Type}

theorem divRound_spec (a : Int) (n : Nat) (h : 0 < n) :
    -(n : Int) ≤ 2 * (n * divRound a n - a) ∧ 2 * (n * divRound a n - a) ≤ n := by
  have hd := Int.mul_ediv_add_emod a n
  have h1 := Int.emod_nonneg a (b := (n : Int)) (by omega)
  have h2 := Int.emod_lt_of_pos a (b := (n : Int)) (by omega)
  simp only [divRound]
  split
  · rw [Int.mul_add, Int.mul_one]; omega
  · omega

theorem divRound_nonneg {a : Int} {n : Nat} (ha : 0 < a) (h : 0 < n) : 0 ≤ divRound a n := by
  have : 0 ≤ a / (n : Int) := Int.ediv_nonneg (by omega) (by omega)
  simp only [divRound]
  split <;> omega

theorem divRound_exact {a : Int} {n : Nat} (h : 0 < n) (hd : (n : Int) ∣ a) : n * divRound a n = a := by
  have he := Int.mul_ediv_cancel' hd
  have hm := Int.emod_eq_zero_of_dvd hd
  simp only [divRound, hm]
  rw [if_neg (by omega)]
  exact he

theorem evenTimes_length (start over : Int) (n : Nat) (_h : 0 < n) : (evenTimes start over n).length = n := by
  unfold evenTimes
  split
  · simp; omega
  · simp

theorem addAll_spec (r : Registry) (fs : List Fn) (es : List (Entry A)) (ks : List Text) (ts : List Int)
    (h1 : fs.length = es.length) (h2 : ks.length = es.length) (h3 : ts.length = es.length) :
    (addAll r fs es ks ts).2.length = es.length ∧
    ∀ (i : Nat) (c : Call A), (addAll r fs es ks ts).2[i]? = some c →
      ∃ e : Entry A, es[i]? = some e ∧ c.args = e.args ∧ ks[i]? = some c.key ∧ ts[i]? = some c.when ∧
        fs[i]? = some c.function ∧ c.functionName = c.function.name := by
  induction es generalizing r fs ks ts with
  | nil =>
    have hf : fs = [] := List.length_eq_zero_iff.1 h1
    subst hf
    simp [addAll]
  | cons e es ih =>
    cases fs with
    | nil => simp at h1
    | cons f fs => cases ks with
      | nil => simp at h2
      | cons k ks => cases ts with
        | nil => simp at h3
        | cons t ts =>
          simp only [List.length_cons, Nat.add_right_cancel_iff] at h1 h2 h3
          have := ih (addFn r f e.args k t).1 fs ks ts h1 h2 h3
          simp only [addAll, List.length_cons]
          refine ⟨by rw [this.1], ?_⟩
          intro i c hc
          cases i with
          | zero =>
            simp only [List.getElem?_cons_zero, Option.some.injEq] at hc
            subst hc
            exact ⟨e, rfl, rfl, rfl, rfl, rfl, rfl⟩
          | succ i =>
            simp only [List.getElem?_cons_succ] at hc
            exact this.2 i c hc

theorem keysOf_length (es : List (Entry A)) (fresh : Nat → Text) : (keysOf es fresh).length = es.length := by
  induction es generalizing fresh with
  | nil => rfl
  | cons e es ih =>
    simp only [keysOf]
    split <;> simp [ih]

theorem keysOf_given (es : List (Entry A)) (fresh : Nat → Text) (i : Nat) (e : Entry A) (k : Text)
    (he : es[i]? = some e) (hk : e.key = some k) : (keysOf es fresh)[i]? = some k := by
  induction es generalizing fresh i with
  | nil => simp at he
  | cons x es ih =>
    cases i with
    | zero =>
      simp only [List.getElem?_cons_zero, Option.some.injEq] at he
      subst he
      simp [keysOf, hk]
    | succ i =>
      simp only [List.getElem?_cons_succ] at he
      simp only [keysOf]
      split <;> simp only [List.getElem?_cons_succ] <;> exact ih _ i he

theorem plan_length {r r' : Registry} {has : Registry → Fn → Bool} {es : List (Entry A)} {fs : List Fn}
    (h : plan r has es = .ok (r', fs)) : fs.length = es.length := by
  induction es generalizing r fs with
  | nil => simp only [plan, Except.ok.injEq, Prod.mk.injEq] at h; rw [← h.2]; rfl
  | cons e es ih =>
    simp only [plan] at h
    split at h
    · split at h
      · cases h
      · split at h
        · rename_i hp
          cases h
          simp [ih hp]
        · cases h
    · split at h
      · rename_i hp
        cases h
        simp [ih hp]
      · cases h

/-- The function an entry stands for: the function given, or the one registered under the
name. -/
theorem plan_fn {r r' : Registry} {has : Registry → Fn → Bool} {es : List (Entry A)} {fs : List Fn}
    (h : plan r has es = .ok (r', fs)) (i : Nat) (e : Entry A) (he : es[i]? = some e) :
    (∀ f, e.ref = .fn f → fs[i]? = some f) ∧
    (∀ n f, e.ref = .name n → r n = some f → (∀ g, Ref.fn g ∈ es.map (·.ref) → g.name = n → g = f) →
      fs[i]? = some f) := by
  induction es generalizing r fs i with
  | nil => simp at he
  | cons x es ih =>
    simp only [plan] at h
    split at h
    · rename_i n0 hx
      split at h
      · cases h
      · rename_i f0 hf0
        split at h
        · rename_i hp
          cases h
          cases i with
          | zero =>
            simp only [List.getElem?_cons_zero, Option.some.injEq] at he
            subst he
            refine ⟨fun f hf => (by rw [hx] at hf; cases hf), fun n f hn hr _ => ?_⟩
            rw [hx] at hn
            cases hn
            rw [hf0] at hr
            rw [List.getElem?_cons_zero]
            exact hr
          | succ i =>
            simp only [List.getElem?_cons_succ] at he ⊢
            have := ih hp i he
            exact ⟨this.1, fun n f hn hr hu => this.2 n f hn hr (fun g hg => hu g (by simp only [List.map_cons]; exact List.mem_cons_of_mem _ hg))⟩
        · cases h
    · rename_i f0 hx
      split at h
      · rename_i hp
        cases h
        cases i with
        | zero =>
          simp only [List.getElem?_cons_zero, Option.some.injEq] at he
          subst he
          refine ⟨fun f hf => (by rw [hx] at hf; cases hf; rfl), fun n f hn _ _ => (by rw [hx] at hn; cases hn)⟩
        | succ i =>
          simp only [List.getElem?_cons_succ] at he ⊢
          have := ih hp i he
          refine ⟨this.1, fun n f hn hr hu => this.2 n f hn ?_ (fun g hg => hu g (by simp only [List.map_cons]; exact List.mem_cons_of_mem _ hg))⟩
          split
          · exact hr
          · simp only [register, if_true, List.foldl_cons, List.foldl_nil, Registry.set]
            split
            · rename_i hnm
              rw [hu f0 (by simp only [List.map_cons, hx]; exact List.mem_cons_self) hnm.symm]
            · exact hr
      · cases h

theorem plan_unknown {r : Registry} {has : Registry → Fn → Bool} {es : List (Entry A)} {n : Text}
    (hn : Ref.name n ∈ es.map (·.ref)) (hr : r n = none) (hf : ∀ g, Ref.fn g ∈ es.map (·.ref) → g.name ≠ n) :
    ∃ x, plan r has es = .error x := by
  induction es generalizing r with
  | nil => cases hn
  | cons e es ih =>
    simp only [plan]
    have hf' : ∀ g, Ref.fn g ∈ es.map (·.ref) → g.name ≠ n := fun g hg =>
      hf g (by simp only [List.map_cons]; exact List.mem_cons_of_mem _ hg)
    split
    · rename_i m hm
      split
      · exact ⟨_, rfl⟩
      · rename_i f hmf
        simp only [List.map_cons, List.mem_cons, hm, Ref.name.injEq] at hn
        rcases hn with rfl | hn
        · rw [hr] at hmf; cases hmf
        · obtain ⟨x, hx⟩ := ih hn hr hf'
          rw [hx]
          exact ⟨_, rfl⟩
    · rename_i g hg
      simp only [List.map_cons, List.mem_cons, hg, reduceCtorEq, false_or] at hn
      have hr' : (if has r g then r else register r g []) n = none := by
        split
        · exact hr
        · simp only [register, if_true, List.foldl_cons, List.foldl_nil, Registry.set]
          rw [if_neg (fun hc => hf g (by simp only [List.map_cons, hg]; exact List.mem_cons_self) hc.symm)]
          exact hr
      obtain ⟨x, hx⟩ := ih hn hr' hf'
      rw [hx]
      exact ⟨_, rfl⟩

/-- The times of a scatter. -/
def timesOf (start over : Int) (count : Nat) (jitter : Option (List Int)) : List Int :=
  match jitter with
  | none => evenTimes start over count
  | some offsets => jittered start (evenTimes start over count) offsets

theorem scatter_ok {r : Registry} {has : Registry → Fn → Bool} {tasks : List (Entry A)} {over start : Int}
    {jitter : Option (List Int)} {fresh : Nat → Text} (hj : ∀ os, jitter = some os → os.length = tasks.length)
    (herr : (scatter r has tasks over start jitter fresh).error = none) (hne : tasks ≠ []) :
    0 < over ∧ ∃ r' fs, plan r has tasks = .ok (r', fs) ∧
    (scatter r has tasks over start jitter fresh).calls =
      (addAll r' fs tasks (keysOf tasks fresh) (timesOf start over tasks.length jitter)).2 ∧
    (timesOf start over tasks.length jitter).length = tasks.length := by
  have hpos : 0 < tasks.length := List.length_pos_iff.2 hne
  have hemp : tasks.isEmpty = false := by simpa using hne
  simp only [scatter] at herr ⊢
  split at herr
  · cases herr
  · rename_i hov
    rw [hemp] at herr
    simp only [Bool.false_eq_true, if_false] at herr
    rw [if_neg hov, hemp]
    simp only [Bool.false_eq_true, if_false]
    cases hp : plan r has tasks with
    | error x => rw [hp] at herr; cases herr
    | ok p =>
      obtain ⟨r', fs⟩ := p
      refine ⟨by omega, r', fs, rfl, ?_, ?_⟩
      · cases jitter <;> rfl
      · cases jitter with
        | none => exact evenTimes_length start over _ hpos
        | some os => simp [timesOf, jittered, evenTimes_length start over _ hpos, hj os rfl]

/-- **C48**: a scatter that succeeds makes exactly one scheduling call per entry of the agenda,
in the order of the agenda, with the entry's arguments, key and function. -/
theorem C48_each_once_in_order (r : Registry) (has : Registry → Fn → Bool) (tasks : List (Entry A)) (over start : Int)
    (jitter : Option (List Int)) (fresh : Nat → Text) (hj : ∀ os, jitter = some os → os.length = tasks.length)
    (herr : (scatter r has tasks over start jitter fresh).error = none) :
    (scatter r has tasks over start jitter fresh).calls.length = tasks.length ∧
    ∀ (i : Nat) (c : Call A), (scatter r has tasks over start jitter fresh).calls[i]? = some c →
      ∃ e : Entry A, tasks[i]? = some e ∧ c.args = e.args ∧ (∀ k, e.key = some k → c.key = k) ∧
        (∀ f, e.ref = .fn f → c.function = f) ∧
        (∀ n f, e.ref = .name n → r n = some f → (∀ g, Ref.fn g ∈ tasks.map (·.ref) → g.name = n → g = f) →
          c.function = f) := by
  cases htasks : tasks with
  | nil =>
    simp only [scatter]
    split <;> simp
  | cons e0 es0 =>
    rw [← htasks]
    obtain ⟨_, r', fs, hp, hc, hl⟩ := scatter_ok hj herr (by rw [htasks]; simp)
    rw [hc]
    have hspec := addAll_spec r' fs tasks (keysOf tasks fresh) (timesOf start over tasks.length jitter)
      (plan_length hp) (keysOf_length tasks fresh) hl
    refine ⟨hspec.1, ?_⟩
    intro i c hci
    obtain ⟨e, he, h1, h2, h3, h4, h5⟩ := hspec.2 i c hci
    refine ⟨e, he, h1, ?_, ?_, ?_⟩
    · intro k hk
      have := keysOf_given tasks fresh i e k he hk
      rw [h2] at this
      exact Option.some.inj this
    · intro f hf
      have := (plan_fn hp i e he).1 f hf
      rw [h4] at this
      exact Option.some.inj this
    · intro n f hn hr hu
      have := (plan_fn hp i e he).2 n f hn hr hu
      rw [h4] at this
      exact Option.some.inj this

theorem addAll_registry {A : Type} (r : Registry) (fs : List Fn) (es : List (Entry A)) (ks : List Text) (ts : List Int) :
    (∀ c ∈ (addAll r fs es ks ts).2, ∃ c' ∈ (addAll r fs es ks ts).2, c'.functionName = c.functionName ∧
      (addAll r fs es ks ts).1 c.functionName = some c'.function) ∧
    ∀ n, (∀ c ∈ (addAll r fs es ks ts).2, c.functionName ≠ n) → (addAll r fs es ks ts).1 n = r n := by
  fun_induction addAll r fs es ks ts with
  | case1 r f fs e es k ks t ts r' c hadd r'' cs hrec ih =>
    rw [hrec] at ih
    simp only at ih ⊢
    have hr' : r' = register r f [] := congrArg Prod.fst hadd.symm
    have hc : c = ⟨f, f.name, e.args, k, t⟩ := congrArg Prod.snd hadd.symm
    constructor
    · intro x hx
      rcases List.mem_cons.1 hx with rfl | hx
      · by_cases hex : ∃ y ∈ cs, y.functionName = x.functionName
        · obtain ⟨y, hy, hn⟩ := hex
          obtain ⟨z, hz, h1, h2⟩ := ih.1 y hy
          exact ⟨z, by simp [hz], by rw [h1, hn], by rw [← hn, h2]⟩
        · refine ⟨x, by simp, rfl, ?_⟩
          rw [ih.2 _ (fun y hy hn => hex ⟨y, hy, hn⟩), hr', hc]
          simp [register, Registry.set]
      · obtain ⟨z, hz, h1, h2⟩ := ih.1 x hx
        exact ⟨z, by simp [hz], h1, h2⟩
    · intro n hn
      rw [ih.2 n (fun y hy => hn y (by simp [hy])), hr']
      have := hn c (by simp)
      rw [hc] at this
      simp only at this
      simp [register, Registry.set, Ne.symm this]
  | case2 => simp

/-- **C48**: after a scatter that succeeds, the name of every scheduling call resolves to its
function in this process (if the functions of the agenda have different names). -/
theorem C48_registered (r : Registry) (has : Registry → Fn → Bool) (tasks : List (Entry A)) (over start : Int)
    (jitter : Option (List Int)) (fresh : Nat → Text)
    (hd : ∀ c ∈ (scatter r has tasks over start jitter fresh).calls, ∀ c' ∈ (scatter r has tasks over start jitter fresh).calls,
      c.functionName = c'.functionName → c.function = c'.function) :
    ∀ c ∈ (scatter r has tasks over start jitter fresh).calls,
      (scatter r has tasks over start jitter fresh).registry c.functionName = some c.function := by
  intro c hc
  have hreg : ∃ c' ∈ (scatter r has tasks over start jitter fresh).calls, c'.functionName = c.functionName ∧
      (scatter r has tasks over start jitter fresh).registry c.functionName = some c'.function := by
    clear hd
    simp only [scatter] at hc ⊢
    split at hc
    · simp at hc
    · next h1 =>
      rw [if_neg h1]
      split at hc
      · simp at hc
      · next h2 =>
        rw [if_neg h2]
        split at hc
        · simp at hc
        · exact (addAll_registry _ _ _ _ _).1 c hc
  obtain ⟨c', h1, h2, h3⟩ := hreg
  rw [h3, hd c' h1 c hc h2]

/-- **C48**: all or nothing: if the window is not positive or a name is unknown, scatter fails
and makes no scheduling call at all. -/
theorem C48_nothing_on_error (r : Registry) (has : Registry → Fn → Bool) (tasks : List (Entry A)) (over start : Int)
    (jitter : Option (List Int)) (fresh : Nat → Text)
    (h : over ≤ 0 ∨ ∃ n, Ref.name n ∈ tasks.map (·.ref) ∧ r n = none ∧ ∀ g, Ref.fn g ∈ tasks.map (·.ref) → g.name ≠ n) :
    (scatter r has tasks over start jitter fresh).error ≠ none ∧
    (scatter r has tasks over start jitter fresh).calls = [] := by
  simp only [scatter]
  split
  · exact ⟨by simp, rfl⟩
  · rename_i hov
    rcases h with h | ⟨n, hn, hr, hf⟩
    · exact absurd h hov
    · have hemp : tasks.isEmpty = false := by
        cases tasks with
        | nil => cases hn
        | cons => rfl
      rw [hemp]
      simp only [Bool.false_eq_true, if_false]
      obtain ⟨x, hx⟩ := plan_unknown (has := has) hn hr hf
      rw [hx]
      exact ⟨by simp, rfl⟩

/-- **C48**, without jitter: the first time is the start of the window (a single task goes to
its middle); consecutive times differ by one and the same interval, which is the window
divided by the number of gaps to the nearest microsecond; no time precedes the start; and
none is later than the end by more than half a microsecond per gap.  If the window is a
multiple of the number of gaps, the last time is the end exactly.  What is missing is that no
time exceeds the end in the other cases, which is false (`C48_violated_end`). -/
theorem C48_times_partial (r : Registry) (has : Registry → Fn → Bool) (tasks : List (Entry A)) (over start : Int)
    (fresh : Nat → Text) (herr : (scatter r has tasks over start none fresh).error = none) :
    (tasks.length = 1 → ∀ c ∈ (scatter r has tasks over start none fresh).calls,
      start ≤ c.when ∧ c.when ≤ start + over ∧ -1 ≤ 2 * (c.when - start) - over ∧ 2 * (c.when - start) - over ≤ 1) ∧
    (∀ gaps : Nat, 0 < gaps → tasks.length = gaps + 1 →
      ∃ d : Int, 0 ≤ d ∧ -(gaps : Int) ≤ 2 * (gaps * d - over) ∧ 2 * (gaps * d - over) ≤ gaps ∧
        ((gaps : Int) ∣ over → gaps * d = over) ∧
        ∀ (i : Nat) (c : Call A), (scatter r has tasks over start none fresh).calls[i]? = some c → c.when = start + d * Int.ofNat i) := by
  by_cases hne : tasks = []
  · subst hne; simp
  obtain ⟨hov, r', fs, hp, hc, hl⟩ := scatter_ok (by simp) herr hne
  rw [hc]
  have hspec := addAll_spec r' fs tasks (keysOf tasks fresh) (timesOf start over tasks.length none)
    (plan_length hp) (keysOf_length tasks fresh) hl
  constructor
  · intro h1 c hcm
    obtain ⟨i, hi⟩ := List.mem_iff_getElem?.1 hcm
    obtain ⟨e, he, _, _, ht, _⟩ := hspec.2 i c hi
    simp only [timesOf, evenTimes, h1, if_true] at ht
    have hz : i = 0 := by
      have := (List.getElem?_eq_some_iff.1 ht).1
      simpa using this
    subst hz
    simp only [List.getElem?_cons_zero, Option.some.injEq] at ht
    have hb := divRound_spec over 2 (by omega)
    have hn := divRound_nonneg (n := 2) hov (by omega)
    rw [← ht]
    omega
  · intro gaps hg hlen
    have hb := divRound_spec over gaps hg
    refine ⟨divRound over gaps, divRound_nonneg hov hg, hb.1, hb.2, fun hd => divRound_exact hg hd, ?_⟩
    intro i c hi
    obtain ⟨e, he, _, _, ht, _⟩ := hspec.2 i c hi
    simp only [timesOf, evenTimes, hlen] at ht
    rw [if_neg (by omega)] at ht
    simp only [Nat.add_sub_cancel, List.getElem?_map, Option.map_eq_some_iff] at ht
    obtain ⟨j, hj, ht⟩ := ht
    have : j = i := by
      rw [List.getElem?_range (by have := (List.getElem?_eq_some_iff.1 hj).1; simpa using this)] at hj
      exact (Option.some.inj hj).symm
    rw [← ht, this]

/-- **C48**, with jitter: no time precedes the start of the window, and each is within the
jitter of the time it would have had without (or is the start).  Missing: times can exceed the
end (`C48_violated_end_jitter`). -/
theorem C48_jitter_partial (r : Registry) (has : Registry → Fn → Bool) (tasks : List (Entry A)) (over start j : Int)
    (offsets : List Int) (fresh : Nat → Text) (hlen : offsets.length = tasks.length)
    (hj : ∀ o ∈ offsets, -j ≤ o ∧ o ≤ j) (i : Nat) (c c' : Call A)
    (hc : (scatter r has tasks over start (some offsets) fresh).calls[i]? = some c)
    (hc' : (scatter r has tasks over start none fresh).calls[i]? = some c') :
    start ≤ c.when ∧ (c.when = start ∨ (c'.when - j ≤ c.when ∧ c.when ≤ c'.when + j)) := by
  have hcalls : ∀ (jit : Option (List Int)) (c : Call A), (scatter r has tasks over start jit fresh).calls[i]? = some c →
      (scatter r has tasks over start jit fresh).error = none ∧ tasks ≠ [] := by
    intro jit c hc
    simp only [scatter] at hc ⊢
    split at hc
    · simp at hc
    · rename_i hov
      rw [if_neg hov]
      split at hc
      · simp at hc
      · rename_i hemp
        rw [if_neg hemp]
        refine ⟨?_, by simpa using hemp⟩
        cases hp : plan r has tasks with
        | error x => rw [hp] at hc; simp at hc
        | ok p => rfl
  obtain ⟨e1, hne⟩ := hcalls _ _ hc
  obtain ⟨e2, _⟩ := hcalls _ _ hc'
  obtain ⟨hov, r1, f1, hp1, hc1, hl1⟩ := scatter_ok (by intro os h; cases h; exact hlen) e1 hne
  obtain ⟨_, r2, f2, hp2, hc2, hl2⟩ := scatter_ok (by simp) e2 hne
  rw [hc1] at hc
  rw [hc2] at hc'
  obtain ⟨_, _, _, _, ht, _⟩ := (addAll_spec r1 f1 tasks (keysOf tasks fresh) _ (plan_length hp1) (keysOf_length tasks fresh) hl1).2 i c hc
  obtain ⟨_, _, _, _, ht', _⟩ := (addAll_spec r2 f2 tasks (keysOf tasks fresh) _ (plan_length hp2) (keysOf_length tasks fresh) hl2).2 i c' hc'
  simp only [timesOf] at ht ht'
  simp only [jittered, List.getElem?_zipWith, ht'] at ht
  cases ho : offsets[i]? with
  | none => rw [ho] at ht; simp at ht
  | some o =>
    rw [ho] at ht
    simp only [Option.some.injEq] at ht
    have := hj o (List.mem_of_getElem? ho)
    omega

/-- An agenda of three entries by name. -/
def sampleFn : Fn := ⟨1, t!"f"⟩
def sampleReg : Registry := fun n => if n = t!"f" then some sampleFn else none
def sampleTasks (n : Nat) : List (Entry Nat) := (List.range n).map (fun i => ⟨.name t!"f", i, none⟩)
def sampleKeys : Nat → Text := fun i => [Char.ofNat (97 + i)]

example : (scatter sampleReg (fun _ _ => true) (sampleTasks 3) 1000000 500 none sampleKeys).error = none := by decide
example : (scatter sampleReg (fun _ _ => true) (sampleTasks 3) 1000000 500 none sampleKeys).calls.map (·.when) =
    [500, 500500, 1000500] := by decide +kernel
example : (scatter sampleReg (fun _ _ => true) (sampleTasks 2) 1000000 500 (some [-7, 7]) sampleKeys).calls.map (·.when) =
    [500, 1000507] := by decide +kernel
example : Ref.name t!"g" ∈ ([⟨.name t!"f", 1, none⟩, ⟨.name t!"g", 2, none⟩] : List (Entry Nat)).map (·.ref) ∧
    sampleReg t!"g" = none := by decide

/-- The statement that no time exceeds the end of the window. -/
def C48_inside : Prop :=
  ∀ (r : Registry) (has : Registry → Fn → Bool) (tasks : List (Entry Nat)) (over start : Int) (j : Int)
    (offsets : Option (List Int)) (fresh : Nat → Text),
    (∀ os, offsets = some os → os.length = tasks.length ∧ ∀ o ∈ os, -j ≤ o ∧ o ≤ j) →
    ∀ c ∈ (scatter r has tasks over start offsets fresh).calls, c.when ≤ start + over

/-- **C48, violated**: seven tasks over one second: the interval is rounded up to 166667
microseconds, so the last task is 2 microseconds after the end of the window. -/
theorem C48_violated_end : ¬ C48_inside := by
  intro h
  have := h sampleReg (fun _ _ => true) (sampleTasks 7) 1000000 0 0 none sampleKeys (by simp)
    ⟨sampleFn, t!"f", 6, t!"g", 1000002⟩ ?_
  · revert this; decide
  · exact List.mem_of_getElem? (i := 6) (by rfl)

/-- **C48, violated**: a positive jitter moves the last task beyond the end of the window;
times are only kept from preceding its start. -/
theorem C48_violated_end_jitter : ¬ C48_inside := by
  intro h
  have := h sampleReg (fun _ _ => true) (sampleTasks 2) 1000000 0 100 (some [0, 100]) sampleKeys (by simp [sampleTasks])
    ⟨sampleFn, t!"f", 1, t!"b", 1000100⟩ ?_
  · revert this; decide
  · exact List.mem_of_getElem? (i := 1) (by rfl)

end Docket.Agenda
