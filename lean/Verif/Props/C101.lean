import Verif.Strikes.Functions
import Verif.Props.C94
/-
C101: striking a function stops its tasks, and no others.
-/
namespace Docket.Functions
open Docket.Registry (Fn Process Tasks register registerCollection setTable setWaiting)

/-! ### The specification -/

/-- Whether a strike is on `f`: the function itself was given, or a name that stands for it. -/
def Target.Hits (naming : String → Fn) (f : Fn) : Target → Prop
  | .fn g => g = f
  | .name n => naming n = f

instance Target.decHits (naming : String → Fn) (f : Fn) (t : Target) : Decidable (t.Hits naming f) := by
  cases t <;> unfold Target.Hits <;> exact inferInstance

/-- `f` is struck: the latest `strike` or `restore` on it was a `strike`. -/
def struckOut (naming : String → Fn) (f : Fn) : List Event → Bool
  | [] => false
  | .struck t :: l => if t.Hits naming f then true else struckOut naming f l
  | .restored t :: l => if t.Hits naming f then false else struckOut naming f l
  | .asked .. :: l => struckOut naming f l
  | .refused .. :: l => struckOut naming f l
  | .ran .. :: l => struckOut naming f l
  | .dropped .. :: l => struckOut naming f l

/-- The function the latest accepted `add` or `replace` of the key asked for. -/
def askedFor (k : String) : List Event → Option Fn
  | [] => none
  | .asked k' f :: l => if k' = k then some f else askedFor k l
  | .struck _ :: l => askedFor k l
  | .restored _ :: l => askedFor k l
  | .refused .. :: l => askedFor k l
  | .ran .. :: l => askedFor k l
  | .dropped .. :: l => askedFor k l

/-- A task of the key is still to be run (again). -/
def outstanding (k : String) : List Event → Bool
  | [] => false
  | .asked k' _ :: l => if k' = k then true else outstanding k l
  | .ran _ k' _ _ e :: l => if k' = k then decide (e = .retried) else outstanding k l
  | .dropped _ k' :: l => if k' = k then false else outstanding k l
  | .struck _ :: l => outstanding k l
  | .restored _ :: l => outstanding k l
  | .refused .. :: l => outstanding k l

/-- The events a strike is answerable for: a struck function's tasks are not run, and what is
turned away or dropped is a struck function's. -/
def Right (naming : String → Fn) : Event → List Event → Prop
  | .ran _ k f fallback _, l =>
    (∃ g, askedFor k l = some g ∧ struckOut naming g l = false)
      ∧ (fallback = false → struckOut naming f l = false)
  | .dropped _ k, l => ∃ g, askedFor k l = some g ∧ struckOut naming g l = true
  | .refused _ f, l => struckOut naming f l = true
  | .asked _ f, l => struckOut naming f l = false
  | .struck _, _ => True
  | .restored _, _ => True

/-- Names are used for functions without ambiguity: whatever is registered under a name, and
every function's own `__name__`, is what the name stands for. -/
def Names (naming : String → Fn) : Op → Prop
  | .register _ f names => naming f.name = f ∧ ∀ n ∈ names, naming n = f
  | .registerCollection _ fs => ∀ f ∈ fs, naming f.name = f
  | .add _ _ _ f => naming f.name = f
  | .addByName .. => True
  | .strike (.fn f) => naming f.name = f
  | .restore (.fn f) => naming f.name = f
  | .strike (.name _) => True
  | .restore (.name _) => True
  | .run .. => True

/-- The full claim: whatever has been registered, added, struck, restored and run, in whatever
order, and as long as no name stands for two functions, a struck function's tasks are neither
accepted nor run, by whatever name they go, and no other's are turned away or dropped. -/
def C101_statement : Prop :=
  ∀ (naming : String → Fn) (fallback : Process → Fn) (ops : List Op),
    (∀ p, naming (fallback p).name = fallback p) → (∀ op ∈ ops, Names naming op) →
    ∀ later e l, (runFrom fallback {} ops).log = later ++ e :: l → Right naming e l

/-- Functions go by their own names only: they are not registered under others, and `strike` and
`restore` are given a function or its `__name__`. -/
def OwnName (naming : String → Fn) : Op → Prop
  | .register _ f names => ∀ n ∈ names, n = f.name
  | .strike (.name n) => (naming n).name = n
  | .restore (.name n) => (naming n).name = n
  | _ => True

/-- What the positive theorems take for granted. -/
def Plain (naming : String → Fn) (ops : List Op) : Prop :=
  ∀ op ∈ ops, Names naming op ∧ OwnName naming op

/-! ### Lemmas -/

/-- An event that happened rightly, and everything before it. -/
def Good (naming : String → Fn) : List Event → Prop
  | [] => True
  | e :: l => Right naming e l ∧ Good naming l

theorem Good.at {naming : String → Fn} {later : List Event} {e : Event} {l : List Event}
    (h : Good naming (later ++ e :: l)) : Right naming e l := by
  induction later with
  | nil => exact h.1
  | cons _ _ ih => exact ih h.2

structure Inv (naming : String → Fn) (s : Sys) : Prop where
  table : ∀ p n f, s.tasks p n = some f → n = f.name ∧ naming f.name = f
  struck : ∀ g, naming g.name = g → (struckOut naming g s.log = true ↔ g.name ∈ s.struck)
  waiting : ∀ k n, s.waiting k = some n →
    ∃ g, askedFor k s.log = some g ∧ n = g.name ∧ naming g.name = g
  good : Good naming s.log

theorem Inv.struck_false {naming : String → Fn} {s : Sys} (hi : Inv naming s) {g : Fn}
    (hg : naming g.name = g) (h : isStricken s g.name = false) : struckOut naming g s.log = false := by
  cases e : struckOut naming g s.log with
  | false => rfl
  | true => exact absurd ((hi.struck g hg).1 e) (of_decide_eq_false h)

theorem Inv.struck_true {naming : String → Fn} {s : Sys} (hi : Inv naming s) {g : Fn}
    (hg : naming g.name = g) (h : isStricken s g.name = true) : struckOut naming g s.log = true :=
  (hi.struck g hg).2 (of_decide_eq_true h)

theorem table_set {naming : String → Fn} {ts : Process → Tasks} {p : Process} {t : Tasks}
    (h : ∀ p n f, ts p n = some f → n = f.name ∧ naming f.name = f)
    (ht : ∀ n f, t n = some f → n = f.name ∧ naming f.name = f) :
    ∀ q n f, setTable ts p t q n = some f → n = f.name ∧ naming f.name = f := by
  intro q n f hq
  unfold setTable at hq
  split at hq
  · exact ht n f hq
  · exact h q n f hq

theorem Inv.tables {naming : String → Fn} {s : Sys} (hi : Inv naming s) {p : Process} {t : Tasks}
    (ht : ∀ n f, t n = some f → n = f.name ∧ naming f.name = f) :
    Inv naming { s with tasks := setTable s.tasks p t } :=
  ⟨table_set hi.table ht, hi.struck, hi.waiting, hi.good⟩

theorem table_register {naming : String → Fn} {t : Tasks} {f : Fn} {names : List String}
    (h : ∀ n g, t n = some g → n = g.name ∧ naming g.name = g) (hf : naming f.name = f)
    (hn : ∀ n ∈ names, n = f.name) :
    ∀ n g, register t f names n = some g → n = g.name ∧ naming g.name = g := by
  intro n g hg
  rcases Registry.register_eq hg with ⟨a | a, b⟩ | hg
  · subst b; exact ⟨a, hf⟩
  · subst b; exact ⟨hn n a, hf⟩
  · exact h n g hg

theorem Inv.place {naming : String → Fn} {s : Sys} (hi : Inv naming s) (replace : Bool) {k n : String}
    {f : Fn} (hn : n = f.name) (hf : naming f.name = f) : Inv naming (place s replace k n f) := by
  subst hn
  unfold Functions.place
  cases hs : isStricken s f.name with
  | true =>
    rw [if_pos rfl]
    exact ⟨hi.table, hi.struck, hi.waiting, hi.struck_true hf hs, hi.good⟩
  | false =>
    rw [if_neg Bool.false_ne_true]
    split
    · exact hi
    · refine ⟨hi.table, hi.struck, fun k' n' hw => ?_, hi.struck_false hf hs, hi.good⟩
      simp only [setWaiting] at hw
      simp only [askedFor]
      by_cases e : k' = k
      · rw [if_pos e] at hw
        rw [if_pos e.symm]
        exact ⟨f, rfl, (Option.some.inj hw).symm, hf⟩
      · rw [if_neg e] at hw
        rw [if_neg (fun h => e h.symm)]
        exact hi.waiting k' n' hw

theorem hits_iff {naming : String → Fn} {t : Target} {g : Fn} (hg : naming g.name = g)
    (ht : match t with | .fn f => naming f.name = f | .name n => (naming n).name = n) :
    t.Hits naming g ↔ g.name = t.called := by
  cases t with
  | fn f =>
    simp only [Target.Hits, Target.called] at ht ⊢
    exact ⟨fun h => by rw [h], fun h => by rw [← ht, ← h, hg]⟩
  | name n =>
    simp only [Target.Hits, Target.called] at ht ⊢
    exact ⟨fun h => by rw [← h, ht], fun h => by rw [← h, hg]⟩

theorem Inv.step {naming : String → Fn} {fallback : Process → Fn} {s : Sys} (hi : Inv naming s) {op : Op}
    (ho : Names naming op) (hp : OwnName naming op) : Inv naming (Functions.step fallback s op) := by
  cases op with
  | register p f names => exact hi.tables (table_register (hi.table p) ho.1 hp)
  | registerCollection p fs =>
    refine hi.tables (fun n g hg => ?_)
    rcases Registry.registerCollection_eq hg with ⟨a, b⟩ | hg
    · exact ⟨b, ho g a⟩
    · exact hi.table p n g hg
  | add p replace k f =>
    exact (hi.tables (p := p) (table_register (names := []) (hi.table p) ho (fun _ h => nomatch h))).place
      replace rfl ho
  | addByName p replace k n =>
    simp only [Functions.step, doAddByName]
    cases h : s.tasks p n with
    | none => exact hi
    | some f => exact hi.place replace (hi.table p n f h).1 (hi.table p n f h).2
  | strike t =>
    refine ⟨hi.table, fun g hg => ?_, hi.waiting, trivial, hi.good⟩
    have ht : t.Hits naming g ↔ g.name = t.called := hits_iff hg (by cases t <;> assumption)
    simp only [Functions.step, doStrike, struckOut, List.mem_cons]
    by_cases e : g.name = t.called
    · rw [if_pos (ht.2 e)]; exact ⟨fun _ => .inl e, fun _ => rfl⟩
    · rw [if_neg (fun h => e (ht.1 h))]
      exact ⟨fun h => .inr ((hi.struck g hg).1 h), fun h => (hi.struck g hg).2 (h.resolve_left e)⟩
  | restore t =>
    refine ⟨hi.table, fun g hg => ?_, hi.waiting, trivial, hi.good⟩
    have ht : t.Hits naming g ↔ g.name = t.called := hits_iff hg (by cases t <;> assumption)
    simp only [Functions.step, doRestore, struckOut, List.mem_filter]
    by_cases e : g.name = t.called
    · rw [if_pos (ht.2 e)]
      exact ⟨fun h => (Bool.false_ne_true h).elim, fun h => absurd e (of_decide_eq_true h.2)⟩
    · rw [if_neg (fun h => e (ht.1 h))]
      exact ⟨fun h => ⟨(hi.struck g hg).1 h, decide_eq_true e⟩, fun h => (hi.struck g hg).2 h.1⟩
  | run p k e =>
    simp only [Functions.step, doRun]
    cases hw : s.waiting k with
    | none => exact hi
    | some n =>
      obtain ⟨g, ha, hn, hg⟩ := hi.waiting k n hw
      subst hn
      simp only
      have hclear : ∀ k' n', setWaiting s.waiting k none k' = some n' → s.waiting k' = some n' := by
        intro k' n' h
        simp only [setWaiting] at h
        split at h
        · cases h
        · exact h
      cases hs : isStricken s g.name with
      | true =>
        rw [if_pos rfl]
        exact ⟨hi.table, hi.struck, fun k' n' h => hi.waiting k' n' (hclear k' n' h),
          ⟨g, ha, hi.struck_true hg hs⟩, hi.good⟩
      | false =>
        rw [if_neg Bool.false_ne_true]
        refine ⟨hi.table, hi.struck, fun k' n' h => ?_, ⟨⟨g, ha, hi.struck_false hg hs⟩, fun hb => ?_⟩, hi.good⟩
        · cases e with
          | settled => exact hi.waiting k' n' (hclear k' n' h)
          | retried => exact hi.waiting k' n' h
        · cases hf : s.tasks p g.name with
          | none => simp [find, hf] at hb
          | some f =>
            have : find fallback s p g.name = (f, false) := by simp [find, hf]
            rw [this]
            have h2 := hi.table p _ f hf
            exact hi.struck_false h2.2 (h2.1 ▸ hs)

theorem Inv.init (naming : String → Fn) : Inv naming {} :=
  ⟨(fun _ _ _ h => nomatch h), (fun _ _ => ⟨(fun h => nomatch h), (fun h => nomatch h)⟩), (fun _ _ h => nomatch h), trivial⟩

theorem Inv.run {naming : String → Fn} {fallback : Process → Fn} {ops : List Op} (h : Plain naming ops) :
    Inv naming (runFrom fallback {} ops) := by
  have : ∀ (ops : List Op) s, Inv naming s → Plain naming ops → Inv naming (runFrom fallback s ops) := by
    intro ops
    induction ops with
    | nil => exact fun _ h _ => h
    | cons op ops ih =>
      intro s hs hp
      exact ih _ (hs.step (hp op (List.mem_cons_self ..)).1 (hp op (List.mem_cons_self ..)).2)
        (fun o ho => hp o (List.mem_cons_of_mem _ ho))
  exact this ops _ (Inv.init naming) h

/-- What the events say is outstanding is what waits. -/
theorem outstanding_step {fallback : Process → Fn} {s : Sys}
    (h : ∀ k, outstanding k s.log = (s.waiting k).isSome) (op : Op) (k : String) :
    outstanding k (step fallback s op).log = ((step fallback s op).waiting k).isSome := by
  have hplace : ∀ (s : Sys), (∀ k, outstanding k s.log = (s.waiting k).isSome) → ∀ r j n f,
      outstanding k (place s r j n f).log = ((place s r j n f).waiting k).isSome := by
    intro s h r j n f
    unfold place
    split
    · exact h k
    · split
      · exact h k
      · simp only [outstanding, setWaiting]
        by_cases e : k = j
        · rw [if_pos e, if_pos e.symm]; rfl
        · rw [if_neg e, if_neg (fun h => e h.symm)]; exact h k
  cases op with
  | register => exact h k
  | registerCollection => exact h k
  | add p r j f => 
    exact hplace { s with tasks := setTable s.tasks p (register (s.tasks p) f []) } h r j f.name f
  | addByName p r j n =>
    simp only [step, doAddByName]
    cases s.tasks p n with
    | none => exact h k
    | some f => exact hplace _ h r j n f
  | strike => exact h k
  | restore => exact h k
  | run p j e =>
    simp only [step, doRun]
    cases hw : s.waiting j with
    | none => exact h k
    | some n =>
      simp only
      split
      · simp only [outstanding, setWaiting]
        by_cases c : k = j
        · rw [if_pos c, if_pos c.symm]; rfl
        · rw [if_neg c, if_neg (fun h => c h.symm)]; exact h k
      · by_cases c : k = j
        · subst c
          cases e with
          | settled => simp [outstanding, setWaiting]
          | retried => simp [outstanding, hw]
        · cases e with
          | settled =>
            simp only [outstanding, setWaiting]
            rw [if_neg c, if_neg (fun h => c h.symm)]; exact h k
          | retried =>
            simp only [outstanding]
            rw [if_neg (fun h => c h.symm)]; exact h k

theorem outstanding_run (fallback : Process → Fn) (ops : List Op) (k : String) :
    outstanding k (runFrom fallback {} ops).log = ((runFrom fallback {} ops).waiting k).isSome := by
  have : ∀ (ops : List Op) s, (∀ k, outstanding k s.log = (s.waiting k).isSome) →
      ∀ k, outstanding k (runFrom fallback s ops).log = ((runFrom fallback s ops).waiting k).isSome := by
    intro ops
    induction ops with
    | nil => exact fun _ h => h
    | cons op ops ih => exact fun s hs => ih _ (outstanding_step hs op)
  exact this ops _ (fun _ => rfl) k

/-! ### The property -/

/-- As long as functions go by their own names: nothing happens to a task but what its function's
standing strikes and restores say.  Missing: functions that also go by other names (see the
disagreements below). -/
theorem C101_partial {naming : String → Fn} {fallback : Process → Fn} {ops : List Op}
    (h : Plain naming ops) {later : List Event} {e : Event} {l : List Event}
    (he : (runFrom fallback {} ops).log = later ++ e :: l) : Right naming e l :=
  (he ▸ (Inv.run h).good).at

/-- Strikes and restores, whether by function or by name, are what the log says they were. -/
theorem C101_strikes_and_restores (fallback : Process → Fn) (ops : List Op) (t : Target) :
    (runFrom fallback {} (ops ++ [.strike t])).log = .struck t :: (runFrom fallback {} ops).log
      ∧ (runFrom fallback {} (ops ++ [.restore t])).log = .restored t :: (runFrom fallback {} ops).log := by
  simp only [runFrom, List.foldl_append, List.foldl_cons, List.foldl_nil]
  exact ⟨rfl, rfl⟩

/-- A task of a function that is not struck, and never was or has been restored, is run by
whichever worker takes it. -/
theorem C101_runs_partial {naming : String → Fn} {fallback : Process → Fn} {ops : List Op}
    (h : Plain naming ops) {k : String} {g : Fn} (ho : outstanding k (runFrom fallback {} ops).log = true)
    (ha : askedFor k (runFrom fallback {} ops).log = some g)
    (hs : struckOut naming g (runFrom fallback {} ops).log = false) (p : Process) (e : End) :
    ∃ f b, (runFrom fallback {} (ops ++ [.run p k e])).log
      = .ran p k f b e :: (runFrom fallback {} ops).log := by
  have hi := Inv.run (fallback := fallback) h
  rw [outstanding_run] at ho
  simp only [runFrom, List.foldl_append, List.foldl_cons, List.foldl_nil]
  change ∃ f b, (step fallback (runFrom fallback {} ops) (.run p k e)).log = _ :: (runFrom fallback {} ops).log
  generalize runFrom fallback {} ops = s at *
  obtain ⟨n, hw⟩ := Option.isSome_iff_exists.1 ho
  obtain ⟨g', ha', hn, hg⟩ := hi.waiting k n hw
  rw [ha] at ha'
  cases ha'
  have hst : isStricken s n = false := by
    cases c : isStricken s n with
    | false => rfl
    | true => rw [hi.struck_true hg (hn ▸ c)] at hs; cases hs
  simp only [step, doRun, hw, hst]
  exact ⟨_, _, rfl⟩

/-- A task of a struck function is dropped by whichever worker takes it, and does not come back
when the function is restored. -/
theorem C101_dropped_partial {naming : String → Fn} {fallback : Process → Fn} {ops : List Op}
    (h : Plain naming ops) {k : String} {g : Fn} (ho : outstanding k (runFrom fallback {} ops).log = true)
    (ha : askedFor k (runFrom fallback {} ops).log = some g)
    (hs : struckOut naming g (runFrom fallback {} ops).log = true) (p : Process) (e : End) :
    (runFrom fallback {} (ops ++ [.run p k e])).log = .dropped p k :: (runFrom fallback {} ops).log := by
  have hi := Inv.run (fallback := fallback) h
  rw [outstanding_run] at ho
  simp only [runFrom, List.foldl_append, List.foldl_cons, List.foldl_nil]
  change (step fallback (runFrom fallback {} ops) (.run p k e)).log = _ :: (runFrom fallback {} ops).log
  generalize runFrom fallback {} ops = s at *
  obtain ⟨n, hw⟩ := Option.isSome_iff_exists.1 ho
  obtain ⟨g', ha', hn, hg⟩ := hi.waiting k n hw
  rw [ha] at ha'
  cases ha'
  have hst : isStricken s n = true := decide_eq_true (hn ▸ (hi.struck g hg).1 hs)
  simp only [step, doRun, hw, hst, if_true]

/-- Adding a task: refused if the function is struck, whatever its key; otherwise accepted, unless
the key is taken and it is not a `replace`. -/
theorem C101_add_partial {naming : String → Fn} {fallback : Process → Fn} {ops : List Op}
    (h : Plain naming ops) (p : Process) (replace : Bool) (k : String) {f : Fn} (hf : naming f.name = f) :
    (runFrom fallback {} (ops ++ [.add p replace k f])).log
      = if struckOut naming f (runFrom fallback {} ops).log then .refused k f :: (runFrom fallback {} ops).log
        else if replace = false ∧ outstanding k (runFrom fallback {} ops).log = true then
          (runFrom fallback {} ops).log
        else .asked k f :: (runFrom fallback {} ops).log := by
  have hi := Inv.run (fallback := fallback) h
  rw [outstanding_run]
  simp only [runFrom, List.foldl_append, List.foldl_cons, List.foldl_nil]
  change (step fallback (runFrom fallback {} ops) (.add p replace k f)).log
    = if struckOut naming f (runFrom fallback {} ops).log then .refused k f :: (runFrom fallback {} ops).log
      else if replace = false ∧ ((runFrom fallback {} ops).waiting k).isSome = true
        then (runFrom fallback {} ops).log else _ :: (runFrom fallback {} ops).log
  generalize runFrom fallback {} ops = s at *
  simp only [step, doAdd, place]
  have hst : isStricken { s with tasks := setTable s.tasks p (register (s.tasks p) f []) } f.name
      = struckOut naming f s.log := by
    cases c : struckOut naming f s.log with
    | true => exact decide_eq_true ((hi.struck f hf).1 c)
    | false => exact decide_eq_false (fun m => by rw [(hi.struck f hf).2 m] at c; cases c)
  rw [hst]
  cases struckOut naming f s.log with
  | true => rfl
  | false =>
    cases replace <;> cases (s.waiting k).isSome <;> rfl

/-! #### Disagreements -/

/-- Task functions for the witnesses. -/
def report : Fn := ⟨1, "report"⟩
def other : Fn := ⟨2, "report"⟩
def lost : Fn := ⟨3, "default_fallback_task"⟩

/-- `"report"` and `"nightly"` stand for `report`. -/
def meaning (n : String) : Fn := if n = "default_fallback_task" then lost else report

/-- **Disagreement.** A function that is registered under another name as well (`register(report,
names=["report", "nightly"])`) goes on running after `strike(report)`: tasks added as
`add("nightly")` carry that name, and the strike is on `report.__name__`. -/
theorem C101_violated_other_name : ¬ C101_statement := by
  intro h
  have := h meaning (fun _ => lost)
    [.register 0 report ["report", "nightly"], .strike (.fn report), .addByName 0 false "k" "nightly",
     .run 0 "k" .settled] (fun _ => rfl)
    (by simp [Names, meaning, report]) [] (.ran 0 "k" report false .settled)
    [.asked "k" report, .struck (.fn report)] (by decide +kernel)
  exact absurd (this.2 rfl) (by decide +kernel)

/-- **Disagreement.** Nor does striking the other name help for long: a perpetual task added as
`add("nightly")` goes by the function's own name from its second run on
(dependencies/_perpetual.py:133), and so escapes `strike("nightly")`. -/
theorem C101_violated_perpetual : ¬ C101_statement := by
  intro h
  have := h meaning (fun _ => lost)
    [.register 0 report ["nightly"], .addByName 0 false "k" "nightly", .run 0 "k" .settled,
     .add 0 true "k" report, .strike (.name "nightly"), .run 0 "k" .settled] (fun _ => rfl)
    (by simp [Names, meaning, report]) [] (.ran 0 "k" report false .settled)
    [.struck (.name "nightly"), .asked "k" report, .ran 0 "k" report false .settled, .asked "k" report]
    (by decide +kernel)
  exact absurd (this.2 rfl) (by decide +kernel)

/-- **Disagreement.** Two functions of the same `__name__`, one of them registered under another
name only so as to tell them apart: striking one turns away tasks of the other, which carry the
same name. -/
theorem C101_violated_same_name :
    ∃ (f g : Fn) (fallback : Process → Fn) (ops : List Op), f ≠ g ∧
      (∀ t, .strike t ∈ ops → t = .fn f) ∧ .refused "k" g ∈ (runFrom fallback {} ops).log :=
  ⟨report, other, fun _ => lost,
    [.register 0 report ["first"], .strike (.fn report), .add 0 false "k" other],
    by decide, by simp, by decide +kernel⟩

/-! ### The hypotheses can be met -/

/-- A struck function is refused and its waiting task dropped; restored, it runs again; the
fallback runs for a worker that does not know it. -/
example :
    let ops : List Op := [.add 0 false "a" report, .add 0 false "b" report, .strike (.fn report),
      .add 0 false "c" report, .run 0 "a" .settled, .restore (.name "report"), .run 0 "b" .retried,
      .run 1 "b" .settled]
    Plain meaning ops
      ∧ (runFrom (fun _ => lost) {} ops).log
        = [.ran 1 "b" lost true .settled, .ran 0 "b" report false .retried, .restored (.name "report"),
           .dropped 0 "a", .refused "c" report, .struck (.fn report), .asked "b" report, .asked "a" report] := by
  refine ⟨?_, by decide +kernel⟩
  intro op ho
  simp only [List.mem_cons, List.not_mem_nil, or_false] at ho
  rcases ho with rfl | rfl | rfl | rfl | rfl | rfl | rfl | rfl <;>
    exact ⟨by first | trivial | rfl, by first | trivial | rfl⟩

/-- For `C101_runs_partial`, `C101_dropped_partial` and `C101_add_partial`. -/
example :
    let log := (runFrom (fun _ => lost) {} [.add 0 false "a" report]).log
    let log' := (runFrom (fun _ => lost) {} [.add 0 false "a" report, .strike (.fn report)]).log
    outstanding "a" log = true ∧ askedFor "a" log = some report ∧ struckOut meaning report log = false
      ∧ outstanding "a" log' = true ∧ askedFor "a" log' = some report ∧ struckOut meaning report log' = true
      ∧ meaning report.name = report := by
  decide +kernel

end Docket.Functions
