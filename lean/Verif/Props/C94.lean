import Verif.Views.Registry
/-
C94: a task runs the function it was added with.
-/
namespace Docket.Registry

/-! ### The specification -/

/-- The function the latest accepted `add` or `replace` of the key asked for. -/
def askedFor : List Event → String → Option Fn
  | [], _ => none
  | .asked k' f :: l, k => if k' = k then some f else askedFor l k
  | .ran .. :: l, k => askedFor l k

/-- Since then, a worker that did not know the task's name ran its fallback instead. -/
def missed : List Event → String → Bool
  | [], _ => false
  | .asked k' _ :: l, k => if k' = k then false else missed l k
  | .ran _ k' _ fallback :: l, k => (k' = k && fallback) || missed l k

/-- What an operation takes for granted about names: a name under which a function is
registered, and the function's own `__name__`, stand for this function. -/
def Names (naming : String → Fn) : Op → Prop
  | .register _ f names => naming f.name = f ∧ ∀ n ∈ names, naming n = f
  | .registerCollection _ fs => ∀ f ∈ fs, naming f.name = f
  | .add _ _ _ f => naming f.name = f
  | .addByName .. => True
  | .run .. => True

/-- No name stands for two functions, in any of the processes. -/
def OneMeaning (fallback : Process → Fn) (ops : List Op) : Prop :=
  ∃ naming : String → Fn, (∀ p, naming (fallback p).name = fallback p) ∧ ∀ op ∈ ops, Names naming op

/-! ### Lemmas -/

theorem setTask_eq {t : Tasks} {n m : String} {f g : Fn} (h : setTask t n f m = some g) :
    (m = n ∧ f = g) ∨ t m = some g := by
  unfold setTask at h
  split at h
  · next e => exact .inl ⟨e, Option.some.inj h⟩
  · exact .inr h

theorem register_fold {ns : List String} {f : Fn} {t : Tasks} {m : String} {g : Fn}
    (h : ns.foldl (fun t n => setTask t n f) t m = some g) : (m ∈ ns ∧ f = g) ∨ t m = some g := by
  induction ns generalizing t with
  | nil => exact .inr h
  | cons n ns ih =>
    rcases ih h with ⟨a, b⟩ | h
    · exact .inl ⟨List.mem_cons_of_mem _ a, b⟩
    · rcases setTask_eq h with ⟨a, b⟩ | h
      · exact .inl ⟨a ▸ List.mem_cons_self .., b⟩
      · exact .inr h

theorem register_eq {t : Tasks} {f : Fn} {names : List String} {m : String} {g : Fn}
    (h : register t f names m = some g) : ((m = f.name ∨ m ∈ names) ∧ f = g) ∨ t m = some g := by
  unfold register at h
  rcases register_fold h with ⟨a, b⟩ | h
  · split at a
    · exact .inl ⟨.inl (List.mem_singleton.1 a), b⟩
    · exact .inl ⟨.inr a, b⟩
  · exact .inr h

theorem registerCollection_eq {fs : List Fn} {t : Tasks} {m : String} {g : Fn}
    (h : registerCollection t fs m = some g) : (g ∈ fs ∧ m = g.name) ∨ t m = some g := by
  induction fs generalizing t with
  | nil => exact .inr h
  | cons f fs ih =>
    rcases ih h with ⟨a, b⟩ | h
    · exact .inl ⟨List.mem_cons_of_mem _ a, b⟩
    · rcases register_eq h with ⟨a, b⟩ | h
      · rcases a with a | a
        · subst b; exact .inl ⟨List.mem_cons_self .., a⟩
        · cases a
      · exact .inr h

/-- Every run so far was of the function asked for. -/
def Good : List Event → Prop
  | [] => True
  | .asked .. :: l => Good l
  | .ran _ k f fallback :: l => (fallback = false → missed l k = false → askedFor l k = some f) ∧ Good l

theorem Good.suffix {a b : List Event} (h : Good (a ++ b)) : Good b := by
  induction a with
  | nil => exact h
  | cons e a ih => cases e with
    | asked => exact ih h
    | ran => exact ih h.2

structure Inv (naming : String → Fn) (s : Sys) : Prop where
  table : ∀ p n f, s.tasks p n = some f → naming n = f ∧ naming f.name = f
  waiting : ∀ k n, s.waiting k = some n → missed s.log k = false → askedFor s.log k = some (naming n)
  good : Good s.log

theorem table_set {naming : String → Fn} {ts : Process → Tasks} {p : Process} {t : Tasks}
    (h : ∀ p n f, ts p n = some f → naming n = f ∧ naming f.name = f)
    (ht : ∀ n f, t n = some f → naming n = f ∧ naming f.name = f) :
    ∀ q n f, setTable ts p t q n = some f → naming n = f ∧ naming f.name = f := by
  intro q n f hq
  unfold setTable at hq
  split at hq
  · exact ht n f hq
  · exact h q n f hq

theorem table_register {naming : String → Fn} {t : Tasks} {f : Fn} {names : List String}
    (h : ∀ n g, t n = some g → naming n = g ∧ naming g.name = g) (hf : naming f.name = f)
    (hn : ∀ n ∈ names, naming n = f) :
    ∀ n g, register t f names n = some g → naming n = g ∧ naming g.name = g := by
  intro n g hg
  rcases register_eq hg with ⟨a | a, b⟩ | hg
  · subst b; exact ⟨a ▸ hf, hf⟩
  · subst b; exact ⟨hn n a, hf⟩
  · exact h n g hg

theorem Inv.place {naming : String → Fn} {s : Sys} (hi : Inv naming s) (replace : Bool) {k n : String} {f : Fn}
    (hf : naming n = f) : Inv naming (place s replace k n f) := by
  unfold Registry.place
  split
  · exact hi
  · refine ⟨hi.table, fun k' n' hw hm => ?_, hi.good⟩
    simp only [setWaiting] at hw
    simp only [askedFor, missed] at hm ⊢
    by_cases e : k' = k
    · rw [if_pos e] at hw
      rw [if_pos e.symm]
      rw [← Option.some.inj hw, hf]
    · rw [if_neg e] at hw
      rw [if_neg (fun h => e h.symm)] at hm ⊢
      exact hi.waiting k' n' hw hm

theorem Inv.step {naming : String → Fn} {fallback : Process → Fn} (hb : ∀ p, naming (fallback p).name = fallback p)
    {s : Sys} (hi : Inv naming s) {op : Op} (ho : Names naming op) : Inv naming (Registry.step fallback s op) := by
  cases op with
  | register p f names =>
    exact ⟨table_set hi.table (table_register (hi.table p) ho.1 ho.2), hi.waiting, hi.good⟩
  | registerCollection p fs =>
    refine ⟨table_set hi.table (fun n g hg => ?_), hi.waiting, hi.good⟩
    rcases registerCollection_eq hg with ⟨a, b⟩ | hg
    · exact ⟨b ▸ ho g a, ho g a⟩
    · exact hi.table p n g hg
  | add p replace k f =>
    have ht : ∀ n ∈ ([] : List String), naming n = f := fun _ h => nomatch h
    have : Inv naming { s with tasks := setTable s.tasks p (Registry.register (s.tasks p) f []) } :=
      ⟨table_set hi.table (table_register (hi.table p) ho ht), hi.waiting, hi.good⟩
    exact this.place replace ho
  | addByName p replace k n =>
    simp only [Registry.step, doAddByName]
    cases h : s.tasks p n with
    | none => exact hi
    | some f => exact hi.place replace (hi.table p n f h).1
  | run p k e =>
    simp only [Registry.step, doRun]
    cases hw : s.waiting k with
    | none => exact hi
    | some n =>
      simp only
      cases ht : s.tasks p n with
      | some f =>
        have hfind : find fallback s p n = (f, false) := by simp [find, ht]
        have hn := hi.table p n f ht
        rw [hfind]
        have hgood : Good (Event.ran p k f false :: s.log) := by
          refine ⟨fun _ hm => ?_, hi.good⟩
          rw [hi.waiting k n hw hm, hn.1]
        have hwait : ∀ k' n', s.waiting k' = some n' → missed (Event.ran p k f false :: s.log) k' = false →
            askedFor (Event.ran p k f false :: s.log) k' = some (naming n') := by
          intro k' n' h1 h2
          simp only [missed, Bool.and_false, Bool.false_or] at h2
          exact hi.waiting k' n' h1 h2
        cases e with
        | settled =>
          refine ⟨hi.table, fun k' n' h1 h2 => ?_, hgood⟩
          simp only [setWaiting] at h1
          split at h1
          · cases h1
          · exact hwait k' n' h1 h2
        | retried => exact ⟨hi.table, hwait, hgood⟩
        | perpetuated =>
          refine ⟨table_set hi.table (table_register (hi.table p) hn.2 (fun _ h => nomatch h)),
            fun k' n' h1 h2 => ?_, hgood⟩
          simp only [setWaiting] at h1
          split at h1
          · next e =>
            subst e
            rw [← Option.some.inj h1, hn.2]
            have := hwait k' n hw h2
            rwa [hn.1] at this
          · exact hwait k' n' h1 h2
      | none =>
        have hfind : find fallback s p n = (fallback p, true) := by simp [find, ht]
        rw [hfind]
        have hgood : Good (Event.ran p k (fallback p) true :: s.log) := ⟨(fun h => nomatch h), hi.good⟩
        have hwait : ∀ k' n', s.waiting k' = some n' → missed (Event.ran p k (fallback p) true :: s.log) k' = false →
            askedFor (Event.ran p k (fallback p) true :: s.log) k' = some (naming n') := by
          intro k' n' h1 h2
          simp only [missed, Bool.or_eq_false_iff] at h2
          exact hi.waiting k' n' h1 h2.2
        cases e with
        | settled =>
          refine ⟨hi.table, fun k' n' h1 h2 => ?_, hgood⟩
          simp only [setWaiting] at h1
          split at h1
          · cases h1
          · exact hwait k' n' h1 h2
        | retried => exact ⟨hi.table, hwait, hgood⟩
        | perpetuated =>
          refine ⟨table_set hi.table (table_register (hi.table p) (hb p) (fun _ h => nomatch h)),
            fun k' n' h1 h2 => ?_, hgood⟩
          simp only [setWaiting] at h1
          split at h1
          · next e =>
            subst e
            simp [missed] at h2
          · exact hwait k' n' h1 h2

theorem Inv.runFrom {naming : String → Fn} {fallback : Process → Fn} (hb : ∀ p, naming (fallback p).name = fallback p)
    {s : Sys} (hi : Inv naming s) (ops : List Op) (ho : ∀ op ∈ ops, Names naming op) :
    Inv naming (Registry.runFrom fallback s ops) := by
  induction ops generalizing s with
  | nil => exact hi
  | cons op ops ih =>
    exact ih (hi.step hb (ho op (List.mem_cons_self ..))) (fun o h => ho o (List.mem_cons_of_mem _ h))

/-! ### C94 -/

/-- **C94**, the full statement: whatever the processes register, add, replace and run, a worker
that finds a task's function by name runs the function that the latest accepted `add` or
`replace` of its key asked for (unless a worker that did not know it replaced it by its fallback
since). -/
def C94_statement : Prop :=
  ∀ (fallback : Process → Fn) (ops : List Op) (later earlier : List Event) (p : Process) (k : String) (f : Fn),
    (runFrom fallback {} ops).log = later ++ .ran p k f false :: earlier →
    missed earlier k = false → askedFor earlier k = some f

/-- C94.  If no name stands for two functions, a task runs the function it was added with: on any
worker, whoever added it, by function or by any of its names, in the first run, in retries and
when it perpetuates itself. -/
theorem C94_runs_what_was_added_partial (fallback : Process → Fn) (ops : List Op)
    (one : OneMeaning fallback ops) (later earlier : List Event) (p : Process) (k : String) (f : Fn)
    (hlog : (runFrom fallback {} ops).log = later ++ .ran p k f false :: earlier)
    (hm : missed earlier k = false) : askedFor earlier k = some f := by
  obtain ⟨naming, hb, ho⟩ := one
  have hi : Inv naming ({} : Sys) :=
    ⟨(fun _ _ _ h => nomatch h), (fun _ _ h => nomatch h), trivial⟩
  have hg := (hi.runFrom hb ops ho).good
  rw [hlog] at hg
  exact (Good.suffix hg).1 rfl hm

/-- Two functions, one of them with a second name. -/
def alice : Fn := ⟨1, "alice"⟩
def bob : Fn := ⟨2, "bob"⟩
def fb : Process → Fn := fun _ => ⟨0, "default_fallback_task"⟩

/-- A history in which names have one meaning: a producer adds `alice` by function and by a second
name; the worker retries and perpetuates it. -/
def orderly : List Op :=
  [.registerCollection 2 [alice, bob], .register 2 alice ["alice", "al"], .register 1 alice ["al"],
   .addByName 1 false "k" "al", .add 1 false "j" bob, .run 2 "k" .retried, .run 2 "k" .perpetuated,
   .run 2 "j" .settled, .run 2 "k" .settled]

example : OneMeaning fb orderly := by
  refine ⟨fun n => if n = "alice" ∨ n = "al" then alice else if n = "bob" then bob else fb 0, fun _ => ?_, ?_⟩
  · simp [fb]
  intro op h
  simp only [orderly, List.mem_cons, List.not_mem_nil, or_false] at h
  rcases h with rfl | rfl | rfl | rfl | rfl | rfl | rfl | rfl | rfl <;> simp [Names] <;> decide

example : (runFrom fb {} orderly).log =
    [.ran 2 "k" alice false, .ran 2 "j" bob false, .ran 2 "k" alice false] ++
      .ran 2 "k" alice false :: [.asked "j" bob, .asked "k" alice] := by decide

/-- **Disagreement.**  Functions are told apart by their `__name__` alone, and registering a second
function of the same name silently replaces the first (docket.py:298-299): tasks already added
with the first run the second.  All lambdas, for one, have the same `__name__`. -/
theorem C94_violated_same_name : ¬ C94_statement := by
  intro h
  have := h fb [.add 1 false "a" ⟨1, "<lambda>"⟩, .add 1 false "b" ⟨2, "<lambda>"⟩, .run 1 "a" .settled]
    [] [.asked "b" ⟨2, "<lambda>"⟩, .asked "a" ⟨1, "<lambda>"⟩] 1 "a" ⟨2, "<lambda>"⟩ (by decide) (by decide)
  exact absurd this (by decide)

/-! ### Tasks do run -/

theorem register_mem (t : Tasks) (f : Fn) (names : List String) (n : String)
    (h : n ∈ names ∨ (names = [] ∧ n = f.name)) : register t f names n = some f := by
  have fold : ∀ (ns : List String) (t : Tasks), n ∈ ns ∨ t n = some f →
      ns.foldl (fun t n => setTask t n f) t n = some f := by
    intro ns
    induction ns with
    | nil => intro t h; rcases h with h | h
             · cases h
             · exact h
    | cons m ns ih =>
      intro t h
      refine ih _ ?_
      by_cases e : n = m
      · exact .inr (by simp [setTask, e])
      · rcases h with h | h
        · rcases List.mem_cons.1 h with h | h
          · exact absurd h e
          · exact .inl h
        · exact .inr (by simp [setTask, e, h])
  unfold register
  rcases h with h | ⟨rfl, rfl⟩
  · rw [if_neg (List.ne_nil_of_mem h)]
    exact fold names t (.inl h)
  · exact fold _ t (.inl (by simp))

/-- C94.  After `register(f, names)`, a task added by any of these names (by `f`'s own, if none are
given) runs `f`, unless its key is taken. -/
theorem C94_registered (fallback : Process → Fn) (s : Sys) (p : Process) (f : Fn) (names : List String) (n : String)
    (hn : n ∈ names ∨ (names = [] ∧ n = f.name)) (replace : Bool) (k : String)
    (free : replace = true ∨ s.waiting k = none) (e : End) :
    (runFrom fallback s [.register p f names, .addByName p replace k n, .run p k e]).log =
      .ran p k f false :: .asked k f :: s.log := by
  have hr := register_mem (s.tasks p) f names n hn
  have hp : (!replace && (s.waiting k).isSome) = false := by
    rcases free with h | h <;> simp [h]
  cases e <;>
    simp [runFrom, Registry.step, doAddByName, setTable, hr, place, hp, doRun, setWaiting, find]

/-- C94.  A task added with a function runs on any worker that has registered the function under its
own name, and on the worker of the process that added it. -/
theorem C94_added (fallback : Process → Fn) (s : Sys) (p q : Process) (f : Fn) (replace : Bool) (k : String)
    (free : replace = true ∨ s.waiting k = none) (knows : q = p ∨ s.tasks q f.name = some f) (e : End) :
    (runFrom fallback s [.add p replace k f, .run q k e]).log = .ran q k f false :: .asked k f :: s.log := by
  have hr := register_mem (s.tasks p) f [] f.name (.inr ⟨rfl, rfl⟩)
  have hp : (!replace && (s.waiting k).isSome) = false := by
    rcases free with h | h <;> simp [h]
  have hq : setTable s.tasks p (register (s.tasks p) f []) q f.name = some f := by
    unfold setTable
    split
    · exact hr
    · next h => exact knows.resolve_left h
  cases e <;>
    simp [runFrom, Registry.step, doAdd, place, hp, doRun, setWaiting, find, hq]

/-- C94.  A worker of another process that has not registered the name runs its own fallback task
instead: what one process registers the others do not know. -/
theorem C94_unknown (fallback : Process → Fn) (s : Sys) (p q : Process) (hq : q ≠ p) (f : Fn) (replace : Bool)
    (k : String) (free : replace = true ∨ s.waiting k = none) (unknown : s.tasks q f.name = none) (e : End) :
    (runFrom fallback s [.add p replace k f, .run q k e]).log =
      .ran q k (fallback q) true :: .asked k f :: s.log := by
  have hp : (!replace && (s.waiting k).isSome) = false := by
    rcases free with h | h <;> simp [h]
  cases e <;>
    simp [runFrom, Registry.step, doAdd, place, hp, doRun, setWaiting, find, setTable, hq, unknown]

/-- C94.  A task that is retried or perpetuates itself runs the same function again; a task that
is settled does not run again. -/
theorem C94_again (fallback : Process → Fn) (s : Sys) (p : Process) (k n : String) (f : Fn)
    (hw : s.waiting k = some n) (hf : s.tasks p n = some f) (e e' : End) :
    (runFrom fallback s [.run p k e, .run p k e']).log =
      if e = .settled then .ran p k f false :: s.log else .ran p k f false :: .ran p k f false :: s.log := by
  have hr := register_mem (s.tasks p) f [] f.name (.inr ⟨rfl, rfl⟩)
  cases e <;> cases e' <;>
    simp [runFrom, Registry.step, doRun, hw, hf, find, setWaiting, setTable, hr]

example : (runFrom fb {} [.register 1 alice ["al", "a"], .addByName 1 false "k" "a"]).waiting "k" = some "a" := by decide

/-! ### Workers that know the task -/

/-- The operations of processes that register only the functions of a collection, each under its
own name, and the workers among `ps`. -/
def Within (collection : List Fn) (ps : List Process) : Op → Prop
  | .register _ f names => f ∈ collection ∧ names = []
  | .registerCollection _ fs => ∀ f ∈ fs, f ∈ collection
  | .add _ _ _ f => f ∈ collection
  | .addByName .. => True
  | .run p _ _ => p ∈ ps

structure Known (collection : List Fn) (ps : List Process) (s : Sys) : Prop where
  all : ∀ p ∈ ps, ∀ f ∈ collection, s.tasks p f.name = some f
  only : ∀ p n f, s.tasks p n = some f → f ∈ collection ∧ n = f.name
  waiting : ∀ k n, s.waiting k = some n → ∃ f ∈ collection, n = f.name ∧ askedFor s.log k = some f
  log : ∀ p k f, Event.ran p k f true ∉ s.log

/-- Registering a function under its own name again changes nothing, where names are distinct. -/
theorem register_same {collection : List Fn} (hd : ∀ f ∈ collection, ∀ g ∈ collection, f.name = g.name → f = g)
    {t : Tasks} {f : Fn} (hf : f ∈ collection) {g : Fn} (hg : g ∈ collection) (h : t g.name = some g) :
    register t f [] g.name = some g := by
  simp only [register, if_true, List.foldl_cons, List.foldl_nil, setTask]
  split
  · next e => rw [hd g hg f hf e]
  · exact h

theorem registerCollection_same {collection : List Fn}
    (hd : ∀ f ∈ collection, ∀ g ∈ collection, f.name = g.name → f = g) {fs : List Fn} (hfs : ∀ f ∈ fs, f ∈ collection)
    {t : Tasks} {g : Fn} (hg : g ∈ collection) (h : t g.name = some g) : registerCollection t fs g.name = some g := by
  induction fs generalizing t with
  | nil => exact h
  | cons f fs ih =>
    exact ih (fun f h => hfs f (List.mem_cons_of_mem _ h)) (register_same hd (hfs f (List.mem_cons_self ..)) hg h)

theorem registerCollection_all {collection : List Fn}
    (hd : ∀ f ∈ collection, ∀ g ∈ collection, f.name = g.name → f = g) {fs : List Fn} (hfs : ∀ f ∈ fs, f ∈ collection)
    {t : Tasks} {g : Fn} (hg : g ∈ fs) : registerCollection t fs g.name = some g := by
  induction fs generalizing t with
  | nil => cases hg
  | cons f fs ih =>
    rcases List.mem_cons.1 hg with rfl | h
    · exact registerCollection_same hd (fun f h => hfs f (List.mem_cons_of_mem _ h)) (hfs _ (List.mem_cons_self ..))
        (by simp [register, setTask])
    · exact ih (fun f h => hfs f (List.mem_cons_of_mem _ h)) h

theorem Known.table {collection : List Fn} {ps : List Process} {s : Sys} (hk : Known collection ps s)
    {p : Process} {t : Tasks} (hall : ∀ g ∈ collection, s.tasks p g.name = some g → t g.name = some g)
    (honly : ∀ n g, t n = some g → (g ∈ collection ∧ n = g.name) ∨ s.tasks p n = some g) :
    Known collection ps { s with tasks := setTable s.tasks p t } := by
  refine ⟨fun q hq f hf => ?_, fun q n f h => ?_, hk.waiting, hk.log⟩
  · simp only [setTable]
    split
    · next e => subst e; exact hall f hf (hk.all q hq f hf)
    · exact hk.all q hq f hf
  · simp only [setTable] at h
    split at h
    · rcases honly n f h with h | h
      · exact h
      · exact hk.only p n f h
    · exact hk.only q n f h

theorem Known.register {collection : List Fn} (hd : ∀ f ∈ collection, ∀ g ∈ collection, f.name = g.name → f = g)
    {ps : List Process} {s : Sys} (hk : Known collection ps s) (p : Process) {f : Fn} (hf : f ∈ collection) :
    Known collection ps { s with tasks := setTable s.tasks p (register (s.tasks p) f []) } := by
  refine hk.table (fun g hg h => register_same hd hf hg h) (fun n g h => ?_)
  rcases register_eq h with ⟨a | a, b⟩ | h
  · subst b; exact .inl ⟨hf, a⟩
  · cases a
  · exact .inr h

theorem Known.place {collection : List Fn} {ps : List Process} {s : Sys} (hk : Known collection ps s)
    (replace : Bool) (k : String) {f : Fn} (hf : f ∈ collection) : Known collection ps (place s replace k f.name f) := by
  unfold Registry.place
  split
  · exact hk
  · refine ⟨hk.all, hk.only, fun k' n h => ?_, fun p k' g h => ?_⟩
    · simp only [setWaiting] at h
      split at h
      · next e => exact ⟨f, hf, (Option.some.inj h).symm, by simp [askedFor, e]⟩
      · next e =>
        obtain ⟨g, hg, e1, e2⟩ := hk.waiting k' n h
        exact ⟨g, hg, e1, by rw [askedFor, if_neg (fun h => e h.symm)]; exact e2⟩
    · rcases List.mem_cons.1 h with h | h
      · cases h
      · exact hk.log p k' g h

theorem Known.step {collection : List Fn} (hd : ∀ f ∈ collection, ∀ g ∈ collection, f.name = g.name → f = g)
    {ps : List Process} {fallback : Process → Fn} {s : Sys} (hk : Known collection ps s) {op : Op}
    (ho : Within collection ps op) : Known collection ps (Registry.step fallback s op) := by
  cases op with
  | register p f names =>
    obtain ⟨hf, rfl⟩ := ho
    exact hk.register hd p hf
  | registerCollection p fs =>
    refine hk.table (fun g hg h => registerCollection_same hd ho hg h) (fun n g h => ?_)
    rcases registerCollection_eq h with ⟨a, b⟩ | h
    · exact .inl ⟨ho g a, b⟩
    · exact .inr h
  | add p replace k f => exact (hk.register hd p ho).place replace k ho
  | addByName p replace k n =>
    simp only [Registry.step, doAddByName]
    cases h : s.tasks p n with
    | none => exact hk
    | some f =>
      obtain ⟨hf, rfl⟩ := hk.only p n f h
      exact hk.place replace k hf
  | run p k e =>
    simp only [Registry.step, doRun]
    cases hw : s.waiting k with
    | none => exact hk
    | some n =>
      obtain ⟨f, hf, rfl, hask⟩ := hk.waiting k n hw
      have hfind : find fallback s p f.name = (f, false) := by simp [find, hk.all p ho f hf]
      simp only [hfind]
      have hlog : ∀ p' k' g, Event.ran p' k' g true ∉ Event.ran p k f false :: s.log := by
        intro p' k' g h
        rcases List.mem_cons.1 h with h | h
        · cases h
        · exact hk.log p' k' g h
      cases e with
      | settled =>
        refine ⟨hk.all, hk.only, fun k' n h => ?_, hlog⟩
        simp only [setWaiting] at h
        split at h
        · cases h
        · exact hk.waiting k' n h
      | retried => exact ⟨hk.all, hk.only, hk.waiting, hlog⟩
      | perpetuated =>
        have hr := hk.register hd p hf
        refine ⟨hr.all, hr.only, fun k' n h => ?_, hlog⟩
        simp only [setWaiting] at h
        split at h
        · next e => exact ⟨f, hf, (Option.some.inj h).symm, by rw [e]; exact hask⟩
        · exact hk.waiting k' n h

theorem Known.runFrom {collection : List Fn} (hd : ∀ f ∈ collection, ∀ g ∈ collection, f.name = g.name → f = g)
    {ps : List Process} {fallback : Process → Fn} {s : Sys} (hk : Known collection ps s) {ops : List Op}
    (ho : ∀ op ∈ ops, Within collection ps op) : Known collection ps (Registry.runFrom fallback s ops) := by
  induction ops generalizing s with
  | nil => exact hk
  | cons op ops ih =>
    exact ih (hk.step hd (ho op (List.mem_cons_self ..))) (fun o h => ho o (List.mem_cons_of_mem _ h))

/-- The state after the processes registered the collection. -/
theorem known_setup {collection : List Fn} (hd : ∀ f ∈ collection, ∀ g ∈ collection, f.name = g.name → f = g)
    (fallback : Process → Fn) (done todo : List Process) {s : Sys} (hk : Known collection done s) :
    Known collection (done ++ todo) (runFrom fallback s (todo.map (fun p => .registerCollection p collection))) := by
  induction todo generalizing done s with
  | nil => simpa [Registry.runFrom] using hk
  | cons p todo ih =>
    have : Known collection (done ++ [p]) (Registry.step fallback s (.registerCollection p collection)) := by
      have h := hk.step (fallback := fallback) hd (op := .registerCollection p collection) (fun _ h => h)
      refine ⟨fun q hq f hf => ?_, h.only, h.waiting, h.log⟩
      rcases List.mem_append.1 hq with hq | hq
      · exact h.all q hq f hf
      · rw [List.mem_singleton.1 hq]
        simp only [Registry.step, setTable, if_true]
        exact registerCollection_all hd (fun _ h => h) hf
    have := ih (done ++ [p]) this
    rwa [List.append_assoc, List.singleton_append] at this

/-- C94.  If the functions of a collection have different names, every worker registers the
collection before anything runs (as `docket worker --tasks` does), and nothing is registered
under other names, then no worker ever runs the fallback: every task is found, whoever added
it, by function or by name, also when it is retried or perpetuates itself on another worker. -/
theorem C94_never_dropped_partial (collection : List Fn)
    (different : ∀ f ∈ collection, ∀ g ∈ collection, f.name = g.name → f = g)
    (fallback : Process → Fn) (workers : List Process) (ops : List Op)
    (within : ∀ op ∈ ops, Within collection workers op) (p : Process) (k : String) (f : Fn) :
    .ran p k f true ∉
      (runFrom fallback {} (workers.map (fun p => .registerCollection p collection) ++ ops)).log := by
  have h0 : Known collection [] ({} : Sys) :=
    ⟨(fun _ h => nomatch h), (fun _ _ _ h => nomatch h), (fun _ _ h => nomatch h), (fun _ _ _ h => nomatch h)⟩
  have h1 := known_setup different fallback [] workers h0
  rw [List.nil_append] at h1
  have h2 := h1.runFrom (fallback := fallback) different within
  rw [Registry.runFrom, List.foldl_append]
  exact h2.log p k f

/-- C94, in the same setting: `get_execution`, in any process, reports each waiting task under the
name of the function it was added with. -/
theorem C94_reported_partial (collection : List Fn)
    (different : ∀ f ∈ collection, ∀ g ∈ collection, f.name = g.name → f = g)
    (fallback : Process → Fn) (workers : List Process) (ops : List Op)
    (within : ∀ op ∈ ops, Within collection workers op) (p : Process) (k n : String)
    (hw : (runFrom fallback {} (workers.map (fun p => .registerCollection p collection) ++ ops)).waiting k = some n) :
    ∃ f, askedFor (runFrom fallback {} (workers.map (fun p => .registerCollection p collection) ++ ops)).log k = some f ∧
    reportedName ((runFrom fallback {} (workers.map (fun p => .registerCollection p collection) ++ ops)).tasks p) n =
      f.name := by
  have h0 : Known collection [] ({} : Sys) :=
    ⟨(fun _ h => nomatch h), (fun _ _ _ h => nomatch h), (fun _ _ h => nomatch h), (fun _ _ _ h => nomatch h)⟩
  have h1 := known_setup different fallback [] workers h0
  rw [List.nil_append] at h1
  have h2 := h1.runFrom (fallback := fallback) different within
  rw [Registry.runFrom, List.foldl_append] at hw ⊢
  obtain ⟨f, _, e, ha⟩ := h2.waiting k n hw
  refine ⟨f, ha, ?_⟩
  rw [← e]
  unfold reportedName
  split
  · next g hg => exact (h2.only p n g hg).2.symm
  · rfl

example : ∀ op ∈ [Op.add 7 false "k" alice, .addByName 1 false "j" "bob", .run 2 "k" .perpetuated, .run 1 "k" .retried],
    Within [alice, bob] [1, 2] op := by
  intro op h
  simp only [List.mem_cons, List.not_mem_nil, or_false] at h
  rcases h with rfl | rfl | rfl | rfl <;> simp [Within]

example : (runFrom fb {} ([1, 2].map (fun p => .registerCollection p [alice, bob]) ++
    [Op.add 7 false "k" alice, .addByName 1 false "j" "bob", .run 2 "k" .perpetuated, .run 1 "k" .retried])).log =
    [.ran 1 "k" alice false, .ran 2 "k" alice false, .asked "j" bob, .asked "k" alice] := by decide

/-- The full statement of the second part: if all workers register the same functions under the
same names, no worker ever runs the fallback. -/
def C94_statement_dropped : Prop :=
  ∀ (names : List (Fn × List String)) (fallback : Process → Fn) (workers : List Process) (ops : List Op),
    (∀ op ∈ ops, ∃ p k e, p ∈ workers ∧ (op = .run p k e ∨ ∃ r n, op = .addByName p r k n)) →
    ∀ p k f, .ran p k f true ∉
      (runFrom fallback {} (workers.flatMap (fun p => names.map (fun x => .register p x.1 x.2)) ++ ops)).log

/-- **Disagreement.**  A task added by a second name is perpetuated under its function's own
`__name__` (`docket.replace(execution.function, ...)`, _perpetual.py:130): another worker, which
like the first has registered it under the second name only, does not know that name, runs the
fallback and so ends the chain. -/
theorem C94_violated_alias : ¬ C94_statement_dropped := by
  intro h
  refine h [(alice, ["al"])] fb [1, 2] [.addByName 1 false "k" "al", .run 1 "k" .perpetuated, .run 2 "k" .settled] ?_
    2 "k" (fb 2) (by decide)
  intro op h
  simp only [List.mem_cons, List.not_mem_nil, or_false] at h
  rcases h with rfl | rfl | rfl
  · exact ⟨1, "k", .settled, by simp, .inr ⟨false, "al", rfl⟩⟩
  · exact ⟨1, "k", .perpetuated, by simp, .inl rfl⟩
  · exact ⟨2, "k", .settled, by simp, .inl rfl⟩

/-- The full statement of the third part: `get_execution` reports a waiting task under the name it
was added with. -/
def C94_statement_reported : Prop :=
  ∀ (fallback : Process → Fn) (ops : List Op) (p : Process) (k n : String),
    (runFrom fallback {} ops).waiting k = some n → reportedName ((runFrom fallback {} ops).tasks p) n = n

/-- **Disagreement.**  `get_execution` builds the execution without the name in the record
(docket.py:672-680): a task added by a second name is reported under its function's `__name__`, so
that, for one, asking whether it is stricken gives another answer than the worker's. -/
theorem C94_violated_reported : ¬ C94_statement_reported := by
  intro h
  have := h fb [.register 1 alice ["al"], .addByName 1 false "k" "al"] 1 "k" "al" (by decide)
  exact absurd this (by decide)

end Docket.Registry
