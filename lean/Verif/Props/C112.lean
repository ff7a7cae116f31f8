import Verif.Worker.Startup

/-!
# C112: a worker starts whatever tasks it is given, and says which

When a worker starts it writes one line for each registered task, which shows the parameters the
caller gives, in order, with their declared types and their defaults, and `...` for the
dependencies.  Nothing about a registered task keeps the worker from starting.
-/

namespace Docket.Startup

/-! ## Specification -/

/-- The parameters a caller gives. -/
def given (s : Sig) : List Param := s.filter (fun p => p.default ≠ .dependency)

/-- The task asks for dependencies. -/
def HasDependencies (s : Sig) : Prop := ∃ p ∈ s, p.default = .dependency

/-- The name of the type that was declared: for `Annotated[int, …]` it is `int`, for
`dict[str, int]` it is `dict`. -/
def declared : Ann → Text
  | .plain n | .annotated n | .generic n _ | .bare n => n

/-- How a parameter is shown when `τ` tells the name of a type. -/
def piece (τ : Ann → Text) (p : Param) : Text :=
  p.name ++ (match p.ann with | some a => t!": " ++ τ a | none => [])
    ++ (match p.default with | .value r => t!" = " ++ r | _ => [])

open Classical in
/-- How a signature is shown: its pieces, with a comma and a space between them. -/
noncomputable def shown (τ : Ann → Text) (s : Sig) : Text :=
  (List.intersperse t!", " ((given s).map (piece τ) ++ if HasDependencies s then [t!"..."] else [])).flatten

/-- The lines for some tasks. -/
noncomputable def lines (τ : Ann → Text) (tasks : List (Text × Sig)) : List Text :=
  tasks.map (fun t => t!"* " ++ t.1 ++ t!"(" ++ shown τ t.2 ++ t!")")

/-- The first line. -/
def headline (worker : Text) : Text :=
  t!"Starting worker '" ++ worker ++ t!"' with the following tasks:"

/-- The property: whatever the tasks, the worker starts, after it has written the headline and one
line for each task. -/
def C112_statement : Prop := ∀ worker tasks,
  (start worker tasks).serving = true ∧
  (start worker tasks).log = headline worker :: lines declared tasks

/-- An annotation written with brackets that have something in them, or without brackets and no
generic type of `typing`. -/
def Ann.Readable : Ann → Prop
  | .generic _ args => args ≠ []
  | .bare _ => False
  | _ => True

/-- A type that is no generic one, so that its first argument is not taken for it. -/
def Ann.Simple : Ann → Prop
  | .plain _ | .annotated _ => True
  | _ => False

/-- The annotations of the parameters a caller gives. -/
def Anns (P : Ann → Prop) (s : Sig) : Prop := ∀ p ∈ given s, ∀ a, p.ann = some a → P a

/-- What is taken for the name of a type: for a generic one, the first argument. -/
def taken : Ann → Text
  | .plain n | .annotated n | .bare n => n
  | .generic _ args => args.headD []

/-! ## Lemmas -/

theorem typeName_ok {a : Ann} (h : a.Readable) : typeName a = .ok (taken a) := by
  cases a with
  | plain n => rfl
  | annotated n => rfl
  | bare n => exact h.elim
  | generic n args =>
    cases args with
    | nil => exact (h rfl).elim
    | cons x l => rfl

theorem typeName_err {a : Ann} (h : ¬ a.Readable) : ∃ e, typeName a = .error e := by
  cases a with
  | plain n => exact (h trivial).elim
  | annotated n => exact (h trivial).elim
  | bare n => exact ⟨_, rfl⟩
  | generic n args =>
    cases args with
    | nil => exact ⟨_, rfl⟩
    | cons x l => exact (h (by simp [Ann.Readable])).elim

theorem given_cons_dep {p : Param} {l : Sig} (h : p.default = .dependency) :
    given (p :: l) = given l := by simp [given, h]

theorem given_cons {p : Param} {l : Sig} (h : p.default ≠ .dependency) :
    given (p :: l) = p :: given l := by simp [given, h]

theorem piece_eq {p : Param} (h : ∀ a, p.ann = some a → a.Readable) :
    ∃ d, withType p = .ok d ∧ withDefault p d = piece taken p := by
  rcases hp : p.ann with _ | a
  · refine ⟨p.name, by simp [withType, hp], ?_⟩
    simp only [withDefault, piece, hp]
    cases p.default <;> simp
  · refine ⟨p.name ++ t!": " ++ taken a, by simp [withType, hp, typeName_ok (h a hp)], ?_⟩
    simp only [withDefault, piece, hp]
    cases p.default <;> simp

theorem loop_ok : ∀ (s : Sig) (ps : List Text) (n : Nat), Anns Ann.Readable s →
    loop s ps n = .ok (ps ++ (given s).map (piece taken),
      n + s.countP (fun p => p.default = .dependency))
  | [], ps, n, _ => by simp [loop, given]
  | p :: l, ps, n, h => by
    by_cases hd : p.default = .dependency
    · have hl : Anns Ann.Readable l := by
        intro q hq; exact h q (by rw [given_cons_dep hd]; exact hq)
      rw [loop, if_pos hd, loop_ok l ps (n + 1) hl, given_cons_dep hd,
        List.countP_cons_of_pos (by simpa using hd)]
      congr 2
      omega
    · have hl : Anns Ann.Readable l := by
        intro q hq; exact h q (by rw [given_cons hd]; exact List.mem_cons_of_mem _ hq)
      obtain ⟨d, hd1, hd2⟩ := piece_eq (p := p)
        (h p (by rw [given_cons hd]; exact List.mem_cons_self))
      rw [loop, if_neg hd, hd1]
      simp only
      rw [loop_ok l _ n hl, given_cons hd, hd2, List.countP_cons_of_neg (by simpa using hd)]
      simp

theorem loop_err : ∀ (s : Sig) (ps : List Text) (n : Nat), ¬ Anns Ann.Readable s →
    ∃ e, loop s ps n = .error e
  | [], ps, n, h => (h (by intro p hp; simp [given] at hp)).elim
  | p :: l, ps, n, h => by
    by_cases hd : p.default = .dependency
    · rw [loop, if_pos hd]
      refine loop_err l ps (n + 1) (fun hl => h ?_)
      intro q hq; exact hl q (by rw [given_cons_dep hd] at hq; exact hq)
    · rw [loop, if_neg hd]
      by_cases hp : ∀ a, p.ann = some a → a.Readable
      · obtain ⟨d, hd1, _⟩ := piece_eq hp
        rw [hd1]
        refine loop_err l _ n (fun hl => h ?_)
        intro q hq
        rw [given_cons hd] at hq
        rcases List.mem_cons.1 hq with rfl | hq
        · exact hp
        · exact hl q hq
      · have : ∃ a, p.ann = some a ∧ ¬ a.Readable := by
          simpa only [Classical.not_forall, not_imp, exists_prop] using hp
        obtain ⟨a, ha, hr⟩ := this
        obtain ⟨e, he⟩ := typeName_err hr
        exact ⟨e, by simp [withType, ha, he]⟩

theorem join_eq : ∀ l : List Text, join l = (List.intersperse t!", " l).flatten
  | [] => rfl
  | [x] => by simp [join]
  | x :: y :: l => by rw [join, join_eq (y :: l)]; simp [List.intersperse]

theorem compact_ok {s : Sig} (h : Anns Ann.Readable s) : compactSignature s = .ok (shown taken s) := by
  rw [compactSignature, loop_ok s [] 0 h]
  have hd : HasDependencies s ↔ 0 < s.countP (fun p => p.default = .dependency) := by
    rw [List.countP_pos_iff]; simp [HasDependencies]
  by_cases hs : HasDependencies s
  · simp [shown, hs, hd.1 hs, join_eq]
  · have : s.countP (fun p => p.default = .dependency) = 0 := by
      have := mt hd.2 hs; omega
    simp [shown, hs, this, join_eq]

theorem logTasks_ok : ∀ (tasks : List (Text × Sig)) (w : List Text),
    (∀ t ∈ tasks, Anns Ann.Readable t.2) → logTasks tasks w = (w ++ lines taken tasks, none)
  | [], w, _ => by simp [logTasks, lines]
  | (n, s) :: l, w, h => by
    rw [logTasks, compact_ok (h (n, s) List.mem_cons_self)]
    simp only
    rw [logTasks_ok l _ (fun t ht => h t (List.mem_cons_of_mem _ ht))]
    simp [lines]

theorem logTasks_err : ∀ (tasks : List (Text × Sig)) (w : List Text),
    (¬ ∀ t ∈ tasks, Anns Ann.Readable t.2) → ∃ w' e, logTasks tasks w = (w', some e)
  | [], w, h => (h (by simp)).elim
  | (n, s) :: l, w, h => by
    by_cases hs : Anns Ann.Readable s
    · rw [logTasks, compact_ok hs]
      refine logTasks_err l _ (fun hl => h ?_)
      intro t ht
      rcases List.mem_cons.1 ht with rfl | ht
      · exact hs
      · exact hl t ht
    · obtain ⟨e, he⟩ := loop_err s [] 0 hs
      exact ⟨w, e, by simp [logTasks, compactSignature, he]⟩

theorem piece_congr {τ σ : Ann → Text} {p : Param} (h : ∀ a, p.ann = some a → τ a = σ a) :
    piece τ p = piece σ p := by
  rcases hp : p.ann with _ | a
  · simp [piece, hp]
  · simp [piece, hp, h a hp]

theorem shown_congr {τ σ : Ann → Text} {s : Sig} (h : Anns (fun a => τ a = σ a) s) :
    shown τ s = shown σ s := by
  unfold shown
  rw [List.map_congr_left (fun p hp => piece_congr (h p hp))]

/-! ## Theorems -/

/-- A worker starts exactly when no parameter given by callers is annotated with a generic type of
`typing` without brackets, or with one whose brackets are empty.  (The full property,
`C112_statement`, asks for no condition: see `C112_violated_start`.) -/
theorem C112_starts_partial (worker : Text) (tasks : List (Text × Sig)) :
    (start worker tasks).serving = true ↔ ∀ t ∈ tasks, Anns Ann.Readable t.2 := by
  constructor
  · intro h
    by_cases ht : ∀ t ∈ tasks, Anns Ann.Readable t.2
    · exact ht
    · obtain ⟨w, e, he⟩ := logTasks_err tasks
        [t!"Starting worker '" ++ worker ++ t!"' with the following tasks:"] ht
      simp only [start, startupLog, he] at h
      exact absurd h (by decide)
  · intro h
    simp only [start, startupLog, logTasks_ok tasks _ h]

/-- When the declared types are no generic ones, the worker starts and its lines are what they
should be. -/
theorem C112_listed_partial (worker : Text) (tasks : List (Text × Sig))
    (h : ∀ t ∈ tasks, Anns Ann.Simple t.2) :
    (start worker tasks).serving = true ∧
    (start worker tasks).log = headline worker :: lines declared tasks := by
  have hr : ∀ t ∈ tasks, Anns Ann.Readable t.2 := by
    intro t ht p hp a ha
    have := h t ht p hp a ha
    cases a <;> simp_all [Ann.Simple, Ann.Readable]
  have hl : lines taken tasks = lines declared tasks := by
    unfold lines
    refine List.map_congr_left (fun t ht => ?_)
    rw [shown_congr]
    intro p hp a ha
    have := h t ht p hp a ha
    cases a <;> simp_all [Ann.Simple, taken, declared]
  refine ⟨(C112_starts_partial worker tasks).2 hr, ?_⟩
  simp only [start, startupLog, logTasks_ok tasks _ hr, hl]
  rfl

/-- Whenever the worker starts, there is one line for each task, in order, with all parameters a
caller gives and their defaults; of the types, a generic one is shown by its first argument. -/
theorem C112_lines_partial (worker : Text) (tasks : List (Text × Sig))
    (h : (start worker tasks).serving = true) :
    (start worker tasks).raised = none ∧
    ∃ τ : Ann → Text, (∀ a, a.Simple → τ a = declared a) ∧
      (∀ n x l, τ (.generic n (x :: l)) = x) ∧
      (start worker tasks).log = headline worker :: lines τ tasks := by
  have hr := (C112_starts_partial worker tasks).1 h
  refine ⟨by simp only [start, startupLog, logTasks_ok tasks _ hr], taken, ?_, fun _ _ _ => rfl, ?_⟩
  · intro a ha
    cases a <;> simp_all [Ann.Simple, taken, declared]
  · simp only [start, startupLog, logTasks_ok tasks _ hr]
    rfl

/-- Dependencies are never spelt out: two tasks with the same parameters for callers, which both ask
for dependencies, are shown alike. -/
theorem C112_dependencies_hidden (s s' : Sig) (h : given s = given s') (hd : HasDependencies s)
    (hd' : HasDependencies s') : compactSignature s = compactSignature s' := by
  by_cases hr : Anns Ann.Readable s
  · have hr' : Anns Ann.Readable s' := by unfold Anns; rw [← h]; exact hr
    rw [compact_ok hr, compact_ok hr']
    simp [shown, h, hd, hd']
  · have key : ∀ (s : Sig) (ps ps' : List Text) (n n' : Nat) (s' : Sig), given s = given s' →
        ¬ Anns Ann.Readable s → ∀ e, loop s ps n = .error e → loop s' ps' n' = .error e := by
      intro s
      induction s with
      | nil => intro ps ps' n n' s' _ _ e he; simp [loop] at he
      | cons p l ih =>
        intro ps ps' n n' s' hg hr e he
        by_cases hp : p.default = .dependency
        · rw [loop, if_pos hp] at he
          refine ih ps ps' (n + 1) n' s' (by rw [← hg, given_cons_dep hp]) (fun hl => hr ?_) e he
          intro q hq; exact hl q (by rw [given_cons_dep hp] at hq; exact hq)
        · rw [given_cons hp] at hg
          rw [loop, if_neg hp] at he
          clear h hd hd' 
          induction s' generalizing n' with
          | nil => simp [given] at hg
          | cons q l' ih' =>
            by_cases hq : q.default = .dependency
            · rw [loop, if_pos hq]
              exact ih' (n' + 1) (by rw [hg, given_cons_dep hq])
            · rw [given_cons hq] at hg
              obtain ⟨rfl, hl⟩ := List.cons.inj hg
              rw [loop, if_neg hq]
              cases hw : withType p with
              | error e' => rw [hw] at he; simpa using he
              | ok d =>
                rw [hw] at he
                simp only at he ⊢
                refine ih _ _ n n' l' hl (fun hall => ?_) e he
                obtain ⟨e2, he2⟩ : ∃ e2, loop l (ps ++ [withDefault p d]) n = .error e2 := ⟨e, he⟩
                rw [loop_ok l _ n hall] at he2
                cases he2
    obtain ⟨e, he⟩ := loop_err s [] 0 hr
    rw [compactSignature, compactSignature, he, key s [] [] 0 0 s' h hr e he]

/-- `async def ingest(rows: typing.Dict)` among the tasks: the worker does not start, so no other
task is served either. -/
theorem C112_violated_start : ¬ C112_statement := by
  intro h
  have := (h t!"w" [(t!"trace", [{ name := t!"message", ann := some (.plain t!"str") }]),
    (t!"ingest", [{ name := t!"rows", ann := some (.bare t!"Dict") }])]).1
  revert this
  decide

/-- Every task that can be listed is listed with the types its parameters were declared with. -/
def C112_types_statement : Prop := ∀ s text, compactSignature s = .ok text →
  text = shown declared s

/-- `async def ingest(rows: dict[str, int])` is listed as `ingest(rows: str)`. -/
theorem C112_violated_types : ¬ C112_types_statement := by
  intro h
  have := h [{ name := t!"rows", ann := some (.generic t!"dict" [t!"str", t!"int"]) }] t!"rows: str"
    rfl
  have hd : ¬ HasDependencies [{ name := t!"rows", ann := some (.generic t!"dict" [t!"str", t!"int"]) }] := by
    simp [HasDependencies]
  simp only [shown, if_neg hd] at this
  revert this
  decide

/-! ## The hypotheses can be met -/

/-- `trace(message: str, n: int = 3, docket=CurrentDocket())`. -/
def traceSig : Sig :=
  [{ name := t!"message", ann := some (.plain t!"str") },
   { name := t!"n", ann := some (.annotated t!"int"), default := .value t!"3" },
   { name := t!"docket", default := .dependency }]

example : ∀ t ∈ [(t!"trace", traceSig)], Anns Ann.Simple t.2 := by
  simp [traceSig, Anns, given, Ann.Simple]

example : (start t!"w" [(t!"trace", traceSig)]).log =
    [t!"Starting worker 'w' with the following tasks:",
     t!"* trace(message: str, n: int = 3, ...)"] := by decide

example : (start t!"w" [(t!"trace", traceSig)]).serving = true := by decide

example : HasDependencies traceSig ∧
    given traceSig = given (traceSig ++ [{ name := t!"worker", default := .dependency }]) :=
  ⟨⟨{ name := t!"docket", default := .dependency }, by simp [traceSig], rfl⟩, by simp [traceSig, given]⟩

end Docket.Startup
