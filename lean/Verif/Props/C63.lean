import Verif.Agenda.Names
/-
C63 A task keeps its name and its function.
-/
namespace Docket.Names

open Agenda

/-- The names a registration gives to a function. -/
def given (f : Fn) (names : List Text) : List Text := if names = [] then [f.name] else names

/-- A naming that the program follows: every name means one function everywhere, and no two
functions have the same `__name__`. -/
def Follows (g : Text → Fn) : Op → Prop
  | .register _ f names => (∀ n ∈ given f names, g n = f) ∧ g f.name = f
  | .addFn _ f _ => g f.name = f
  | _ => True

/-- A naming that only the names the user gave follow. -/
def FollowsGiven (g : Text → Fn) : Op → Prop
  | .register _ f names => ∀ n ∈ given f names, g n = f
  | .addFn _ f _ => g f.name = f
  | _ => True

theorem register_eq (r : Registry) (f : Fn) (names : List Text) (n : Text) :
    Agenda.register r f names n = if n ∈ given f names then some f else r n := by
  have key : ∀ (l : List Text) (r : Registry),
      l.foldl (fun r n => r.set n f) r n = if n ∈ l then some f else r n := by
    intro l
    induction l with
    | nil => simp
    | cons x l ih =>
      intro r
      simp only [List.foldl_cons, ih, List.mem_cons, Registry.set]
      by_cases h1 : n ∈ l
      · simp [h1]
      · by_cases h2 : n = x
        · simp [h2]
        · simp [h1, h2]
  exact key _ r

structure Inv (g : Text → Fn) (s : Sys) : Prop where
  tasks : ∀ w n f, s.tasks w n = some f → g n = f ∧ g f.name = f
  queue : ∀ m ∈ s.queue, g m.name = m.wanted
  log : ∀ e ∈ s.log, e.called = none ∨ e.called = some e.msg.wanted

theorem Inv.pushFn {g : Text → Fn} {s : Sys} (h : Inv g s) {w : Nat} {f : Fn} {key wn : Text} (hg : g f.name = f) :
    Inv g (pushFn s w f key wn f) := by
  refine ⟨?_, ?_, h.log⟩
  · intro v n f' hv
    simp only [Names.pushFn, setReg] at hv
    split at hv
    · rw [register_eq] at hv
      split at hv
      · rename_i hn
        simp only [given, if_true, List.mem_singleton] at hn
        cases hv
        exact ⟨by rw [hn]; exact hg, hg⟩
      · exact h.tasks _ _ _ hv
    · exact h.tasks _ _ _ hv
  · intro m hm
    simp only [Names.pushFn, List.mem_append, List.mem_singleton] at hm
    rcases hm with hm | rfl
    · exact h.queue m hm
    · exact hg

theorem Inv.step {g : Text → Fn} {s : Sys} (h : Inv g s) (op : Op) (ho : Follows g op) : Inv g (step s op) := by
  cases op with
  | register w f names =>
    refine ⟨?_, h.queue, h.log⟩
    intro v n f' hv
    simp only [Names.step, setReg] at hv
    split at hv
    · rw [register_eq] at hv
      split at hv
      · rename_i hn
        cases hv
        exact ⟨ho.1 n hn, ho.2⟩
      · exact h.tasks _ _ _ hv
    · exact h.tasks _ _ _ hv
  | addName w n key =>
    simp only [Names.step]
    split
    · rename_i f hf
      refine ⟨h.tasks, ?_, h.log⟩
      intro m hm
      simp only [List.mem_append, List.mem_singleton] at hm
      rcases hm with hm | rfl
      · exact h.queue m hm
      · exact (h.tasks w n f hf).1
    · exact h
  | addFn w f key => exact h.pushFn ho
  | scatterName w n key =>
    simp only [Names.step]
    split
    · rename_i f hf
      exact h.pushFn (h.tasks w n f hf).2
    · exact h
  | run w key o =>
    simp only [Names.step]
    split
    · exact h
    · rename_i m hm
      have hq := h.queue m (List.mem_of_find?_eq_some hm)
      have hq' : ∀ x ∈ s.queue.erase m, g x.name = x.wanted := fun x hx => h.queue x (List.mem_of_mem_erase hx)
      split
      · refine ⟨h.tasks, hq', ?_⟩
        intro e he
        simp only [List.mem_append, List.mem_singleton] at he
        rcases he with he | rfl
        · exact h.log e he
        · exact Or.inl rfl
      · rename_i f hf
        have hf' := h.tasks w _ f hf
        have hw : f = m.wanted := by rw [← hf'.1]; exact hq
        have hi : Inv g { s with queue := s.queue.erase m, log := s.log ++ [⟨w, m, some f⟩] } := by
          refine ⟨h.tasks, hq', ?_⟩
          intro e he
          simp only [List.mem_append, List.mem_singleton] at he
          rcases he with he | rfl
          · exact h.log e he
          · exact Or.inr (by rw [hw])
        cases o with
        | done => exact hi
        | retry =>
          refine ⟨hi.tasks, ?_, hi.log⟩
          intro x hx
          simp only [follow, List.mem_append, List.mem_singleton] at hx
          rcases hx with hx | rfl
          · exact hi.queue x hx
          · exact hq
        | again =>
          simp only [follow]
          rw [← hw]
          exact hi.pushFn hf'.2

/-- **C63**, partial: as long as every name means one function in all processes and no two
functions have the same `__name__`, a worker never calls another function for a task than
the one it was scheduled with, through any number of retries, perpetual re-schedulings and
scatters.  Missing: functions with the same `__name__` under different registered names
(`C63_violated_mixed_up`), keeping the name (`C63_violated_name`), and workers that know
the task only under its registered name (`C63_violated_dropped`). -/
theorem C63_same_function_partial (g : Text → Fn) (ops : List Op) (hg : ∀ op ∈ ops, Follows g op) :
    ∀ e ∈ (run ops).log, e.called = none ∨ e.called = some e.msg.wanted := by
  have : ∀ s, Inv g s → Inv g (ops.foldl step s) := by
    induction ops with
    | nil => exact fun s h => h
    | cons op ops ih =>
      intro s h
      exact ih (fun o ho => hg o (by simp [ho])) _ (h.step op (hg op (by simp)))
  exact (this Sys.init ⟨by simp [Sys.init], by simp [Sys.init], by simp [Sys.init]⟩).log

/-- An operation that keeps names: anything but scatter by name and a perpetual task's
re-scheduling. -/
def KeepsName : Op → Prop
  | .scatterName _ _ _ => False
  | .run _ _ .again => False
  | _ => True

/-- **C63**, partial: without perpetual re-scheduling and scatter by name, every task is run
under the name it was scheduled with, retries included. -/
theorem C63_same_name_partial (ops : List Op) (hk : ∀ op ∈ ops, KeepsName op) :
    ∀ e ∈ (run ops).log, e.msg.name = e.msg.wantedName := by
  have : ∀ s : Sys, ((∀ m ∈ s.queue, m.name = m.wantedName) ∧ ∀ e ∈ s.log, e.msg.name = e.msg.wantedName) →
      ((∀ m ∈ (ops.foldl step s).queue, m.name = m.wantedName) ∧
        ∀ e ∈ (ops.foldl step s).log, e.msg.name = e.msg.wantedName) := by
    induction ops with
    | nil => exact fun s h => h
    | cons op ops ih =>
      intro s h
      refine ih (fun o ho => hk o (by simp [ho])) _ ?_
      have hop := hk op (by simp)
      cases op with
      | register w f names => exact h
      | addName w n key =>
        simp only [Names.step]
        split
        · refine ⟨?_, h.2⟩
          intro m hm
          simp only [List.mem_append, List.mem_singleton] at hm
          rcases hm with hm | rfl
          · exact h.1 m hm
          · rfl
        · exact h
      | addFn w f key =>
        refine ⟨?_, h.2⟩
        intro m hm
        simp only [Names.step, Names.pushFn, List.mem_append, List.mem_singleton] at hm
        rcases hm with hm | rfl
        · exact h.1 m hm
        · rfl
      | scatterName w n key => exact absurd hop id
      | run w key o =>
        simp only [Names.step]
        split
        · exact h
        · rename_i m hm
          have hq := h.1 m (List.mem_of_find?_eq_some hm)
          have hq' : ∀ x ∈ s.queue.erase m, x.name = x.wantedName := fun x hx => h.1 x (List.mem_of_mem_erase hx)
          have hl : ∀ c, ∀ e ∈ s.log ++ [⟨w, m, c⟩], e.msg.name = e.msg.wantedName := by
            intro c e he
            simp only [List.mem_append, List.mem_singleton] at he
            rcases he with he | rfl
            · exact h.2 e he
            · exact hq
          split
          · exact ⟨hq', hl none⟩
          · rename_i f hf
            cases o with
            | done => exact ⟨hq', hl (some f)⟩
            | retry =>
              refine ⟨?_, hl (some f)⟩
              intro x hx
              simp only [follow, List.mem_append, List.mem_singleton] at hx
              rcases hx with hx | rfl
              · exact hq' x hx
              · exact hq
            | again => exact absurd hop id
  exact (this Sys.init ⟨by simp [Sys.init], by simp [Sys.init]⟩).2

/-- Two functions called `run`, registered as `a.run` and `b.run`, both perpetual. -/
def fa : Fn := ⟨1, t!"run"⟩
def fb : Fn := ⟨2, t!"run"⟩

def mixed : List Op :=
  [.register 0 fa [t!"a.run"], .register 0 fb [t!"b.run"], .addName 0 t!"a.run" t!"ka", .addName 0 t!"b.run" t!"kb",
   .run 0 t!"ka" .again, .run 0 t!"kb" .again, .run 0 t!"ka" .done]

/-- The full statement of C63 for functions. -/
def C63_same_function : Prop :=
  ∀ (g : Text → Fn) (ops : List Op), (∀ op ∈ ops, FollowsGiven g op) →
    ∀ e ∈ (run ops).log, ∀ f, e.called = some f → f = e.msg.wanted

/-- The full statement of C63 for names. -/
def C63_same_name : Prop := ∀ (ops : List Op), ∀ e ∈ (run ops).log, e.msg.name = e.msg.wantedName

/-- No task is dropped by a worker that has registered its name. -/
def C63_not_dropped : Prop :=
  ∀ (g : Text → Fn) (ops : List Op), (∀ op ∈ ops, FollowsGiven g op) →
    ∀ e ∈ (run ops).log, (run ops).tasks e.worker e.msg.wantedName = some e.msg.wanted → e.called ≠ none

/-- **C63, violated**: two perpetual functions with the same `__name__`, registered under
different names.  Each re-schedules itself by function, which registers it under `__name__`
and sends the next run under that name: the last one to do so is called for both tasks. -/
theorem C63_violated_mixed_up : ¬ C63_same_function := by
  intro h
  have := h (fun n => if n = t!"a.run" then fa else fb) mixed (by simp [mixed, FollowsGiven, given])
    ⟨0, ⟨t!"ka", t!"run", t!"a.run", fa⟩, some fb⟩ (by decide +kernel) fb rfl
  revert this
  decide

/-- **C63, violated**: the next run of a perpetual task registered under another name than
`__name__` goes by `__name__`, so that for instance strikes of its registered name no longer
apply; the same happens to an agenda entry added by name. -/
theorem C63_violated_name : ¬ C63_same_name ∧
    ∃ e ∈ (run [.register 0 fa [t!"a.run"], .scatterName 0 t!"a.run" t!"k", .run 0 t!"k" .done]).log,
      e.msg.name = t!"run" ∧ e.msg.wantedName = t!"a.run" := by
  constructor
  · intro h
    have := h [.register 0 fa [t!"a.run"], .addName 0 t!"a.run" t!"k", .run 0 t!"k" .again, .run 0 t!"k" .done]
      ⟨0, ⟨t!"k", t!"run", t!"a.run", fa⟩, some fa⟩ (by decide +kernel)
    revert this
    decide
  · exact ⟨⟨0, ⟨t!"k", t!"run", t!"a.run", fa⟩, some fa⟩, by decide +kernel, rfl, rfl⟩

/-- **C63, violated**: two workers both register a perpetual task under a name of its own.
After its first run it is sent under `__name__`, which the second worker does not know: that
worker drops it. -/
theorem C63_violated_dropped : ¬ C63_not_dropped := by
  intro h
  have := h (fun _ => fa) [.register 0 fa [t!"a.run"], .register 1 fa [t!"a.run"], .addName 0 t!"a.run" t!"k",
    .run 0 t!"k" .again, .run 1 t!"k" .done] (by simp [FollowsGiven, given])
    ⟨1, ⟨t!"k", t!"run", t!"a.run", fa⟩, none⟩ (by decide +kernel) (by decide +kernel)
  exact this rfl

/-- A history with retries and perpetual runs that meets the hypotheses. -/
example : ∀ op ∈ [Op.register 0 fa [], .register 1 fa [t!"run", t!"alias"], .addName 1 t!"alias" t!"k",
    .run 1 t!"k" .again, .run 0 t!"k" .retry, .run 0 t!"k" .done], Follows (fun _ => fa) op := by
  simp [Follows, given]

example : ((run [Op.register 0 fa [], .register 1 fa [t!"run", t!"alias"], .addName 1 t!"alias" t!"k",
    .run 1 t!"k" .again, .run 0 t!"k" .retry, .run 0 t!"k" .done]).log.map (·.called)) =
    [some fa, some fa, some fa] := by decide +kernel

end Docket.Names
