import Verif.Views.Legacy

/-!
# C121: a task left by an earlier version is treated like any other

The specification speaks of the history, of the answers of `add` and of the tasks started.
-/

namespace Docket.Legacy

/-- The message of an earlier version: it has no generation. -/
def oldMsg : Msg := ⟨true, 0⟩

/-- A task that waits in the stream. -/
def waitingSt (id next : Nat) : St :=
  { stream := [(id, oldMsg)], oldKnown := true, oldStreamId := some id, next := next }

/-- A task that is parked for a later time. -/
def parkedSt (next : Nat) : St :=
  { parked := some oldMsg, inQueue := true, oldKnown := true, next := next }

/-- How an earlier version leaves a task: waiting in the stream, or parked for a later time. -/
inductive Left : St → Prop
  | waiting (id next : Nat) (h : id < next) :
    Left (waitingSt id next)
  | parked (next : Nat) :
    Left (parkedSt next)

/-- Nobody replaces, cancels or clears it. -/
def Untouched (ops : List Op) : Prop :=
  ∀ o ∈ ops, (∀ b, o ≠ .replace b) ∧ o ≠ .cancel ∧ ∀ r, o ≠ .clear r

/-- The old task has been started. -/
def Ran (s : St) : Prop := oldMsg ∈ s.started

instance (s : St) : Decidable (Ran s) := inferInstanceAs (Decidable (oldMsg ∈ s.started))

/-- The old task is not yet in the hands of a worker. -/
def NotHanded (ops : List Op) : Prop := ∀ i, Op.deliver i ∉ ops

/-- **C121.**  As long as a task of an earlier version was not started, replaced, cancelled or
cleared, `add` under its key is refused and a worker can still start it.  After `replace`, and after
`cancel` if no worker has it yet, it is not started.  After `clear`, and when it was started and has
ended, its key can be used again. -/
def C121_statement : Prop :=
  ∀ s, Left s → ∀ ops, Untouched ops → ¬ Ran (run s ops) →
    (∀ b, add b (run s ops) = (run s ops, false)) ∧
    (∃ more, Untouched more ∧ Ran (run (run s ops) more)) ∧
    (∀ b more, ¬ Ran (run (replace b (run s ops)) more)) ∧
    (NotHanded ops → ∀ more, ¬ Ran (run (cancel (run s ops)) more)) ∧
    (NotHanded ops → ∀ r b, (add b (clear r (run s ops))).2 = true) ∧
    (∀ i r b, Ran (run (run s ops) [.claim i]) →
      (add b (run (run s ops) [.claim i, .finish i r])).2 = true)

/-! What holds until the task is started or touched. -/

/-- Where the task is. -/
inductive Where (s : St) : Prop
  | waiting (id : Nat) (h : s.stream = [(id, oldMsg)]) (hp : s.parked = none)
    (hq : s.inQueue = false) (hi : s.oldStreamId = some id)
  | moved (id : Nat) (h : s.stream = [(id, oldMsg)]) (hp : s.parked = none)
    (hq : s.inQueue = false) (hi : s.oldStreamId = none)
  | parked (h : s.stream = []) (hp : s.parked = some oldMsg) (hq : s.inQueue = true)
    (hi : s.oldStreamId = none)

/-- Nothing but the old task was ever accepted. -/
structure Inv (s : St) : Prop where
  place : Where s
  held : ∀ e ∈ s.held, e.2 = oldMsg
  running : s.running = []
  known : s.known = false
  sid : s.streamId = none
  oldKnown : s.oldKnown = true
  started : s.started = []

theorem inv_left {s : St} (h : Left s) : Inv s := by
  cases h with
  | waiting id next h => exact ⟨.waiting id rfl rfl rfl rfl, by simp [waitingSt], rfl, rfl, rfl, rfl, rfl⟩
  | parked next => exact ⟨.parked rfl rfl rfl rfl, by simp [parkedSt], rfl, rfl, rfl, rfl, rfl⟩

theorem add_refused {s : St} (h : s.oldKnown = true) (b : Bool) : add b s = (s, false) := by
  unfold add
  rw [h]
  split
  · rfl
  · split <;> rfl

/-- What was started stays started. -/
theorem ran_step {s : St} (o : Op) (h : Ran s) : Ran (step s o) := by
  unfold Ran at *
  cases o with
  | add b => simp only [step, add, put]; (repeat' split) <;> (simpa using h)
  | replace b => simp only [step, replace, put]; split <;> simpa using h
  | cancel => simpa [step, cancel] using h
  | clear r => simp only [step, clear, expire]; (repeat' split) <;> (simpa using h)
  | tick => simp only [step, tick]; (repeat' split) <;> (simpa using h)
  | deliver i => simp only [step, deliver]; split <;> simpa using h
  | claim i =>
    simp only [step, claim]
    split
    · exact h
    · split
      · simpa using h
      · simp [h]
  | finish i r => simp only [step, finish]; (repeat' split) <;> (simpa using h)
  | expire => simpa [step, expire] using h

theorem ran_run {s : St} (ops : List Op) (h : Ran s) : Ran (run s ops) := by
  induction ops generalizing s with
  | nil => exact h
  | cons o ops ih => exact ih (ran_step o h)

theorem inv_step {s : St} (h : Inv s) (o : Op)
    (ho : (∀ b, o ≠ .replace b) ∧ o ≠ .cancel ∧ ∀ r, o ≠ .clear r) :
    Inv (step s o) ∨ Ran (step s o) := by
  cases o with
  | add b => left; simp only [step, add_refused h.oldKnown b]; exact h
  | replace b => exact absurd rfl (ho.1 b)
  | cancel => exact absurd rfl ho.2.1
  | clear r => exact absurd rfl (ho.2.2 r)
  | tick =>
    left
    simp only [step, tick]
    rcases h.place with ⟨id, a, b, c, d⟩ | ⟨id, a, b, c, d⟩ | ⟨a, b, c, d⟩
    · rw [c]; exact h
    · rw [c]; exact h
    · rw [c, b]
      exact ⟨.moved s.next (by simp [a]) rfl rfl d, h.held, h.running, h.known, h.sid,
        h.oldKnown, h.started⟩
  | deliver i =>
    left
    simp only [step, deliver]
    split
    · rename_i e he
      have hm := List.mem_of_find?_eq_some he
      refine ⟨?_, ?_, h.running, h.known, h.sid, h.oldKnown, h.started⟩
      · rcases h.place with ⟨id, a, b, c, d⟩ | ⟨id, a, b, c, d⟩ | ⟨a, b, c, d⟩
        · exact .waiting id a b c d
        · exact .moved id a b c d
        · exact .parked a b c d
      · intro x hx
        rcases List.mem_append.mp hx with hx | hx
        · exact h.held x hx
        · simp only [List.mem_singleton] at hx
          subst hx
          rcases h.place with ⟨id, a, b, c, d⟩ | ⟨id, a, b, c, d⟩ | ⟨a, b, c, d⟩ <;>
            rw [a] at hm <;> simp at hm <;> rw [hm]
    · exact h
  | claim i =>
    simp only [step, claim]
    split
    · left; exact h
    · right
      rename_i e he
      have hm := h.held e (List.mem_of_find?_eq_some he)
      simp [hm, oldMsg, Ran, superseded]
  | finish i r =>
    left
    simp only [step, finish, h.running, List.find?_nil]
    exact h
  | expire =>
    left
    simp only [step, expire]
    refine ⟨?_, h.held, h.running, rfl, rfl, h.oldKnown, h.started⟩
    rcases h.place with ⟨id, a, b, c, d⟩ | ⟨id, a, b, c, d⟩ | ⟨a, b, c, d⟩
    · exact .waiting id a b c d
    · exact .moved id a b c d
    · exact .parked a b c d

theorem inv_run {s : St} (h : Inv s) (ops : List Op) (hu : Untouched ops)
    (hr : ¬ Ran (run s ops)) : Inv (run s ops) := by
  induction ops generalizing s with
  | nil => exact h
  | cons o ops ih =>
    rcases inv_step h o (hu o (by simp)) with a | a
    · exact ih a (fun x hx => hu x (by simp [hx])) hr
    · exact absurd (ran_run ops a) hr

/-- C121, the key: `add` is refused and changes nothing, until the old task is started. -/
theorem C121_add {s : St} (h : Left s) (ops : List Op) (hu : Untouched ops)
    (hr : ¬ Ran (run s ops)) (b : Bool) : add b (run s ops) = (run s ops, false) :=
  add_refused (inv_run (inv_left h) ops hu hr).oldKnown b

/-- C121, not lost: whatever happened, a worker can still start the old task. -/
theorem C121_startable {s : St} (h : Left s) (ops : List Op) (hu : Untouched ops)
    (hr : ¬ Ran (run s ops)) : ∃ more, Untouched more ∧ Ran (run (run s ops) more) := by
  have inv := inv_run (inv_left h) ops hu hr
  generalize run s ops = t at inv
  have start : ∀ (u : St) (id : Nat), u.stream = [(id, oldMsg)] →
      (∀ e ∈ u.held, e.2 = oldMsg) → Ran (run u [.deliver id, .claim id]) := by
    intro u id hs hh
    have d : deliver id u = { u with held := u.held ++ [(id, oldMsg)] } := by
      simp [deliver, hs]
    simp only [run, List.foldl_cons, List.foldl_nil, step, d]
    have hf : ∃ e, (u.held ++ [(id, oldMsg)]).find? (fun e => e.1 = id) = some e := by
      cases hx : (u.held ++ [(id, oldMsg)]).find? (fun e => e.1 = id) with
      | some e => exact ⟨e, rfl⟩
      | none =>
        have := List.find?_eq_none.mp hx (id, oldMsg) (by simp)
        simp at this
    obtain ⟨e, he⟩ := hf
    have hm : e.2 = oldMsg := by
      rcases List.mem_append.mp (List.mem_of_find?_eq_some he) with a | a
      · exact hh e a
      · simp only [List.mem_singleton] at a; rw [a]
    unfold claim
    simp only [he]
    have hsup : ∀ c, superseded c e.2 = false := by intro c; rw [hm]; rfl
    simp only [Ran, hsup, Bool.false_eq_true, if_false]
    rw [hm]
    simp
  rcases inv.place with ⟨id, a, b, c, d⟩ | ⟨id, a, b, c, d⟩ | ⟨a, b, c, d⟩
  · exact ⟨_, by simp [Untouched], start t id a inv.held⟩
  · exact ⟨_, by simp [Untouched], start t id a inv.held⟩
  · refine ⟨[.tick, .deliver t.next, .claim t.next], by simp [Untouched], ?_⟩
    have e : run t [.tick, .deliver t.next, .claim t.next] =
        run (tick t) [.deliver t.next, .claim t.next] := rfl
    rw [e]
    apply start
    · simp [tick, c, b, a]
    · simp only [tick, c, b, if_true]; exact inv.held

/-- Nothing of what an earlier version knew is left once a task was started. -/
theorem left_step {s : St} (o : Op)
    (h : s.started ≠ [] → s.oldKnown = false ∧ s.oldStreamId = none) :
    (step s o).started ≠ [] → (step s o).oldKnown = false ∧ (step s o).oldStreamId = none := by
  cases o with
  | add b => simp only [step, add, put]; (repeat' split) <;> exact h
  | replace b => intro _; simp only [step, replace, put]; split <;> exact ⟨rfl, rfl⟩
  | cancel => intro _; exact ⟨rfl, rfl⟩
  | clear r =>
    simp only [step, clear, expire]
    split <;> split <;> first | exact h | exact fun _ => ⟨rfl, rfl⟩
  | tick => simp only [step, tick]; (repeat' split) <;> exact h
  | deliver i => simp only [step, deliver]; split <;> exact h
  | claim i =>
    simp only [step, claim]
    split
    · exact h
    · split
      · exact h
      · exact fun _ => ⟨rfl, rfl⟩
  | finish i r => simp only [step, finish]; (repeat' split) <;> exact h
  | expire => exact h

/-- C121, afterwards: once the old task was started, nothing of what the earlier version knew of it
is left, in any history. -/
theorem C121_left {s : St} (h : Left s) (ops : List Op) (hr : Ran (run s ops)) :
    (run s ops).oldKnown = false ∧ (run s ops).oldStreamId = none := by
  have key : ∀ (ops : List Op) (s : St),
      (s.started ≠ [] → s.oldKnown = false ∧ s.oldStreamId = none) →
      (run s ops).started ≠ [] → (run s ops).oldKnown = false ∧ (run s ops).oldStreamId = none := by
    intro ops
    induction ops with
    | nil => intro s h; exact h
    | cons o ops ih => intro s h; exact ih _ (left_step o h)
  refine key ops s ?_ (List.ne_nil_of_mem hr)
  intro hs
  cases h <;> exact absurd rfl hs

/-- Nothing waits for a later time under the key. -/
def Unlisted (s : St) : Prop := s.inQueue = false ∧ s.parked = none

theorem unlisted_run (ops : List Op) (ha : ∀ o ∈ ops, (∀ b, o ≠ .add b) ∧ ∀ b, o ≠ .replace b) (s : St) (h : Unlisted s) :
    Unlisted (run s ops) := by
  induction ops generalizing s with
  | nil => exact h
  | cons o ops ih =>
    refine ih (fun x hx => ha x (List.mem_cons_of_mem _ hx)) _ ?_
    have ho := ha o (List.mem_cons_self ..)
    obtain ⟨h1, h2⟩ := h
    cases o with
    | add b => exact absurd rfl (ho.1 b)
    | replace b => exact absurd rfl (ho.2 b)
    | cancel => exact ⟨rfl, rfl⟩
    | clear r => simp only [step, clear, h1, Unlisted, expire]; (repeat' split) <;> simp_all
    | tick => simp only [step, tick, h1, Unlisted]; simp [h1, h2]
    | deliver i => simp only [step, deliver, Unlisted]; split <;> exact ⟨h1, h2⟩
    | claim i => simp only [step, claim, Unlisted]; (repeat' split) <;> exact ⟨h1, h2⟩
    | finish i r => simp only [step, finish, Unlisted]; (repeat' split) <;> exact ⟨h1, h2⟩
    | expire => exact ⟨h1, h2⟩

/-- C121, the lists: once it was cancelled, in whatever state it was, the task is not among those that
wait for a later time, and does not come back there before somebody schedules one under its key. -/
theorem C121_unlisted (s : St) (ops : List Op) (ha : ∀ o ∈ ops, (∀ b, o ≠ .add b) ∧ ∀ b, o ≠ .replace b) :
    (run (cancel s) ops).inQueue = false ∧ (run (cancel s) ops).parked = none :=
  unlisted_run ops ha _ ⟨rfl, rfl⟩

/-- The hypotheses can be met, with a task that was waiting. -/
example : (parkedSt 3).inQueue = true ∧ (run (cancel (parkedSt 3)) [.tick, .clear false]).inQueue = false :=
  ⟨rfl, (C121_unlisted _ [.tick, .clear false] (by simp)).1⟩

/-- C121, the key afterwards: when the old task was started and has ended, `add` is accepted. -/
theorem C121_ended {s : St} (h : Left s) (ops : List Op) (hu : Untouched ops)
    (hr : ¬ Ran (run s ops)) (i : Nat) (r b : Bool)
    (hc : Ran (run (run s ops) [.claim i])) :
    (add b (run (run s ops) [.claim i, .finish i r])).2 = true := by
  have inv := inv_run (inv_left h) ops hu hr
  generalize run s ops = t at inv hr hc ⊢
  have hf : ∃ e, t.held.find? (fun e => e.1 = i) = some e := by
    cases hx : t.held.find? (fun e => e.1 = i) with
    | some e => exact ⟨e, rfl⟩
    | none => simp only [run, List.foldl_cons, List.foldl_nil, step, claim, hx] at hc; exact absurd hc hr
  obtain ⟨e, he⟩ := hf
  have hm := inv.held e (List.mem_of_find?_eq_some he)
  have hi : e.1 = i := by simpa using List.find?_some he
  have hsup : ∀ c, superseded c e.2 = false := by intro c; rw [hm]; rfl
  have c : claim i t = { t with
      held := t.held.erase e, state := some .running, known := false, streamId := none,
      oldKnown := false, oldStreamId := none, running := [e], started := t.started ++ [e.2] } := by
    unfold claim
    simp only [he, hsup, Bool.false_eq_true, if_false, inv.running, List.nil_append]
  simp only [run, List.foldl_cons, List.foldl_nil, step, c]
  cases r <;> simp [finish, hi, hsup, add]

/-! After the task was replaced or cancelled. -/

/-- The old message is nowhere. -/
structure Gone (s : St) : Prop where
  stream : ∀ e ∈ s.stream, e.2.old = false
  held : ∀ e ∈ s.held, e.2.old = false
  parked : ∀ m, s.parked = some m → m.old = false
  started : ∀ m ∈ s.started, m.old = false

theorem xdel_subset {i : Option Nat} {l : List (Nat × Msg)} {e : Nat × Msg}
    (h : e ∈ xdel i l) : e ∈ l := by
  cases i with
  | none => exact h
  | some i => exact (List.mem_filter.mp h).1

theorem gone_put {s : St} (h : Gone s) (b : Bool) : Gone (put b s) := by
  unfold put
  cases b with
  | true =>
    refine ⟨?_, h.held, h.parked, h.started⟩
    intro e he
    rcases List.mem_append.mp he with a | a
    · exact h.stream e a
    · simp only [List.mem_singleton] at a; rw [a]
  | false =>
    refine ⟨h.stream, h.held, ?_, h.started⟩
    intro m hm
    simp only [Bool.false_eq_true, if_false, Option.some.injEq] at hm
    rw [← hm]

theorem gone_step {s : St} (h : Gone s) (o : Op) : Gone (step s o) := by
  cases o with
  | add b =>
    simp only [step, add]
    split
    · exact h
    · split
      · exact h
      · split
        · exact h
        · exact gone_put h b
  | replace b =>
    simp only [step, replace]
    apply gone_put
    exact ⟨fun e he => h.stream e (xdel_subset he), h.held, (by simp), h.started⟩
  | cancel =>
    exact ⟨fun e he => h.stream e (xdel_subset he), h.held, (by simp [step, cancel]), h.started⟩
  | clear r =>
    simp only [step, clear, expire]
    split <;> split <;>
      exact ⟨(by simp), h.held, (by first | exact h.parked | simp), h.started⟩
  | tick =>
    simp only [step, tick]
    split
    · split
      · rename_i m hm
        refine ⟨?_, h.held, (by simp), h.started⟩
        intro e he
        rcases List.mem_append.mp he with a | a
        · exact h.stream e a
        · simp only [List.mem_singleton] at a; rw [a]; exact h.parked m hm
      · exact h
    · exact h
  | deliver i =>
    simp only [step, deliver]
    split
    · rename_i e he
      refine ⟨h.stream, ?_, h.parked, h.started⟩
      intro x hx
      rcases List.mem_append.mp hx with a | a
      · exact h.held x a
      · simp only [List.mem_singleton] at a
        rw [a]; exact h.stream e (List.mem_of_find?_eq_some he)
    · exact h
  | claim i =>
    simp only [step, claim]
    split
    · exact h
    · rename_i e he
      have hm := List.mem_of_find?_eq_some he
      have hh : ∀ x ∈ s.held.erase e, x.2.old = false :=
        fun x hx => h.held x (List.mem_of_mem_erase hx)
      split
      · exact ⟨fun x hx => h.stream x (xdel_subset (i := some i) hx), hh, h.parked, h.started⟩
      · refine ⟨h.stream, hh, h.parked, ?_⟩
        intro m hx
        rcases List.mem_append.mp hx with a | a
        · exact h.started m a
        · simp only [List.mem_singleton] at a; rw [a]; exact h.held e hm
  | finish i r =>
    simp only [step, finish]
    split
    · exact h
    · split
      · exact ⟨fun x hx => h.stream x (xdel_subset (i := some i) hx), h.held, h.parked, h.started⟩
      · split
        · exact ⟨fun x hx => h.stream x (xdel_subset (i := some i) hx), h.held, h.parked, h.started⟩
        · exact ⟨fun x hx => h.stream x (xdel_subset (i := some i) hx), h.held, h.parked, h.started⟩
  | expire => exact ⟨h.stream, h.held, h.parked, h.started⟩

theorem gone_run {s : St} (h : Gone s) (ops : List Op) : ¬ Ran (run s ops) := by
  induction ops generalizing s with
  | nil => intro hr; have := h.started _ hr; simp [oldMsg] at this
  | cons o ops ih => exact ih (gone_step h o)

theorem held_run {s : St} (ops : List Op) (hs : s.held = []) (hn : NotHanded ops) :
    (run s ops).held = [] := by
  induction ops generalizing s with
  | nil => exact hs
  | cons o ops ih =>
    refine ih ?_ (fun i hi => hn i (by simp [hi]))
    cases o with
    | add b => simp only [step, add, put]; (repeat' split) <;> (exact hs)
    | replace b => simp only [step, replace, put]; split <;> exact hs
    | cancel => exact hs
    | clear r => simp only [step, clear, expire]; split <;> split <;> exact hs
    | tick => simp only [step, tick]; (repeat' split) <;> (exact hs)
    | deliver i => exact absurd (by simp) (hn i)
    | claim i => simp [step, claim, hs]
    | finish i r => simp only [step, finish]; (repeat' split) <;> (exact hs)
    | expire => exact hs

/-- Nothing was moved to the stream by the scheduler of this version. -/
def NotMoved (ops : List Op) : Prop := Op.tick ∉ ops

theorem moved_run {s : St} (ops : List Op) (hu : Untouched ops) (hn : NotMoved ops)
    (hr : ¬ Ran (run s ops)) (h : Inv s)
    (hp : ∀ id, s.stream = [(id, oldMsg)] → s.oldStreamId = some id) :
    ∀ id, (run s ops).stream = [(id, oldMsg)] → (run s ops).oldStreamId = some id := by
  induction ops generalizing s with
  | nil => exact hp
  | cons o ops ih =>
    have ho := hu o (by simp)
    rcases inv_step h o ho with a | a
    · refine ih (fun x hx => hu x (by simp [hx])) (fun hx => hn (by simp [hx])) hr a ?_
      cases o with
      | add b => simp only [step, add_refused h.oldKnown b]; exact hp
      | replace b => exact absurd rfl (ho.1 b)
      | cancel => exact absurd rfl ho.2.1
      | clear r => exact absurd rfl (ho.2.2 r)
      | tick => exact absurd (by simp) hn
      | deliver i => simp only [step, deliver]; split <;> exact hp
      | claim i =>
        have e := a.started
        have k := a.oldKnown
        simp only [step, claim] at e k ⊢
        split at k
        · exact hp
        · rename_i x hx
          have hm := h.held x (List.mem_of_find?_eq_some hx)
          simp [hm, oldMsg, superseded] at k
      | finish i r => simp only [step, finish, h.running, List.find?_nil]; exact hp
      | expire => exact hp
    · exact absurd (ran_run ops a) hr

theorem left_id {s : St} (h : Left s) : ∀ id, s.stream = [(id, oldMsg)] → s.oldStreamId = some id := by
  cases h with
  | waiting id next h => intro i hi; simp [waitingSt] at hi; simp [waitingSt, hi]
  | parked next => intro i hi; simp [parkedSt] at hi

/-- The old task is gone once its message is deleted. -/
theorem gone_of_deleted {s : St} (h : Inv s)
    (hp : ∀ id, s.stream = [(id, oldMsg)] → s.oldStreamId = some id) :
    xdel (existing s) s.stream = [] := by
  unfold existing
  rw [h.sid]
  rcases h.place with ⟨id, a, b, c, d⟩ | ⟨id, a, b, c, d⟩ | ⟨a, b, c, d⟩
  · simp [d, a, xdel]
  · have := hp id a; rw [d] at this; cases this
  · simp [d, a, xdel]

/-- C121, replacing: not started afterwards, if no worker was given it and this version's scheduler
did not move it to the stream. -/
theorem C121_replace_partial {s : St} (h : Left s) (ops : List Op) (hu : Untouched ops)
    (hr : ¬ Ran (run s ops)) (hn : NotHanded ops) (hm : NotMoved ops) (b : Bool)
    (more : List Op) : ¬ Ran (run (replace b (run s ops)) more) := by
  have inv := inv_run (inv_left h) ops hu hr
  have hh := held_run ops (s := s) (by cases h <;> rfl) hn
  have hp := moved_run ops hu hm hr (inv_left h) (left_id h)
  apply gone_run
  unfold replace
  apply gone_put
  have e := gone_of_deleted inv hp
  refine ⟨?_, (by simp [hh]), (by simp), (by simp [inv.started])⟩
  show ∀ x ∈ xdel _ _, _
  rw [e]; simp

/-- C121, cancelling: not started afterwards, if no worker was given it and this version's scheduler
did not move it to the stream. -/
theorem C121_cancel_partial {s : St} (h : Left s) (ops : List Op) (hu : Untouched ops)
    (hr : ¬ Ran (run s ops)) (hn : NotHanded ops) (hm : NotMoved ops) (more : List Op) :
    ¬ Ran (run (cancel (run s ops)) more) := by
  have inv := inv_run (inv_left h) ops hu hr
  have hh := held_run ops (s := s) (by cases h <;> rfl) hn
  have hp := moved_run ops hu hm hr (inv_left h) (left_id h)
  apply gone_run
  unfold cancel
  have e := gone_of_deleted inv hp
  refine ⟨?_, (by simp [hh]), (by simp), (by simp [inv.started])⟩
  show ∀ x ∈ xdel _ _, _
  rw [e]; simp

/-- C121, the key afterwards: it can be used again after `cancel`, and after `clear` if the task was
parked for a later time. -/
theorem C121_reuse_partial {s : St} (h : Left s) (ops : List Op) (hu : Untouched ops)
    (hr : ¬ Ran (run s ops)) (b r : Bool) :
    (add b (cancel (run s ops))).2 = true ∧
    ((run s ops).inQueue = true → (add b (clear r (run s ops))).2 = true) := by
  have inv := inv_run (inv_left h) ops hu hr
  have hst : (run s ops).state ≠ some .running := by
    have key : ∀ (ops : List Op) (s : St), Inv s → s.state ≠ some .running → Untouched ops →
        ¬ Ran (run s ops) → (run s ops).state ≠ some .running := by
      intro ops
      induction ops with
      | nil => intro s _ hs _ _; exact hs
      | cons o ops ih =>
        intro s h hs hu hr
        have ho := hu o (by simp)
        rcases inv_step h o ho with a | a
        · refine ih _ a ?_ (fun x hx => hu x (by simp [hx])) hr
          cases o with
          | add b => simp only [step, add_refused h.oldKnown b]; exact hs
          | replace b => exact absurd rfl (ho.1 b)
          | cancel => exact absurd rfl ho.2.1
          | clear r => exact absurd rfl (ho.2.2 r)
          | tick => simp only [step, tick]; (repeat' split) <;> (first | exact hs | simp)
          | deliver i => simp only [step, deliver]; split <;> exact hs
          | claim i =>
            have k := a.oldKnown
            simp only [step, claim] at k ⊢
            split at k
            · exact hs
            · rename_i x hx
              have hm := h.held x (List.mem_of_find?_eq_some hx)
              simp [hm, oldMsg, superseded] at k
          | finish i r => simp only [step, finish, h.running, List.find?_nil]; exact hs
          | expire => simp [step, expire]
        · exact absurd (ran_run ops a) hr
    exact key ops s (inv_left h) (by cases h <;> simp [waitingSt, parkedSt]) hu hr
  constructor
  · have hs : (cancel (run s ops)).state ≠ some .running := by
      simp only [cancel]
      split
      · exact hst
      · simp
    simp only [add]
    rw [if_neg (show ¬ (cancel (run s ops)).known = true by simp [cancel]), if_neg hs,
      if_neg (show ¬ (cancel (run s ops)).oldKnown = true by simp [cancel])]
  · intro hq
    cases r <;> simp [add, clear, expire, hq, inv.known, hst]

/-- C121 after `clear` fails for a task that waited in the stream, and for good: its key was deleted
from the stream, and what says that it is known stays; whatever happens short of a `replace` or
`cancel`, nothing runs and `add` is refused. -/
theorem C121_violated_clear (id next : Nat) (r : Bool) (ops : List Op)
    (ho : ∀ o ∈ ops, (∀ b, o ≠ .replace b) ∧ o ≠ .cancel) (b : Bool) :
    let s := run (waitingSt id next)
      (.clear r :: ops)
    s.started = [] ∧ s.stream = [] ∧ (add b s).2 = false := by
  have key : ∀ (ops : List Op) (s : St),
      (∀ o ∈ ops, (∀ b, o ≠ .replace b) ∧ o ≠ .cancel) →
      s.stream = [] → s.held = [] → s.running = [] → s.parked = none → s.inQueue = false →
      s.oldKnown = true → s.started = [] →
      (run s ops).started = [] ∧ (run s ops).stream = [] ∧ (run s ops).oldKnown = true := by
    intro ops
    induction ops with
    | nil => intro s _ h1 _ _ _ _ h6 h7; exact ⟨h7, h1, h6⟩
    | cons o ops ih =>
      intro s ho h1 h2 h3 h4 h5 h6 h7
      have h := ho o (by simp)
      have rest : ∀ x ∈ ops, (∀ b, x ≠ .replace b) ∧ x ≠ .cancel := fun x hx => ho x (by simp [hx])
      cases o with
      | add b =>
        refine ih _ rest ?_ ?_ ?_ ?_ ?_ ?_ ?_ <;> simp only [step, add_refused h6 b] <;> assumption
      | replace b => exact absurd rfl (h.1 b)
      | cancel => exact absurd rfl h.2
      | clear r =>
        refine ih _ rest ?_ ?_ ?_ ?_ ?_ ?_ ?_ <;> simp [step, clear, h1, h2, h3, h4, h5, h6, h7]
      | tick =>
        refine ih _ rest ?_ ?_ ?_ ?_ ?_ ?_ ?_ <;> simp [step, tick, h1, h2, h3, h4, h5, h6, h7]
      | deliver i =>
        refine ih _ rest ?_ ?_ ?_ ?_ ?_ ?_ ?_ <;> simp [step, deliver, h1, h2, h3, h4, h5, h6, h7]
      | claim i =>
        refine ih _ rest ?_ ?_ ?_ ?_ ?_ ?_ ?_ <;> simp [step, claim, h1, h2, h3, h4, h5, h6, h7]
      | finish i r =>
        refine ih _ rest ?_ ?_ ?_ ?_ ?_ ?_ ?_ <;> simp [step, finish, h1, h2, h3, h4, h5, h6, h7]
      | expire =>
        refine ih _ rest ?_ ?_ ?_ ?_ ?_ ?_ ?_ <;> simp [step, expire, h1, h2, h3, h4, h5, h6, h7]
  have := key ops (clear r (waitingSt id next)) ho (by cases r <;> rfl) (by cases r <;> rfl) (by cases r <;> rfl)
    (by cases r <;> rfl) (by cases r <;> rfl) (by cases r <;> rfl) (by cases r <;> rfl)
  refine ⟨this.1, this.2.1, ?_⟩
  have e := add_refused this.2.2 b
  exact congrArg Prod.snd e

/-- C121 fails for `replace`: once this version's scheduler has moved the task to the stream, where
the entry is is recorded nowhere, and a message without generation is not superseded by anything;
the old task and the new one are both started. -/
theorem C121_violated_replace (next : Nat) :
    ∃ more, (run (replace true (run (parkedSt next) [.tick])) more).started = [oldMsg, ⟨false, 1⟩] :=
  ⟨[.deliver next, .deliver (next + 1), .claim next, .claim (next + 1)], by
    simp [existing, parkedSt, run, step, tick, replace, put, xdel, deliver, claim, oldMsg, superseded]⟩

/-- C121 fails for `cancel` in the same way. -/
theorem C121_violated_cancel (next : Nat) :
    ∃ more, Ran (run (cancel (run (parkedSt next) [.tick])) more) :=
  ⟨[.deliver next, .claim next], by
    simp [existing, parkedSt, run, step, tick, cancel, xdel, deliver, claim, oldMsg, Ran, superseded]⟩

/-- C121 does not hold. -/
theorem C121_violated : ¬ C121_statement := by
  intro h
  have := (h _ (.parked 0) [.tick] (by simp [Untouched]) (by simp [parkedSt, run, step, tick, Ran])).2.2.1
    true [.deliver 0, .claim 0]
  exact this (by decide)

/-! A task in the stream under id 5; a task parked for later. -/

example : Left (waitingSt 5 6) :=
  .waiting 5 6 (by decide)

example : Untouched [.add true, .deliver 5, .expire, .add false] ∧
    ¬ Ran (run (waitingSt 5 6)
      [.add true, .deliver 5, .expire, .add false]) := by
  constructor
  · simp [Untouched]
  · decide

example : Ran (run (waitingSt 5 6)
    [.add true, .deliver 5, .claim 5]) := by decide

example : (run (parkedSt 3)
    [.replace true, .tick, .deliver 3, .claim 3]).started = [⟨false, 1⟩] := by decide

example : Untouched [.expire, .add true] ∧ NotHanded [.expire, .add true] ∧
    NotMoved [.expire, .add true] := by
  simp [Untouched, NotHanded, NotMoved]

end Docket.Legacy
