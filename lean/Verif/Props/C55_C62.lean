import Verif.Props.C43_C44
/-
C55 Cancellation signals reach the running task with that key.
C62 A cancellation affects the task it names and nothing else.
-/
namespace Docket.Loop

/-- What `_tasks_by_key` says: the registered task of a key, if it is still active, has that
key. -/
structure RegInv (s : St) : Prop where
  key : ∀ k u, s.byKey k = some u → ∀ t ∈ s.active, t.uid = u → t.key = k
  lt : ∀ k u, s.byKey k = some u → u < s.next

theorem setPhase_mem {s : St} {u : Nat} {p : Phase} {t : Task} (h : t ∈ (s.setPhase u p).active) :
    ∃ t' ∈ s.active, t'.uid = t.uid ∧ t'.key = t.key ∧ (t' = t ∨ (t.uid = u ∧ t.phase = p)) := by
  simp only [St.setPhase, List.mem_map] at h
  obtain ⟨t', h1, h2⟩ := h
  by_cases hu : t'.uid = u
  · rw [if_pos hu] at h2
    subst h2
    exact ⟨t', h1, rfl, rfl, Or.inr ⟨hu, rfl⟩⟩
  · rw [if_neg hu] at h2
    subst h2
    exact ⟨t', h1, rfl, rfl, Or.inl rfl⟩

/-- Operations of tasks and signals change phases only. -/
theorem step_phases (cfg : Cfg) (s : St) (op : Op) (h : op.isLoop = false) :
    ∀ t ∈ (step cfg s op).active, ∃ t' ∈ s.active, t'.uid = t.uid ∧ t'.key = t.key := by
  have hself : ∀ t ∈ s.active, ∃ t' ∈ s.active, t'.uid = t.uid ∧ t'.key = t.key := fun t ht => ⟨t, ht, rfl, rfl⟩
  have hset : ∀ u p, ∀ t ∈ (s.setPhase u p).active, ∃ t' ∈ s.active, t'.uid = t.uid ∧ t'.key = t.key := by
    intro u p t ht
    obtain ⟨t', h1, h2, h3, _⟩ := setPhase_mem ht
    exact ⟨t', h1, h2, h3⟩
  cases op with
  | loop r => cases h
  | leave => cases h
  | rerun => cases h
  | check u b =>
    simp only [step]
    split
    · split <;> exact hset _ _
    · exact hself
  | struck u =>
    simp only [step]
    split
    · exact hset _ _
    · exact hself
  | claimed u ok =>
    simp only [step]
    split
    · split
      · intro t ht
        exact hset u .running t ht
      · exact hset _ _
    · exact hself
  | ends u e =>
    simp only [step]
    split
    · split
      · split
        · exact hself
        · exact hset _ _
      · exact hset _ _
    · exact hself
  | recorded u ok =>
    simp only [step]
    split
    · exact hset _ _
    · exact hself
  | signal k b =>
    simp only [step]
    split
    · exact hself
    · split
      · exact hself
      · split
        · exact hself
        · simp only [interrupt]
          split
          · exact hself
          · split
            · exact hself
            · intro t ht; exact hset _ _ t ht
          · intro t ht; exact hset _ _ t ht

theorem RegInv.step {cfg : Cfg} {s : St} (h : RegInv s) (hu : UidInv s) (op : Op) : RegInv (step cfg s op) := by
  by_cases hl : op.isLoop = false
  · have hs := step_same cfg s op hl
    refine ⟨?_, by rw [hs.byKey, hs.next]; exact h.lt⟩
    intro k u hk t ht hue
    rw [hs.byKey] at hk
    obtain ⟨t', h1, h2, h3⟩ := step_phases cfg s op hl t ht
    rw [← h3]
    exact h.key k u hk t' h1 (h2.trans hue)
  · cases op with
    | loop r =>
      simp only [Loop.step, loopStep]
      split
      · exact ⟨h.key, h.lt⟩
      · unfold completeOne
        split
        · exact ⟨h.key, h.lt⟩
        · rename_i u0 _ _ _ t0 _
          refine ⟨?_, ?_⟩
          · intro k u hk t ht hue
            simp only [updKey] at hk
            split at hk
            · cases hk
            · exact h.key k u hk t (List.mem_filter.1 ht).1 hue
          · intro k u hk
            simp only [updKey] at hk
            split at hk
            · cases hk
            · exact h.lt k u hk
      · split
        · exact ⟨h.key, h.lt⟩
        · exact ⟨h.key, h.lt⟩
      · rename_i m _ _
        cases m with
        | none => exact ⟨h.key, h.lt⟩
        | some k0 =>
          refine ⟨?_, ?_⟩
          · intro k u hk t ht hue
            simp only [startTask, List.mem_append, List.mem_singleton] at ht
            simp only [startTask, updKey] at hk
            rcases ht with ht | ht
            · split at hk
              · cases hk
                have := hu.lt t.uid (List.mem_map_of_mem ht)
                omega
              · exact h.key k u hk t ht hue
            · subst ht
              split at hk
              · rename_i hkk; exact hkk.symm
              · have := h.lt k u hk
                simp only at hue
                omega
          · intro k u hk
            simp only [startTask, updKey] at hk ⊢
            split at hk
            · cases hk; omega
            · have := h.lt k u hk; omega
      · split
        · exact ⟨h.key, h.lt⟩
        · exact ⟨h.key, h.lt⟩
      · exact ⟨h.key, h.lt⟩
      · exact h
    | leave => exact ⟨h.key, h.lt⟩
    | rerun =>
      simp only [Loop.step]
      split
      · exact ⟨by simp, h.lt⟩
      · exact h
    | _ => exact absurd rfl hl

theorem RegInv.run (cfg : Cfg) (ops : List Op) : RegInv (run cfg ops) :=
  run_induction cfg RegInv ⟨by simp, by simp⟩ (fun ops op h => h.step (UidInv.run cfg ops) op) ops

/-! ### C55 -/

/-- In this history no task of the key is started while another one is still active, not
even one that has ended but was not processed by the loop. -/
def NoOverlap (cfg : Cfg) (k : Key) (ops : List Op) : Prop :=
  ∀ pre reply r ms, pre ++ [Op.loop reply] <+: ops → (run cfg pre).pc = .starting r (some k :: ms) →
    ∀ t ∈ (run cfg pre).active, t.key ≠ k

/-- The task of a key is the registered one. -/
def Registered (k : Key) (s : St) : Prop := ∀ t ∈ s.active, t.key = k → s.byKey k = some t.uid

theorem Registered.step {cfg : Cfg} {k : Key} {s : St} (h : Registered k s) (op : Op)
    (hno : ∀ reply r ms, op = .loop reply → s.pc = .starting r (some k :: ms) → ∀ t ∈ s.active, t.key ≠ k) :
    Registered k (step cfg s op) := by
  by_cases hl : op.isLoop = false
  · have hs := step_same cfg s op hl
    intro t ht hk
    obtain ⟨t', h1, h2, h3⟩ := step_phases cfg s op hl t ht
    rw [hs.byKey, ← h2]
    exact h t' h1 (h3.trans hk)
  · cases op with
    | loop r =>
      simp only [Loop.step, loopStep]
      split
      · exact h
      · unfold completeOne
        split
        · exact h
        · rename_i u0 _ _ _ t0 hf
          obtain ⟨hm0, hu0⟩ := find_mem hf
          intro t ht hk
          obtain ⟨ht1, ht2⟩ := List.mem_filter.1 ht
          simp only [updKey]
          have := h t ht1 hk
          split
          · rename_i hkk
            exfalso
            have h2 := h t0 hm0 hkk.symm
            rw [h2] at this
            simp only [Option.some.injEq] at this
            simp only [ne_eq, decide_eq_true_eq] at ht2
            omega
          · exact this
      · split
        · exact h
        · exact h
      · rename_i m ms hp
        cases m with
        | none => exact h
        | some k0 =>
          intro t ht hk
          simp only [startTask, List.mem_append, List.mem_singleton] at ht
          simp only [startTask, updKey]
          rcases ht with ht | ht
          · split
            · rename_i hkk
              subst hkk
              exact absurd hk (hno _ _ _ rfl hp t ht)
            · exact h t ht hk
          · subst ht
            simp only at hk
            rw [if_pos hk.symm]
      · split
        · exact h
        · exact h
      · exact h
      · exact h
    | leave => exact h
    | rerun =>
      simp only [Loop.step]
      split
      · intro t ht; cases ht
      · exact h
    | _ => exact absurd rfl hl

theorem registered_run {cfg : Cfg} {k : Key} (ops : List Op) (h : NoOverlap cfg k ops) :
    Registered k (run cfg ops) := by
  have : ∀ m (ops : List Op), ops.length = m → NoOverlap cfg k ops → Registered k (run cfg ops) := by
    intro m
    induction m with
    | zero =>
      intro ops hl _
      rw [List.length_eq_zero_iff.1 hl]
      intro t ht; cases ht
    | succ m ih =>
      intro ops hl ho
      rcases List.eq_nil_or_concat ops with h' | ⟨ops', op, h'⟩
      · rw [h'] at hl; cases hl
      · rw [List.concat_eq_append] at h'
        subst h'
        rw [run_snoc]
        refine Registered.step (ih _ (by simpa using hl) ?_) op ?_
        · intro pre reply r ms hp
          exact ho pre reply r ms (hp.trans (List.prefix_append _ _))
        · rintro reply r ms rfl hp
          exact ho ops' reply r ms (List.prefix_refl _) hp
  exact this _ ops rfl h

theorem find_of_mem {s : St} (hu : UidInv s) {t : Task} (ht : t ∈ s.active) : s.find t.uid = some t := by
  have hd := hu.nodup
  simp only [St.find]
  generalize s.active = l at *
  induction l with
  | nil => cases ht
  | cons x l ih =>
    simp only [List.map_cons, List.nodup_cons] at hd
    rw [List.find?_cons]
    rcases List.mem_cons.1 ht with rfl | ht
    · simp
    · have : x.uid ≠ t.uid := fun hc => hd.1 (by rw [hc]; exact List.mem_map_of_mem ht)
      simp only [this, decide_false]
      exact ih ht hd.2

/-- The full statement of C55: while the loop runs, a signal interrupts every unfinished
task of the key. -/
def C55_signal_reaches : Prop :=
  ∀ (cfg : Cfg) (ops : List Op) (k : Key) (swallow : Bool) (t : Task),
    (run cfg ops).pc ≠ .stopped → t ∈ (run cfg ops).active → t.key = k → t.phase.isDone = false →
    t.uid ∈ (step cfg (run cfg ops) (.signal k swallow)).interrupted

/-- **C55, partial**: the signal interrupts the task of the key, in every history in which no
task of that key was started while an earlier one was still in the worker's books. -/
theorem C55_signal_reaches_partial (cfg : Cfg) (ops : List Op) (k : Key) (swallow : Bool) (t : Task)
    (hno : NoOverlap cfg k ops) (hpc : (run cfg ops).pc ≠ .stopped) (ht : t ∈ (run cfg ops).active)
    (hk : t.key = k) (hp : t.phase.isDone = false) :
    t.uid ∈ (step cfg (run cfg ops) (.signal k swallow)).interrupted := by
  have hr := registered_run ops hno t ht hk
  have hf := find_of_mem (UidInv.run cfg ops) ht
  simp only [step, if_neg hpc, hr, hf, interrupt]
  split
  · rename_i he; rw [he] at hp; cases hp
  · split <;> simp [St.setPhase]
  · simp [St.setPhase]

/-- The hypotheses are met. -/
def oneTask : List Op := [.loop [], .loop [some 5], .loop [], .check 0 false, .claimed 0 true]

theorem noOverlap_of_take {cfg : Cfg} {k : Key} {ops : List Op}
    (h : ∀ i < ops.length, (match (run cfg (ops.take i)).pc with
      | .starting _ (some k' :: _) => decide (k' = k) | _ => false) = true →
      ∀ t ∈ (run cfg (ops.take i)).active, t.key ≠ k) : NoOverlap cfg k ops := by
  intro pre reply r ms hp hpc
  obtain ⟨rest, hr⟩ := hp
  have h1 : pre.length < ops.length := by rw [← hr]; simp
  have h2 : ops.take pre.length = pre := by rw [← hr]; simp
  have := h pre.length h1
  rw [h2] at this
  exact this (by rw [hpc]; simp)

example : NoOverlap { concurrency := 2 } 5 oneTask := noOverlap_of_take (by decide +kernel)
example : (⟨0, 5, .running⟩ : Task) ∈ (run { concurrency := 2 } oneTask).active := by decide +kernel

/-- **C55, violated**: a task ends and its successor with the same key — a perpetual task or
a retry without delay — is delivered before the loop has processed the end.  Processing it
then removes the successor from the register (worker.py:698 pops by key, whichever task is
registered), and a cancellation does not reach the running successor. -/
theorem C55_violated_successor_forgotten : ¬ C55_signal_reaches := by
  intro h
  have := h { concurrency := 2 }
    [.loop [], .loop [some 5], .loop [], .check 0 false, .claimed 0 true, .ends 0 (some .returned),
     .loop [some 5], .loop [], .check 1 false, .claimed 1 true, .loop [], .loop [], .loop []] 5 false ⟨1, 5, .running⟩
    (by decide +kernel) (by decide +kernel) (by decide +kernel) (by decide +kernel)
  revert this
  decide +kernel

/-! ### C62 -/

theorem interrupt_spec (s : St) (t0 : Task) (b : Bool) :
    (∀ t ∈ s.active, t.uid ≠ t0.uid → t ∈ (interrupt s t0 b).active) ∧
    (∀ u ∈ (interrupt s t0 b).interrupted, u ∈ s.interrupted ∨ (u = t0.uid ∧ t0.phase.isDone = false)) := by
  have hset : ∀ p, ∀ t ∈ s.active, t.uid ≠ t0.uid →
      t ∈ (({ s with interrupted := t0.uid :: s.interrupted } : St).setPhase t0.uid p).active := by
    intro p t ht hne
    simp only [St.setPhase, List.mem_map]
    exact ⟨t, ht, by rw [if_neg hne]⟩
  have hint : t0.phase.isDone = false → ∀ u ∈ t0.uid :: s.interrupted, u ∈ s.interrupted ∨ (u = t0.uid ∧ t0.phase.isDone = false) := by
    intro hd u hu
    rcases List.mem_cons.1 hu with h | h
    · exact Or.inr ⟨h, hd⟩
    · exact Or.inl h
  unfold interrupt
  cases hp : t0.phase with
  | done e => exact ⟨fun t ht _ => ht, fun u hu => Or.inl hu⟩
  | running =>
    rw [hp] at hint
    cases b with
    | true => exact ⟨fun t ht _ => ht, hint rfl⟩
    | false => exact ⟨hset _, hint rfl⟩
  | _ =>
    rw [hp] at hint
    exact ⟨hset _, hint rfl⟩

/-- **C62**: a cancellation signal interrupts at most tasks of the key it names: every other
task goes on as it was. -/
theorem C62_only_the_named_task (cfg : Cfg) (ops : List Op) (k : Key) (swallow : Bool) :
    (∀ t ∈ (run cfg ops).active, t.key ≠ k → t ∈ (step cfg (run cfg ops) (.signal k swallow)).active) ∧
    (∀ u ∈ (step cfg (run cfg ops) (.signal k swallow)).interrupted, u ∈ (run cfg ops).interrupted ∨
      ∃ t ∈ (run cfg ops).active, t.uid = u ∧ t.key = k ∧ t.phase.isDone = false) := by
  have hr := RegInv.run cfg ops
  have hu := UidInv.run cfg ops
  generalize run cfg ops = s at *
  have hid : (∀ t ∈ s.active, t.key ≠ k → t ∈ s.active) ∧ (∀ u ∈ s.interrupted, u ∈ s.interrupted ∨
      ∃ t ∈ s.active, t.uid = u ∧ t.key = k ∧ t.phase.isDone = false) :=
    ⟨fun t ht _ => ht, fun u hu => Or.inl hu⟩
  simp only [step]
  split
  · exact hid
  · split
    · exact hid
    · rename_i u0 hb
      split
      · exact hid
      · rename_i t0 hf
        obtain ⟨hm0, hu0⟩ := find_mem hf
        have hk0 : t0.key = k := hr.key k u0 hb t0 hm0 hu0
        obtain ⟨i1, i2⟩ := interrupt_spec s t0 swallow
        constructor
        · intro t ht hk
          refine i1 t ht ?_
          intro hc
          have := find_of_mem hu ht
          rw [hc, find_of_mem hu hm0] at this
          cases this
          exact hk hk0
        · intro u hm
          rcases i2 u hm with h | ⟨rfl, h⟩
          · exact Or.inl h
          · exact Or.inr ⟨t0, hm0, rfl, hk0, h⟩

/-- Nothing but signals can end the loop: it is not told to stop, the connection holds, and
no task ends in an error that is not handled. -/
def Benign : Op → Prop
  | .leave => False
  | .ends _ (some .raised) => False
  | .recorded _ false => False
  | _ => True

/-- The full statement of C62: a cancellation does not end the worker. -/
def C62_worker_goes_on : Prop :=
  ∀ (cfg : Cfg) (ops : List Op), (∀ op ∈ ops, Benign op) → (run cfg ops).pc ≠ .stopped

/-- **C62, violated**: a signal that arrives while the task is still waiting for its claim —
outside the `try` of `_execute` — makes the asyncio task end in `CancelledError`; awaiting it
in `process_completed_tasks` raises that in the main loop, which takes it for a shutdown
request (worker.py:829) and returns: the worker stops taking tasks. -/
theorem C62_violated_worker_stops : ¬ C62_worker_goes_on := by
  intro h
  have := h { concurrency := 2 }
    [.loop [], .loop [some 5], .loop [], .check 0 false, .signal 5 false, .loop [], .loop [], .loop [], .loop []]
    (by intro op hop; simp only [List.mem_cons, List.not_mem_nil, or_false] at hop
        rcases hop with rfl | rfl | rfl | rfl | rfl | rfl | rfl | rfl | rfl <;> trivial)
  revert this
  decide +kernel

/-- In this history signals find their task inside the `try` (or already ended). -/
def SignalsInTime (cfg : Cfg) (ops : List Op) : Prop :=
  ∀ pre k b, pre ++ [Op.signal k b] <+: ops → ∀ t ∈ (run cfg pre).active, t.key = k →
    t.phase = .running ∨ t.phase.isDone = true

/-- The invariant: the loop runs and no task ended in an exception that would end it. -/
structure Going (s : St) : Prop where
  pc : s.pc ≠ .stopped
  fine : ∀ t ∈ s.active, t.phase ≠ .done .raised ∧ t.phase ≠ .done .cancelled

theorem Going.setPhase {s : St} (h : Going s) (u : Nat) {p : Phase} (hp : p ≠ .done .raised ∧ p ≠ .done .cancelled) :
    Going (s.setPhase u p) := by
  refine ⟨h.pc, ?_⟩
  intro t ht
  obtain ⟨t', h1, _, _, h4⟩ := setPhase_mem ht
  rcases h4 with rfl | ⟨_, h4⟩
  · exact h.fine t' h1
  · rw [h4]; exact hp

theorem Going.step {cfg : Cfg} {s : St} (h : Going s) (hr : RegInv s) (op : Op) (hb : Benign op)
    (hsig : ∀ k b, op = .signal k b → ∀ t ∈ s.active, t.key = k → t.phase = .running ∨ t.phase.isDone = true) :
    Going (step cfg s op) := by
  cases op with
  | leave => exact absurd hb id
  | rerun =>
    simp only [Loop.step]
    rw [if_neg (fun hc => h.pc hc.1)]
    exact h
  | loop r =>
    simp only [Loop.step, loopStep]
    split
    · exact ⟨by simp, h.fine⟩
    · unfold completeOne
      split
      · exact ⟨by simp, h.fine⟩
      · rename_i t0 hf
        obtain ⟨hm0, hu0⟩ := find_mem hf
        obtain ⟨f1, f2⟩ := h.fine t0 hm0
        refine ⟨?_, fun t ht => h.fine t (List.mem_filter.1 ht).1⟩
        dsimp only
        split
        · rename_i hc; exact absurd hc f1
        · rename_i hc; exact absurd hc f2
        · simp
    · split
      · exact ⟨by simp, h.fine⟩
      · exact ⟨by simp [ask], h.fine⟩
    · rename_i m _ _
      cases m with
      | none => exact ⟨by simp, h.fine⟩
      | some k =>
        refine ⟨by simp [startTask], ?_⟩
        intro t ht
        simp only [startTask, List.mem_append, List.mem_singleton] at ht
        rcases ht with ht | rfl
        · exact h.fine t ht
        · simp
    · split
      · exact ⟨by simp, h.fine⟩
      · exact ⟨by simp [ask], h.fine⟩
    · exact ⟨by simp, h.fine⟩
    · exact h
  | check u b =>
    simp only [Loop.step]
    split
    · split <;> exact h.setPhase _ (by simp)
    · exact h
  | struck u =>
    simp only [Loop.step]
    split
    · exact h.setPhase _ (by simp)
    · exact h
  | claimed u ok =>
    simp only [Loop.step]
    split
    · split
      · exact ⟨h.pc, fun t ht => (h.setPhase u (p := .running) (by simp)).fine t ht⟩
      · exact h.setPhase _ (by simp)
    · exact h
  | ends u e =>
    simp only [Loop.step]
    split
    · split
      · rename_i e
        split
        · exact h
        · rename_i hne
          refine h.setPhase _ ?_
          cases e with
          | raised => exact absurd hb id
          | cancelled => exact absurd rfl hne
          | _ => simp
      · exact h.setPhase _ (by simp)
    · exact h
  | recorded u ok =>
    simp only [Loop.step]
    split
    · cases ok with
      | false => exact absurd hb id
      | true => exact h.setPhase _ (by simp)
    · exact h
  | signal k b =>
    simp only [Loop.step]
    split
    · exact h
    · split
      · exact h
      · rename_i u hbk
        split
        · exact h
        · rename_i t hf
          obtain ⟨hm0, hu0⟩ := find_mem hf
          have hk0 := hr.key k u hbk t hm0 hu0
          simp only [interrupt]
          rcases hsig k b rfl t hm0 hk0 with hp | hp
          · rw [hp]
            dsimp only
            split
            · exact ⟨h.pc, h.fine⟩
            · exact Going.setPhase (s := { s with interrupted := t.uid :: s.interrupted }) ⟨h.pc, h.fine⟩ _ (by simp)
          · cases hph : t.phase with
            | done e => exact h
            | _ => rw [hph] at hp; cases hp

/-- **C62, partial**: the worker goes on in every history in which cancellation signals find
their task inside the `try` of `_execute` (or already ended). -/
theorem C62_worker_goes_on_partial (cfg : Cfg) (ops : List Op) (hb : ∀ op ∈ ops, Benign op)
    (hs : SignalsInTime cfg ops) : (run cfg ops).pc ≠ .stopped := by
  have : ∀ m (ops : List Op), ops.length = m → (∀ op ∈ ops, Benign op) → SignalsInTime cfg ops → Going (run cfg ops) := by
    intro m
    induction m with
    | zero =>
      intro ops hl _ _
      rw [List.length_eq_zero_iff.1 hl]
      exact ⟨by simp [run, runFrom], by intro t ht; cases ht⟩
    | succ m ih =>
      intro ops hl hb hs
      rcases List.eq_nil_or_concat ops with h' | ⟨ops', op, h'⟩
      · rw [h'] at hl; cases hl
      · rw [List.concat_eq_append] at h'
        subst h'
        rw [run_snoc]
        refine Going.step (ih _ (by simpa using hl) (fun o ho => hb o (by simp [ho])) ?_) (RegInv.run _ _) op (hb op (by simp)) ?_
        · intro pre k b hp
          exact hs pre k b (hp.trans (List.prefix_append _ _))
        · rintro k b rfl
          exact hs ops' k b (List.prefix_refl _)
  exact (this _ ops rfl hb hs).pc

/-- The hypotheses are met by a history with a cancellation of a running task. -/
def cancelled : List Op := [.loop [], .loop [some 5], .loop [], .check 0 false, .claimed 0 true, .signal 5 false,
  .recorded 0 true, .loop [], .loop [], .loop [], .loop []]

theorem signalsInTime_of_take {cfg : Cfg} {ops : List Op}
    (h : ∀ i < ops.length, (match ops[i]? with
      | some (.signal k _) => (run cfg (ops.take i)).active.all (fun t => decide (t.key = k → t.phase = .running ∨ t.phase.isDone = true))
      | _ => true) = true) : SignalsInTime cfg ops := by
  intro pre k b hp t ht hk
  obtain ⟨rest, hr⟩ := hp
  have h1 : pre.length < ops.length := by rw [← hr]; simp
  have h2 : ops.take pre.length = pre := by rw [← hr]; simp
  have h3 : ops[pre.length]? = some (.signal k b) := by rw [← hr]; simp
  have := h pre.length h1
  rw [h3, h2] at this
  have := List.all_eq_true.1 this t ht
  exact of_decide_eq_true this hk

example : SignalsInTime { concurrency := 2 } cancelled := signalsInTime_of_take (by decide +kernel)
example : (run { concurrency := 2 } cancelled).interrupted = [0] ∧ (run { concurrency := 2 } cancelled).active = [] := by
  decide +kernel

end Docket.Loop
