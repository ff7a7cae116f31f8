import Verif.Worker.Listen

/-! # C104: a cancellation is heard -/

namespace Docket.Listen

/-! ## Specification -/

/-- The worker has subscribed, and its subscription stands. -/
def Subscribed (s : State) : Prop := ∃ unread, s.pc = .listening unread

/-- The task of this number is running under the key. -/
def Runs (s : State) (k : Key) (uid : Nat) : Prop := (k, uid) ∈ s.running

instance decRuns (s : State) (k : Key) (uid : Nat) : Decidable (Runs s k uid) := by unfold Runs; infer_instance

/-- Nothing goes wrong with the connection, and the worker is not told to stop. -/
def Smooth (es : List Ev) : Prop := ∀ e ∈ es, e ≠ .go .lost ∧ e ≠ .go .error ∧ e ≠ .stop

/-- Signals waiting to be read. -/
def unread (s : State) : Nat :=
  match s.pc with
  | .listening l => l.length
  | _ => 0

/-- Every state on the way satisfies `P`, including the first and the last. -/
def Along (pause : Nat) (P : State → Prop) : State → List Ev → Prop
  | s, [] => P s
  | s, e :: es => P s ∧ Along pause P (step pause s e) es

instance decAlong (pause : Nat) (P : State → Prop) [DecidablePred P] : ∀ s es, Decidable (Along pause P s es)
  | s, [] => by unfold Along; infer_instance
  | s, e :: es =>
    have := decAlong pause P (step pause s e) es
    by unfold Along; infer_instance

/-- The listener wakes at most `late` after its time, and an attempt to subscribe takes at most
`attempt`. -/
def Punctual (late attempt : Nat) (s : State) : Prop :=
  match s.pc with
  | .pausing u => s.now ≤ u + late
  | .connecting t | .subscribing t => s.now ≤ t + attempt
  | _ => True

instance decPunctual (late attempt : Nat) (s : State) : Decidable (Punctual late attempt s) := by
  unfold Punctual; split <;> infer_instance

instance decSubscribed (s : State) : Decidable (Subscribed s) :=
  match h : s.pc with
  | .listening l => .isTrue ⟨l, h⟩
  | .connecting _ => .isFalse (fun ⟨_, h'⟩ => by rw [h] at h'; cases h')
  | .subscribing _ => .isFalse (fun ⟨_, h'⟩ => by rw [h] at h'; cases h')
  | .pausing _ => .isFalse (fun ⟨_, h'⟩ => by rw [h] at h'; cases h')
  | .over => .isFalse (fun ⟨_, h'⟩ => by rw [h] at h'; cases h')

/-- Is it a call of `cancel`? -/
def isCancel : Ev → Bool
  | .cancel _ => true
  | _ => false

/-- How many attempts came to nothing. -/
def failures (es : List Ev) : Nat := es.count (.go .lost) + es.count (.go .error)

/-- C104: a task that runs when `cancel` is called is interrupted, if it does not end by itself, once
the listener has gone on for a while. -/
def C104_heard : Prop :=
  ∀ (pause : Nat) (es : List Ev) (k : Key) (uid : Nat), Runs (run pause es) k uid →
    ∃ n, ∀ rest : List Ev, Smooth rest → .finish uid ∉ rest → n ≤ rest.count (.go .ok) →
      uid ∈ (run pause (es ++ .cancel k :: rest)).interrupted

/-- C104: the task that is interrupted is one that ran when its cancellation was asked for. -/
def C104_whom : Prop :=
  ∀ (pause : Nat) (es : List Ev) (uid : Nat), uid ∈ (run pause es).interrupted →
    ∃ pre k post, es = pre ++ .cancel k :: post ∧ Runs (run pause pre) k uid

/-! ## Invariant -/

/-- One task for each key, and one key for each task. -/
structure Inv (s : State) : Prop where
  keys : ∀ k u u', (k, u) ∈ s.running → (k, u') ∈ s.running → u = u'
  uids : ∀ k k' u, (k, u) ∈ s.running → (k', u) ∈ s.running → k = k'
  fresh : ∀ k u, (k, u) ∈ s.running → u < s.next
  ready : s.running ≠ [] → s.ready = true

theorem fail_same (pause : Nat) (s : State) :
    (fail pause s).running = s.running ∧ (fail pause s).next = s.next ∧ (fail pause s).ready = s.ready ∧
    (fail pause s).interrupted = s.interrupted ∧ (fail pause s).now = s.now ∧ (fail pause s).stopping = s.stopping := by
  unfold fail; split <;> exact ⟨rfl, rfl, rfl, rfl, rfl, rfl⟩

theorem handle_same (s : State) (k : Key) :
    (handle s k).running = s.running ∧ (handle s k).next = s.next ∧ (handle s k).ready = s.ready ∧
    (handle s k).pc = s.pc ∧ (handle s k).now = s.now ∧ (handle s k).stopping = s.stopping := by
  unfold handle; split <;> exact ⟨rfl, rfl, rfl, rfl, rfl, rfl⟩

/-- What a step of the listener leaves alone. -/
theorem go_same (pause : Nat) (s : State) (a : Answer) :
    (go pause s a).running = s.running ∧ (go pause s a).next = s.next ∧
    (s.ready = true → (go pause s a).ready = true) ∧ (go pause s a).now = s.now ∧
    (go pause s a).stopping = s.stopping := by
  have hf := fail_same pause s
  unfold go
  split
  · split
    · exact ⟨rfl, rfl, id, rfl, rfl⟩
    · split
      · exact ⟨rfl, rfl, id, rfl, rfl⟩
      · exact ⟨hf.1, hf.2.1, fun h => hf.2.2.1.trans h, hf.2.2.2.2.1, hf.2.2.2.2.2⟩
  · split
    · exact ⟨rfl, rfl, fun _ => rfl, rfl, rfl⟩
    · exact ⟨hf.1, hf.2.1, fun h => hf.2.2.1.trans h, hf.2.2.2.2.1, hf.2.2.2.2.2⟩
  · split
    · exact ⟨rfl, rfl, id, rfl, rfl⟩
    · split
      · split
        · exact ⟨rfl, rfl, id, rfl, rfl⟩
        · next k l _ =>
          have hh := handle_same { s with pc := .listening l } k
          exact ⟨hh.1, hh.2.1, fun h => hh.2.2.1.trans h, hh.2.2.2.2.1, hh.2.2.2.2.2⟩
      · exact ⟨hf.1, hf.2.1, fun h => hf.2.2.1.trans h, hf.2.2.2.2.1, hf.2.2.2.2.2⟩
  · split
    · exact ⟨rfl, rfl, id, rfl, rfl⟩
    · split
      · exact ⟨rfl, rfl, id, rfl, rfl⟩
      · exact ⟨rfl, rfl, id, rfl, rfl⟩
  · exact ⟨rfl, rfl, id, rfl, rfl⟩

theorem publish_same (s : State) (k : Key) :
    (publish s k).running = s.running ∧ (publish s k).next = s.next ∧ (publish s k).ready = s.ready ∧
    (publish s k).now = s.now ∧ (publish s k).stopping = s.stopping ∧ (publish s k).interrupted = s.interrupted := by
  unfold publish; split <;> exact ⟨rfl, rfl, rfl, rfl, rfl, rfl⟩

theorem Inv.step {pause : Nat} {s : State} (h : Inv s) (e : Ev) : Inv (step pause s e) := by
  cases e with
  | tick d => exact ⟨h.keys, h.uids, h.fresh, h.ready⟩
  | stop => exact ⟨h.keys, h.uids, h.fresh, h.ready⟩
  | go a =>
    obtain ⟨h1, h2, h3, _⟩ := go_same pause s a
    refine ⟨?_, ?_, ?_, ?_⟩ <;> simp only [Listen.step, h1, h2]
    · exact h.keys
    · exact h.uids
    · exact h.fresh
    · exact fun hr => h3 (h.ready hr)
  | cancel k =>
    obtain ⟨h1, h2, h3, _⟩ := publish_same s k
    refine ⟨?_, ?_, ?_, ?_⟩ <;> simp only [Listen.step, h1, h2, h3]
    · exact h.keys
    · exact h.uids
    · exact h.fresh
    · exact h.ready
  | finish uid =>
    refine ⟨?_, ?_, ?_, ?_⟩ <;> simp only [Listen.step, List.mem_filter]
    · exact fun k u u' h1 h2 => h.keys k u u' h1.1 h2.1
    · exact fun k k' u h1 h2 => h.uids k k' u h1.1 h2.1
    · exact fun k u h1 => h.fresh k u h1.1
    · intro hne
      refine h.ready fun he => hne ?_
      rw [he]; rfl
  | start k =>
    simp only [Listen.step, start]
    split
    · next hc =>
      refine ⟨?_, ?_, ?_, fun _ => hc.1⟩ <;> simp only [List.mem_cons, Prod.mk.injEq]
      · rintro k1 u u' (⟨rfl, rfl⟩ | h1) (⟨h2, rfl⟩ | h2)
        · rfl
        · exact absurd rfl (hc.2.2 _ h2)
        · subst h2; exact absurd rfl (hc.2.2 _ h1)
        · exact h.keys _ _ _ h1 h2
      · rintro k1 k2 u (⟨rfl, rfl⟩ | h1) (⟨rfl, h2⟩ | h2)
        · rfl
        · exact absurd (h.fresh _ _ h2) (Nat.lt_irrefl _)
        · subst h2; exact absurd (h.fresh _ _ h1) (Nat.lt_irrefl _)
        · exact h.uids _ _ _ h1 h2
      · rintro k1 u (⟨_, rfl⟩ | h1)
        · exact Nat.lt_succ_self _
        · exact Nat.lt_succ_of_lt (h.fresh _ _ h1)
    · exact h

theorem Inv.runFrom {pause : Nat} (es : List Ev) : ∀ {s : State}, Inv s → Inv (runFrom pause s es) := by
  induction es with
  | nil => exact fun h => h
  | cons e es ih => exact fun h => ih (h.step e)

theorem Inv.run (pause : Nat) (es : List Ev) : Inv (run pause es) :=
  Inv.runFrom es ⟨by simp, by simp, by simp, by simp⟩

theorem run_append (pause : Nat) (a b : List Ev) : run pause (a ++ b) = runFrom pause (run pause a) b := by
  simp [run, runFrom]

theorem run_snoc (pause : Nat) (a : List Ev) (e : Ev) : run pause (a ++ [e]) = step pause (run pause a) e := by
  simp [run, runFrom]

theorem find_running {s : State} (h : Inv s) {k : Key} {u : Nat} (hr : (k, u) ∈ s.running) :
    s.running.find? (fun e => e.1 = k) = some (k, u) := by
  cases hf : s.running.find? (fun e => e.1 = k) with
  | none => exact absurd (List.find?_eq_none.1 hf _ hr) (by simp)
  | some e =>
    obtain ⟨k', u'⟩ := e
    have h1 : k' = k := by have := List.find?_some hf; exact of_decide_eq_true this
    subst h1
    rw [h.keys _ _ _ hr (List.mem_of_find?_eq_some hf)]

/-! ## The signal is read -/

/-- A signal of the key is among the unread ones, with at most `n` before it; or the task has been
interrupted. -/
def Coming (k : Key) (uid n : Nat) (s : State) : Prop :=
  uid ∈ s.interrupted ∨
  (s.stopping = false ∧ Runs s k uid ∧ ∃ a b, s.pc = .listening (a ++ k :: b) ∧ a.length ≤ n)

theorem interrupted_step (pause : Nat) (s : State) (e : Ev) {uid : Nat} (h : uid ∈ s.interrupted) :
    uid ∈ (step pause s e).interrupted := by
  cases e with
  | tick d => exact h
  | stop => exact h
  | finish u => exact h
  | start k => simp only [step, start]; split <;> exact h
  | cancel k => simp only [step, (publish_same s k).2.2.2.2.2]; exact h
  | go a =>
    have hf : uid ∈ (fail pause s).interrupted := by rw [(fail_same pause s).2.2.2.1]; exact h
    simp only [step, go]
    split
    · split
      · exact h
      · split
        · exact h
        · exact hf
    · split
      · exact h
      · exact hf
    · split
      · exact h
      · split
        · split
          · exact h
          · simp only [handle]
            split
            · exact List.mem_cons_of_mem _ h
            · exact h
        · exact hf
    · split
      · exact h
      · split <;> exact h
    · exact h

theorem interrupted_runFrom (pause : Nat) (es : List Ev) {uid : Nat} : ∀ (s : State), uid ∈ s.interrupted →
    uid ∈ (runFrom pause s es).interrupted := by
  induction es with
  | nil => exact fun _ h => h
  | cons e es ih => exact fun s h => ih _ (interrupted_step pause s e h)

theorem coming_runFrom {pause : Nat} {k : Key} {uid : Nat} (es : List Ev) : ∀ (n : Nat) (s : State), Inv s →
    Coming k uid n s → Smooth es → .finish uid ∉ es → n < es.count (.go .ok) →
    uid ∈ (runFrom pause s es).interrupted := by
  induction es with
  | nil => intro n s _ _ _ _ h; exact absurd h (by simp)
  | cons e es ih =>
    intro n s hi hc hsm hfin hn
    have hsm' : Smooth es := fun e he => hsm e (List.mem_cons_of_mem _ he)
    simp only [List.mem_cons, not_or] at hfin
    rcases hc with hc | ⟨hs, hr, a, b, hpc, hab⟩
    · exact interrupted_runFrom pause (e :: es) s hc
    · have hother : Coming k uid n (step pause s e) → e ≠ .go .ok →
          uid ∈ (runFrom pause s (e :: es)).interrupted := by
        intro hcs' hne
        refine ih n _ (hi.step e) hcs' hsm' hfin.2 ?_
        rw [List.count_cons_of_ne hne] at hn
        exact hn
      cases e with
      | tick d => exact hother (Or.inr ⟨hs, hr, a, b, hpc, hab⟩) (by simp)
      | stop => exact absurd rfl (hsm .stop (by simp)).2.2
      | finish u =>
        refine hother (Or.inr ⟨hs, ?_, a, b, hpc, hab⟩) (by simp)
        refine List.mem_filter.2 ⟨hr, ?_⟩
        have : uid ≠ u := fun h => hfin.1 (by rw [h])
        simpa using this
      | start k' =>
        refine hother ?_ (by simp)
        simp only [step, start]
        split
        · exact Or.inr ⟨hs, List.mem_cons_of_mem _ hr, a, b, hpc, hab⟩
        · exact Or.inr ⟨hs, hr, a, b, hpc, hab⟩
      | cancel k' =>
        refine hother (Or.inr ⟨(publish_same s k').2.2.2.2.1.trans hs, ?_, a, b ++ [k'], ?_, hab⟩) (by simp)
        · simp only [Runs, step, (publish_same s k').1]; exact hr
        · simp [step, publish, hpc]
      | go an =>
        cases an with
        | lost => exact absurd rfl (hsm (.go .lost) (by simp)).1
        | error => exact absurd rfl (hsm (.go .error) (by simp)).2.1
        | ok =>
          rw [List.count_cons_self] at hn
          cases a with
          | nil =>
            -- the signal is read
            refine interrupted_runFrom pause es _ ?_
            simp only [step, go, hpc, hs, Bool.false_eq_true, if_false, if_true, List.nil_append, handle]
            have hf := find_running hi hr
            rw [hf]
            exact List.mem_cons_self ..
          | cons k0 a =>
            have e1 : step pause s (.go .ok) = handle { s with pc := .listening (a ++ k :: b) } k0 := by
              simp only [step, go, hpc, hs, Bool.false_eq_true, if_false, if_true, List.cons_append]
            have hh := handle_same { s with pc := .listening (a ++ k :: b) } k0
            simp only [List.length_cons] at hab
            obtain ⟨n', rfl⟩ : ∃ n', n = n' + 1 := ⟨n - 1, by omega⟩
            refine ih n' _ (hi.step _) (Or.inr ?_) hsm' hfin.2 (by omega)
            rw [e1]
            exact ⟨hh.2.2.2.2.2.trans hs, by simp only [Runs, hh.1]; exact hr, a, b, hh.2.2.2.1, by omega⟩

/-- **C104**, partial: if the worker is subscribed when a running task is cancelled, and neither
loses the connection nor stops before it has read what has arrived, the task is interrupted
(unless it ends before). -/
theorem C104_heard_partial (pause : Nat) (es rest : List Ev) (k : Key) (uid : Nat) (hr : Runs (run pause es) k uid)
    (hs : Subscribed (run pause es)) (hgo : .stop ∉ es) (hsm : Smooth rest) (hf : .finish uid ∉ rest)
    (hn : unread (run pause es) < rest.count (.go .ok)) :
    uid ∈ (run pause (es ++ .cancel k :: rest)).interrupted := by
  have hst : (run pause es).stopping = false := by
    have : ∀ (es : List Ev) (s : State), .stop ∉ es → s.stopping = false → (runFrom pause s es).stopping = false := by
      intro es
      induction es with
      | nil => exact fun s _ h => h
      | cons e es ih =>
        intro s hne h
        simp only [List.mem_cons, not_or] at hne
        refine ih _ hne.2 ?_
        cases e with
        | stop => exact absurd rfl hne.1
        | tick d => exact h
        | finish u => exact h
        | start k => simp only [step, start]; split <;> exact h
        | cancel k => exact (publish_same s k).2.2.2.2.1.trans h
        | go a => exact (go_same pause s a).2.2.2.2.trans h
    exact this es {} hgo rfl
  rw [run_append]
  show uid ∈ (runFrom pause (step pause (run pause es) (.cancel k)) rest).interrupted
  refine coming_runFrom (k := k) rest _ _ ((Inv.run pause es).step _) (Or.inr ⟨?_, ?_, ?_⟩) hsm hf hn
  · exact (publish_same _ k).2.2.2.2.1.trans hst
  · simp only [Runs, step, (publish_same _ k).1]; exact hr
  · obtain ⟨l, hl⟩ := hs
    exact ⟨l, [], by simp [step, publish, hl], by simp [unread, hl]⟩

/-! ## Before the first task -/

/-- **C104**: no task is taken before the worker has once been subscribed. -/
theorem C104_first_subscribed (pause : Nat) (es : List Ev) (k : Key) (uid : Nat) (h : Runs (run pause es) k uid) :
    ∃ pre post, es = pre ++ post ∧ Subscribed (run pause pre) := by
  have hready : (run pause es).ready = true := (Inv.run pause es).ready (List.ne_nil_of_mem h)
  clear h
  have key : ∀ (n : Nat) (es : List Ev), es.length = n → (run pause es).ready = true →
      ∃ pre post, es = pre ++ post ∧ Subscribed (run pause pre) := by
    intro n
    induction n with
    | zero =>
      intro es hl hr
      obtain rfl : es = [] := List.eq_nil_of_length_eq_zero hl
      cases hr
    | succ n ih =>
      intro es hl hr
      rcases List.eq_nil_or_concat es with rfl | ⟨es', e, rfl⟩
      · cases hl
      · rw [List.concat_eq_append] at hl hr ⊢
        by_cases hr' : (run pause es').ready = true
        · obtain ⟨pre, post, h1, h2⟩ := ih es' (by simpa using hl) hr'
          exact ⟨pre, post ++ [e], by rw [h1, List.append_assoc], h2⟩
        · refine ⟨es' ++ [e], [], by simp, ?_⟩
          rw [run_snoc] at hr ⊢
          generalize run pause es' = s at *
          cases e with
          | tick d => exact absurd hr hr'
          | stop => exact absurd hr hr'
          | finish u => exact absurd hr hr'
          | start k =>
            refine absurd hr ?_
            simp only [step, start]
            split <;> exact hr'
          | cancel k => exact absurd ((publish_same s k).2.2.1.symm.trans hr) hr'
          | go a =>
            cases hpc : s.pc with
            | subscribing t =>
              by_cases ha : a = .ok
              · exact ⟨[], by simp [step, go, hpc, ha]⟩
              · exfalso
                simp only [step, go, hpc, ha, if_false, (fail_same pause s).2.2.1] at hr
                exact hr' hr
            | connecting t =>
              exfalso
              simp only [step, go, hpc] at hr
              split at hr
              · exact hr' hr
              · split at hr
                · exact hr' hr
                · rw [(fail_same pause s).2.2.1] at hr; exact hr' hr
            | listening l =>
              exfalso
              simp only [step, go, hpc] at hr
              split at hr
              · exact hr' hr
              · split at hr
                · split at hr
                  · exact hr' hr
                  · rw [(handle_same _ _).2.2.1] at hr; exact hr' hr
                · rw [(fail_same pause s).2.2.1] at hr; exact hr' hr
            | pausing u =>
              exfalso
              simp only [step, go, hpc] at hr
              split at hr
              · exact hr' hr
              · split at hr <;> exact hr' hr
            | over =>
              exfalso
              simp only [step, go, hpc] at hr
              exact hr' hr
  exact key _ es rfl hready

/-! ## After an error -/

theorem along_first {pause : Nat} {P : State → Prop} {s : State} {es : List Ev} (h : Along pause P s es) : P s := by
  cases es with
  | nil => exact h
  | cons e es => exact h.1

/-- Where the listener can be at a time, and when it began with it. -/
def Sane (pause : Nat) (s : State) : Prop :=
  match s.pc with
  | .pausing u => u ≤ s.now + pause
  | .connecting t | .subscribing t => t ≤ s.now
  | .listening _ => True
  | .over => s.stopping = true

theorem Sane.step {pause : Nat} {s : State} (h : Sane pause s) (e : Ev) : Sane pause (step pause s e) := by
  cases e with
  | tick d =>
    unfold Sane at h ⊢
    simp only [Listen.step]
    revert h
    cases s.pc <;> simp only <;> first | omega | exact id
  | stop =>
    unfold Sane at h ⊢
    simp only [Listen.step]
    revert h
    cases s.pc <;> simp only <;> intro h <;> first | exact h | trivial
  | finish u => exact h
  | start k =>
    simp only [Listen.step, start]
    split
    · exact h
    · exact h
  | cancel k =>
    simp only [Listen.step, publish]
    split
    · trivial
    · exact h
  | go a =>
    have hf : Sane pause (fail pause s) := by
      unfold fail Sane
      by_cases hs : s.stopping = true
      · simp only [hs, if_true]
      · have hs : s.stopping = false := by simpa using hs
        simp only [hs, Bool.false_eq_true, if_false]; exact Nat.le_refl _
    obtain ⟨now, pc, ready, stopping, running, next, interrupted⟩ := s
    unfold Sane at h
    simp only at h
    simp only [Listen.step, go]
    cases pc with
    | connecting t =>
      simp only at h ⊢
      split
      · next hs => exact hs
      · split
        · exact h
        · exact hf
    | subscribing t =>
      simp only
      split
      · trivial
      · exact hf
    | listening l =>
      simp only
      split
      · next hs => exact hs
      · split
        · split
          · trivial
          · next k l' =>
            unfold Sane
            rw [(handle_same _ _).2.2.2.1]
            trivial
        · exact hf
    | pausing u =>
      simp only at h ⊢
      split
      · next hs => exact hs
      · split
        · exact Nat.le_refl _
        · exact h
    | over => exact h

theorem Sane.runFrom {pause : Nat} (es : List Ev) : ∀ {s : State}, Sane pause s → Sane pause (runFrom pause s es) := by
  induction es with
  | nil => exact fun h => h
  | cons e es ih => exact fun h => ih (h.step e)

theorem stopping_runFrom (pause : Nat) (es : List Ev) : ∀ (s : State), .stop ∉ es → s.stopping = false →
    (runFrom pause s es).stopping = false := by
  induction es with
  | nil => exact fun s _ h => h
  | cons e es ih =>
    intro s hne h
    simp only [List.mem_cons, not_or] at hne
    refine ih _ hne.2 ?_
    cases e with
    | stop => exact absurd rfl hne.1
    | tick d => exact h
    | finish u => exact h
    | start k => simp only [step, start]; split <;> exact h
    | cancel k => exact (publish_same s k).2.2.2.2.1.trans h
    | go a => exact (go_same pause s a).2.2.2.2.trans h

/-- How long the present pause or attempt can last, while the worker is not subscribed. -/
def Soon (late T : Nat) (pause : Nat) (s : State) : Prop :=
  match s.pc with
  | .pausing u => u ≤ T + pause
  | .connecting t | .subscribing t => t ≤ T + pause + late
  | _ => False

theorem back_aux (pause late attempt : Nat) (es : List Ev) : ∀ (s : State) (T : Nat), s.stopping = false → .stop ∉ es →
    Soon late T pause s → Along pause (fun s => Punctual late attempt s ∧ ¬ Subscribed s) s es →
    (runFrom pause s es).now ≤ T + (failures es + 1) * (pause + late + attempt) := by
  induction es with
  | nil =>
    intro s T _ _ hd hal
    have hp := hal.1
    have e : (failures [] + 1) * (pause + late + attempt) = pause + late + attempt := by simp [failures]
    rw [e]
    show s.now ≤ _
    unfold Punctual at hp
    unfold Soon at hd
    revert hp hd
    cases s.pc <;> intro hp hd <;> simp only at hp hd <;> omega
  | cons e es ih =>
    intro s T hs hne hd hal
    have hs' : (step pause s e).stopping = false :=
      stopping_runFrom pause [e] s (by simp only [List.mem_cons, not_or] at hne; simpa using hne.1) hs
    simp only [List.mem_cons, not_or] at hne
    have hal' := hal.2
    have hpun := hal.1.1
    have keep : Soon late T pause (step pause s e) →
        (runFrom pause (step pause s e) es).now ≤ T + (failures (e :: es) + 1) * (pause + late + attempt) := by
      intro hd'
      refine Nat.le_trans (ih _ T hs' hne.2 hd' hal') ?_
      refine Nat.add_le_add_left (Nat.mul_le_mul_right _ (Nat.succ_le_succ ?_)) _
      unfold failures
      rw [List.count_cons, List.count_cons]
      omega
    have failed : ∀ a, e = .go a → a ≠ .ok → step pause s e = fail pause s →
        s.now ≤ T + pause + late + attempt →
        (runFrom pause (step pause s e) es).now ≤ T + (failures (e :: es) + 1) * (pause + late + attempt) := by
      intro a he ha hst hnow
      have hd' : Soon late (T + (pause + late + attempt)) pause (step pause s e) := by
        rw [hst]
        unfold fail Soon
        simp only [hs, Bool.false_eq_true, if_false]
        omega
      refine Nat.le_trans (ih _ _ hs' hne.2 hd' hal') ?_
      have : failures (e :: es) = failures es + 1 := by
        subst he
        unfold failures
        rw [List.count_cons, List.count_cons]
        cases a with
        | ok => exact absurd rfl ha
        | lost => simp; omega
        | error => simp; omega
      rw [this, Nat.add_mul (failures es + 1) 1]
      omega
    cases e with
    | stop => exact absurd rfl hne.1
    | tick d => exact keep hd
    | finish u => exact keep hd
    | start k => refine keep ?_; simp only [step, start]; split <;> exact hd
    | cancel k =>
      have hp : publish s k = s := by
        unfold publish
        split
        · next l hl => exact absurd ⟨l, hl⟩ hal.1.2
        · rfl
      refine keep ?_
      simp only [step, hp]
      exact hd
    | go a =>
      unfold Soon at hd
      unfold Punctual at hpun
      cases hpc : s.pc with
      | over => rw [hpc] at hd; exact absurd hd (by simp)
      | listening l => rw [hpc] at hd; exact absurd hd (by simp)
      | pausing u =>
        rw [hpc] at hd hpun
        simp only at hd hpun
        refine keep ?_
        by_cases hu : u ≤ s.now
        · simp only [step, go, hpc, hs, Bool.false_eq_true, if_false, hu, if_true, Soon]
          omega
        · simp only [step, go, hpc, hs, Bool.false_eq_true, if_false, hu, Soon]
          exact hd
      | connecting t =>
        rw [hpc] at hd hpun
        simp only at hd hpun
        by_cases ha : a = .ok
        · refine keep ?_
          simp only [step, go, hpc, hs, Bool.false_eq_true, if_false, ha, if_true, Soon]
          exact hd
        · refine failed a rfl ha ?_ (by omega)
          simp only [step, go, hpc, hs, Bool.false_eq_true, if_false, ha]
      | subscribing t =>
        rw [hpc] at hd hpun
        simp only at hd hpun
        by_cases ha : a = .ok
        · exact absurd ⟨[], by simp [step, go, hpc, ha]⟩ (along_first hal').2
        · refine failed a rfl ha ?_ (by omega)
          simp only [step, go, hpc, ha, if_false]

/-- **C104**: a worker that is not subscribed is so again after at most a pause, the time it
oversleeps and an attempt, and as much again for every attempt that fails.  (Until then it is
deaf, `C104_violated_deaf`.) -/
theorem C104_recovers (pause late attempt : Nat) (past es : List Ev) (hstop : .stop ∉ past ++ es)
    (hal : Along pause (fun s => Punctual late attempt s ∧ ¬ Subscribed s) (run pause past) es) :
    (run pause (past ++ es)).now ≤ (run pause past).now + (failures es + 1) * (pause + late + attempt) := by
  simp only [List.mem_append, not_or] at hstop
  rw [run_append]
  have hs : (run pause past).stopping = false := stopping_runFrom pause past {} hstop.1 rfl
  have hsane : Sane pause (run pause past) := Sane.runFrom past (Nat.le_refl _)
  generalize run pause past = s at *
  refine back_aux pause late attempt es s s.now hs hstop.2 ?_ hal
  unfold Sane at hsane
  unfold Soon
  have hsub := (along_first hal).2
  cases hpc : s.pc with
  | listening l => exact absurd ⟨l, hpc⟩ hsub
  | over => rw [hpc] at hsane; simp only at hsane; rw [hs] at hsane; cases hsane
  | pausing u => rw [hpc] at hsane; exact hsane
  | connecting t => rw [hpc] at hsane; simp only at hsane ⊢; omega
  | subscribing t => rw [hpc] at hsane; simp only at hsane ⊢; omega

/-- **C104**: a listener whose worker is told to stop ends after two steps at most. -/
theorem C104_ends (pause : Nat) (s : State) (hs : s.stopping = true) (a b : Answer) :
    (go pause (go pause s a) b).pc = .over := by
  have hf : fail pause s = { s with pc := .over } := by simp [fail, hs]
  have ho : go pause { s with pc := .over } b = { s with pc := .over } := rfl
  cases hpc : s.pc with
  | connecting t => rw [show go pause s a = { s with pc := .over } by simp [go, hpc, hs], ho]
  | pausing u => rw [show go pause s a = { s with pc := .over } by simp [go, hpc, hs], ho]
  | listening l => rw [show go pause s a = { s with pc := .over } by simp [go, hpc, hs], ho]
  | over => rw [show go pause s a = { s with pc := .over } by simp only [go, hpc]; rw [← hpc], ho]
  | subscribing t =>
    by_cases ha : a = .ok
    · rw [show go pause s a = { s with pc := .listening [], ready := true } by simp [go, hpc, ha]]
      simp [go, hs]
    · rw [show go pause s a = { s with pc := .over } by simp [go, hpc, ha, hf], ho]

/-! ## Whom it hits -/

/-- What becomes of the unread signals and of the interrupted tasks in one step. -/
theorem step_signals (pause : Nat) (s : State) (e : Ev) :
    (∀ l k, (step pause s e).pc = .listening l → k ∈ l → e = .cancel k ∨ ∃ l', s.pc = .listening l' ∧ k ∈ l') ∧
    ((step pause s e).interrupted = s.interrupted ∨
      ∃ k l uid, e = .go .ok ∧ s.pc = .listening (k :: l) ∧ Runs s k uid ∧
        (step pause s e).interrupted = uid :: s.interrupted ∧ (step pause s e).pc = .listening l) ∧
    unread (step pause s e) + (step pause s e).interrupted.length ≤
      unread s + s.interrupted.length + (isCancel e).toNat := by
  have same : ∀ s' : State, s'.pc = s.pc → s'.interrupted = s.interrupted →
      (∀ l k, s'.pc = .listening l → k ∈ l → e = .cancel k ∨ ∃ l', s.pc = .listening l' ∧ k ∈ l') ∧
      (s'.interrupted = s.interrupted ∨
        ∃ k l uid, e = .go .ok ∧ s.pc = .listening (k :: l) ∧ Runs s k uid ∧
          s'.interrupted = uid :: s.interrupted ∧ s'.pc = .listening l) ∧
      unread s' + s'.interrupted.length ≤ unread s + s.interrupted.length + (isCancel e).toNat := by
    intro s' h1 h2
    refine ⟨fun l k hl hk => Or.inr ⟨l, by rw [← h1, hl], hk⟩, Or.inl h2, ?_⟩
    unfold unread
    rw [h1, h2]
    exact Nat.le_add_right _ _
  have quiet : ∀ s' : State, (∀ l, s'.pc = .listening l → l = []) → s'.interrupted = s.interrupted →
      (∀ l k, s'.pc = .listening l → k ∈ l → e = .cancel k ∨ ∃ l', s.pc = .listening l' ∧ k ∈ l') ∧
      (s'.interrupted = s.interrupted ∨
        ∃ k l uid, e = .go .ok ∧ s.pc = .listening (k :: l) ∧ Runs s k uid ∧
          s'.interrupted = uid :: s.interrupted ∧ s'.pc = .listening l) ∧
      unread s' + s'.interrupted.length ≤ unread s + s.interrupted.length + (isCancel e).toNat := by
    intro s' h1 h2
    refine ⟨fun l k hl hk => (by rw [h1 l hl] at hk; cases hk), Or.inl h2, ?_⟩
    have : unread s' = 0 := by
      unfold unread
      split
      · next l hl => rw [h1 l hl]; rfl
      · rfl
    rw [this, h2]
    omega
  have qfail : ∀ l, (fail pause s).pc = .listening l → l = [] := by
    unfold fail
    split <;> exact fun l hl => nomatch hl
  cases e with
  | tick d => exact same _ rfl rfl
  | stop => exact same _ rfl rfl
  | finish u => exact same _ rfl rfl
  | start k =>
    simp only [step, start]
    split
    · exact same _ rfl rfl
    · exact same _ rfl rfl
  | cancel k =>
    simp only [step, publish]
    split
    · next l hl =>
      refine ⟨?_, Or.inl rfl, ?_⟩
      · intro l' k' h1 h2
        simp only [Pc.listening.injEq] at h1
        subst h1
        rcases List.mem_append.1 h2 with h2 | h2
        · exact Or.inr ⟨l, hl, h2⟩
        · rw [List.mem_singleton] at h2; subst h2; exact Or.inl rfl
      · simp only [unread, hl, List.length_append, List.length_singleton, isCancel, Bool.toNat_true]
        omega
    · exact same _ rfl rfl
  | go a =>
    simp only [step, go]
    cases hpc : s.pc with
    | connecting t =>
      simp only
      rw [← hpc]
      split
      · exact quiet _ (fun l hl => nomatch hl) rfl
      · split
        · exact quiet _ (fun l hl => nomatch hl) rfl
        · exact quiet _ qfail (fail_same pause s).2.2.2.1
    | subscribing t =>
      simp only
      rw [← hpc]
      split
      · exact quiet _ (fun l hl => by cases hl; rfl) rfl
      · exact quiet _ qfail (fail_same pause s).2.2.2.1
    | pausing u =>
      simp only
      rw [← hpc]
      split
      · exact quiet _ (fun l hl => nomatch hl) rfl
      · split
        · exact quiet _ (fun l hl => nomatch hl) rfl
        · exact same _ rfl rfl
    | over =>
      simp only
      rw [← hpc]
      exact ⟨(same s rfl rfl).1, Or.inl trivial, Nat.le_add_right _ _⟩
    | listening l =>
      simp only
      rw [← hpc]
      split
      · exact quiet _ (fun l hl => nomatch hl) rfl
      · split
        · next ha =>
          cases l with
          | nil => exact same _ rfl rfl
          | cons k l =>
            simp only [handle]
            split
            · next k' uid hf =>
              have hk' : k' = k := by have := List.find?_some hf; exact of_decide_eq_true this
              subst hk'
              refine ⟨?_, Or.inr ⟨k', l, uid, by rw [ha], hpc, List.mem_of_find?_eq_some hf, rfl, rfl⟩, ?_⟩
              · intro l' k1 h1 h2
                simp only [Pc.listening.injEq] at h1
                subst h1
                exact Or.inr ⟨_, hpc, List.mem_cons_of_mem _ h2⟩
              · simp only [unread, hpc, List.length_cons]
                omega
            · refine ⟨?_, Or.inl rfl, ?_⟩
              · intro l' k1 h1 h2
                simp only [Pc.listening.injEq] at h1
                subst h1
                exact Or.inr ⟨_, hpc, List.mem_cons_of_mem _ h2⟩
              · simp only [unread, hpc, List.length_cons]
                omega
        · exact quiet _ qfail (fail_same pause s).2.2.2.1

theorem snoc_induction {P : List Ev → Prop} (h0 : P []) (h1 : ∀ es e, P es → P (es ++ [e])) (es : List Ev) : P es := by
  have : ∀ (n : Nat) (es : List Ev), es.length = n → P es := by
    intro n
    induction n with
    | zero => intro es hl; obtain rfl : es = [] := List.eq_nil_of_length_eq_zero hl; exact h0
    | succ n ih =>
      intro es hl
      rcases List.eq_nil_or_concat es with rfl | ⟨es', e, rfl⟩
      · exact h0
      · rw [List.concat_eq_append] at hl ⊢
        exact h1 es' e (ih es' (by simpa using hl))
  exact this _ es rfl

theorem asked_all (pause : Nat) (es : List Ev) :
    (∀ l k, (run pause es).pc = .listening l → k ∈ l → .cancel k ∈ es) ∧
    ∀ uid ∈ (run pause es).interrupted, ∃ pre k post, es = pre ++ post ∧ .cancel k ∈ pre ∧ Runs (run pause pre) k uid := by
  refine snoc_induction (P := fun es => (∀ l k, (run pause es).pc = .listening l → k ∈ l → .cancel k ∈ es) ∧
    ∀ uid ∈ (run pause es).interrupted, ∃ pre k post, es = pre ++ post ∧ .cancel k ∈ pre ∧ Runs (run pause pre) k uid)
    ⟨(fun l k hl => nomatch hl), (fun uid hu => nomatch hu)⟩ ?_ es
  intro es e ih
  obtain ⟨h1, h2, _⟩ := step_signals pause (run pause es) e
  rw [← run_snoc] at h1 h2
  refine ⟨?_, ?_⟩
  · intro l k hl hk
    rcases h1 l k hl hk with rfl | ⟨l', hl', hk'⟩
    · simp
    · exact List.mem_append_left _ (ih.1 l' k hl' hk')
  · intro uid hu
    have old : uid ∈ (run pause es).interrupted → ∃ pre k post, es ++ [e] = pre ++ post ∧ .cancel k ∈ pre ∧
        Runs (run pause pre) k uid := by
      intro hu
      obtain ⟨pre, k, post, h3, h4, h5⟩ := ih.2 uid hu
      exact ⟨pre, k, post ++ [e], by rw [h3, List.append_assoc], h4, h5⟩
    rcases h2 with h2 | ⟨k, l, u, _, hl, hr, h2, _⟩
    · rw [h2] at hu; exact old hu
    · rw [h2] at hu
      rcases List.mem_cons.1 hu with rfl | hu
      · exact ⟨es, k, [e], rfl, ih.1 _ k hl (List.mem_cons_self ..), hr⟩
      · exact old hu

/-- **C104**: a task is interrupted only if the cancellation of its key was asked for before, and it
is running then. -/
theorem C104_asked (pause : Nat) (es : List Ev) (uid : Nat) (h : uid ∈ (run pause es).interrupted) :
    ∃ pre k post, es = pre ++ post ∧ .cancel k ∈ pre ∧ Runs (run pause pre) k uid :=
  (asked_all pause es).2 uid h

/-- **C104**: a cancellation interrupts one task at most. -/
theorem C104_once (pause : Nat) (es : List Ev) : (run pause es).interrupted.length ≤ es.countP isCancel := by
  have : unread (run pause es) + (run pause es).interrupted.length ≤ es.countP isCancel := by
    refine snoc_induction (P := fun es => unread (run pause es) + (run pause es).interrupted.length ≤ es.countP isCancel)
      (Nat.le_refl _) ?_ es
    intro es e ih
    have h3 := (step_signals pause (run pause es) e).2.2
    rw [run_snoc, List.countP_append]
    have : (isCancel e).toNat = [e].countP isCancel := by
      cases e <;> rfl
    omega
  omega

/-- **C104**, partial: the task that is interrupted ran when its cancellation was asked for, provided
that a worker that takes a task has no unread signal for its key. -/
theorem C104_whom_partial (pause : Nat) (es : List Ev)
    (hp : ∀ pre k post, es = pre ++ .start k :: post → ∀ l, (run pause pre).pc = .listening l → k ∉ l)
    (uid : Nat) (h : uid ∈ (run pause es).interrupted) :
    ∃ pre k post, es = pre ++ .cancel k :: post ∧ Runs (run pause pre) k uid := by
  have key : (∀ pre k post, es = pre ++ .start k :: post → ∀ l, (run pause pre).pc = .listening l → k ∉ l) →
      (∀ l k, (run pause es).pc = .listening l → k ∈ l → ∃ pre post, es = pre ++ .cancel k :: post ∧
        ∀ uid, Runs (run pause es) k uid → Runs (run pause pre) k uid) ∧
      ∀ uid ∈ (run pause es).interrupted, ∃ pre k post, es = pre ++ .cancel k :: post ∧ Runs (run pause pre) k uid := by
    refine snoc_induction (P := fun es =>
      (∀ pre k post, es = pre ++ .start k :: post → ∀ l, (run pause pre).pc = .listening l → k ∉ l) →
      (∀ l k, (run pause es).pc = .listening l → k ∈ l → ∃ pre post, es = pre ++ .cancel k :: post ∧
        ∀ uid, Runs (run pause es) k uid → Runs (run pause pre) k uid) ∧
      ∀ uid ∈ (run pause es).interrupted, ∃ pre k post, es = pre ++ .cancel k :: post ∧ Runs (run pause pre) k uid)
      (fun _ => ⟨(fun l k hl => nomatch hl), (fun uid hu => nomatch hu)⟩) ?_ es
    intro es e ih hp
    have ih := ih fun pre k post he => hp pre k (post ++ [e]) (by rw [he]; simp)
    obtain ⟨h1, h2, _⟩ := step_signals pause (run pause es) e
    rw [← run_snoc] at h1 h2
    refine ⟨?_, ?_⟩
    · intro l k hl hk
      rcases h1 l k hl hk with rfl | ⟨l', hl', hk'⟩
      · refine ⟨es, [], rfl, fun uid hr => ?_⟩
        rw [run_snoc] at hr
        simp only [Runs, step, (publish_same _ _).1] at hr
        exact hr
      · obtain ⟨pre, post, h3, h4⟩ := ih.1 l' k hl' hk'
        refine ⟨pre, post ++ [e], by rw [h3]; simp, fun uid hr => h4 uid ?_⟩
        rw [run_snoc] at hr
        cases e with
        | tick d => exact hr
        | stop => exact hr
        | finish u => exact (List.mem_filter.1 hr).1
        | cancel k' => simp only [Runs, step, (publish_same _ _).1] at hr; exact hr
        | go a => simp only [Runs, step, (go_same pause _ a).1] at hr; exact hr
        | start k' =>
          simp only [Runs, step, start] at hr
          split at hr
          · rcases List.mem_cons.1 hr with hr | hr
            · simp only [Prod.mk.injEq] at hr
              exact absurd hk' (hr.1 ▸ hp es k' [] rfl l' hl')
            · exact hr
          · exact hr
    · intro uid hu
      have old : uid ∈ (run pause es).interrupted → ∃ pre k post, es ++ [e] = pre ++ .cancel k :: post ∧
          Runs (run pause pre) k uid := by
        intro hu
        obtain ⟨pre, k, post, h3, h4⟩ := ih.2 uid hu
        exact ⟨pre, k, post ++ [e], by rw [h3]; simp, h4⟩
      rcases h2 with h2 | ⟨k, l, u, _, hl, hr, h2, _⟩
      · rw [h2] at hu; exact old hu
      · rw [h2] at hu
        rcases List.mem_cons.1 hu with rfl | hu
        · obtain ⟨pre, post, h3, h4⟩ := ih.1 _ k hl (List.mem_cons_self ..)
          exact ⟨pre, k, post ++ [e], by rw [h3]; simp, h4 _ hr⟩
        · exact old hu
  exact (key hp).2 uid h

/-! ## The hypotheses are met -/

/-- Two tasks; the connection is lost and found again; then one task is cancelled. -/
def day : List Ev :=
  [.go .ok, .go .ok, .start "a", .start "b", .go .lost, .tick 1, .go .ok, .go .error, .tick 1, .go .ok, .go .ok, .go .ok]

example : Runs (run 1 day) "b" 1 ∧ (run 1 day).pc = .listening [] ∧ .stop ∉ day := by decide
example : (run 1 (day ++ [.cancel "b", .go .ok])).interrupted = [1] := by decide
example : ([.go .ok, .tick 3] : List Ev).count (.go .ok) = 1 ∧ unread (run 1 day) = 0 := by decide

/-- Deaf for two pauses and one failed attempt: `C104_recovers` allows `(1 + 1) * (1 + 0 + 0)`. -/
example : Along 1 (fun s => Punctual 0 0 s ∧ ¬ Subscribed s) (run 1 (day.take 5)) ((day.take 11).drop 5) := by decide
example : (run 1 (day.take 5)).now = 0 ∧ (run 1 (day.take 11)).now = 2 ∧ (run 1 (day.take 11)).pc = .subscribing 2 ∧
    failures ((day.take 11).drop 5) = 1 := by decide

/-! ## Where it fails -/

/-- **C104, violated**: what is published while the worker has no subscription (its connection was lost, and it
waits before it opens another) is never heard of: the cancelled task runs on, however long the
worker listens afterwards. -/
theorem C104_violated_deaf : ¬ C104_heard := by
  intro h
  obtain ⟨n, hn⟩ := h 1 [.go .ok, .go .ok, .start "t", .go .lost] "t" 0 (by decide)
  have := hn (.tick 1 :: List.replicate n (.go .ok)) ?_ ?_ ?_
  · have hc : ∀ m (s : State), unread s + s.interrupted.length = 0 →
        unread (runFrom 1 s (List.replicate m (.go .ok))) + (runFrom 1 s (List.replicate m (.go .ok))).interrupted.length = 0 := by
      intro m
      induction m with
      | zero => exact fun s hs => hs
      | succ m ih =>
        intro s hs
        rw [List.replicate_succ]
        refine ih _ ?_
        have := (step_signals 1 s (.go .ok)).2.2
        simp only [isCancel, Bool.toNat_false] at this
        omega
    rw [show ([.go .ok, .go .ok, .start "t", .go .lost] : List Ev) ++ .cancel "t" :: .tick 1 :: List.replicate n (.go .ok)
      = [.go .ok, .go .ok, .start "t", .go .lost, .cancel "t", .tick 1] ++ List.replicate n (.go .ok) from rfl, run_append] at this
    have h0 := hc n (run 1 [.go .ok, .go .ok, .start "t", .go .lost, .cancel "t", .tick 1]) (by decide)
    rw [List.eq_nil_of_length_eq_zero (Nat.eq_zero_of_add_eq_zero_left h0)] at this
    cases this
  · intro e he
    rcases List.mem_cons.1 he with rfl | he
    · simp
    · rw [List.eq_of_mem_replicate he]; simp
  · intro he
    rcases List.mem_cons.1 he with he | he
    · cases he
    · cases List.eq_of_mem_replicate he
  · simp

def overtaken : List Ev := [.go .ok, .go .ok, .start "t", .cancel "t", .finish 0, .start "t", .go .ok]

/-- **C104, violated**: the signal says the key only.  If the task has ended and another of its key
is taken before the signal is read, the new one is interrupted, although it was added after the
cancellation. -/
theorem C104_violated_successor : ¬ C104_whom := by
  intro h
  obtain ⟨pre, k, post, he, hr⟩ := h 1 overtaken 1 (by decide)
  have hall : ∀ n < 7, (match overtaken[n]? with
    | some (Ev.cancel k) => decide ((k, 1) ∈ (run 1
      (overtaken.take n)).running)
    | _ => false) = false := by decide
  have hlen : pre.length < 7 := by
    have := congrArg List.length he
    simp [overtaken] at this
    omega
  have := hall pre.length hlen
  rw [he] at this
  simp [Runs] at this hr
  exact this hr

end Docket.Listen
