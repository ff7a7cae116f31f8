import Verif.Props.C42_C60

/-!
# C110: the recorded outcome is the one the task had

What a task's record says about an execution (completed, failed, cancelled, or scheduled to run
again), against what its function did: it returned, raised, or was cancelled.
-/
namespace Docket.Execute

/-- What was recorded about the execution, in order. -/
def records (l : List Eff) : List Eff := l.filter Eff.settles

/-- What may be recorded about a task whose function did this.  `blocked` is the exception with
which an admission rule turns a task away, which a task can raise too: it is then dropped or run
again later, as it says. -/
inductive Says : BodyOut → Eff → Prop
  | returned (isNone r : Bool) : Says (.returned isNone) (.completed r)
  | failed (e : Err) : Says (.raised e) .failed
  | again (e : Err) : Says (.raised e) .rescheduled
  | dropped (h : Bool) : Says (.raised (.blocked h false)) .cancelled
  | cancelled : Says .cancelled .cancelled

/-- The full statement of C110. -/
def C110_statement : Prop :=
  ∀ (w : World) (kw : List (String × Val)), Eff.called kw ∈ (settle w).1 →
    ∀ e ∈ records (settle w).1, Says (w.body kw) e

theorem mem_records {l : List Eff} {e : Eff} : e ∈ records l ↔ e ∈ l ∧ e.settles = true := List.mem_filter

/-- What the block does once the function is called. -/
def called (w : World) (kw : List (String × Val)) (args : List (String × Slot)) : List Eff × Out :=
  match w.body kw with
  | .cancelled => ([.called kw], .cancelled)
  | .raised e => ([.called kw], .raised e)
  | .returned n => (.called kw :: (finish w args n).1, (finish w args n).2)

theorem block_is_called {w : World} {args : List (String × Slot)} {kw : List (String × Val)}
    (h : Eff.called kw ∈ (block w args).1) : block w args = called w kw args := by
  simp only [block] at h ⊢
  split at h
  · simp at h
  · split at h
    · simp at h
    · next hf =>
      rw [if_neg hf]
      split at h
      · simp at h
      · next hcl =>
        rw [if_neg hcl]
        have hkw : finalKwargs w args = kw := by
          cases hbb : w.body (finalKwargs w args) with
          | cancelled => rw [hbb] at h; simp at h; exact h.symm
          | raised e => rw [hbb] at h; simp at h; exact h.symm
          | returned b =>
            rw [hbb] at h
            simp only [List.mem_cons, Eff.called.injEq] at h
            rcases h with h | h
            · exact h.symm
            · exact absurd rfl ((finish_effs _ _ _ _ h).1 kw)
        rw [hkw]
        simp only [called]
        cases w.body kw <;> rfl

theorem execute_called {w : World} {kw : List (String × Val)} (h : Eff.called kw ∈ (settle w).1) :
    w.claimed = true ∧ inner w = called w kw (resolve w).args ∧
    (execute w).1 = (resolve w).opened.map .opened ++ (inner w).1 ++ (resolve w).opened.reverse.map .closed ++ (tailEffs w).1 ∧
    (execute w).2 = (tailEffs w).2 ∧ tailEffs w = outer w (resolve w).args (after w) := by
  obtain ⟨post, h1, _, h2⟩ := settle_extends w
  rw [h1] at h
  have h : Eff.called kw ∈ (execute w).1 := (List.mem_append.1 h).resolve_right (h2 kw)
  obtain ⟨c1, c2, c3, c4⟩ := called_inner h
  have hi : inner w = called w kw (resolve w).args := by
    unfold inner
    simp only [c3, Bool.false_eq_true, if_false]
    exact block_is_called c4
  refine ⟨c2, hi, ?_, ?_, ?_⟩
  · rw [execute_claimed c1 c2]
  · rw [execute_claimed c1 c2]
  · simp [tailEffs, c3]

/-- What the records of the whole are made of. -/
theorem records_settle {w : World} {kw : List (String × Val)} (h : Eff.called kw ∈ (settle w).1) {e : Eff}
    (he : e ∈ records (settle w).1) :
    e ∈ records (inner w).1 ∨ e ∈ records (tailEffs w).1 ∨
    (∃ a, (tailEffs w).2 = .blocked false a ∧ e = if a then .rescheduled else .cancelled) ∨
    (e = .failed ∧ (tailEffs w).2 = .finished ∧ records (inner w).1 = [] ∧ records (tailEffs w).1 = []) := by
  obtain ⟨hc, _, h1, h2, _⟩ := execute_called h
  have hex : ∀ {e}, e ∈ records (execute w).1 → e ∈ records (inner w).1 ∨ e ∈ records (tailEffs w).1 := by
    intro e he
    rw [mem_records, h1] at he
    obtain ⟨he, hs⟩ := he
    simp only [List.mem_append, List.mem_map] at he
    rcases he with ((⟨r, _, rfl⟩ | he) | ⟨r, _, rfl⟩) | he
    · cases hs
    · exact .inl (mem_records.2 ⟨he, hs⟩)
    · cases hs
    · exact .inr (mem_records.2 ⟨he, hs⟩)
  have hnet : ∀ l, e ∈ records (safetyNet w l) → e ∈ records l ∨ (e = .failed ∧ records l = []) := by
    intro l hl
    unfold safetyNet at hl
    split at hl
    · exact .inl hl
    · next hn =>
      rw [mem_records, List.mem_append, List.mem_singleton] at hl
      rcases hl.1 with h | h
      · exact .inl (mem_records.2 ⟨h, hl.2⟩)
      · refine .inr ⟨h, ?_⟩
        simp only [hc, Bool.not_true, Bool.or_false, List.any_eq_true, not_exists, not_and] at hn
        exact List.filter_eq_nil_iff.2 hn
  simp only [settle] at he
  cases hf : (execute w).2 with
  | propagated x =>
    simp only [hf] at he
    rcases hex he with h | h
    · exact .inl h
    · exact .inr (.inl h)
  | finished =>
    simp only [hf] at he
    rcases hnet _ he with h | ⟨rfl, h⟩
    · rcases hex h with h | h
      · exact .inl h
      · exact .inr (.inl h)
    · refine .inr (.inr (.inr ⟨rfl, by rw [← h2, hf], ?_⟩))
      have hr : records (execute w).1 = [] := h
      rw [h1] at hr
      simp only [records, List.filter_append, List.append_eq_nil_iff] at hr
      exact ⟨hr.1.1.2, hr.2⟩
  | blocked a b =>
    cases a with
    | true =>
      simp only [hf] at he
      rcases hex he with h | h
      · exact .inl h
      · exact .inr (.inl h)
    | false =>
      have key : ∀ x : Eff, x.settles = true → e ∈ records (safetyNet w ((execute w).1 ++ [x])) →
          e ∈ records (execute w).1 ∨ e = x := by
        intro x hx hl
        rcases hnet _ hl with h | ⟨_, h⟩
        · rw [mem_records, List.mem_append, List.mem_singleton] at h
          rcases h.1 with h' | h'
          · exact .inl (mem_records.2 ⟨h', h.2⟩)
          · exact .inr h'
        · simp [records, List.filter_append, hx] at h
      cases b with
      | true =>
        simp only [hf] at he
        rcases key _ rfl he with h | h
        · rcases hex h with h | h
          · exact .inl h
          · exact .inr (.inl h)
        · exact .inr (.inr (.inl ⟨true, by rw [← h2, hf], h⟩))
      | false =>
        simp only [hf] at he
        rcases key _ rfl he with h | h
        · rcases hex h with h | h
          · exact .inl h
          · exact .inr (.inl h)
        · exact .inr (.inr (.inl ⟨false, by rw [← h2, hf], h⟩))

/-- What the `except` clauses record. -/
theorem outer_records (w : World) (args : List (String × Slot)) (out : Out) {e : Eff}
    (he : e ∈ records (outer w args out).1) :
    (out = .cancelled ∧ e = .cancelled) ∨ (∃ x, out = .raised (.other x) ∧ (e = .failed ∨ e = .rescheduled)) := by
  have hr : ∀ e ∈ records (recordFailure w).1, e = .failed := by
    intro e he
    rw [mem_records] at he
    simp only [recordFailure] at he
    split at he
    · simpa using he.1
    · split at he
      · simp at he
      · obtain ⟨h, hs⟩ := he
        simp only [List.mem_cons, List.not_mem_nil, or_false] at h
        rcases h with rfl | rfl
        · cases hs
        · rfl
  have hn : ∀ e ∈ records (notRetried w args).1, e = .failed := by
    intro e he
    simp only [notRetried] at he
    split at he
    · exact hr e he
    · split at he
      · rw [mem_records, List.mem_singleton] at he; obtain ⟨rfl, hs⟩ := he; cases hs
      · rw [mem_records, List.mem_cons] at he
        rcases he with ⟨rfl | h, hs⟩
        · cases hs
        · exact hr e (mem_records.2 ⟨h, hs⟩)
  cases out with
  | done => simp [outer, records] at he
  | cancelled => simp only [outer, mem_records, List.mem_singleton] at he; exact .inl ⟨rfl, he.1⟩
  | raised x =>
    cases x with
    | blocked a b => simp [outer, records] at he
    | other x =>
      refine .inr ⟨x, rfl, ?_⟩
      simp only [outer, onError] at he
      split at he
      · exact .inl (hn e he)
      · split at he
        · rw [mem_records, List.mem_append, List.mem_singleton] at he
          rcases he with ⟨rfl | h, hs⟩
          · cases hs
          · split at h
            · exact .inr (List.mem_singleton.1 h)
            · simp at h
        · rw [mem_records, List.mem_singleton] at he; obtain ⟨rfl, hs⟩ := he; cases hs
        · rw [mem_records, List.mem_cons] at he
          rcases he with ⟨rfl | h, hs⟩
          · cases hs
          · exact .inl (hn e (mem_records.2 ⟨h, hs⟩))

/-- What completing records: completion, and nothing else; and unless something raises, that. -/
theorem finish_records (w : World) (args : List (String × Slot)) (n : Bool) :
    (∀ e ∈ records (finish w args n).1, ∃ b, e = .completed b) ∧
    ((∀ v x, w.onSuccess v ≠ .raised x) → (n = false → w.ttl = true → w.storeFails = none) →
      (finish w args n).2 = .done ∧ ∃ b, records (finish w args n).1 = [.completed b]) := by
  have hc : (∀ e ∈ records (complete w n).1, ∃ b, e = .completed b) ∧
      ((n = false → w.ttl = true → w.storeFails = none) →
        (complete w n).2 = .done ∧ ∃ b, records (complete w n).1 = [.completed b]) := by
    simp only [complete]
    split
    · exact ⟨fun e he => ⟨false, by simpa using (mem_records.1 he).1⟩, fun _ => ⟨rfl, false, rfl⟩⟩
    · next hb =>
      simp only [Bool.or_eq_true, Bool.not_eq_true', not_or, Bool.not_eq_true, Bool.not_eq_false] at hb
      split
      · next x hx => exact ⟨by simp [records], fun h => by rw [h hb.1 hb.2] at hx; cases hx⟩
      · refine ⟨fun e he => ⟨true, by have h := mem_records.1 he; simp only [List.mem_cons, List.not_mem_nil, or_false] at h; rcases h with ⟨rfl | rfl, hs⟩ <;> first | rfl | cases hs⟩, fun _ => ⟨rfl, true, rfl⟩⟩
  simp only [finish]
  split
  · exact ⟨hc.1, fun _ => hc.2⟩
  · next v _ =>
    split
    · exact ⟨fun e he => ⟨false, by have h := mem_records.1 he; simp only [List.mem_cons, List.not_mem_nil, or_false] at h; rcases h with ⟨rfl | rfl, hs⟩ <;> first | rfl | cases hs⟩, fun _ _ => ⟨rfl, false, rfl⟩⟩
    · refine ⟨fun e he => hc.1 e (by simpa [records, Eff.settles] using he), fun _ h => ⟨(hc.2 h).1, ?_⟩⟩
      obtain ⟨b, hb⟩ := (hc.2 h).2
      exact ⟨b, by simpa [records, Eff.settles] using hb⟩
    · next x hx => exact ⟨by simp [records, Eff.settles], fun h => absurd hx (h v x)⟩

theorem unwind_calm {exit : Res → Out → ExitOut} (hx : ∀ r o e, exit r o ≠ .raises e)
    (hc : ∀ r, exit r .cancelled ≠ .suppress) (rs : List Res) :
    (unwind exit rs .cancelled).2 = .cancelled := by
  induction rs with
  | nil => rfl
  | cons r rs ih =>
    simp only [unwind]
    cases he : exit r .cancelled with
    | pass => exact ih
    | suppress => exact absurd he (hc r)
    | raises e => exact absurd he (hx _ _ _)

/-- **C110, partial**: if the function of a task was called, what is recorded about the execution
is what the function did: completed only if it returned, failed or to be run again only if it
raised, and cancelled only if it was cancelled.  Assumed is that leaving the dependencies raises
nothing and swallows no cancellation, that a completion handler does not raise after the function
returned, and that its result, if it has one and results are kept, can be stored.  What happens
otherwise: `C110_violated_unstorable`, `C110_violated_swallowed`, and
`C60_violated_completed_then_failed`. -/
theorem C110_truthful_partial (w : World) (kw : List (String × Val)) (h : Eff.called kw ∈ (settle w).1)
    (hx : ∀ r o e, w.exit r o ≠ .raises e) (hc : ∀ r, w.exit r .cancelled ≠ .suppress)
    (ho : ∀ v e, w.onSuccess v ≠ .raised e)
    (hs : w.body kw = .returned false → w.ttl = true → w.storeFails = none) :
    ∀ e ∈ records (settle w).1, Says (w.body kw) e := by
  intro e he
  obtain ⟨_, hi, _, _, ht⟩ := execute_called h
  have hr := records_settle h he
  cases hb : w.body kw with
  | returned n =>
    obtain ⟨hf, b, hrec⟩ := (finish_records w (resolve w).args n).2 ho (fun hn => by rw [hn] at hb; exact hs hb)
    have hin : inner w = (.called kw :: (finish w (resolve w).args n).1, .done) := by
      rw [hi, called, hb]
      simp only [hf]
    have hri : records (inner w).1 = [.completed b] := by
      rw [hin]; simpa [records, Eff.settles] using hrec
    have haf : after w = .done := by
      unfold after
      rw [hin]
      rcases unwind_no_raise hx (resolve w).opened.reverse .done with h | h <;> exact h
    have htl : tailEffs w = ([], .finished) := by rw [ht, haf]; rfl
    rw [hri, htl] at hr
    rcases hr with h | h | ⟨a, h, _⟩ | ⟨_, _, h, _⟩
    · rw [List.mem_singleton.1 h]; exact .returned n b
    · simp [records] at h
    · cases h
    · cases h
  | cancelled =>
    have hin : inner w = ([.called kw], .cancelled) := by rw [hi, called, hb]
    have haf : after w = .cancelled := by
      unfold after
      rw [hin]
      exact unwind_calm hx hc _
    have htl : tailEffs w = ([.cancelled], .finished) := by rw [ht, haf]; rfl
    rw [hin, htl] at hr
    rcases hr with h | h | ⟨a, h, _⟩ | ⟨_, _, _, h⟩
    · simp [records, Eff.settles] at h
    · rw [List.mem_singleton.1 (mem_records.1 h).1]; exact .cancelled
    · cases h
    · simp [records, Eff.settles] at h
  | raised x =>
    have hin : inner w = ([.called kw], .raised x) := by rw [hi, called, hb]
    have haf : after w = .raised x ∨ after w = .done := by
      unfold after
      rw [hin]
      exact unwind_no_raise hx (resolve w).opened.reverse (.raised x)
    rw [hin] at hr
    rcases hr with h | h | ⟨a, h, rfl⟩ | ⟨rfl, _⟩
    · simp [records, Eff.settles] at h
    · rw [ht] at h
      rcases outer_records w _ _ h with ⟨h', _⟩ | ⟨y, _, rfl | rfl⟩
      · rw [h'] at haf; rcases haf with h | h <;> cases h
      · exact .failed x
      · exact .again x
    · rw [ht] at h
      rcases haf with h' | h'
      · rw [h'] at h
        cases x with
        | other y => exact absurd h ((onError_settled w _ _).2 false a)
        | blocked p q =>
          simp only [outer, Final.blocked.injEq] at h
          obtain ⟨rfl, rfl⟩ := h
          cases q with
          | true => exact .again _
          | false => exact .dropped _
      · rw [h'] at h; cases h
    · exact .failed x

/-- **C110**: whatever dependencies, handlers and storage do, an execution is recorded as
completed only if its function was called and returned. -/
theorem C110_completed_returned (w : World) (b : Bool) (h : Eff.completed b ∈ (settle w).1) :
    ∃ kw n, Eff.called kw ∈ (settle w).1 ∧ w.body kw = .returned n := by
  have hnet : ∀ l, Eff.completed b ∈ safetyNet w l → Eff.completed b ∈ l := by
    intro l hl
    unfold safetyNet at hl
    split at hl
    · exact hl
    · simpa using hl
  have hex : Eff.completed b ∈ (execute w).1 := by
    simp only [settle] at h
    cases hf : (execute w).2 with
    | finished => simp only [hf] at h; exact hnet _ h
    | propagated x => simp only [hf] at h; exact h
    | blocked p q =>
      cases p with
      | true => simp only [hf] at h; exact h
      | false =>
        cases q with
        | true => simp only [hf] at h; simpa using hnet _ h
        | false => simp only [hf] at h; simpa using hnet _ h
  obtain ⟨post, hp, _, _⟩ := settle_extends w
  suffices hh : ∃ kw n, Eff.called kw ∈ (execute w).1 ∧ w.body kw = .returned n by
    obtain ⟨kw, n, h1, h2⟩ := hh
    exact ⟨kw, n, by rw [hp]; exact List.mem_append_left _ h1, h2⟩
  cases hs : w.stricken with
  | true => simp [execute, hs] at hex
  | false =>
    cases hc : w.claimed with
    | false => simp [execute, hs, hc] at hex
    | true =>
      rw [execute_claimed hs hc] at hex ⊢
      simp only [List.mem_append, List.mem_map, reduceCtorEq, and_false, exists_false, false_or, or_false] at hex ⊢
      have ht : Eff.completed b ∉ (tailEffs w).1 := by
        intro ht
        rcases outer_records w _ _ (mem_records.2 ⟨ht, rfl⟩) with ⟨_, h⟩ | ⟨_, _, h | h⟩ <;> cases h
      have hin := hex.resolve_right ht
      suffices hh : ∃ kw n, Eff.called kw ∈ (inner w).1 ∧ w.body kw = .returned n by
        obtain ⟨kw, n, h1, h2⟩ := hh
        exact ⟨kw, n, .inl h1, h2⟩
      unfold inner at hin ⊢
      cases ha : (resolve w).aborted with
      | true => simp [ha] at hin
      | false =>
        simp only [ha, Bool.false_eq_true, if_false] at hin ⊢
        simp only [block] at hin ⊢
        split at hin
        · simp at hin
        · split at hin
          · simp at hin
          · next hf =>
            rw [if_neg hf]
            split at hin
            · simp at hin
            · next hcl =>
              rw [if_neg hcl]
              cases hbb : w.body (finalKwargs w (resolve w).args) with
              | cancelled => rw [hbb] at hin; simp at hin
              | raised e => rw [hbb] at hin; simp at hin
              | returned n => exact ⟨_, n, List.mem_cons_self .., hbb⟩

/-- **C110**: and under the conditions of `C110_truthful_partial` something is recorded, once,
unless an error goes on to the worker's loop, or the function turned itself away with an
exception that says that this was taken care of. -/
theorem C110_recorded_once (w : World) (kw : List (String × Val)) (h : Eff.called kw ∈ (settle w).1)
    (hx : ∀ r o e, w.exit r o ≠ .raises e) (hc : ∀ r, w.exit r .cancelled ≠ .suppress)
    (ho : ∀ v e, w.onSuccess v ≠ .raised e)
    (hs : w.body kw = .returned false → w.ttl = true → w.storeFails = none)
    (hb : ∀ q, w.body kw ≠ .raised (.blocked true q)) (hp : (settle w).2 = false) :
    ∃ e, records (settle w).1 = [e] ∧ Says (w.body kw) e := by
  obtain ⟨hcl, hi, _, h2, ht⟩ := execute_called h
  have hg : ¬ HandledByGate w := by
    rintro ⟨q, hq⟩
    rw [h2, ht] at hq
    have haf : after w = .raised (.blocked true q) := by
      cases hz : after w with
      | done => rw [hz] at hq; cases hq
      | cancelled => rw [hz] at hq; cases hq
      | raised e =>
        rw [hz] at hq
        cases e with
        | other y => exact absurd hq ((onError_settled w _ _).2 true q)
        | blocked p' q' => simp only [outer, Final.blocked.injEq] at hq; rw [hq.1, hq.2]
    have hin : (inner w).2 = .raised (.blocked true q) := by
      unfold after at haf
      rcases unwind_no_raise hx (resolve w).opened.reverse (inner w).2 with h | h
      · rw [← h]; exact haf
      · rw [h] at haf; cases haf
    rw [hi, called] at hin
    cases hbb : w.body kw with
    | cancelled => rw [hbb] at hin; cases hin
    | raised e =>
      rw [hbb] at hin
      simp only [Out.raised.injEq] at hin
      exact hb q (by rw [hbb, hin])
    | returned n =>
      rw [hbb] at hin
      simp only [((finish_records w (resolve w).args n).2 ho (fun hn => by rw [hn] at hbb; exact hs hbb)).1] at hin
      cases hin
  have hge := C60_never_forgotten w hp (.inr hcl) hg
  have hle := C60_settled_once_partial w hx
  have hlen : (records (settle w).1).length = 1 := Nat.le_antisymm hle hge
  obtain ⟨e, he⟩ := List.length_eq_one_iff.1 hlen
  exact ⟨e, he, C110_truthful_partial w kw h hx hc ho hs e (by rw [he]; exact List.mem_singleton_self _)⟩

/-- **C110**: in particular, a task whose function returned is not run again on account of that
run, and is recorded as completed and as nothing else. -/
theorem C110_success_is_final (w : World) (kw : List (String × Val)) (h : Eff.called kw ∈ (settle w).1) (n : Bool)
    (hb : w.body kw = .returned n)
    (hx : ∀ r o e, w.exit r o ≠ .raises e) (hc : ∀ r, w.exit r .cancelled ≠ .suppress)
    (ho : ∀ v e, w.onSuccess v ≠ .raised e)
    (hs : w.body kw = .returned false → w.ttl = true → w.storeFails = none) :
    Eff.rescheduled ∉ (settle w).1 ∧ Eff.failed ∉ (settle w).1 ∧ Eff.cancelled ∉ (settle w).1 ∧
      ∃ b, Eff.completed b ∈ (settle w).1 := by
  have ht := C110_truthful_partial w kw h hx hc ho hs
  rw [hb] at ht
  refine ⟨fun hm => ?_, fun hm => ?_, fun hm => ?_, ?_⟩
  · cases ht _ (mem_records.2 ⟨hm, rfl⟩)
  · cases ht _ (mem_records.2 ⟨hm, rfl⟩)
  · cases ht _ (mem_records.2 ⟨hm, rfl⟩)
  · obtain ⟨_, hi, h1, _, _⟩ := execute_called h
    obtain ⟨_, b, hrec⟩ := (finish_records w (resolve w).args n).2 ho (fun hn => by rw [hn] at hb; exact hs hb)
    have hm : Eff.completed b ∈ (finish w (resolve w).args n).1 :=
      (mem_records.1 (by rw [hrec]; exact List.mem_singleton_self _)).1
    obtain ⟨post, hp, _⟩ := settle_extends w
    refine ⟨b, ?_⟩
    rw [hp, h1, hi, called, hb]
    simp [hm]

/-- The hypotheses are met by a task with a dependency, a result and a `Retry`, and by one that
fails and is retried. -/
def returning : World :=
  { func := ⟨[], [("retry", .dep ⟨[3], .value ⟨"r", false, true, false⟩⟩)], []⟩
    body := fun _ => .returned false
    handleFailure := fun _ _ => .handled }

def raising : World := { returning with body := fun _ => .raised (.other "boom") }

example : Eff.called [("retry", ⟨"r", false, true, false⟩)] ∈ (settle returning).1 ∧
    records (settle returning).1 = [.completed true] ∧ (settle returning).2 = false := by decide +kernel
example : Eff.called [("retry", ⟨"r", false, true, false⟩)] ∈ (settle raising).1 ∧
    records (settle raising).1 = [.rescheduled] ∧ (settle raising).2 = false := by decide +kernel

/-- **C110, violated**: a task whose function returned a value that cannot be pickled, or that the
storage refuses, is never recorded as completed: the error of storing it is taken for an error of
the task (worker.py:1136-1148, 1179). -/
theorem C110_violated_unstorable_always (w : World) (kw : List (String × Val)) (x : Err)
    (h : Eff.called kw ∈ (settle w).1) (hb : w.body kw = .returned false)
    (ht : w.ttl = true) (hf : w.storeFails = some x) (ho : ∀ v, w.onSuccess v ≠ .handled) (b : Bool) :
    Eff.completed b ∉ (settle w).1 := by
  intro hm
  obtain ⟨_, hi, _, _, htl⟩ := execute_called h
  have hfin : records (finish w (resolve w).args false).1 = [] := by
    have hcomp : complete w false = ([], .raised x) := by simp [complete, ht, hf]
    simp only [finish]
    split
    · rw [hcomp]; rfl
    · split
      · next hv => exact absurd hv (ho _)
      · rw [hcomp]; rfl
      · rfl
  have hri : records (inner w).1 = [] := by
    rw [hi, called, hb]
    simpa [records, Eff.settles] using hfin
  rcases records_settle h (mem_records.2 ⟨hm, rfl⟩) with h | h | ⟨a, _, h⟩ | ⟨h, _⟩
  · rw [hri] at h; cases h
  · rw [htl] at h
    rcases outer_records w _ _ h with ⟨_, h⟩ | ⟨_, _, h | h⟩ <;> cases h
  · cases a <;> cases h
  · cases h

/-- **C110, violated**: such a task is recorded as failed. -/
theorem C110_violated_unstorable : ¬ C110_statement := by
  intro h
  have := h { func := ⟨[], [], []⟩, body := fun _ => .returned false, storeFails := some (.other "PicklingError") }
    [] (by decide +kernel) .failed (by decide +kernel)
  cases this

/-- **C110, violated**: and under a `Retry` it is run again, as often as the policy allows,
although it succeeded each time. -/
theorem C110_violated_success_is_retried :
    records (settle { returning with storeFails := some (.other "PicklingError") }).1 = [.rescheduled] ∧
    returning.body [("retry", ⟨"r", false, true, false⟩)] = .returned false := by
  decide +kernel

/-- **C110, violated**: a task that was cancelled while it ran is recorded as failed, if one of its
dependencies swallows the cancellation. -/
theorem C110_violated_swallowed :
    records (settle { returning with body := fun _ => .cancelled, exit := fun _ _ => .suppress }).1 = [.failed] := by
  decide +kernel

end Docket.Execute
