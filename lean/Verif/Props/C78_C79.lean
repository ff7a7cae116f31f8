import Verif.Views.Subscribe
import Verif.Props.C17_C18
/-
C78 A follower sees exactly the states the task goes through.
C79 get_result() returns only once the task has ended, and with its outcome.
-/
namespace Docket
open Redis Views

/-! ### Specification -/

/-- The list without consecutive repetitions. -/
def squeeze : List RunState → List RunState
  | [] => []
  | x :: l =>
    match squeeze l with
    | [] => [x]
    | y :: l' => if x = y then y :: l' else x :: y :: l'

/-- The states the record of `k` shows after each of `ops` (nothing while there is no
record). -/
def recordedAfter (cfg : Cfg) (k : Key) (s : Sys) : List Op → List RunState
  | [] => []
  | op :: ops => ((step cfg s op).r.stateOf k).toList ++ recordedAfter cfg k (step cfg s op) ops

/-- The states the record of `k` shows from `s` on, while `ops` happen. -/
def recordedStates (cfg : Cfg) (k : Key) (s : Sys) (ops : List Op) : List RunState :=
  (s.r.stateOf k).toList ++ recordedAfter cfg k s ops

/-- The step does not cancel a live `k`, and does not end a run of `k` that a newer schedule of
`k` has taken the place of. -/
def Loud (k : Key) (s : Sys) : Op → Prop
  | .cancel k' => k' = k → isTerminal (s.r.stateOf k) = true
  | .finish pid _ _ _ => ∀ p ∈ s.procs, p.pid = pid → p.msg.key = k → NothingNewer s p.msg
  | _ => True

instance (k : Key) (s : Sys) (op : Op) : Decidable (Loud k s op) := by
  cases op <;> unfold Loud <;> infer_instance

/-! ### Lemmas -/

theorem squeeze_cons (x : RunState) (l : List RunState) :
    squeeze (x :: x :: l) = squeeze (x :: l) := by
  simp only [squeeze]
  cases squeeze l with
  | nil => simp
  | cons y l' =>
    by_cases h : x = y
    · simp [h]
    · simp [h]

theorem squeeze_congr (x : RunState) {l l' : List RunState} (h : squeeze l = squeeze l') :
    squeeze (x :: l) = squeeze (x :: l') := by simp only [squeeze, h]

/-- What one step announces about `k`. -/
def newsOf (k : Key) (s s' : Sys) : List RunState :=
  ((newAnnounced s s').reverse.filter (fun x => x.key = k)).map (·.state)

theorem newAnnounced_append {l old : List Published} {s s' : Sys} (h : s.r.published = old)
    (h' : s'.r.published = l ++ old) : newAnnounced s s' = l := by
  simp only [newAnnounced, h, h']; simp

theorem newAnnounced_same {s s' : Sys} (h : s'.r.published = s.r.published) :
    newAnnounced s s' = [] := newAnnounced_append (l := []) rfl (by simpa using h)

theorem newAnnounced_one {s s' : Sys} {x : Published} (h : s'.r.published = x :: s.r.published) :
    newAnnounced s s' = [x] := newAnnounced_append (l := [x]) rfl (by simpa using h)

theorem newAnnounced_trans (cfg : Cfg) (s : Sys) (hw : WF s) (op : Op) (ops : List Op) :
    newAnnounced s (runFrom cfg (step cfg s op) ops) =
      newAnnounced (step cfg s op) (runFrom cfg (step cfg s op) ops) ++
        newAnnounced s (step cfg s op) := by
  obtain ⟨l1, h1, _⟩ := announced_runFrom cfg [op] hw
  obtain ⟨l2, h2, _⟩ := announced_runFrom cfg ops (hw.step (cfg := cfg) op)
  simp only [runFrom_cons, runFrom_nil] at h1
  rw [newAnnounced_append rfl h2, newAnnounced_append rfl h1]
  exact newAnnounced_append (l := l2 ++ l1) rfl (by rw [h2, h1, List.append_assoc])

theorem newsOf_cons (cfg : Cfg) (k : Key) (s : Sys) (hw : WF s) (op : Op) (ops : List Op) :
    newsOf k s (runFrom cfg s (op :: ops)) =
      newsOf k s (step cfg s op) ++ newsOf k (step cfg s op) (runFrom cfg s (op :: ops)) := by
  simp only [newsOf, runFrom_cons, newAnnounced_trans cfg s hw op ops]
  simp

theorem newsOf_self (k : Key) (s : Sys) : newsOf k s s = [] := by
  simp [newsOf, newAnnounced_same]

/-- The state of `k` after the step is what was announced about it; if nothing was, it is as
before, or there is no record any more. -/
def Truthful (k : Key) (s s' : Sys) : Prop :=
  (newsOf k s s' = [] ∧ (s'.r.stateOf k = s.r.stateOf k ∨ s'.r.stateOf k = none)) ∨
  ∃ y, newsOf k s s' = [y] ∧ s'.r.stateOf k = some y

theorem truthful_quiet {k : Key} {s s' : Sys} (h : s'.r.published = s.r.published)
    (h2 : s'.r.stateOf k = s.r.stateOf k ∨ s'.r.stateOf k = none) : Truthful k s s' :=
  Or.inl ⟨by simp [newsOf, newAnnounced_same h], h2⟩

theorem truthful_same {k : Key} {s s' : Sys} (h : s'.r.published = s.r.published)
    (h2 : s'.r.runs = s.r.runs) : Truthful k s s' :=
  truthful_quiet h (Or.inl (by simp [Redis.stateOf, h2]))

theorem truthful_one {k k' : Key} {st : RunState} {s s' : Sys} {v : Run}
    (h : s'.r.published = ⟨k', st⟩ :: s.r.published)
    (h2 : s'.r.runs = upd s.r.runs k' (some v)) (hv : v.state = some st) : Truthful k s s' := by
  by_cases hk : k' = k
  · subst hk
    exact Or.inr ⟨st, by simp [newsOf, newAnnounced_one h], by simp [Redis.stateOf, h2, hv]⟩
  · refine Or.inl ⟨by simp [newsOf, newAnnounced_one h, hk], Or.inl ?_⟩
    simp [Redis.stateOf, h2, upd_other _ _ _ _ (Ne.symm hk)]

theorem expiredRun_state (ttl : Nat) (r : Redis) (k : Key) :
    (expiredRun ttl r k).bind (·.state) = r.stateOf k ∨ (expiredRun ttl r k).bind (·.state) = none := by
  simp only [expiredRun, Redis.stateOf]
  split
  · cases r.runs k <;> simp
  · simp

theorem queued_news (k : Key) {l : List Key} (hn : l.Nodup) :
    ((l.map (fun k => (⟨k, .queued⟩ : Published))).filter (fun x => x.key = k)).map (·.state) =
      if k ∈ l then [.queued] else [] := by
  induction l with
  | nil => rfl
  | cons a l ih =>
    obtain ⟨h1, h2⟩ := List.nodup_cons.1 hn
    have ih := ih h2
    by_cases ha : a = k
    · subst ha
      simp only [h1, if_false] at ih
      simp [ih]
    · simp [ha, ih, Ne.symm ha]

theorem Loud.truthful (cfg : Cfg) (httl : 0 < cfg.ttl) {k : Key} {s : Sys} (hw : WF s) {op : Op}
    (h : Loud k s op) : Truthful k s (step cfg s op) := by
  have he := step_eff cfg s hw.queue op
  generalize step cfg s op = s' at he
  cases he with
  | tick d =>
    refine truthful_quiet rfl ?_
    rcases advance_runs s.r d k with h1 | h1
    · exact Or.inr (by simp [Redis.stateOf, h1])
    · exact Or.inl (by simp [Redis.stateOf, h1])
  | addNow | replaceNow | addLater | replaceLater | claim | rescheduleNow | rescheduleLater =>
    exact truthful_one rfl rfl rfl
  | cancel k' =>
    refine truthful_quiet rfl (Or.inl ?_)
    by_cases hkk : k' = k
    · subst hkk
      have h0 := h rfl
      obtain ⟨st, h1, h2⟩ : ∃ st, s.r.stateOf k' = some st ∧ st.terminal = true := by
        revert h0
        cases s.r.stateOf k' with
        | none => simp [isTerminal]
        | some st => intro h0; exact ⟨st, rfl, h0⟩
      simp only [Redis.stateOf, upd_same, Option.bind_some]
      have hc : cancelRun s.r k' = { s.r.run k' with known := none, streamId := none } := by
        simp only [cancelRun, h1]
        cases st <;> first | rfl | (simp [RunState.terminal] at h2)
      rw [hc]
      cases hr : s.r.runs k' with
      | none => simp [Redis.stateOf, hr] at h1
      | some v => simp [Redis.run, hr]
    · simp [Redis.stateOf, upd_other _ _ _ _ (Ne.symm hkk)]
  | cancelTtl k' hk =>
    refine truthful_quiet rfl ?_
    by_cases hkk : k' = k
    · subst hkk
      simpa [Redis.stateOf] using expiredRun_state cfg.ttl s.r k'
    · left; simp [Redis.stateOf, upd_other _ _ _ _ (Ne.symm hkk)]
  | clear op' j js hop =>
    refine truthful_quiet rfl ?_
    simp only [Redis.stateOf]
    split
    · exact expiredRun_state cfg.ttl s.r k
    · exact Or.inl rfl
  | schedule t ht =>
    have hn := dueKeys_nodup hw.queue t
    have hnews : newsOf k s { s with
      r := { s.r with
        nextId := s.r.nextId + ((dueKeys s.r t).filterMap s.r.parked).length
        stream := s.r.stream ++ numbered s.r.nextId ((dueKeys s.r t).filterMap s.r.parked)
        parked := fun k => if k ∈ dueKeys s.r t then none else s.r.parked k
        queue := s.r.queue.filter (fun e => ¬ e.2 ≤ t)
        runs := fun k => if k ∈ dueKeys s.r t then
          some { s.r.run k with state := some .queued } else s.r.runs k
        published := ((dueKeys s.r t).map (fun k => ⟨k, .queued⟩)).reverse ++ s.r.published } } =
        if k ∈ dueKeys s.r t then [.queued] else [] := by
      rw [newsOf, newAnnounced_append rfl rfl, List.reverse_reverse, queued_news k hn]
    by_cases hk : k ∈ dueKeys s.r t
    · exact Or.inr ⟨.queued, by rw [hnews]; simp [hk], by simp [Redis.stateOf, hk]⟩
    · exact Or.inl ⟨by rw [hnews]; simp [hk], Or.inl (by simp [Redis.stateOf, hk])⟩
  | strikeOut p hp hph =>
    refine truthful_quiet rfl (Or.inl ?_)
    by_cases hkk : p.msg.key = k
    · subst hkk
      simp only [Redis.stateOf, upd_same]
      cases s.r.runs p.msg.key <;> rfl
    · simp [Redis.stateOf, upd_other _ _ _ _ (Ne.symm hkk)]
  | finish p st e w hp hph hs =>
    simp only [gt_iff_lt, httl, if_true]
    exact truthful_one rfl rfl rfl
  | finishSuperseded p st e w hp hph hs =>
    by_cases hkk : p.msg.key = k
    · have := (h p hp rfl hkk).notSuperseded
      simp [this] at hs
    · refine Or.inl ⟨?_, Or.inl rfl⟩
      rw [newsOf, newAnnounced_one rfl]
      simp [hkk]
  | _ => exact truthful_same rfl rfl

theorem squeeze_follow (cfg : Cfg) (httl : 0 < cfg.ttl) (k : Key) (ops : List Op) :
    ∀ (s : Sys) (x : RunState), WF s → (s.r.stateOf k = some x ∨ s.r.stateOf k = none) →
      EachStep cfg (Loud k) s ops →
      squeeze (x :: newsOf k s (runFrom cfg s ops)) = squeeze (x :: recordedAfter cfg k s ops) ∧
      ∀ y, (runFrom cfg s ops).r.stateOf k = some y →
        (x :: newsOf k s (runFrom cfg s ops)).getLast? = some y := by
  induction ops with
  | nil =>
    intro s x _ hx _
    rw [runFrom_nil, newsOf_self]
    refine ⟨rfl, fun y hy => ?_⟩
    rcases hx with h | h <;> simp_all
  | cons op ops ih =>
    intro s x hw hx hl
    rw [newsOf_cons cfg k s hw, recordedAfter]
    simp only [runFrom_cons]
    rcases hl.1.truthful cfg httl hw with ⟨h1, h2⟩ | ⟨y, h1, h2⟩
    · rw [h1]
      have hx' : (step cfg s op).r.stateOf k = some x ∨ (step cfg s op).r.stateOf k = none := by
        rcases h2 with h2 | h2
        · rw [h2]; exact hx
        · exact Or.inr h2
      obtain ⟨h3, h4⟩ := ih _ x (hw.step op) hx' hl.2
      refine ⟨?_, h4⟩
      rcases hx' with h | h
      · rw [h]
        simp only [List.nil_append, Option.toList_some, List.singleton_append, squeeze_cons]
        exact h3
      · rw [h]; exact h3
    · rw [h1, h2]
      obtain ⟨h3, h4⟩ := ih _ y (hw.step op) (Or.inl h2) hl.2
      refine ⟨squeeze_congr x h3, fun z hz => ?_⟩
      have := h4 z hz
      simpa [List.getLast?_cons_cons] using this

theorem newsOf_nil_iff (k : Key) (s s' : Sys) :
    newsOf k s s' = [] ↔ ∀ x ∈ newAnnounced s s', x.key ≠ k := by
  simp [newsOf, List.filter_eq_nil_iff]

theorem newsOf_append (cfg : Cfg) (k : Key) (s : Sys) (hw : WF s) (as bs : List Op) :
    newsOf k s (runFrom cfg s (as ++ bs)) =
      newsOf k s (runFrom cfg s as) ++
        newsOf k (runFrom cfg s as) (runFrom cfg s (as ++ bs)) := by
  induction as generalizing s with
  | nil => simp [newsOf_self]
  | cons a as ih =>
    have h1 := newsOf_cons cfg k s hw a (as ++ bs)
    have h2 := newsOf_cons cfg k s hw a as
    have h3 := ih (step cfg s a) (hw.step a)
    simp only [List.cons_append, runFrom_cons] at *
    rw [h1, h2, h3, List.append_assoc]

/-! ### C78 -/

/-- C78 in full: whoever follows an accepted task is shown the states its record goes through
from the first look on, in order and none left out. -/
def C78_statement : Prop :=
  ∀ (cfg : Cfg) (ops gap after : List Op) (k : Key),
    let s1 := run cfg ops
    let s2 := runFrom cfg s1 gap
    let s3 := runFrom cfg s2 after
    0 < cfg.ttl → (∃ m, m.key = k ∧ Event.accepted m ∈ s1.log) →
    squeeze (statesSeen k s1 s2 s3) = squeeze (recordedStates cfg k s1 (gap ++ after))

/-- C78.  In every history: if the task has a record when the follower first looks, nothing is
announced about it until the subscription is live, and while it is followed nobody cancels it
and no run of it ends that a newer schedule has taken the place of, then the follower sees
exactly the states the record goes through, up to repetitions.  Partial: see the violations for
each of these conditions. -/
theorem C78_sees_partial (cfg : Cfg) (ops gap after : List Op) (k : Key) (httl : 0 < cfg.ttl)
    (hrec : ((run cfg ops).r.stateOf k).isSome)
    (hgap : ∀ x ∈ newAnnounced (run cfg ops) (runFrom cfg (run cfg ops) gap), x.key ≠ k)
    (hloud : EachStep cfg (Loud k) (run cfg ops) (gap ++ after)) :
    squeeze (statesSeen k (run cfg ops) (runFrom cfg (run cfg ops) gap)
      (runFrom cfg (run cfg ops) (gap ++ after))) =
    squeeze (recordedStates cfg k (run cfg ops) (gap ++ after)) := by
  obtain ⟨x, hx⟩ := Option.isSome_iff_exists.1 hrec
  have hw := WF.run cfg ops
  have := (squeeze_follow cfg httl k (gap ++ after) _ x hw (Or.inl hx) hloud).1
  rw [newsOf_append cfg k _ hw, (newsOf_nil_iff k _ _).2 hgap] at this
  simpa [statesSeen, syncedState, recordedStates, hx, newsOf] using this

/-- C78, the present: under the same conditions the last state the follower has been shown is
the state the record has now. -/
theorem C78_current_partial (cfg : Cfg) (ops gap after : List Op) (k : Key) (httl : 0 < cfg.ttl)
    (hrec : ((run cfg ops).r.stateOf k).isSome)
    (hgap : ∀ x ∈ newAnnounced (run cfg ops) (runFrom cfg (run cfg ops) gap), x.key ≠ k)
    (hloud : EachStep cfg (Loud k) (run cfg ops) (gap ++ after)) (y : RunState)
    (hy : (runFrom cfg (run cfg ops) (gap ++ after)).r.stateOf k = some y) :
    (statesSeen k (run cfg ops) (runFrom cfg (run cfg ops) gap)
      (runFrom cfg (run cfg ops) (gap ++ after))).getLast? = some y := by
  obtain ⟨x, hx⟩ := Option.isSome_iff_exists.1 hrec
  have hw := WF.run cfg ops
  have := (squeeze_follow cfg httl k (gap ++ after) _ x hw (Or.inl hx) hloud).2 y hy
  rw [newsOf_append cfg k _ hw, (newsOf_nil_iff k _ _).2 hgap] at this
  simpa [statesSeen, syncedState, hx, newsOf] using this

/-- The conditions hold of a task that is scheduled, runs, is retried, runs again, is replaced
while it waits, and completes; the follower sees nine states. -/
example :
    let cfg : Cfg := ⟨10, 3⟩
    let ops : List Op := [.add "k" ⟨"f", "a", "b", 2, 1⟩ 0]
    let gap : List Op := [.add "j" ⟨"f", "a", "b", 0, 1⟩ 0]
    let after : List Op := [.tick 2, .schedule 2, .poll "w" 2, .claim 1, .reschedule 1 2 2 2,
      .poll "w" 1, .claim 2, .reschedule 2 9 3 2, .replace "k" ⟨"f", "c", "b", 0, 1⟩ 2,
      .poll "w" 1, .claim 3, .finish 3 .completed none false, .cancel "k", .cancelTtl "k"]
    ((run cfg ops).r.stateOf "k").isSome ∧
    (∀ x ∈ newAnnounced (run cfg ops) (runFrom cfg (run cfg ops) gap), x.key ≠ "k") ∧
    EachStep cfg (Loud "k") (run cfg ops) (gap ++ after) ∧
    squeeze (statesSeen "k" (run cfg ops) (runFrom cfg (run cfg ops) gap)
      (runFrom cfg (run cfg ops) (gap ++ after))) =
      [.scheduled, .queued, .running, .queued, .running, .scheduled, .queued, .running,
       .completed] := by
  decide +kernel

/-- C78, each event by itself: in every state, whatever happens to the task, the state that is
announced is the one the record then has, unless a run that a newer schedule has taken the place
of ends. -/
theorem C78_event_true_partial (cfg : Cfg) (ops : List Op) (op : Op) (k : Key) (y : RunState)
    (httl : 0 < cfg.ttl)
    (hfin : ∀ p ∈ (run cfg ops).procs, p.msg.key = k →
      (∃ st e w, op = .finish p.pid st e w) → NothingNewer (run cfg ops) p.msg)
    (hy : (⟨k, y⟩ : Published) ∈ newAnnounced (run cfg ops) (run cfg (ops ++ [op]))) :
    (run cfg (ops ++ [op])).r.stateOf k = some y := by
  have hw := WF.run cfg ops
  have hr : run cfg (ops ++ [op]) = step cfg (run cfg ops) op := by simp [run, runFrom_append]
  rw [hr] at hy ⊢
  have main : Loud k (run cfg ops) op →
      (step cfg (run cfg ops) op).r.stateOf k = some y := by
    intro hl
    have hmem : y ∈ newsOf k (run cfg ops) (step cfg (run cfg ops) op) := by
      simp only [newsOf, List.mem_map, List.mem_filter, List.mem_reverse]
      exact ⟨_, ⟨hy, by simp⟩, rfl⟩
    rcases hl.truthful cfg httl hw with ⟨h1, _⟩ | ⟨z, h1, h2⟩
    · rw [h1] at hmem; cases hmem
    · rw [h1, List.mem_singleton] at hmem; rw [hmem, h2]
  cases op with
  | cancel k' =>
    have : newAnnounced (run cfg ops) (step cfg (run cfg ops) (.cancel k')) = [] := by
      apply newAnnounced_same
      simp [step, doCancel, luaCancel_eq]
    rw [this] at hy; cases hy
  | finish pid st e w =>
    exact main (fun p hp h1 h2 => hfin p hp h2 ⟨st, e, w, by rw [h1]⟩)
  | _ => exact main trivial

/-- Announcements do occur, also about a task that is replaced while it runs. -/
example : (⟨"k", .queued⟩ : Published) ∈ newAnnounced
    (run ⟨10, 3⟩ [.add "k" ⟨"f", "a", "b", 0, 1⟩ 0, .poll "w" 1, .claim 0])
    (run ⟨10, 3⟩ ([.add "k" ⟨"f", "a", "b", 0, 1⟩ 0, .poll "w" 1, .claim 0] ++
      [.replace "k" ⟨"f", "c", "b", 0, 1⟩ 0])) := by decide +kernel

/-- The code violates C78: what happens between the first look and the acknowledgement of the
SUBSCRIBE is never shown (execution.py:1121-1155). -/
theorem C78_violated_gap : ¬ C78_statement := by
  intro h
  have := h ⟨10, 3⟩ [.add "k" ⟨"f", "a", "b", 0, 1⟩ 0, .poll "w" 1] [.claim 0] [] "k"
    (by decide) ⟨⟨"k", ⟨"f", "a", "b", 0, 1⟩, 1⟩, rfl, by decide +kernel⟩
  revert this
  decide +kernel

/-- The code violates C78: cancelling is recorded and not announced (docket.py:753-777). -/
theorem C78_violated_cancel : ¬ C78_statement := by
  intro h
  have := h ⟨10, 3⟩ [.add "k" ⟨"f", "a", "b", 0, 1⟩ 0] [] [.cancel "k"] "k"
    (by decide) ⟨⟨"k", ⟨"f", "a", "b", 0, 1⟩, 1⟩, rfl, by decide +kernel⟩
  revert this
  decide +kernel

/-- The code violates C78: when a replaced run ends, its end is announced as the end of the task
that replaced it (execution.py:321-393, 880-930), which is still waiting in the queue. -/
theorem C78_violated_superseded : ¬ C78_statement := by
  intro h
  have := h ⟨10, 3⟩ [.add "k" ⟨"f", "a", "b", 0, 1⟩ 0, .poll "w" 1, .claim 0,
      .replace "k" ⟨"f", "c", "b", 0, 1⟩ 0] [] [.finish 0 .completed none true] "k"
    (by decide) ⟨⟨"k", ⟨"f", "a", "b", 0, 1⟩, 1⟩, rfl, by decide +kernel⟩
  revert this
  decide +kernel

/-- The code violates C78: a task that ended and whose record has expired is shown as
scheduled (execution.py:1061-1063). -/
theorem C78_violated_expired : ¬ C78_statement := by
  intro h
  have := h ⟨10, 3⟩ [.add "k" ⟨"f", "a", "b", 0, 1⟩ 0, .poll "w" 1, .claim 0,
      .finish 0 .completed none true, .tick 10] [] [] "k"
    (by decide) ⟨⟨"k", ⟨"f", "a", "b", 0, 1⟩, 1⟩, rfl, by decide +kernel⟩
  revert this
  decide +kernel

/-! ### C79 -/

/-- C79 in full: if `get_result` returns or raises, then at some moment between the call and its
end the record of the task showed that it had ended, and the answer is the outcome it had
then. -/
def C79_statement : Prop :=
  ∀ (cfg : Cfg) (ops gap wait lag : List Op) (k : Key) (o : Outcome),
    let s1 := run cfg ops
    let s2 := runFrom cfg s1 gap
    let s3 := runFrom cfg s2 wait
    let s4 := runFrom cfg s3 lag
    0 < cfg.ttl → (s1.r.stateOf k).isSome → getResultCall k s1 s2 s3 s4 = some o →
    ∃ n ≤ (gap ++ wait ++ lag).length,
      getResult (runFrom cfg s1 ((gap ++ wait ++ lag).take n)) k = o ∧ o ≠ .pending

/-- Reading the record and then the result, when the record shows that the task has ended. -/
theorem answer_eq {k : Key} {s3 s4 : Sys} (h : isTerminal (s3.r.stateOf k) = true)
    (hres : s4.results = s3.results) :
    answer (s3.r.runs k) s4 = getResult s3 k ∧ getResult s3 k ≠ .pending := by
  have hs : ∀ v, storedResult s4 v = storedResult s3 v := fun v => by
    simp only [storedResult, hres]
  cases hr : s3.r.runs k with
  | none => simp [Redis.stateOf, hr, isTerminal] at h
  | some v =>
    simp only [Redis.stateOf, hr, Option.bind_some] at h
    simp only [answer, getResult, hr, hs]
    cases hv : v.state with
    | none => simp [hv, isTerminal] at h
    | some st =>
      cases st <;> simp [hv, isTerminal, RunState.terminal] at h ⊢ <;>
        cases storedResult s3 v <;> simp

/-- C79.  In every history: if `get_result` follows a task as in C78, the last state it has been
shown when it goes back to the record is a terminal one, the record has not expired by then and
no result is stored, overwritten or expires while it fetches the result, then it returns the
outcome the task has at that moment.  Partial: see the violations. -/
theorem C79_outcome_partial (cfg : Cfg) (ops gap wait lag : List Op) (k : Key)
    (httl : 0 < cfg.ttl) (hrec : ((run cfg ops).r.stateOf k).isSome)
    (hgap : ∀ x ∈ newAnnounced (run cfg ops) (runFrom cfg (run cfg ops) gap), x.key ≠ k)
    (hloud : EachStep cfg (Loud k) (run cfg ops) (gap ++ wait))
    (hlast : isTerminal (statesSeen k (run cfg ops) (runFrom cfg (run cfg ops) gap)
      (runFrom cfg (run cfg ops) (gap ++ wait))).getLast? = true)
    (hthere : ((runFrom cfg (run cfg ops) (gap ++ wait)).r.stateOf k).isSome)
    (hlag : (runFrom cfg (run cfg ops) (gap ++ wait ++ lag)).results =
      (runFrom cfg (run cfg ops) (gap ++ wait)).results) :
    getResultCall k (run cfg ops) (runFrom cfg (run cfg ops) gap)
      (runFrom cfg (run cfg ops) (gap ++ wait)) (runFrom cfg (run cfg ops) (gap ++ wait ++ lag)) =
      some (getResult (runFrom cfg (run cfg ops) (gap ++ wait)) k) ∧
    getResult (runFrom cfg (run cfg ops) (gap ++ wait)) k ≠ .pending := by
  obtain ⟨y, hy⟩ := Option.isSome_iff_exists.1 hthere
  have hc := C78_current_partial cfg ops gap wait k httl hrec hgap hloud y hy
  rw [hc] at hlast
  obtain ⟨h1, h2⟩ := answer_eq (k := k) (by rw [hy]; exact hlast) hlag
  refine ⟨?_, h2⟩
  rw [getResultCall, if_pos, h1]
  rw [List.any_eq_true]
  exact ⟨y, List.mem_of_getLast? hc, hlast⟩

/-- The conditions hold of a task that is retried once while `get_result` waits, then stores
"42" and completes; the answer is "42". -/
example :
    let cfg : Cfg := ⟨10, 3⟩
    let ops : List Op := [.add "k" ⟨"f", "a", "b", 0, 1⟩ 0, .poll "w" 1]
    let gap : List Op := [.add "j" ⟨"f", "a", "b", 0, 1⟩ 0]
    let wait : List Op := [.claim 0, .reschedule 0 0 2 0, .poll "w" 2, .claim 2, .store 2 "42",
      .finish 2 .completed none true, .tick 3]
    let lag : List Op := [.claim 1]
    ((run cfg ops).r.stateOf "k").isSome ∧
    (∀ x ∈ newAnnounced (run cfg ops) (runFrom cfg (run cfg ops) gap), x.key ≠ "k") ∧
    EachStep cfg (Loud "k") (run cfg ops) (gap ++ wait) ∧
    isTerminal (statesSeen "k" (run cfg ops) (runFrom cfg (run cfg ops) gap)
      (runFrom cfg (run cfg ops) (gap ++ wait))).getLast? = true ∧
    ((runFrom cfg (run cfg ops) (gap ++ wait)).r.stateOf "k").isSome ∧
    getResultCall "k" (run cfg ops) (runFrom cfg (run cfg ops) gap)
      (runFrom cfg (run cfg ops) (gap ++ wait)) (runFrom cfg (run cfg ops) (gap ++ wait ++ lag)) =
      some (.value "42") := by
  decide +kernel

theorem mem_squeeze (x : RunState) (l : List RunState) : x ∈ squeeze l ↔ x ∈ l := by
  induction l with
  | nil => rfl
  | cons a l ih =>
    rw [List.mem_cons, ← ih]
    simp only [squeeze]
    cases squeeze l with
    | nil => simp
    | cons b l' =>
      by_cases h : a = b
      · simp [h]
      · simp [h]

/-- C79, when it returns: under the conditions of C78, `get_result` stops waiting if and only if
the record has shown a terminal state since the call; in particular it never returns while the
task is still to run, and never waits on after the task has ended. -/
theorem C79_returns_iff_partial (cfg : Cfg) (ops gap wait : List Op) (s4 : Sys) (k : Key)
    (httl : 0 < cfg.ttl) (hrec : ((run cfg ops).r.stateOf k).isSome)
    (hgap : ∀ x ∈ newAnnounced (run cfg ops) (runFrom cfg (run cfg ops) gap), x.key ≠ k)
    (hloud : EachStep cfg (Loud k) (run cfg ops) (gap ++ wait)) :
    (getResultCall k (run cfg ops) (runFrom cfg (run cfg ops) gap)
      (runFrom cfg (run cfg ops) (gap ++ wait)) s4).isSome ↔
    ∃ st ∈ recordedStates cfg k (run cfg ops) (gap ++ wait), st.terminal = true := by
  have h := C78_sees_partial cfg ops gap wait k httl hrec hgap hloud
  have hm : ∀ st, st ∈ statesSeen k (run cfg ops) (runFrom cfg (run cfg ops) gap)
      (runFrom cfg (run cfg ops) (gap ++ wait)) ↔
      st ∈ recordedStates cfg k (run cfg ops) (gap ++ wait) := fun st => by
    rw [← mem_squeeze, h, mem_squeeze]
  rw [getResultCall]
  split
  · rename_i hany
    obtain ⟨st, h1, h2⟩ := List.any_eq_true.1 hany
    exact iff_of_true rfl ⟨st, (hm st).1 h1, h2⟩
  · rename_i hany
    refine iff_of_false (by simp) ?_
    rintro ⟨st, h1, h2⟩
    exact hany (List.any_eq_true.2 ⟨st, (hm st).2 h1, h2⟩)

/-- Both sides occur: while the task of the example above is between its two attempts
`get_result` waits. -/
example :
    let cfg : Cfg := ⟨10, 3⟩
    let ops : List Op := [.add "k" ⟨"f", "a", "b", 0, 1⟩ 0, .poll "w" 1]
    let wait : List Op := [.claim 0, .reschedule 0 0 2 0, .poll "w" 2]
    EachStep cfg (Loud "k") (run cfg ops) wait ∧
    getResultCall "k" (run cfg ops) (run cfg ops) (runFrom cfg (run cfg ops) wait)
      (runFrom cfg (run cfg ops) wait) = none ∧
    getResultCall "k" (run cfg ops) (run cfg ops)
      (runFrom cfg (run cfg ops) (wait ++ [.claim 1, .finish 1 .failed (some "oh") false]))
      (runFrom cfg (run cfg ops) (wait ++ [.claim 1, .finish 1 .failed (some "oh") false])) =
      some (.error "oh") := by
  decide +kernel

/-- C79, from storing to returning: whoever waits when the current run of the task stores its
value (or its exception) and completes (or fails) gets that value (or has that exception
raised), if the result is fetched before anything else happens to results and before the key is
used again. -/
theorem C79_value_partial (cfg : Cfg) (ops wait : List Op) (p : Proc) (httl : 0 < cfg.ttl)
    (hp : Current (runFrom cfg (run cfg ops) wait) p) (hkey : p.msg.key ≠ "") (d : String)
    (st : RunState) (e : String) (hst : st = .completed ∨ st = .failed) (s3 s4 : Sys)
    (hs3 : s3 = runFrom cfg (run cfg ops) (wait ++ [.store p.pid d, .finish p.pid st
      (if st = .failed then some e else none) true]))
    (hlag : s4.results = s3.results) :
    getResultCall p.msg.key (run cfg ops) (run cfg ops) s3 s4 =
      some (if st = .failed then .raised d else .value d) := by
  have hrun : runFrom cfg (run cfg ops) wait = run cfg (ops ++ wait) := by
    simp [run, runFrom_append]
  rw [hrun] at hp
  obtain ⟨hv1, hv2⟩ := C19_stored_outcome cfg (ops ++ wait) p hp httl hkey d
  have hs3' : s3 = runFrom cfg (run cfg (ops ++ wait)) [.store p.pid d, .finish p.pid st
      (if st = .failed then some e else none) true] := by
    rw [hs3, runFrom_append, hrun]
  have hres : getResult s3 p.msg.key = (if st = .failed then .raised d else .value d) := by
    rcases hst with rfl | rfl
    · rw [hs3']; exact hv1
    · rw [hs3']; exact hv2 e
  have hterm : isTerminal (s3.r.stateOf p.msg.key) = true := by
    cases hr : s3.r.runs p.msg.key with
    | none =>
      simp only [getResult, hr] at hres
      rcases hst with rfl | rfl <;> simp at hres
    | some v =>
      simp only [getResult, hr] at hres
      simp only [Redis.stateOf, hr, Option.bind_some]
      cases hv : v.state with
      | none => rcases hst with rfl | rfl <;> simp [hv] at hres
      | some x => cases x <;> simp only [hv] at hres <;>
          first | rfl | (rcases hst with rfl | rfl <;> simp at hres)
  obtain ⟨h1, _⟩ := answer_eq hterm hlag
  rw [getResultCall, if_pos, h1, hres]
  have hw := WF.run cfg (ops ++ wait)
  have hstore : step cfg (run cfg (ops ++ wait)) (.store p.pid d) =
      { run cfg (ops ++ wait) with
        results := upd (run cfg (ops ++ wait)).results p.msg.key
          (some ⟨d, (run cfg (ops ++ wait)).r.now + cfg.ttl⟩) } := by
    simp [step, doStore, proc?_of_mem hw hp.1, hp.2.1, httl]
  have hc : Current (step cfg (run cfg (ops ++ wait)) (.store p.pid d)) p := by
    rw [hstore]; exact hp
  have hw' := hw.step (cfg := cfg) (.store p.pid d)
  have hstt : st.terminal = true := by rcases hst with rfl | rfl <;> rfl
  have hpub : s3.r.published = ⟨p.msg.key, st⟩ ::
      (step cfg (run cfg (ops ++ wait)) (.store p.pid d)).r.published := by
    rw [hs3']
    simp only [runFrom_cons, runFrom_nil]
    obtain ⟨g1, g2, g3⟩ := hc
    generalize step cfg (run cfg (ops ++ wait)) (.store p.pid d) = x at *
    simp only [step, doFinish, proc?_of_mem hw' g1, g2, hstt]
    rw [luaTerminal_ok _ _ _ _ _ _ _ _ g3.notSuperseded]
    simp [Sys.dropProc]
  have hx : step cfg (run cfg (ops ++ wait)) (.store p.pid d) =
      runFrom cfg (run cfg ops) (wait ++ [.store p.pid d]) := by
    rw [runFrom_append, hrun]; rfl
  obtain ⟨l, hl, _⟩ := announced_runFrom cfg (wait ++ [.store p.pid d]) (WF.run cfg ops)
  rw [hx, hl] at hpub
  rw [List.any_eq_true]
  refine ⟨st, ?_, hstt⟩
  simp only [statesSeen, newAnnounced_append (l := ⟨p.msg.key, st⟩ :: l) rfl hpub]
  simp

/-- There is such a run, and its value arrives. -/
example :
    let cfg : Cfg := ⟨10, 3⟩
    let ops : List Op := [.add "k" ⟨"f", "a", "b", 0, 1⟩ 0]
    let p : Proc := ⟨0, "w", 1, ⟨"k", ⟨"f", "a", "b", 0, 1⟩, 1⟩, false, .running⟩
    let s3 := runFrom cfg (run cfg ops) [.poll "w" 1, .claim 0, .store 0 "boom",
      .finish 0 .failed (some "oh") true]
    Current (runFrom cfg (run cfg ops) [.poll "w" 1, .claim 0]) p ∧
    getResultCall "k" (run cfg ops) (run cfg ops) s3 s3 = some (.raised "boom") := by
  decide +kernel

/-- The code violates C79: the end of a replaced run wakes whoever waits for the task that
replaced it; they find no result and are given `None`, although the task has yet to run. -/
theorem C79_violated_superseded : ¬ C79_statement := by
  intro h
  obtain ⟨n, hn, h1, h2⟩ := h ⟨10, 3⟩ [.add "k" ⟨"f", "a", "b", 0, 1⟩ 0, .poll "w" 1, .claim 0,
      .replace "k" ⟨"f", "c", "b", 0, 1⟩ 0] [] [.finish 0 .completed none false] [] "k" .none_
    (by decide) (by decide +kernel) (by decide +kernel)
  revert h1
  have : n = 0 ∨ n = 1 := by simp at hn; omega
  rcases this with rfl | rfl <;> decide +kernel

/-- The code violates C79: a task that failed, and is scheduled again before the waiter gets back
to the record, leaves its stored exception behind, and `get_result` *returns* that exception
instead of raising it, because it takes any state other than cancelled and failed for success
(execution.py:1020-1027). -/
theorem C79_violated_returns_exception : ¬ C79_statement := by
  intro h
  obtain ⟨n, hn, h1, h2⟩ := h ⟨10, 3⟩ [.add "k" ⟨"f", "a", "b", 0, 1⟩ 0, .poll "w" 1, .claim 0,
      .store 0 "boom"] [] [.finish 0 .failed (some "oh") true,
      .add "k" ⟨"f", "a", "b", 0, 1⟩ 0] [] "k" (.value "boom")
    (by decide) (by decide +kernel) (by decide +kernel)
  revert h1
  have : n = 0 ∨ n = 1 ∨ n = 2 := by simp at hn; omega
  rcases this with rfl | rfl | rfl <;> decide +kernel

/-- The code violates C79: if the record expires before the waiter gets back to it, or the result
before it is fetched, the answer is `None`, whatever the task returned. -/
theorem C79_violated_expired : ¬ C79_statement := by
  intro h
  obtain ⟨n, hn, h1, h2⟩ := h ⟨10, 3⟩ [.add "k" ⟨"f", "a", "b", 0, 1⟩ 0, .poll "w" 1, .claim 0,
      .store 0 "42"] [] [.finish 0 .failed (some "oh") true, .tick 10] [] "k" .none_
    (by decide) (by decide +kernel) (by decide +kernel)
  revert h1
  have : n = 0 ∨ n = 1 ∨ n = 2 := by simp at hn; omega
  rcases this with rfl | rfl | rfl <;> decide +kernel

end Docket
