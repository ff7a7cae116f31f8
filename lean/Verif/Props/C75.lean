import Verif.Views.GetExecution
import Verif.Props.C17_C18
/-
C75 `get_execution` describes the task last accepted under the key.
-/
namespace Docket
open Redis

/-! ### Specification -/

/-- The request last accepted under `k` (newest event first). -/
def lastAccepted : List Event → Key → Option Msg
  | [], _ => none
  | .accepted m :: l, k => if m.key = k then some m else lastAccepted l k
  | _ :: l, k => lastAccepted l k

/-- The event that a reported state stands for. -/
inductive Means (k : Key) : RunState → Event → Prop
  | scheduled (m : Msg) : m.key = k → Means k .scheduled (.accepted m)
  | queued (m : Msg) : m.key = k → Means k .queued (.accepted m)
  | running (pid : Nat) (id : MsgId) (m : Msg) (t : Time) :
      m.key = k → Means k .running (.started pid id m t)
  | ended (pid : Nat) (id : MsgId) (m : Msg) (st : RunState) :
      m.key = k → st.terminal = true → Means k st (.finished pid id m st true)
  | cancelled : Means k .cancelled (.cancelled k)

/-- Events after which an execution of `k` is no longer in the state `st`: it was accepted
again, started, ended or, unless it had ended, cancelled. -/
def Outdates (st : RunState) (k : Key) : Event → Prop
  | .accepted m => m.key = k
  | .started _ _ m _ => m.key = k
  | .finished _ _ m _ true => m.key = k
  | .cancelled k' => k' = k ∧ st.terminal = false
  | _ => False

/-- `e` happened, and nothing that outdates `st` has happened since. -/
def Latest (st : RunState) (k : Key) (l : List Event) (e : Event) : Prop :=
  ∃ since before, l = since ++ e :: before ∧ ∀ x ∈ since, ¬ Outdates st k x

/-- The task that `get_execution` describes is the one last accepted under the key. -/
def SameTask (m : Msg) (v : Info) : Prop :=
  v.fn = m.req.fn ∧ v.args = m.req.args ∧ v.kwargs = m.req.kwargs ∧ v.when_ = m.req.when_

/-- An accurate answer, for a docket with the history `l`: the task last accepted under
the key with its attempt, the state it is in, who runs it since when, and nothing left
over from an earlier run. -/
structure Describes (l : List Event) (k : Key) (v : Info) : Prop where
  task : ∃ m, lastAccepted l k = some m ∧ SameTask m v ∧ v.attempt = m.req.attempt
  state : ∃ e, Means k v.state e ∧ Latest v.state k l e
  waiting : v.state = .scheduled ∨ v.state = .queued →
    v.worker = none ∧ v.startedAt = none ∧ v.completedAt = none ∧ v.error = none
  running : v.state = .running → v.completedAt = none ∧ v.error = none ∧
    ∃ pid id m t w b t₀, Latest .running k l (.started pid id m t) ∧ m.key = k ∧
      Event.handed pid id w b t₀ m ∈ l ∧ v.startedAt = some t ∧ v.worker = some w
  completed : v.state = .completed → v.error = none

/-- Every function name and argument string of the history is non-empty, and a completed
execution comes without an error (`mark_as_completed`, execution.py:907-913, passes none). -/
def Plain : Op → Prop
  | .add _ q _ | .replace _ q _ => q.fn ≠ "" ∧ q.args ≠ "" ∧ q.kwargs ≠ ""
  | .finish _ .completed e _ => e = none
  | _ => True

/-- The full property: whatever `get_execution` returns describes the task, at least when
nothing happens between its two reads. -/
def C75_statement : Prop := ∀ (cfg : Cfg) (ops : List Op) (k : Key) (v : Info),
  (∀ op ∈ ops, Plain op) →
  getExecution (run cfg ops).r (run cfg ops).r k = some v → Describes (run cfg ops).log k v

/-- The full property for the state, when the docket moves on between the two reads: the
reported state is the one at some moment of the call. -/
def C75_state_statement : Prop := ∀ (cfg : Cfg) (ops more : List Op) (k : Key) (v : Info),
  getExecution (run cfg ops).r (run cfg (ops ++ more)).r k = some v →
  ∃ mid, mid <+: more ∧ (run cfg (ops ++ mid)).r.stateOf k = some v.state

/-! ### Invariants -/

/-- The record's task is the one last accepted, and its state, worker and starting time
are those of the latest event. -/
structure RecOK (l : List Event) (k : Key) (h : Run) : Prop where
  task : ∀ g, h.gen = some g → ∃ m, lastAccepted l k = some m ∧ h.fn = some m.req.fn ∧
    h.args = some m.req.args ∧ h.kwargs = some m.req.kwargs ∧ h.when_ = some m.req.when_ ∧ g = m.gen
  bare : h.gen = none → h.fn = none
  shown : h.gen.isSome → h.state.isSome
  state : ∀ st, h.state = some st → st ≠ .queued → ∃ e, Means k st e ∧ Latest st k l e
  running : h.state = some .running → ∃ pid id m t w b t₀,
    Latest .running k l (.started pid id m t) ∧ m.key = k ∧
    Event.handed pid id w b t₀ m ∈ l ∧ h.startedAt = some t ∧ h.worker = some w

theorem RecOK.empty (l : List Event) (k : Key) : RecOK l k {} :=
  ⟨by simp, by simp, by simp, by simp, by simp⟩

theorem lastAccepted_append {l' l : List Event} {k : Key}
    (h : ∀ m, Event.accepted m ∈ l' → m.key ≠ k) :
    lastAccepted (l' ++ l) k = lastAccepted l k := by
  induction l' with
  | nil => rfl
  | cons e l' ih =>
    have ih := ih (fun m hm => h m (List.mem_cons_of_mem _ hm))
    cases e with
    | accepted m =>
      have := h m (List.mem_cons_self ..)
      simp [lastAccepted, this, ih]
    | _ => simpa [lastAccepted] using ih

theorem Latest.append {st : RunState} {k : Key} {l l' : List Event} {e : Event}
    (h : Latest st k l e) (hn : ∀ x ∈ l', ¬ Outdates st k x) : Latest st k (l' ++ l) e := by
  obtain ⟨a, b, rfl, ha⟩ := h
  refine ⟨l' ++ a, b, by simp, ?_⟩
  intro x hx
  rcases List.mem_append.1 hx with hx | hx
  · exact hn x hx
  · exact ha x hx

theorem Latest.head {st : RunState} {k : Key} {l : List Event} {e : Event} :
    Latest st k (e :: l) e := ⟨[], l, rfl, by simp⟩

/-- The record keeps its task and its state, and nothing of the key is accepted, started
or finished. -/
theorem RecOK.keep {l l' : List Event} {k : Key} {h h' : Run} (hok : RecOK l k h)
    (hg : h'.gen = h.gen) (hf : h'.fn = h.fn) (ha : h'.args = h.args) (hkw : h'.kwargs = h.kwargs)
    (hw : h'.when_ = h.when_)
    (hn : ∀ m, Event.accepted m ∈ l' → m.key ≠ k)
    (hst : h'.state = some .queued ∨ (h'.state = h.state ∧ h'.worker = h.worker ∧
      h'.startedAt = h.startedAt ∧
      ∀ st, h.state = some st → ∀ x ∈ l', ¬ Outdates st k x)) :
    RecOK (l' ++ l) k h' := by
  constructor
  · intro g hg'
    rw [lastAccepted_append hn, hf, ha, hkw, hw]
    exact hok.task g (hg ▸ hg')
  · intro h0; rw [hf]; exact hok.bare (hg ▸ h0)
  · intro h0
    rcases hst with h3 | ⟨h3, _⟩
    · simp [h3]
    · rw [h3]; exact hok.shown (hg ▸ h0)
  · intro st h1 h2
    rcases hst with h3 | ⟨h3, _, _, h4⟩
    · rw [h3] at h1; simp only [Option.some.injEq] at h1; exact absurd h1.symm h2
    · rw [h3] at h1
      obtain ⟨e, he, hl⟩ := hok.state st h1 h2
      exact ⟨e, he, hl.append (h4 st h1)⟩
  · intro h1
    rcases hst with h3 | ⟨h3, h5, h6, h4⟩
    · rw [h3] at h1; simp at h1
    · rw [h3] at h1
      obtain ⟨pid, id, m, t, w, b, t₀, hl, hk, hh, hs, hwk⟩ := hok.running h1
      exact ⟨pid, id, m, t, w, b, t₀, hl.append (h4 _ h1), hk, List.mem_append.2 (Or.inr hh),
        h6 ▸ hs, h5 ▸ hwk⟩

theorem RecOK.fresh {l : List Event} {k : Key} {h' : Run} {m : Msg} (hk : m.key = k)
    (hg : h'.gen = some m.gen) (hf : h'.fn = some m.req.fn) (ha : h'.args = some m.req.args)
    (hkw : h'.kwargs = some m.req.kwargs) (hw : h'.when_ = some m.req.when_)
    (hst : h'.state = some .queued ∨ h'.state = some .scheduled) :
    RecOK (.accepted m :: l) k h' := by
  constructor
  · intro g hg'
    refine ⟨m, by simp [lastAccepted, hk], hf, ha, hkw, hw, ?_⟩
    rw [hg] at hg'; simpa using hg'.symm
  · intro h0; rw [hg] at h0; cases h0
  · intro _; rcases hst with h3 | h3 <;> simp [h3]
  · intro st h1 h2
    rcases hst with h3 | h3
    · rw [h3] at h1; simp only [Option.some.injEq] at h1; exact absurd h1.symm h2
    · rw [h3] at h1; simp only [Option.some.injEq] at h1; subst h1
      exact ⟨_, .scheduled m hk, .head⟩
  · intro h1
    rcases hst with h3 | h3 <;> rw [h3] at h1 <;> simp at h1

/-- The record changes to a state whose event has just happened. -/
theorem RecOK.event {l : List Event} {k : Key} {h h' : Run} {e : Event} {st : RunState}
    (hok : RecOK l k h)
    (hg : h'.gen = h.gen) (hf : h'.fn = h.fn) (ha : h'.args = h.args) (hkw : h'.kwargs = h.kwargs)
    (hw : h'.when_ = h.when_) (hn : ∀ m, e ≠ .accepted m)
    (hst : h'.state = some st) (hm : Means k st e)
    (hr : st = .running → ∃ pid id m t w b t₀, e = .started pid id m t ∧ m.key = k ∧
      Event.handed pid id w b t₀ m ∈ l ∧ h'.startedAt = some t ∧ h'.worker = some w) :
    RecOK (e :: l) k h' := by
  constructor
  · intro g hg'
    rw [show e :: l = [e] ++ l from rfl, lastAccepted_append (by
      intro m hm; exact absurd (List.mem_singleton.1 hm).symm (hn m)), hf, ha, hkw, hw]
    exact hok.task g (hg ▸ hg')
  · intro h0; rw [hf]; exact hok.bare (hg ▸ h0)
  · intro _; simp [hst]
  · intro st' h1 h2
    rw [hst] at h1; simp only [Option.some.injEq] at h1; subst h1
    exact ⟨e, hm, .head⟩
  · intro h1
    rw [hst] at h1; simp only [Option.some.injEq] at h1
    obtain ⟨pid, id, m, t, w, b, t₀, he, hk, hh, hs, hwk⟩ := hr h1
    exact ⟨pid, id, m, t, w, b, t₀, he ▸ .head, hk, List.mem_cons_of_mem _ hh, hs, hwk⟩

def RecInv (s : Sys) : Prop := ∀ k h, s.r.runs k = some h → RecOK s.log k h

theorem RecInv.atRun {s : Sys} (h : RecInv s) (k : Key) : RecOK s.log k (s.r.run k) := by
  cases hr : s.r.runs k with
  | none => simpa [Redis.run, hr] using RecOK.empty s.log k
  | some v => simpa [Redis.run, hr] using h k v hr

theorem RecInv.step {cfg : Cfg} {s : Sys} (hw : WF s) (ho : OriginInv s) (h : RecInv s) (op : Op) :
    RecInv (step cfg s op) := by
  have he := step_eff cfg s hw.queue op
  generalize Docket.step cfg s op = s' at he
  -- an untouched record
  have same : ∀ (k : Key) (v : Run) (l' : List Event), s.r.runs k = some v →
      (∀ x ∈ l', ∀ st, ¬ Outdates st k x) → RecOK (l' ++ s.log) k v := by
    intro k v l' hv hn
    exact (h k v hv).keep rfl rfl rfl rfl rfl
      (fun m hm hk => hn _ hm .queued (by simpa [Outdates] using hk))
      (Or.inr ⟨rfl, rfl, rfl, fun st _ x hx => hn x hx st⟩)
  have put : ∀ (k k' : Key) (w v : Run) (l' : List Event),
      upd s.r.runs k' (some w) k = some v →
      (k ≠ k' → ∀ x ∈ l', ∀ st, ¬ Outdates st k x) →
      (k = k' → RecOK (l' ++ s.log) k' w) → RecOK (l' ++ s.log) k v := by
    intro k k' w v l' hv hn hok
    by_cases hk : k = k'
    · subst hk; rw [upd_same] at hv; simp only [Option.some.injEq] at hv; exact hv ▸ hok rfl
    · rw [upd_other _ _ _ _ hk] at hv; exact same k v l' hv (hn hk)
  have expired : ∀ (k : Key) (v : Run) (l' : List Event), expiredRun cfg.ttl s.r k = some v →
      (∀ x ∈ l', ∀ st, ¬ Outdates st k x) → RecOK (l' ++ s.log) k v := by
    intro k v l' hv hn
    simp only [expiredRun] at hv
    split at hv
    · cases hr : s.r.runs k with
      | none => simp [hr] at hv
      | some u =>
        simp only [hr, Option.map_some, Option.some.injEq] at hv
        subst hv
        exact (h k u hr).keep rfl rfl rfl rfl rfl
          (fun m hm hk => hn _ hm .queued (by simpa [Outdates] using hk))
          (Or.inr ⟨rfl, rfl, rfl, fun st _ x hx => hn x hx st⟩)
    · cases hv
  cases he with
  | nop => exact h
  | tick d =>
    intro k v hv
    rcases advance_runs s.r d k with h1 | h1
    · rw [show (s.r.advance d).runs k = none from h1] at hv; cases hv
    · exact h k v (h1 ▸ hv)
  | addNow k' q t ht hq hx =>
    intro k v hv
    refine put k k' _ v [_] hv (by simp [Outdates]; intro h _; exact Ne.symm h) ?_
    rintro rfl
    exact RecOK.fresh rfl rfl rfl rfl rfl rfl (Or.inl rfl)
  | addLater k' q t ht hq hx =>
    intro k v hv
    refine put k k' _ v [_] hv (by simp [Outdates]; intro h _; exact Ne.symm h) ?_
    rintro rfl
    exact RecOK.fresh rfl rfl rfl rfl rfl rfl (Or.inr rfl)
  | replaceNow k' q t ht hq =>
    intro k v hv
    refine put k k' _ v [_] hv (by simp [Outdates]; intro h _; exact Ne.symm h) ?_
    rintro rfl
    exact RecOK.fresh rfl rfl rfl rfl rfl rfl (Or.inl rfl)
  | replaceLater k' q t ht hq =>
    intro k v hv
    refine put k k' _ v [_] hv (by simp [Outdates]; intro h _; exact Ne.symm h) ?_
    rintro rfl
    exact RecOK.fresh rfl rfl rfl rfl rfl rfl (Or.inr rfl)
  | cancel k' =>
    intro k v hv
    refine put k k' _ v [_] hv (by
      simp only [List.mem_singleton, forall_eq, Outdates, not_and]
      intro h st h2; exact absurd h2.symm h) ?_
    rintro rfl
    have ha := h.atRun k
    have hst : (s.r.run k).state = s.r.stateOf k := by
      simp only [Redis.run, Redis.stateOf]; cases s.r.runs k <;> rfl
    have ended : ∀ st : RunState, s.r.stateOf k = some st → st.terminal = true →
        RecOK ([.cancelled k] ++ s.log) k { s.r.run k with known := none, streamId := none } := by
      intro st h1 h2
      refine ha.keep rfl rfl rfl rfl rfl (by simp) (Or.inr ⟨rfl, rfl, rfl, ?_⟩)
      intro st' h3
      rw [hst, h1] at h3
      simp only [Option.some.injEq] at h3
      subst h3
      simp [Outdates, h2]
    have open_ : RecOK ([.cancelled k] ++ s.log) k { s.r.run k with
        known := none, streamId := none, state := some .cancelled, completedAt := some s.r.now } :=
      ha.event (st := .cancelled) rfl rfl rfl rfl rfl (by simp) rfl .cancelled (by simp)
    simp only [cancelRun]
    split
    · exact ended .completed (by assumption) rfl
    · exact ended .failed (by assumption) rfl
    · exact ended .cancelled (by assumption) rfl
    · exact open_
  | cancelTtl k' hk' =>
    intro k v hv
    by_cases hk : k = k'
    · subst hk; replace hv := (upd_same _ _ _).symm.trans hv
      exact expired k v [] hv (by simp)
    · replace hv := (upd_other _ _ _ _ hk).symm.trans hv; exact h k v hv
  | clear op j js hj =>
    intro k v hv
    simp only at hv
    split at hv
    · exact expired k v [.cleared] hv (by simp [Outdates])
    · exact same k v [.cleared] hv (by simp [Outdates])
  | clearRead => exact h
  | schedule t ht =>
    intro k v hv
    simp only at hv
    split at hv
    · simp only [Option.some.injEq] at hv; subst hv
      exact (h.atRun k).keep (l' := []) rfl rfl rfl rfl rfl (by simp) (Or.inl rfl)
    · exact h k v hv
  | poll w n new hnew =>
    intro k v hv
    refine same k v _ hv ?_
    intro x hx st hO
    rw [List.mem_reverse] at hx
    obtain ⟨p', e, heq, he, _⟩ := mem_newHanded hx
    subst heq
    exact hO
  | redeliver w p e hp he hid hidle =>
    intro k v hv
    exact same k v [_] hv (by simp [Outdates])
  | forget id hm => exact h
  | renew w id he hp =>
    intro k v hv
    exact same k v [_] hv (by simp [Outdates])
  | crash w => exact h
  | abandon pid => exact h
  | strikeOut p hp hph =>
    intro k v hv
    by_cases hk : k = p.msg.key
    · subst hk
      replace hv := (upd_same _ _ _).symm.trans hv
      cases hr : s.r.runs p.msg.key with
      | none => simp [hr] at hv
      | some u =>
        simp only [hr, Option.map_some, Option.some.injEq] at hv
        subst hv
        exact (h _ u hr).keep (l' := [_]) rfl rfl rfl rfl rfl (by simp)
          (Or.inr ⟨rfl, rfl, rfl, by simp [Outdates]⟩)
    · replace hv := (upd_other _ _ _ _ hk).symm.trans hv
      exact same k v [_] hv (by simp [Outdates])
  | claimSuperseded p hp hph hs => exact h
  | claim p hp hph hs =>
    intro k v hv
    refine put k p.msg.key _ v [_] hv (by simp [Outdates]; intro h _; exact Ne.symm h) ?_
    rintro rfl
    obtain ⟨t₀, hh⟩ := ho.isHanded p hp
    exact (h.atRun p.msg.key).event (st := .running) rfl rfl rfl rfl rfl (by simp) rfl
      (.running _ _ _ _ rfl) (fun _ => ⟨p.pid, p.id, p.msg, s.r.now, p.worker, p.redelivered, t₀,
        rfl, rfl, hh, rfl, rfl⟩)
  | store p data hp hph httl => exact h
  | finish p st e w hp hph hs =>
    intro k v hv
    have hterm : st.terminal = true := by
      rcases hph with ⟨_, h⟩ | ⟨_, rfl⟩
      · exact h
      · rfl
    simp only at hv
    by_cases httl : cfg.ttl > 0
    · rw [if_pos httl] at hv
      refine put k p.msg.key _ v [_] hv (by simp [Outdates]; intro h _; exact Ne.symm h) ?_
      rintro rfl
      exact (h.atRun p.msg.key).event (st := st) rfl rfl rfl rfl rfl (by simp) rfl
        (.ended _ _ _ _ rfl hterm) (by rintro rfl; simp [RunState.terminal] at hterm)
    · rw [if_neg httl] at hv
      by_cases hk : k = p.msg.key
      · subst hk; rw [upd_same] at hv; cases hv
      · rw [upd_other _ _ _ _ hk] at hv
        exact same k v [_] hv (by simp [Outdates]; intro _; exact Ne.symm hk)
  | finishSuperseded p st e w hp hph hs =>
    intro k v hv
    exact same k v [_] hv (by simp [Outdates])
  | rescheduleNow p t a d q hp hph hq hd hw' =>
    intro k v hv
    refine put k p.msg.key _ v [_] hv (by simp [Outdates]; intro h _; exact Ne.symm h) ?_
    rintro rfl
    exact RecOK.fresh rfl rfl rfl rfl rfl rfl (Or.inl rfl)
  | rescheduleLater p t a d q hp hph hq hd hw' =>
    intro k v hv
    refine put k p.msg.key _ v [_] hv (by simp [Outdates]; intro h _; exact Ne.symm h) ?_
    rintro rfl
    exact RecOK.fresh rfl rfl rfl rfl rfl rfl (Or.inr rfl)
  | prog op k' f hop => exact h

theorem RecInv.run (cfg : Cfg) (ops : List Op) : RecInv (run cfg ops) := by
  suffices ∀ (ops : List Op) (s : Sys), WF s → OriginInv s → RecInv s →
      RecInv (runFrom cfg s ops) from
    this ops {} WF.init (OriginInv.run cfg []) (fun k h hh => by simp at hh)
  intro ops
  induction ops with
  | nil => intro s _ _ h; exact h
  | cons o ops ih =>
    intro s hw ho h
    exact ih _ (hw.step o) (ho.step hw o) (h.step hw ho o)

/-! ### The first run of a record -/

/-- Events that end an execution of `k`. -/
def EndsFirst (k : Key) : Event → Prop
  | .cancelled k' => k' = k
  | .finished _ _ m _ true => m.key = k
  | _ => False

/-- Events that are about an execution of `k`. -/
def Concerns (k : Key) : Event → Prop
  | .accepted m => m.key = k
  | .started _ _ m _ => m.key = k
  | .cancelled k' => k' = k
  | .finished _ _ m _ true => m.key = k
  | _ => False

instance (k : Key) (e : Event) : Decidable (EndsFirst k e) := by
  unfold EndsFirst; split <;> infer_instance

instance (k : Key) (e : Event) : Decidable (Concerns k e) := by
  unfold Concerns; split <;> infer_instance

/-- The record carries nothing of an earlier run. -/
structure Clean (h : Run) : Prop where
  completedAt : h.completedAt = none
  error : h.error = none
  resultKey : h.resultKey = none
  idle : h.state ≠ some .running → h.worker = none ∧ h.startedAt = none

def CleanInv (s : Sys) (k : Key) : Prop := ∀ h, s.r.runs k = some h → Clean h

theorem CleanInv.atRun {s : Sys} {k : Key} (h : CleanInv s k) : Clean (s.r.run k) := by
  cases hr : s.r.runs k with
  | none => simpa [Redis.run, hr] using (⟨rfl, rfl, rfl, fun _ => ⟨rfl, rfl⟩⟩ : Clean {})
  | some v => simpa [Redis.run, hr] using h v hr

theorem run_state (r : Redis) (k : Key) : (r.run k).state = r.stateOf k := by
  simp only [Redis.run, Redis.stateOf]; cases r.runs k <;> rfl

/-- In a calm history, what the scheduler moves is recorded as scheduled. -/
theorem CalmInv.due {s : Sys} {k : Key} {t : Time} (h : CalmInv s k) (hno : ¬ Orphaned s k)
    (hd : k ∈ dueKeys s.r t) :
    s.r.stateOf k = some .scheduled ∧ ∃ m, outstanding s.log k = some m := by
  simp only [dueKeys, List.mem_map, List.mem_filter, decide_eq_true_eq] at hd
  obtain ⟨⟨k', t'⟩, ⟨h1, _⟩, rfl⟩ := hd
  obtain ⟨m, h2, h3⟩ := h.known.queue t' h1
  obtain ⟨h4, h5⟩ := h.carried _ m h3
  have hr : HasRecord s k' := by
    by_cases hr : HasRecord s k'
    · exact hr
    · exact absurd ⟨hr, Or.inr (Or.inl (by simp [h2]))⟩ hno
  have := (h5 hr).gen
  rw [h4] at this
  exact ⟨h.life.parked m h2 this, m, h3⟩

theorem CleanInv.step {cfg : Cfg} {s : Sys} {k : Key} (hc : CalmInv s k) (h : CleanInv s k)
    (op : Op) (hop : CalmStep k s op) (hrep : ∀ q t, op ≠ .replace k q t) {l : List Event}
    (hl : (step cfg s op).log = l ++ s.log) (hne : ∀ e ∈ l, ¬ EndsFirst k e) :
    CleanInv (step cfg s op) k := by
  have he := step_eff cfg s hc.wf.queue op
  generalize Docket.step cfg s op = s' at he hl
  have hl1 : ∀ ev : Event, ev :: s.log = l ++ s.log → l = [ev] := by
    intro ev hev
    exact (List.append_cancel_right (as := [ev]) (bs := s.log) (by simpa using hev)).symm
  have put : ∀ (k' : Key) (w v : Run), upd s.r.runs k' (some w) k = some v →
      (k = k' → Clean w) → Clean v := by
    intro k' w v hv hok
    by_cases hk : k = k'
    · subst hk; rw [upd_same] at hv; simp only [Option.some.injEq] at hv; exact hv ▸ hok rfl
    · rw [upd_other _ _ _ _ hk] at hv; exact h v hv
  have expired : ∀ (v : Run), expiredRun cfg.ttl s.r k = some v → Clean v := by
    intro v hv
    simp only [expiredRun] at hv
    split at hv
    · cases hr : s.r.runs k with
      | none => simp [hr] at hv
      | some u =>
        simp only [hr, Option.map_some, Option.some.injEq] at hv
        subst hv
        exact ⟨(h u hr).1, (h u hr).2, (h u hr).3, (h u hr).4⟩
    · cases hv
  have ha := h.atRun
  have idle : scheduleExists s.r k = false → (s.r.run k).worker = none ∧ (s.r.run k).startedAt = none := by
    intro hx
    apply ha.idle
    intro hr
    rw [run_state] at hr
    simp [scheduleExists, hr] at hx
  cases he with
  | tick d =>
    intro v hv
    rcases advance_runs s.r d k with h1 | h1
    · rw [show (s.r.advance d).runs k = none from h1] at hv; cases hv
    · exact h v (h1 ▸ hv)
  | addNow k' q t ht hq hx =>
    intro v hv
    refine put k' _ v hv ?_
    rintro rfl
    exact ⟨ha.1, ha.2, ha.3, fun _ => idle hx⟩
  | addLater k' q t ht hq hx =>
    intro v hv
    refine put k' _ v hv ?_
    rintro rfl
    exact ⟨ha.1, ha.2, ha.3, fun _ => idle hx⟩
  | replaceNow k' q t ht hq =>
    intro v hv
    refine put k' _ v hv ?_
    rintro rfl
    exact absurd rfl (hrep q t)
  | replaceLater k' q t ht hq =>
    intro v hv
    refine put k' _ v hv ?_
    rintro rfl
    exact absurd rfl (hrep q t)
  | cancel k' =>
    intro v hv
    have := hl1 _ hl; subst this
    refine put k' _ v hv ?_
    rintro rfl
    exact absurd rfl (hne _ (List.mem_singleton.2 rfl))
  | cancelTtl k' hk' =>
    intro v hv
    by_cases hk : k = k'
    · subst hk; exact expired v ((upd_same _ _ _).symm.trans hv)
    · exact h v ((upd_other _ _ _ _ hk).symm.trans hv)
  | clear op j js hj =>
    intro v hv
    simp only at hv
    split at hv
    · exact expired v hv
    · exact h v hv
  | schedule t ht =>
    intro v hv
    simp only at hv
    split at hv
    · rename_i hd
      simp only [Option.some.injEq] at hv; subst hv
      refine ⟨ha.1, ha.2, ha.3, fun _ => ha.idle ?_⟩
      rw [run_state, (hc.due hop.1.notOrphaned hd).1]
      simp
    · exact h v hv
  | strikeOut p hp hph =>
    intro v hv
    by_cases hk : k = p.msg.key
    · subst hk
      replace hv := (upd_same _ _ _).symm.trans hv
      cases hr : s.r.runs p.msg.key with
      | none => simp [hr] at hv
      | some u =>
        simp only [hr, Option.map_some, Option.some.injEq] at hv
        subst hv
        exact ⟨(h u hr).1, (h u hr).2, (h u hr).3, (h u hr).4⟩
    · exact h v ((upd_other _ _ _ _ hk).symm.trans hv)
  | claim p hp hph hs =>
    intro v hv
    refine put _ _ v hv ?_
    rintro rfl
    exact ⟨ha.1, ha.2, ha.3, fun hn => absurd rfl hn⟩
  | finish p st e w hp hph hs =>
    intro v hv
    have := hl1 _ hl; subst this
    have hk : k ≠ p.msg.key := fun hk => hne _ (List.mem_singleton.2 rfl) hk.symm
    exact h v ((upd_other _ _ _ _ hk).symm.trans hv)
  | rescheduleNow p t a d q hp hph hq hd hw' =>
    intro v hv
    refine put _ _ v hv ?_
    rintro rfl
    exact ⟨ha.1, ha.2, ha.3, fun _ => ⟨rfl, rfl⟩⟩
  | rescheduleLater p t a d q hp hph hq hd hw' =>
    intro v hv
    refine put _ _ v hv ?_
    rintro rfl
    exact ⟨ha.1, ha.2, ha.3, fun _ => ⟨rfl, rfl⟩⟩
  | _ => exact h

/-- A queued record belongs to the task last accepted. -/
def QueuedInv (s : Sys) (k : Key) : Prop := s.r.stateOf k = some .queued →
  ∃ m, m.key = k ∧ Latest .queued k s.log (.accepted m)

theorem Latest.ofScheduled {k : Key} {l : List Event} {e : Event} (h : Latest .scheduled k l e) :
    Latest .queued k l e := by
  obtain ⟨a, b, h1, h2⟩ := h
  refine ⟨a, b, h1, fun x hx hO => h2 x hx ?_⟩
  cases x <;> simp_all [Outdates, RunState.terminal]

theorem QueuedInv.step {cfg : Cfg} {s : Sys} {k : Key} (hc : CalmInv s k) (hr : RecInv s)
    (h : QueuedInv s k) (op : Op) (hop : CalmStep k s op) : QueuedInv (step cfg s op) k := by
  have he := step_eff cfg s hc.wf.queue op
  generalize Docket.step cfg s op = s' at he
  have same : ∀ (l' : List Event), s'.r.stateOf k = s.r.stateOf k → s'.log = l' ++ s.log →
      (∀ x ∈ l', ¬ Outdates .queued k x) → QueuedInv s' k := by
    intro l' h1 h2 h3 hq
    rw [h1] at hq
    obtain ⟨m, hm, hl⟩ := h hq
    exact ⟨m, hm, h2 ▸ hl.append h3⟩
  have put : ∀ (k' : Key) (w : Run) (e : Event), s'.r.runs = upd s.r.runs k' (some w) →
      s'.log = e :: s.log → (k ≠ k' → ¬ Outdates .queued k e) →
      (k = k' → w.state = some .queued → ∃ m, m.key = k ∧ e = .accepted m) → QueuedInv s' k := by
    intro k' w e h1 h2 h3 h4
    by_cases hk : k = k'
    · intro hq
      rw [Redis.stateOf, h1, hk, upd_same] at hq
      obtain ⟨m, hm, he⟩ := h4 hk hq
      exact ⟨m, hm, h2 ▸ he ▸ .head⟩
    · exact same [e] (by simp [Redis.stateOf, h1, upd_other _ _ _ _ hk]) h2 (by simpa using h3 hk)
  have expired : ∀ (l' : List Event), s'.r.runs k = expiredRun cfg.ttl s.r k → s'.log = l' ++ s.log →
      (∀ x ∈ l', ¬ Outdates .queued k x) → QueuedInv s' k := by
    intro l' h1 h2 h3
    by_cases h0 : cfg.ttl > 0
    · refine same l' ?_ h2 h3
      rw [Redis.stateOf, h1, expiredRun, if_pos h0, Redis.stateOf]
      cases s.r.runs k <;> rfl
    · intro hq
      rw [Redis.stateOf, h1, expiredRun, if_neg h0] at hq
      cases hq
  cases he with
  | nop => exact h
  | tick d =>
    rcases advance_runs s.r d k with h1 | h1
    · intro hq; rw [show Redis.stateOf (s.r.advance d) k = none by simp [Redis.stateOf, h1]] at hq; cases hq
    · exact same [] (by simp [Redis.stateOf, h1]) rfl (by simp)
  | addNow k' q t ht hq hx =>
    exact put k' _ _ rfl rfl (fun hk => Ne.symm hk) (fun hk _ => ⟨_, hk.symm, rfl⟩)
  | addLater k' q t ht hq hx =>
    exact put k' _ _ rfl rfl (fun hk => Ne.symm hk) (fun hk _ => ⟨_, hk.symm, rfl⟩)
  | replaceNow k' q t ht hq =>
    exact put k' _ _ rfl rfl (fun hk => Ne.symm hk) (fun hk _ => ⟨_, hk.symm, rfl⟩)
  | replaceLater k' q t ht hq =>
    exact put k' _ _ rfl rfl (fun hk => Ne.symm hk) (fun hk _ => ⟨_, hk.symm, rfl⟩)
  | cancel k' =>
    refine put k' _ _ rfl rfl (fun hk ho => hk ho.1.symm) ?_
    rintro rfl hq
    simp only [cancelRun] at hq
    split at hq
    all_goals simp_all [run_state]
  | cancelTtl k' hk' =>
    by_cases hk : k = k'
    · subst hk; exact expired [] (upd_same _ _ _) rfl (by simp)
    · exact same [] (by simp [Redis.stateOf, upd_other _ _ _ _ hk]) rfl (by simp)
  | clear op j js hj =>
    by_cases hk : k ∈ j.scheduledKeys ∨ k ∈ j.streamKeys
    · exact expired [.cleared] (by simp only [if_pos hk]) rfl (by simp [Outdates])
    · exact same [.cleared] (by simp only [Redis.stateOf, if_neg hk]) rfl (by simp [Outdates])
  | clearRead => exact h
  | schedule t ht =>
    by_cases hd : k ∈ dueKeys s.r t
    · intro _
      have h1 := (hc.due hop.1.notOrphaned hd).1
      cases hv : s.r.runs k with
      | none => simp [Redis.stateOf, hv] at h1
      | some v =>
        obtain ⟨e, h2, h3⟩ := (hr k v hv).state .scheduled (by simpa [Redis.stateOf, hv] using h1) (by simp)
        cases h2 with
        | scheduled m hm => exact ⟨m, hm, h3.ofScheduled⟩
        | ended _ _ _ _ _ ht => simp [RunState.terminal] at ht
    · exact same [] (by simp only [Redis.stateOf, if_neg hd]) rfl (by simp)
  | poll w n new hnew =>
    refine same _ rfl rfl ?_
    intro x hx hO
    rw [List.mem_reverse] at hx
    obtain ⟨p', e, heq, he, _⟩ := mem_newHanded hx
    subst heq
    exact hO
  | redeliver w p e hp he hid hidle => exact same [_] rfl rfl (by simp [Outdates])
  | forget id hm => exact h
  | renew w id he hp => exact same [_] rfl rfl (by simp [Outdates])
  | crash w => exact h
  | abandon pid => exact h
  | strikeOut p hp hph =>
    have hk : p.msg.key ≠ k := hop.1.2 p hp rfl
    exact same [_] (by simp [Redis.stateOf, upd_other _ _ _ _ (Ne.symm hk)]) rfl (by simp [Outdates])
  | claimSuperseded p hp hph hs => exact h
  | claim p hp hph hs =>
    exact put _ _ _ rfl rfl (fun hk => Ne.symm hk) (fun _ hq => by simp [claimedRun] at hq)
  | store p data hp hph httl => exact h
  | finish p st e w hp hph hs =>
    have hterm : st.terminal = true := by
      rcases hph with ⟨_, h⟩ | ⟨_, rfl⟩
      · exact h
      · rfl
    by_cases hk : k = p.msg.key
    · intro hq
      subst hk
      simp only [Redis.stateOf, upd_same] at hq
      split at hq
      · simp only [Option.bind_some, terminalRun, Option.some.injEq] at hq
        rw [hq] at hterm; simp [RunState.terminal] at hterm
      · cases hq
    · exact same [_] (by simp [Redis.stateOf, upd_other _ _ _ _ hk]) rfl
        (by simp [Outdates]; exact Ne.symm hk)
  | finishSuperseded p st e w hp hph hs => exact same [_] rfl rfl (by simp [Outdates])
  | rescheduleNow p t a d q hp hph hq hd hw' =>
    exact put _ _ _ rfl rfl (fun hk => Ne.symm hk) (fun hk _ => ⟨⟨p.msg.key, q, s.r.nextGen p.msg.key⟩, hk.symm, rfl⟩)
  | rescheduleLater p t a d q hp hph hq hd hw' =>
    exact put _ _ _ rfl rfl (fun hk => Ne.symm hk) (fun hk _ => ⟨⟨p.msg.key, q, s.r.nextGen p.msg.key⟩, hk.symm, rfl⟩)
  | prog op k' f hop => exact h

/-- What the record of an ended execution says. -/
structure Ended (st : RunState) (c : Time) (e : Option String) (rk : Option Key) (h : Run) : Prop where
  state : h.state = some st
  completedAt : h.completedAt = some c
  error : h.error = e
  resultKey : h.resultKey = rk

structure EndedInv (s : Sys) (k : Key) (st : RunState) (c : Time) (e : Option String)
    (rk : Option Key) : Prop where
  record : ∀ h, s.r.runs k = some h → Ended st c e rk h
  over : outstanding s.log k = none

theorem outstanding_append {k : Key} {l' l : List Event} (h : ∀ x ∈ l', ¬ Concerns k x)
    (h0 : outstanding l k = none) : outstanding (l' ++ l) k = none := by
  induction l' with
  | nil => exact h0
  | cons x l' ih =>
    have ih := ih (fun y hy => h y (List.mem_cons_of_mem _ hy))
    have hx := h x (List.mem_cons_self ..)
    cases x with
    | finished pid id m st b => cases b <;> simp_all [outstanding, Concerns]
    | _ => simp_all [outstanding, Concerns]

theorem EndedInv.step {cfg : Cfg} {s : Sys} {k : Key} {st : RunState} {c : Time}
    {e : Option String} {rk : Option Key} (hc : CalmInv s k) (h : EndedInv s k st c e rk)
    (op : Op) (hop : CalmStep k s op) {l : List Event}
    (hl : (step cfg s op).log = l ++ s.log) (hne : ∀ x ∈ l, ¬ Concerns k x) :
    EndedInv (step cfg s op) k st c e rk := by
  refine ⟨?_, hl ▸ outstanding_append hne h.over⟩
  have he := step_eff cfg s hc.wf.queue op
  generalize Docket.step cfg s op = s' at he hl
  have hl1 : ∀ ev : Event, ev :: s.log = l ++ s.log → l = [ev] := by
    intro ev hev
    exact (List.append_cancel_right (as := [ev]) (bs := s.log) (by simpa using hev)).symm
  have put : ∀ (k' : Key) (w : Option Run) (v : Run) (ev : Event), upd s.r.runs k' w k = some v →
      ev :: s.log = l ++ s.log → (k = k' → Concerns k ev) → Ended st c e rk v := by
    intro k' w v ev hv h1 h2
    have := hl1 _ h1; subst this
    have hk : k ≠ k' := fun hk => hne _ (List.mem_singleton.2 rfl) (h2 hk)
    rw [upd_other _ _ _ _ hk] at hv; exact h.record v hv
  have expired : ∀ (v : Run), expiredRun cfg.ttl s.r k = some v → Ended st c e rk v := by
    intro v hv
    simp only [expiredRun] at hv
    split at hv
    · cases hr : s.r.runs k with
      | none => simp [hr] at hv
      | some u =>
        simp only [hr, Option.map_some, Option.some.injEq] at hv
        subst hv
        have := h.record u hr
        exact ⟨this.1, this.2, this.3, this.4⟩
    · cases hv
  cases he with
  | tick d =>
    intro v hv
    rcases advance_runs s.r d k with h1 | h1
    · rw [show (s.r.advance d).runs k = none from h1] at hv; cases hv
    · exact h.record v (h1 ▸ hv)
  | addNow k' q t ht hq hx => intro v hv; exact put k' _ v _ hv hl (fun hk => hk.symm)
  | addLater k' q t ht hq hx => intro v hv; exact put k' _ v _ hv hl (fun hk => hk.symm)
  | replaceNow k' q t ht hq => intro v hv; exact put k' _ v _ hv hl (fun hk => hk.symm)
  | replaceLater k' q t ht hq => intro v hv; exact put k' _ v _ hv hl (fun hk => hk.symm)
  | cancel k' => intro v hv; exact put k' _ v _ hv hl (fun hk => hk.symm)
  | cancelTtl k' hk' =>
    intro v hv
    by_cases hk : k = k'
    · subst hk; exact expired v ((upd_same _ _ _).symm.trans hv)
    · exact h.record v ((upd_other _ _ _ _ hk).symm.trans hv)
  | clear op j js hj =>
    intro v hv
    simp only at hv
    split at hv
    · exact expired v hv
    · exact h.record v hv
  | schedule t ht =>
    intro v hv
    simp only at hv
    split at hv
    · rename_i hd
      obtain ⟨m, hm⟩ := (hc.due hop.1.notOrphaned hd).2
      rw [h.over] at hm; cases hm
    · exact h.record v hv
  | strikeOut p hp hph =>
    intro v hv
    have hk : p.msg.key ≠ k := hop.1.2 p hp rfl
    exact h.record v ((upd_other _ _ _ _ (Ne.symm hk)).symm.trans hv)
  | claim p hp hph hs => intro v hv; exact put _ _ v _ hv hl (fun hk => hk.symm)
  | finish p st' e' w hp hph hs => intro v hv; exact put _ _ v _ hv hl (fun hk => hk.symm)
  | rescheduleNow p t a d q hp hph hq hd hw' =>
    intro v hv; exact put _ _ v _ hv hl (fun hk => hk.symm)
  | rescheduleLater p t a d q hp hph hq hd hw' =>
    intro v hv; exact put _ _ v _ hv hl (fun hk => hk.symm)
  | _ => exact h.record

/-! ### Along histories -/

theorem eachStep_append {cfg : Cfg} {P : Sys → Op → Prop} (a b : List Op) : ∀ {s : Sys},
    EachStep cfg P s (a ++ b) → EachStep cfg P s a ∧ EachStep cfg P (runFrom cfg s a) b := by
  induction a with
  | nil => intro s h; exact ⟨trivial, h⟩
  | cons o a ih => intro s h; obtain ⟨h1, h2⟩ := ih h.2; exact ⟨⟨h.1, h1⟩, h2⟩

theorem QueuedInv.runFrom {cfg : Cfg} {k : Key} (ops : List Op) : ∀ {s : Sys}, CalmInv s k →
    RecInv s → QueuedInv s k → EachStep cfg (CalmStep k) s ops → QueuedInv (runFrom cfg s ops) k := by
  induction ops with
  | nil => intro s _ _ h _; exact h
  | cons o ops ih =>
    intro s hc hr h hs
    exact ih (hc.step o hs.1) (hr.step hc.wf hc.origin o) (h.step hc hr o hs.1) hs.2

theorem CleanInv.runFrom {cfg : Cfg} {k : Key} (ops : List Op) : ∀ {s : Sys}, CalmInv s k →
    CleanInv s k → EachStep cfg (CalmStep k) s ops → (∀ q t, Op.replace k q t ∉ ops) →
    (∀ e ∈ newEvents s (runFrom cfg s ops), ¬ EndsFirst k e) → CleanInv (runFrom cfg s ops) k := by
  induction ops with
  | nil => intro s _ h _ _ _; exact h
  | cons o ops ih =>
    intro s hc h hs hrep hne
    have hsplit := newEvents_append cfg hc.wf [o] ops
    rw [List.singleton_append] at hsplit
    refine ih (hc.step o hs.1) (h.step hc o hs.1 (fun q t ho => hrep q t (ho ▸ List.mem_cons_self ..))
      (newEvents_spec cfg hc.wf [o]) (fun e he => hne e (by
        rw [hsplit]; exact List.mem_append.2 (Or.inr he)))) hs.2
      (fun q t hm => hrep q t (List.mem_cons_of_mem _ hm)) (fun e he => hne e (by
        rw [hsplit]; exact List.mem_append.2 (Or.inl he)))

theorem EndedInv.runFrom {cfg : Cfg} {k : Key} {st : RunState} {c : Time} {e : Option String}
    {rk : Option Key} (ops : List Op) : ∀ {s : Sys}, CalmInv s k →
    EndedInv s k st c e rk → EachStep cfg (CalmStep k) s ops →
    (∀ x ∈ newEvents s (runFrom cfg s ops), ¬ Concerns k x) →
    EndedInv (runFrom cfg s ops) k st c e rk := by
  induction ops with
  | nil => intro s _ h _ _; exact h
  | cons o ops ih =>
    intro s hc h hs hne
    have hsplit := newEvents_append cfg hc.wf [o] ops
    rw [List.singleton_append] at hsplit
    refine ih (hc.step o hs.1) (h.step hc o hs.1
      (newEvents_spec cfg hc.wf [o]) (fun e he => hne e (by
        rw [hsplit]; exact List.mem_append.2 (Or.inr he)))) hs.2
      (fun e he => hne e (by rw [hsplit]; exact List.mem_append.2 (Or.inl he)))

/-- What a record shows when read twice, and what it shows when it is gone. -/
theorem getExecution_some {r₁ r₂ : Redis} {k : Key} {v : Info} (h : getExecution r₁ r₂ k = some v) :
    ∃ h₁, r₁.runs k = some h₁ ∧ h₁.fn = some v.fn ∧ h₁.args = some v.args ∧
      h₁.kwargs = some v.kwargs ∧ h₁.when_ = some v.when_ ∧ v.attempt = 1 ∧
      v.fn ≠ "" ∧ v.args ≠ "" ∧ v.kwargs ≠ "" ∧
      ((∃ h₂, r₂.runs k = some h₂ ∧ v.state = h₂.state.getD .scheduled ∧ v.worker = h₂.worker ∧
          v.startedAt = h₂.startedAt ∧ v.completedAt = h₂.completedAt ∧ v.error = h₂.error ∧
          v.resultKey = h₂.resultKey) ∨
        (r₂.runs k = none ∧ v.state = .scheduled ∧ v.worker = none ∧ v.startedAt = none ∧
          v.completedAt = none ∧ v.error = none ∧ v.resultKey = none)) := by
  simp only [getExecution, Option.map_eq_some_iff] at h
  obtain ⟨d, h1, rfl⟩ := h
  simp only [getDefinition] at h1
  split at h1
  · cases h1
  · rename_i h₁ hr
    split at h1
    · rename_i f a kw hf ha hkw
      split at h1
      · cases h1
      · rename_i hne
        simp only [not_or] at hne
        split at h1
        · cases h1
        · rename_i t ht
          simp only [Option.some.injEq] at h1
          subst h1
          refine ⟨h₁, hr, ?_⟩
          cases h2 : r₂.runs k with
          | none =>
            simp [syncInfo, h2, hf, ha, hkw, ht, hne]
          | some h₂ =>
            simp [syncInfo, h2, hf, ha, hkw, ht, hne]
    · cases h1

theorem HasRecord.of_fn {s : Sys} (hi : RecInv s) {k : Key} {h : Run} (hr : s.r.runs k = some h)
    {f : String} (hf : h.fn = some f) : ∃ g, h.gen = some g := by
  cases hg : h.gen with
  | some g => exact ⟨g, rfl⟩
  | none => rw [(hi k h hr).bare hg] at hf; cases hf

/-- Accepted tasks have non-empty parts when the calls have. -/
theorem plain_accepted (cfg : Cfg) (ops : List Op) (hp : ∀ op ∈ ops, Plain op) (m : Msg)
    (hm : Event.accepted m ∈ (run cfg ops).log) :
    m.req.fn ≠ "" ∧ m.req.args ≠ "" ∧ m.req.kwargs ≠ "" := by
  suffices ∀ (ops : List Op) (s : Sys), WF s → OriginInv s →
      (∀ m, Event.accepted m ∈ s.log → m.req.fn ≠ "" ∧ m.req.args ≠ "" ∧ m.req.kwargs ≠ "") →
      (∀ op ∈ ops, Plain op) → ∀ m, Event.accepted m ∈ (runFrom cfg s ops).log →
        m.req.fn ≠ "" ∧ m.req.args ≠ "" ∧ m.req.kwargs ≠ "" from
    this ops {} WF.init (OriginInv.run cfg []) (by simp) hp m hm
  intro ops
  induction ops with
  | nil => intro s _ _ h _ m hm; exact h m hm
  | cons o ops ih =>
    intro s hw ho h hp
    refine ih _ (hw.step o) (ho.step hw o) ?_ (fun op hop => hp op (List.mem_cons_of_mem _ hop))
    intro m hm
    have hpo := hp o (List.mem_cons_self ..)
    have he := step_eff cfg s hw.queue o
    generalize Docket.step cfg s o = s' at he hm
    have fresh : ∀ (k : Key) (q : Request) (g : Nat), Event.accepted m ∈ .accepted ⟨k, q, g⟩ :: s.log →
        (q.fn ≠ "" ∧ q.args ≠ "" ∧ q.kwargs ≠ "") → m.req.fn ≠ "" ∧ m.req.args ≠ "" ∧ m.req.kwargs ≠ "" := by
      intro k q g h1 h2
      simp only [List.mem_cons, Event.accepted.injEq] at h1
      rcases h1 with rfl | h1
      · exact h2
      · exact h m h1
    cases he with
    | addNow k q t ht hq hx => exact fresh _ _ _ hm hpo
    | addLater k q t ht hq hx => exact fresh _ _ _ hm hpo
    | replaceNow k q t ht hq => exact fresh _ _ _ hm hpo
    | replaceLater k q t ht hq => exact fresh _ _ _ hm hpo
    | rescheduleNow p t a d q hpp hph hq hd hw' =>
      exact fresh _ _ _ hm (by subst hq; exact h _ (ho.procs p hpp))
    | rescheduleLater p t a d q hpp hph hq hd hw' =>
      exact fresh _ _ _ hm (by subst hq; exact h _ (ho.procs p hpp))
    | poll w n new hnew =>
      refine h m ?_
      simp only [List.mem_append, List.mem_reverse] at hm
      rcases hm with hm | hm
      · obtain ⟨p', e, heq, _⟩ := mem_newHanded hm; cases heq
      · exact hm
    | _ => first
      | exact h m hm
      | exact h m (by simpa using hm)

theorem lastAccepted_mem {l : List Event} {k : Key} {m : Msg} (h : lastAccepted l k = some m) :
    Event.accepted m ∈ l ∧ m.key = k := by
  induction l with
  | nil => simp [lastAccepted] at h
  | cons e l ih =>
    cases e with
    | accepted m' =>
      simp only [lastAccepted] at h
      split at h
      · rename_i hk
        simp only [Option.some.injEq] at h; subst h; exact ⟨List.mem_cons_self .., hk⟩
      · exact ⟨List.mem_cons_of_mem _ (ih h).1, (ih h).2⟩
    | _ =>
      simp only [lastAccepted] at h
      exact ⟨List.mem_cons_of_mem _ (ih h).1, (ih h).2⟩

/-! ### C75 -/

/-- C75, the task.  In every reachable state, whatever the docket does between the two
reads (`r₂` is arbitrary): if `get_execution` returns something, then a task was accepted
under the key, and the function, the arguments and the time returned are those of the one
accepted last.  The attempt is right when that task is at its first attempt. -/
theorem C75_task_partial (cfg : Cfg) (ops : List Op) (r₂ : Redis) (k : Key) (v : Info)
    (h : getExecution (run cfg ops).r r₂ k = some v) :
    ∃ m, lastAccepted (run cfg ops).log k = some m ∧ SameTask m v ∧
      (m.req.attempt = 1 → v.attempt = m.req.attempt) := by
  obtain ⟨h₁, hr, hf, ha, hkw, hw, hat, _⟩ := getExecution_some h
  have hi := RecInv.run cfg ops
  obtain ⟨g, hg⟩ := HasRecord.of_fn hi hr hf
  obtain ⟨m, hm, h1, h2, h3, h4, _⟩ := (hi k h₁ hr).task g hg
  refine ⟨m, hm, ⟨?_, ?_, ?_, ?_⟩, fun h => hat.trans h.symm⟩
  · rw [hf] at h1; simpa using h1
  · rw [ha] at h2; simpa using h2
  · rw [hkw] at h3; simpa using h3
  · rw [hw] at h4; simpa using h4

/-- C75, found or not.  `get_execution` returns something exactly when the key has an
execution record at the first read. -/
theorem C75_found (cfg : Cfg) (ops : List Op) (hp : ∀ op ∈ ops, Plain op) (r₂ : Redis) (k : Key) :
    (getExecution (run cfg ops).r r₂ k).isSome ↔ HasRecord (run cfg ops) k := by
  have hi := RecInv.run cfg ops
  constructor
  · intro h
    obtain ⟨v, hv⟩ := Option.isSome_iff_exists.1 h
    obtain ⟨h₁, hr, hf, _⟩ := getExecution_some hv
    obtain ⟨g, hg⟩ := HasRecord.of_fn hi hr hf
    simp [HasRecord, Redis.genOf, hr, hg]
  · intro h
    obtain ⟨g, hg⟩ := Option.isSome_iff_exists.1 h
    cases hr : (run cfg ops).r.runs k with
    | none => simp [Redis.genOf, hr] at hg
    | some h₁ =>
      simp only [Redis.genOf, hr, Option.bind_some] at hg
      obtain ⟨m, hm, h1, h2, h3, h4, _⟩ := (hi k h₁ hr).task g hg
      obtain ⟨h5, h6, h7⟩ := plain_accepted cfg ops hp m (lastAccepted_mem hm).1
      simp [getExecution, getDefinition, hr, h1, h2, h3, h4, h5, h6, h7]

/-- C75, a key nothing was ever accepted under is not found. -/
theorem C75_unknown (cfg : Cfg) (ops : List Op) (r₂ : Redis) (k : Key)
    (hn : ∀ m, Event.accepted m ∈ (run cfg ops).log → m.key ≠ k) :
    getExecution (run cfg ops).r r₂ k = none := by
  cases h : getExecution (run cfg ops).r r₂ k with
  | none => rfl
  | some v =>
    obtain ⟨m, hm, _⟩ := C75_task_partial cfg ops r₂ k v h
    exact absurd (lastAccepted_mem hm).2 (hn m (lastAccepted_mem hm).1)

/-- C75, the state.  In every history, if the record still exists at the second read, the
state returned is that of the latest event of the key: scheduled after the key was
accepted, running after a worker started it, completed or failed after it ended so,
cancelled after a cancellation; and nothing that outdates it has happened since.  A
running execution comes with the worker that started it last and the time of that start.
Partial: the state queued needs a calm history, see `C75_describes_partial`, and when the
record expires between the reads the answer is wrong, see `C75_violated_gap`. -/
theorem C75_state_partial (cfg : Cfg) (ops more : List Op) (k : Key) (v : Info)
    (h : getExecution (run cfg ops).r (run cfg (ops ++ more)).r k = some v)
    (hr : HasRecord (run cfg (ops ++ more)) k) :
    (v.state ≠ .queued →
      ∃ e, Means k v.state e ∧ Latest v.state k (run cfg (ops ++ more)).log e) ∧
    (v.state = .running → ∃ pid id m t w b t₀,
      Latest .running k (run cfg (ops ++ more)).log (.started pid id m t) ∧ m.key = k ∧
      Event.handed pid id w b t₀ m ∈ (run cfg (ops ++ more)).log ∧
      v.startedAt = some t ∧ v.worker = some w) := by
  have hi := RecInv.run cfg (ops ++ more)
  obtain ⟨h₁, _, _, _, _, _, _, _, _, _, h2⟩ := getExecution_some h
  rcases h2 with ⟨h₂, hr2, hs, hwk, hst, _⟩ | ⟨hr2, _⟩
  · have hok := hi k h₂ hr2
    obtain ⟨st, hst'⟩ := Option.isSome_iff_exists.1 (hok.shown (by
      simpa [HasRecord, Redis.genOf, hr2] using hr))
    have hvs : v.state = st := by rw [hs, hst']; rfl
    constructor
    · intro hq; rw [hvs] at hq ⊢; exact hok.state st hst' hq
    · intro hq
      rw [hvs] at hq; subst hq
      obtain ⟨pid, id, m, t, w, b, t₀, h3, h4, h5, h6, h7⟩ := hok.running hst'
      exact ⟨pid, id, m, t, w, b, t₀, h3, h4, h5, hst.trans h6, hwk.trans h7⟩
  · simp [HasRecord, Redis.genOf, hr2] at hr

/-- C75, the first run.  Take any moment `run cfg pre` at which the key has no record, and
any continuation in which nobody replaces `k`, nobody cancels it and no execution of it
ends (retries are allowed), the whole history being calm for `k`
(`CalmStep`, see C17).  If the task last accepted is at its first attempt, the answer of
`get_execution` is accurate in every respect: task, attempt, state, worker, starting time,
and no completion time or error. -/
theorem C75_describes_partial (cfg : Cfg) (pre ops : List Op) (k : Key) (v : Info)
    (hcalm : EachStep cfg (CalmStep k) {} (pre ++ ops))
    (hnew : (run cfg pre).r.runs k = none)
    (hrep : ∀ q t, Op.replace k q t ∉ ops)
    (hend : ∀ e ∈ newEvents (run cfg pre) (run cfg (pre ++ ops)), ¬ EndsFirst k e)
    (hfirst : ∀ m, lastAccepted (run cfg (pre ++ ops)).log k = some m → m.req.attempt = 1)
    (h : getExecution (run cfg (pre ++ ops)).r (run cfg (pre ++ ops)).r k = some v) :
    Describes (run cfg (pre ++ ops)).log k v ∧ v.completedAt = none ∧ v.error = none ∧
      v.resultKey = none := by
  have hcat : run cfg (pre ++ ops) = runFrom cfg (run cfg pre) ops := by rw [run, runFrom_append]; rfl
  obtain ⟨hc1, hc2⟩ := eachStep_append pre ops hcalm
  have hcp : CalmInv (run cfg pre) k := CalmInv.runFrom pre (CalmInv.init k) hc1
  have hq : QueuedInv (run cfg (pre ++ ops)) k :=
    QueuedInv.runFrom (pre ++ ops) (CalmInv.init k) (fun k h hh => by simp at hh)
      (fun hh => by simp [Redis.stateOf] at hh) hcalm
  have hclean : CleanInv (run cfg (pre ++ ops)) k := by
    rw [hcat] at hend ⊢
    exact CleanInv.runFrom ops hcp (fun x hx => by rw [hnew] at hx; cases hx) hc2 hrep hend
  obtain ⟨m, hm, hsame, hatt⟩ := C75_task_partial cfg _ _ k v h
  obtain ⟨h₁, hr, hf, _, _, _, _, _, _, _, h2⟩ := getExecution_some h
  obtain ⟨g, hg⟩ := HasRecord.of_fn (RecInv.run cfg _) hr hf
  have hrec : HasRecord (run cfg (pre ++ ops)) k := by simp [HasRecord, Redis.genOf, hr, hg]
  have hstate := C75_state_partial cfg (pre ++ ops) [] k v (by simpa using h) (by simpa using hrec)
  rw [List.append_nil] at hstate
  rcases h2 with ⟨h₂, hr2, hs, hwk, hst, hco, her, hre⟩ | ⟨hr2, _⟩
  · rw [hr] at hr2; simp only [Option.some.injEq] at hr2; subst hr2
    have hcl := hclean h₁ hr
    have hshown := ((RecInv.run cfg _) k h₁ hr).shown (by simp [hg])
    obtain ⟨st, hst'⟩ := Option.isSome_iff_exists.1 hshown
    have hvs : v.state = st := by rw [hs, hst']; rfl
    refine ⟨⟨⟨m, hm, hsame, hatt (hfirst m hm)⟩, ?_, ?_, ?_, ?_⟩, hco.trans hcl.1, her.trans hcl.2,
      hre.trans hcl.3⟩
    · by_cases hvq : v.state = .queued
      · rw [hvq]
        obtain ⟨m, hmk, hl⟩ := hq (by rw [Redis.stateOf, hr]; simp [hst', ← hvs, hvq])
        exact ⟨_, .queued m hmk, hl⟩
      · exact hstate.1 hvq
    · intro hw
      have := hcl.idle (by rw [hst', ← hvs]; rcases hw with hw | hw <;> simp [hw])
      exact ⟨hwk.trans this.1, hst.trans this.2, hco.trans hcl.1, her.trans hcl.2⟩
    · intro hrun
      exact ⟨hco.trans hcl.1, her.trans hcl.2, hstate.2 hrun⟩
    · intro _; exact her.trans hcl.2
  · rw [hr] at hr2; cases hr2

/-- C75, after the first run.  Continue such a history with the end of the current
execution of `k`, in the state `st` with the error `e`, and with anything in which `k` is
not scheduled, started, cancelled or ended again.  As long as the record exists at the
second read, `get_execution` returns exactly that end: the state, its time, the error and
where the result is. -/
theorem C75_ended_partial (cfg : Cfg) (pre ops more : List Op) (pid : Nat) (id : MsgId) (m : Msg)
    (st : RunState) (e : Option String) (w : Bool) (r₁ : Redis) (v : Info)
    (hcalm : EachStep cfg (CalmStep m.key) {} (pre ++ ops ++ .finish pid st e w :: more))
    (hnew : (run cfg pre).r.runs m.key = none)
    (hrep : ∀ q t, Op.replace m.key q t ∉ ops)
    (hend : ∀ x ∈ newEvents (run cfg pre) (run cfg (pre ++ ops)), ¬ EndsFirst m.key x)
    (hfin : (run cfg (pre ++ ops ++ [.finish pid st e w])).log =
      .finished pid id m st true :: (run cfg (pre ++ ops)).log)
    (hquiet : ∀ x ∈ newEvents (run cfg (pre ++ ops ++ [.finish pid st e w]))
      (run cfg (pre ++ ops ++ .finish pid st e w :: more)), ¬ Concerns m.key x)
    (h : getExecution r₁ (run cfg (pre ++ ops ++ .finish pid st e w :: more)).r m.key = some v)
    (hr : HasRecord (run cfg (pre ++ ops ++ .finish pid st e w :: more)) m.key) :
    v.state = st ∧ v.completedAt = some (run cfg (pre ++ ops)).r.now ∧ v.error = e ∧
      v.resultKey = if w then some m.key else none := by
  have cat : ∀ a b, run cfg (a ++ b) = runFrom cfg (run cfg a) b := by
    intro a b; rw [run, runFrom_append]; rfl
  rw [List.append_assoc] at hcalm
  obtain ⟨hc1, hc2⟩ := eachStep_append pre _ hcalm
  obtain ⟨hc2, hc3⟩ := eachStep_append ops _ hc2
  have hcp : CalmInv (run cfg pre) m.key := CalmInv.runFrom pre (CalmInv.init _) hc1
  have hcs : CalmInv (run cfg (pre ++ ops)) m.key := by
    rw [cat]; exact CalmInv.runFrom ops hcp hc2
  have hclean : CleanInv (run cfg (pre ++ ops)) m.key := by
    rw [cat] at hend ⊢
    exact CleanInv.runFrom ops hcp (fun x hx => by rw [hnew] at hx; cases hx) hc2 hrep hend
  change EachStep cfg (CalmStep m.key) (runFrom cfg (run cfg pre) ops) _ at hc3
  rw [← cat] at hc3
  have h1 : EndedInv (run cfg (pre ++ ops ++ [.finish pid st e w])) m.key st
      (run cfg (pre ++ ops)).r.now e (if w then some m.key else none) := by
    have hlog := hfin
    have hs : run cfg (pre ++ ops ++ [.finish pid st e w]) =
        step cfg (run cfg (pre ++ ops)) (.finish pid st e w) := by rw [cat]; rfl
    refine ⟨?_, by rw [hfin]; simp [outstanding]⟩
    rw [hs] at hlog ⊢
    have he := step_eff cfg _ hcs.wf.queue (.finish pid st e w)
    generalize Docket.step cfg _ (.finish pid st e w) = s' at he hlog
    have ha := hclean.atRun
    cases he with
    | nop => simp at hlog
    | clear op j js hj => simp at hj
    | prog op k f hop => simp at hop
    | finish p st e w hp hph hs =>
      have hm : p.msg = m := by
        simp only [List.cons.injEq, Event.finished.injEq] at hlog; exact hlog.1.2.2.1
      subst hm
      intro v hv
      replace hv := (upd_same _ _ _).symm.trans hv
      split at hv
      · simp only [Option.some.injEq] at hv; subst hv
        refine ⟨rfl, rfl, ?_, ?_⟩
        · simp only [terminalRun, ha.error]; cases e <;> rfl
        · simp only [terminalRun, ha.resultKey]; cases w <;> rfl
      · cases hv
    | finishSuperseded p st e w hp hph hs => simp at hlog
  have h2 : EndedInv (run cfg (pre ++ ops ++ .finish pid st e w :: more)) m.key st
      (run cfg (pre ++ ops)).r.now e (if w then some m.key else none) := by
    have hc : pre ++ ops ++ .finish pid st e w :: more =
        pre ++ ops ++ [.finish pid st e w] ++ more := by simp
    rw [hc] at hquiet ⊢
    rw [cat (pre ++ ops ++ [Op.finish pid st e w]) more] at hquiet ⊢
    have hs : run cfg (pre ++ ops ++ [.finish pid st e w]) =
        step cfg (run cfg (pre ++ ops)) (.finish pid st e w) := by rw [cat]; rfl
    refine EndedInv.runFrom more ?_ h1 ?_ hquiet
    · rw [hs]; exact hcs.step _ hc3.1
    · rw [hs]; exact hc3.2
  obtain ⟨_, _, _, _, _, _, _, _, _, _, h3⟩ := getExecution_some h
  rcases h3 with ⟨h₂, hr2, hvs, _, _, hco, her, hre⟩ | ⟨hr2, _⟩
  · have := h2.record h₂ hr2
    exact ⟨by rw [hvs, this.1]; rfl, hco.trans this.2, her.trans this.3, hre.trans this.4⟩
  · rw [HasRecord, Redis.genOf, hr2] at hr; cases hr

/-- C75, where the task waits.  In every calm history, while a task of `k` is outstanding,
the reported state tells where it is: scheduled exactly when it waits in the schedule, and
queued or running exactly when it is in the stream. -/
theorem C75_where_partial (cfg : Cfg) (ops : List Op) (k : Key) (m : Msg) (v : Info)
    (hcalm : EachStep cfg (CalmStep k) {} ops)
    (hout : outstanding (run cfg ops).log k = some m)
    (h : getExecution (run cfg ops).r (run cfg ops).r k = some v) :
    (v.state = .scheduled ↔ InSchedule (run cfg ops) m) ∧
    (v.state = .queued ∨ v.state = .running ↔ InStream (run cfg ops) m) := by
  have hc : CalmInv (run cfg ops) k := CalmInv.runFrom ops (CalmInv.init k) hcalm
  obtain ⟨h₁, hr, hf, _, _, _, _, _, _, _, h2⟩ := getExecution_some h
  obtain ⟨g, hg⟩ := HasRecord.of_fn (RecInv.run cfg _) hr hf
  have hrec : HasRecord (run cfg ops) k := by simp [HasRecord, Redis.genOf, hr, hg]
  obtain ⟨hk, hcar⟩ := hc.carried k m hout
  have hcar := hcar hrec
  have hgen := hcar.gen
  rw [hk] at hgen
  have hst : (run cfg ops).r.stateOf k = some v.state := by
    rcases h2 with ⟨h₂, hr2, hs, _⟩ | ⟨hr2, _⟩
    · obtain ⟨st, hst'⟩ := Option.isSome_iff_exists.1
        (((RecInv.run cfg _) k h₂ hr2).shown (by
          rw [hr] at hr2; simp only [Option.some.injEq] at hr2; subst hr2; simp [hg]))
      rw [Redis.stateOf, hr2, hs]; simp [hst']
    · rw [hr] at hr2; cases hr2
  have hsch : InSchedule (run cfg ops) m → v.state = .scheduled := by
    intro hi
    have := hc.life.parked m (hk ▸ hi.1) hgen
    rw [hst] at this; simpa using this
  have hstr : InStream (run cfg ops) m → v.state = .queued ∨ v.state = .running := by
    rintro ⟨id, hi⟩
    have := hc.life.stream (id, m) hi hk hgen
    rw [hst] at this; simpa using this
  refine ⟨⟨fun hv => ?_, hsch⟩, ⟨fun hv => ?_, hstr⟩⟩
  · rcases hcar.place with hp | hp
    · rcases hstr hp with h | h <;> rw [h] at hv <;> cases hv
    · exact hp
  · rcases hcar.place with hp | hp
    · exact hp
    · rw [hsch hp] at hv; simp at hv

/-! ### The premises are met -/

private def exCfg : Cfg := ⟨100, 10⟩
private def exReq : Request := { fn := "send", args := "(1,)", kwargs := "{}", when_ := 0, attempt := 1 }
private def exLater : Request := { exReq with when_ := 5 }

/-- A later task that waits, is moved by the scheduler, starts at 6, and, after an earlier
life of the key whose record expired. -/
private def exPre : List Op := [.add "k" exReq 0, .poll "v" 1, .claim 0,
  .finish 0 .failed (some "old") false, .tick 200]
private def exOps : List Op := [.add "k" { exLater with when_ := 205 } 200, .tick 5, .schedule 205,
  .poll "w" 1, .tick 1, .claim 1]

example : EachStep exCfg (CalmStep "k") {} (exPre ++ exOps) ∧
    (run exCfg exPre).r.runs "k" = none ∧
    (∀ e ∈ newEvents (run exCfg exPre) (run exCfg (exPre ++ exOps)), ¬ EndsFirst "k" e) ∧
    (lastAccepted (run exCfg (exPre ++ exOps)).log "k").map (·.req.attempt) = some 1 ∧
    getExecution (run exCfg (exPre ++ exOps)).r (run exCfg (exPre ++ exOps)).r "k" = some
      { fn := "send", args := "(1,)", kwargs := "{}", when_ := 205, attempt := 1,
        state := .running, worker := some "w", startedAt := some 206 } := by
  refine ⟨?_, ?_, ?_, ?_, ?_⟩ <;> decide +kernel

/-- The end, and some time afterwards. -/
private def exMore : List Op := [.tick 50, .add "other" exReq 0]

example : EachStep exCfg (CalmStep "k") {} (exPre ++ exOps ++ .finish 1 .failed (some "new") true :: exMore) ∧
    HasRecord (run exCfg (exPre ++ exOps ++ .finish 1 .failed (some "new") true :: exMore)) "k" ∧
    (∀ x ∈ newEvents (run exCfg (exPre ++ exOps ++ [.finish 1 .failed (some "new") true]))
      (run exCfg (exPre ++ exOps ++ .finish 1 .failed (some "new") true :: exMore)), ¬ Concerns "k" x) ∧
    (getExecution (run exCfg (exPre ++ exOps)).r
      (run exCfg (exPre ++ exOps ++ .finish 1 .failed (some "new") true :: exMore)).r "k").map
        (fun v => (v.state, v.completedAt, v.error, v.resultKey)) =
      some (.failed, some 206, some "new", some "k") := by
  refine ⟨?_, ?_, ?_, ?_⟩ <;> decide +kernel

/-! ### Where the code disagrees -/

/-- A failed run, and the key scheduled again before its record expired. -/
private def exAgain : List Op := [.add "k" exReq 0, .poll "w" 1, .claim 0,
  .finish 0 .failed (some "boom") false, .add "k" exReq 0]

/-- The code violates the property: scheduling a key again does not clear the fields of
the earlier run (`_schedule` only overwrites state, time and definition), so the task is
reported as queued together with a worker, a starting time, a completion time and an
error. -/
theorem C75_violated_leftovers : ¬ C75_statement := by
  intro h
  obtain ⟨v, hv⟩ : ∃ v, getExecution (run exCfg exAgain).r (run exCfg exAgain).r "k" = some v ∧
      (v.state, v.error) = (.queued, some "boom") :=
    Option.map_eq_some_iff.1 (by decide +kernel)
  simp only [Prod.mk.injEq] at hv
  have := (h exCfg exAgain "k" v (by simp [exAgain, Plain, exReq]) hv.1).waiting (Or.inr hv.2.1)
  rw [hv.2.2] at this
  simp at this

/-- The code violates the property: when the second run completes, `_terminal` writes an
error only if there is one, so the completed execution still shows the error of the
first. -/
theorem C75_violated_completed_error : ¬ C75_statement := by
  intro h
  obtain ⟨v, hv⟩ : ∃ v, getExecution
      (run exCfg (exAgain ++ [.poll "w" 1, .claim 1, .finish 1 .completed none false])).r
      (run exCfg (exAgain ++ [.poll "w" 1, .claim 1, .finish 1 .completed none false])).r "k" =
        some v ∧ (v.state, v.error) = (.completed, some "boom") :=
    Option.map_eq_some_iff.1 (by decide +kernel)
  simp only [Prod.mk.injEq] at hv
  have := (h exCfg _ "k" v (by simp [exAgain, Plain, exReq]) hv.1).completed hv.2.1
  rw [hv.2.2] at this
  simp at this

/-- The code violates the property: a retry is reported with attempt 1, whatever its
attempt is (docket.py:683). -/
theorem C75_violated_attempt : ¬ C75_statement := by
  intro h
  obtain ⟨v, hv⟩ : ∃ v, getExecution
      (run exCfg [.add "k" exReq 0, .poll "w" 1, .claim 0, .reschedule 0 5 2 0]).r
      (run exCfg [.add "k" exReq 0, .poll "w" 1, .claim 0, .reschedule 0 5 2 0]).r "k" =
        some v ∧ v.attempt = 1 :=
    Option.map_eq_some_iff.1 (by decide +kernel)
  obtain ⟨m, h1, _, h2⟩ := (h exCfg _ "k" v (by simp [Plain, exReq]) hv.1).task
  rw [hv.2] at h2
  have : (lastAccepted (run exCfg [.add "k" exReq 0, .poll "w" 1, .claim 0, .reschedule 0 5 2 0]).log
    "k").map (·.req.attempt) = some 2 := by decide +kernel
  rw [h1] at this
  simp only [Option.map_some, Option.some.injEq] at this
  omega

/-- The code violates the property for the state: when the record of a completed task
expires between the two reads, `sync` falls back to its default and the task is reported
as scheduled, which it was at no moment of the call. -/
theorem C75_violated_gap : ¬ C75_state_statement := by
  intro h
  obtain ⟨v, hv⟩ : ∃ v, getExecution
      (run exCfg [.add "k" exReq 0, .poll "w" 1, .claim 0, .finish 0 .completed none false]).r
      (run exCfg ([.add "k" exReq 0, .poll "w" 1, .claim 0, .finish 0 .completed none false] ++
        [.tick 200])).r "k" = some v ∧ v.state = .scheduled :=
    Option.map_eq_some_iff.1 (by decide +kernel)
  obtain ⟨mid, h1, h2⟩ := h exCfg _ _ "k" v hv.1
  rw [hv.2] at h2
  have hm : mid = [] ∨ mid = [.tick 200] := by
    obtain ⟨t, ht⟩ := h1
    match mid, ht with
    | [], _ => exact Or.inl rfl
    | [a], ht => simp at ht; exact Or.inr (by rw [ht.1])
    | a :: b :: c, ht => simp at ht
  rcases hm with rfl | rfl
  · revert h2; decide +kernel
  · revert h2; decide +kernel

end Docket
