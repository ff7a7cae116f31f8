import Verif.Worker.Progress
import Verif.Core.Log
import Verif.Core.WFStep
/-
C81 What a task reports about its progress is recorded for that task.
C82 A progress event tells what the record says.
-/
namespace Docket.Progress
open Docket Redis

/-! ### Specification -/

/-- `P` holds at the beginning and after every event. -/
def Always (cfg : Cfg) (obj : Objects) (P : St → Prop) : St → List Ev → Prop
  | st, [] => P st
  | st, e :: es => P st ∧ Always cfg obj P (st.step cfg obj e) es

instance decAlways (cfg : Cfg) (obj : Objects) (P : St → Prop) [DecidablePred P] :
    ∀ st es, Decidable (Always cfg obj P st es)
  | st, [] => by unfold Always; infer_instance
  | st, e :: es => by
    unfold Always
    have := decAlways cfg obj P (st.step cfg obj e) es
    infer_instance

/-- The record before and after the report `r`: what was reported is there, and nothing else
changed that a reader sees; a number below 1 changes nothing at all. -/
def Noted (r : Report) (before after : Option Prog) : Prop :=
  match r with
  | .total n => if n < 1 then after = before else
      after.bind (·.total) = some n.toNat ∧ after.bind (·.current) = before.bind (·.current) ∧
      after.bind (·.message) = before.bind (·.message)
  | .message m =>
      after.bind (·.message) = m ∧ after.bind (·.current) = before.bind (·.current) ∧
      after.bind (·.total) = before.bind (·.total)
  | .count n => if n < 1 then after = before else
      after.bind (·.current) = some ((before.bind (·.current)).getD 0 + n.toNat) ∧
      after.bind (·.total) = before.bind (·.total) ∧
      after.bind (·.message) = before.bind (·.message)

instance (r : Report) (b a : Option Prog) : Decidable (Noted r b a) := by
  cases r <;> (unfold Noted; dsimp only; infer_instance)

/-- Execution `pid` has not ended and its body has begun. -/
def InProgress (st : St) (pid : Nat) : Prop :=
  pid ∈ st.entered ∧ ∃ p ∈ st.sys.procs, p.pid = pid

instance (st : St) (pid : Nat) : Decidable (InProgress st pid) := by
  unfold InProgress; infer_instance

/-- While `p` is in progress, no other execution is whose function has the same `Progress` object
in its signature. -/
def Undisturbed (obj : Objects) (p : Proc) (st : St) : Prop :=
  InProgress st p.pid → ∀ q ∈ st.sys.procs, q.pid ∈ st.entered → objOf obj q = objOf obj p → q.pid = p.pid

instance (obj : Objects) (p : Proc) : DecidablePred (Undisturbed obj p) := fun st => by
  unfold Undisturbed; infer_instance

/-! ### Lemmas -/

theorem put_same (f : Nat → Option α) (i : Nat) (v : Option α) : put f i v i = v := by simp [put]
theorem put_other (f : Nat → Option α) {i j : Nat} (v : Option α) (h : j ≠ i) : put f i v j = f j := by
  simp [put, h]

theorem pid_inj {s : Sys} (hw : WF s) {a b : Proc} (ha : a ∈ s.procs) (hb : b ∈ s.procs)
    (h : a.pid = b.pid) : a = b := by
  have h1 := proc?_of_mem hw ha
  rw [h, proc?_of_mem hw hb] at h1
  exact (Option.some.inj h1).symm

/-- An execution after an operation, and the one it was before. -/
structure Was (op : Op) (p0 p : Proc) : Prop where
  pid : p0.pid = p.pid
  worker : p0.worker = p.worker
  id : p0.id = p.id
  msg : p0.msg = p.msg
  handed : p.phase = .handed → p0.phase = .handed
  running : p.phase = .running → p0.phase = .running ∨ (op = .claim p.pid ∧ p0.phase = .handed)
  stays : p0.phase = .running → p.phase = .running

theorem procs_step (cfg : Cfg) {s : Sys} (hw : WF s) (op : Op) {p : Proc} (hp : p ∈ (step cfg s op).procs) :
    (∃ p0 ∈ s.procs, Was op p0 p) ∨ (s.nextPid ≤ p.pid ∧ p.phase = .handed) := by
  have same : ∀ {q : Proc}, q ∈ s.procs → (∃ p0 ∈ s.procs, Was op p0 q) :=
    fun {q} hq => ⟨q, hq, rfl, rfl, rfl, rfl, id, Or.inl, id⟩
  have he := step_eff cfg s hw.queue op
  generalize Docket.step cfg s op = s' at he hp
  cases he with
  | poll w n new hnew =>
    rcases List.mem_append.1 hp with h | h
    · exact Or.inl (same h)
    · have := mem_newProcs h
      exact Or.inr ⟨this.2.2.2.2.1, this.2.1⟩
  | redeliver w pd e =>
    rcases List.mem_append.1 hp with h | h
    · exact Or.inl (same h)
    · simp only [List.mem_singleton] at h; subst h; exact Or.inr ⟨Nat.le_refl _, rfl⟩
  | crash => exact Or.inl (same (List.mem_filter.1 hp).1)
  | abandon => exact Or.inl (same (List.mem_filter.1 hp).1)
  | claimSuperseded => exact Or.inl (same (List.mem_filter.1 hp).1)
  | finish => exact Or.inl (same (List.mem_filter.1 hp).1)
  | finishSuperseded => exact Or.inl (same (List.mem_filter.1 hp).1)
  | rescheduleNow => exact Or.inl (same (List.mem_filter.1 hp).1)
  | rescheduleLater => exact Or.inl (same (List.mem_filter.1 hp).1)
  | strikeOut p1 hp1 hph =>
    obtain ⟨x, hx, rfl⟩ := List.mem_map.1 hp
    refine Or.inl ⟨x, hx, ?_⟩
    split
    · rename_i h
      have := pid_inj hw hx hp1 h
      subst this
      exact ⟨rfl, rfl, rfl, rfl, by simp, by simp, fun h => by rw [hph] at h; cases h⟩
    · exact ⟨rfl, rfl, rfl, rfl, id, Or.inl, id⟩
  | claim p1 hp1 hph =>
    obtain ⟨x, hx, rfl⟩ := List.mem_map.1 hp
    refine Or.inl ⟨x, hx, ?_⟩
    split
    · rename_i h
      have := pid_inj hw hx hp1 h
      subst this
      exact ⟨rfl, rfl, rfl, rfl, by simp, fun _ => Or.inr ⟨rfl, hph⟩, fun _ => rfl⟩
    · exact ⟨rfl, rfl, rfl, rfl, id, Or.inl, id⟩
  | _ => exact Or.inl (same hp)

theorem nextPid_step (cfg : Cfg) {s : Sys} (hw : WF s) (op : Op) : s.nextPid ≤ (step cfg s op).nextPid := by
  have he := step_eff cfg s hw.queue op
  generalize Docket.step cfg s op = s' at he
  cases he <;> first | exact Nat.le_refl _ | exact Nat.le_add_right _ _

theorem callOn_sys (cfg : Cfg) (st : St) (body target : Nat) (t : Tracker) (r : Report) :
    (callOn st body target t r).sys = st.sys ∨
    ∃ o, (callOn st body target t r).sys = step cfg st.sys o := by
  cases r with
  | total n =>
    simp only [callOn]; split
    · exact Or.inl rfl
    · exact Or.inr ⟨.setTotal t.key n, rfl⟩
  | message m => exact Or.inr ⟨.setMessage t.key m, rfl⟩
  | count n =>
    simp only [callOn]; split
    · exact Or.inl rfl
    · exact Or.inr ⟨.increment t.key n, rfl⟩

/-- Whatever happens, the docket takes a step of the core model or none. -/
theorem sys_step (cfg : Cfg) (obj : Objects) (st : St) (e : Ev) :
    (st.step cfg obj e).sys = st.sys ∨ ∃ o, (st.step cfg obj e).sys = step cfg st.sys o := by
  cases e with
  | op o => exact Or.inr ⟨o, rfl⟩
  | enter pid =>
    simp only [St.step]
    split
    · split <;> exact Or.inl rfl
    · exact Or.inl rfl
  | report pid r =>
    simp only [St.step]
    split
    · split
      · split
        · split
          · exact callOn_sys cfg _ _ _ _ _
          · exact Or.inl rfl
        · exact Or.inl rfl
      · exact Or.inl rfl
    · exact Or.inl rfl
  | answer no =>
    simp only [St.step]
    split
    · split <;> exact Or.inl rfl
    · exact Or.inl rfl

theorem wf_step (cfg : Cfg) (obj : Objects) {st : St} (hw : WF st.sys) (e : Ev) :
    WF (st.step cfg obj e).sys := by
  rcases sys_step cfg obj st e with h | ⟨o, h⟩ <;> rw [h]
  · exact hw
  · exact hw.step o

theorem procs_ev (cfg : Cfg) (obj : Objects) {st : St} (hw : WF st.sys) (e : Ev) {p : Proc}
    (hp : p ∈ (st.step cfg obj e).sys.procs) :
    (∃ p0 ∈ st.sys.procs, p0.pid = p.pid ∧ p0.worker = p.worker ∧ p0.id = p.id ∧ p0.msg = p.msg) ∨
    st.sys.nextPid ≤ p.pid := by
  rcases sys_step cfg obj st e with h | ⟨o, h⟩ <;> rw [h] at hp
  · exact Or.inl ⟨p, hp, rfl, rfl, rfl, rfl⟩
  · rcases procs_step cfg hw o hp with ⟨p0, h0, hq⟩ | h
    · exact Or.inl ⟨p0, h0, hq.pid, hq.worker, hq.id, hq.msg⟩
    · exact Or.inr h.1

theorem nextPid_ev (cfg : Cfg) (obj : Objects) {st : St} (hw : WF st.sys) (e : Ev) :
    st.sys.nextPid ≤ (st.step cfg obj e).sys.nextPid := by
  rcases sys_step cfg obj st e with h | ⟨o, h⟩ <;> rw [h]
  · exact Nat.le_refl _
  · exact nextPid_step cfg hw o

/-- Where an execution that is there at the end was before. -/
theorem origin (cfg : Cfg) (obj : Objects) (es : List Ev) (st : St) (hw : WF st.sys) {p : Proc}
    (hp : p ∈ (st.run cfg obj es).sys.procs) :
    (∃ p0 ∈ st.sys.procs, p0.pid = p.pid ∧ p0.worker = p.worker ∧ p0.id = p.id ∧ p0.msg = p.msg) ∨
    st.sys.nextPid ≤ p.pid := by
  induction es generalizing st with
  | nil => exact Or.inl ⟨p, hp, rfl, rfl, rfl, rfl⟩
  | cons e es ih =>
    rcases ih _ (wf_step cfg obj hw e) hp with ⟨p1, h1, a1, a2, a3, a4⟩ | h
    · rcases procs_ev cfg obj hw e h1 with ⟨p0, h0, b1, b2, b3, b4⟩ | h
      · exact Or.inl ⟨p0, h0, b1.trans a1, b2.trans a2, b3.trans a3, b4.trans a4⟩
      · exact Or.inr (a1 ▸ h)
    · exact Or.inr (Nat.le_trans (nextPid_ev cfg obj hw e) h)

/-- What holds in every state. -/
structure Inv (obj : Objects) (st : St) : Prop where
  wf : WF st.sys
  lt : ∀ i ∈ st.entered, i < st.sys.nextPid
  fresh : ∀ p ∈ st.sys.procs, p.phase = .handed → st.tracker p.pid = none
  started : ∀ p ∈ st.sys.procs, p.phase = .running → ∃ t, st.tracker p.pid = some t
  ent : ∀ i ∈ st.entered, (st.tracker i).isSome
  key : ∀ i t, st.tracker i = some t → i < st.sys.nextPid ∧
    ∀ p ∈ st.sys.procs, p.pid = i → p.msg.key = t.key ∧ p.phase = .running
  slot : ∀ o i, st.slot o = some i → i ∈ st.entered ∧ ∀ p ∈ st.sys.procs, p.pid = i → objOf obj p = o
  calls : ∀ c ∈ st.calls, c.no < st.nextCall ∧ (st.tracker c.target).isSome
  nodup : (st.calls.map (·.no)).Nodup
  told : ∀ e ∈ st.told, (st.tracker e.source).isSome

theorem claim_ok (cfg : Cfg) {s : Sys} (hw : WF s) {p : Proc} (hp : p ∈ s.procs) (hph : p.phase = .handed)
    (hs : isSuperseded s.r p.msg.key p.msg.gen = false) :
    (step cfg s (.claim p.pid)).procs =
      s.procs.map (fun x => if x.pid = p.pid then { x with phase := .running } else x) ∧
    (step cfg s (.claim p.pid)).r.progress = upd s.r.progress p.msg.key (some
      { current := some 0, total := some 100, gen := some p.msg.gen }) := by
  simp only [step, doClaim, proc?_of_mem hw hp, hph, if_true]
  rw [luaClaim_ok _ _ _ _ _ hs]
  exact ⟨rfl, rfl⟩

theorem claim_superseded (cfg : Cfg) {s : Sys} (hw : WF s) {p : Proc} (hp : p ∈ s.procs)
    (hph : p.phase = .handed) (hs : isSuperseded s.r p.msg.key p.msg.gen = true) :
    (step cfg s (.claim p.pid)).procs = s.procs.filter (fun x => x.pid ≠ p.pid) := by
  simp only [step, doClaim, proc?_of_mem hw hp, hph, if_true]
  rw [luaClaim_superseded _ _ _ _ _ hs]
  rfl

/-- What a claim does to the trackers. -/
theorem claimed_cases (cfg : Cfg) {st : St} (hw : WF st.sys) (pid : Nat) :
    (claimed st (step cfg st.sys (.claim pid)) pid = st.tracker ∧
      ∀ p ∈ (step cfg st.sys (.claim pid)).procs, p.phase = .running →
        ∃ p0 ∈ st.sys.procs, Was (.claim pid) p0 p ∧ p0.phase = .running) ∨
    (∃ p ∈ st.sys.procs, p.pid = pid ∧ p.phase = .handed ∧
      (step cfg st.sys (.claim pid)).r.progress = upd st.sys.r.progress p.msg.key (some
        { current := some 0, total := some 100, gen := some p.msg.gen }) ∧
      claimed st (step cfg st.sys (.claim pid)) pid =
        put st.tracker pid (some { key := p.msg.key, current := some 0, total := 100 })) := by
  have left : claimed st (step cfg st.sys (.claim pid)) pid = st.tracker →
      (∀ p ∈ (step cfg st.sys (.claim pid)).procs, p.pid = pid → p.phase = .running →
        ∀ p0 ∈ st.sys.procs, p0.pid = pid → p0.phase = .handed → False) →
      (claimed st (step cfg st.sys (.claim pid)) pid = st.tracker ∧
      ∀ p ∈ (step cfg st.sys (.claim pid)).procs, p.phase = .running →
        ∃ p0 ∈ st.sys.procs, Was (.claim pid) p0 p ∧ p0.phase = .running) := by
    intro h1 h2
    refine ⟨h1, fun p hp hph => ?_⟩
    rcases procs_step cfg hw _ hp with ⟨p0, h0, hwas⟩ | h
    · refine ⟨p0, h0, hwas, ?_⟩
      rcases hwas.running hph with h | ⟨h, h'⟩
      · exact h
      · injection h with h
        exact (h2 p hp h.symm hph p0 h0 (hwas.pid.trans h.symm) h').elim
    · rw [h.2] at hph; cases hph
  by_cases hex : ∃ p ∈ st.sys.procs, p.pid = pid ∧ p.phase = .handed
  · obtain ⟨p, hp, rfl, hph⟩ := hex
    cases hs : isSuperseded st.sys.r p.msg.key p.msg.gen with
    | true =>
      have hpr := claim_superseded cfg hw hp hph hs
      refine Or.inl (left ?_ ?_)
      · unfold claimed
        have : (step cfg st.sys (.claim p.pid)).proc? p.pid = none := by
          simp [Sys.proc?, hpr]
        rw [this]
        cases st.sys.proc? p.pid <;> rfl
      · intro x hx hxp
        rw [hpr] at hx
        simp [hxp] at hx
    | false =>
      have hpr := claim_ok cfg hw hp hph hs
      refine Or.inr ⟨p, hp, rfl, hph, hpr.2, ?_⟩
      have hm : ({ p with phase := .running } : Proc) ∈ (step cfg st.sys (.claim p.pid)).procs := by
        rw [hpr.1]
        exact List.mem_map.2 ⟨p, hp, by simp⟩
      have := proc?_of_mem (hw.step (cfg := cfg) (.claim p.pid)) hm
      unfold claimed
      simp only at this
      rw [proc?_of_mem hw hp, this]
      simp [hph]
  · refine Or.inl (left ?_ ?_)
    · unfold claimed
      cases h1 : st.sys.proc? pid with
      | none => rfl
      | some p =>
        obtain ⟨hp, hpid⟩ := find_pid h1
        cases (step cfg st.sys (.claim pid)).proc? pid with
        | none => rfl
        | some p' =>
          simp only
          rw [if_neg]
          exact fun h => hex ⟨p, hp, hpid, h.1⟩
    · intro _ _ _ _ p0 h0 h1 h2
      exact hex ⟨p0, h0, h1, h2⟩

theorem Inv.op (cfg : Cfg) {obj : Objects} {st : St} (h : Inv obj st) (o : Op) :
    Inv obj (st.step cfg obj (.op o)) := by
  have hn := nextPid_step cfg h.wf o
  have hlt := h.wf.procs.1
  -- the trackers: as they were, or one more
  have cases : ((st.step cfg obj (.op o)).tracker = st.tracker ∧
        ∀ p ∈ (step cfg st.sys o).procs, p.phase = .running →
          ∃ p0 ∈ st.sys.procs, Was o p0 p ∧ p0.phase = .running) ∨
      (∃ p ∈ st.sys.procs, o = .claim p.pid ∧ p.phase = .handed ∧
        (st.step cfg obj (.op o)).tracker =
          put st.tracker p.pid (some { key := p.msg.key, current := some 0, total := 100 })) := by
    have other : (∀ pid, o ≠ .claim pid) → (st.step cfg obj (.op o)).tracker = st.tracker →
        ((st.step cfg obj (.op o)).tracker = st.tracker ∧
        ∀ p ∈ (step cfg st.sys o).procs, p.phase = .running →
          ∃ p0 ∈ st.sys.procs, Was o p0 p ∧ p0.phase = .running) := by
      intro h1 h2
      refine ⟨h2, fun p hp hph => ?_⟩
      rcases procs_step cfg h.wf o hp with ⟨p0, h0, hwas⟩ | h
      · refine ⟨p0, h0, hwas, ?_⟩
        rcases hwas.running hph with h | ⟨h, _⟩
        · exact h
        · exact (h1 _ h).elim
      · rw [h.2] at hph; cases hph
    cases o with
    | claim pid =>
      rcases claimed_cases cfg h.wf pid with h1 | ⟨p, hp, rfl, hph, _, h1⟩
      · exact Or.inl h1
      · exact Or.inr ⟨p, hp, rfl, hph, h1⟩
    | _ => exact Or.inl (other (by intro _ h; cases h) rfl)
  have hsys : (st.step cfg obj (.op o)).sys = step cfg st.sys o := rfl
  have some_stays : ∀ i, (st.tracker i).isSome → ((st.step cfg obj (.op o)).tracker i).isSome := by
    intro i hi
    rcases cases with ⟨hc, _⟩ | ⟨p, _, _, _, hc⟩ <;> rw [hc]
    · exact hi
    · unfold put; split
      · rfl
      · exact hi
  refine ⟨h.wf.step o, ?_, ?_, ?_, ?_, ?_, ?_, ?_, h.nodup, ?_⟩
  · intro i hi; exact Nat.lt_of_lt_of_le (h.lt i hi) hn
  · intro p hp hph
    rcases procs_step cfg h.wf o hp with ⟨p0, h0, hwas⟩ | hnew
    · have hf := h.fresh p0 h0 (hwas.handed hph)
      rw [hwas.pid] at hf
      rcases cases with ⟨hc, _⟩ | ⟨q, hq, rfl, hqh, hc⟩ <;> rw [hc]
      · exact hf
      · by_cases hpq : p.pid = q.pid
        · exfalso
          have hp0q := pid_inj h.wf h0 hq (hwas.pid.trans hpq)
          subst hp0q
          have hp : p ∈ (step cfg st.sys (.claim p0.pid)).procs := hp
          cases hs : isSuperseded st.sys.r p0.msg.key p0.msg.gen with
          | true =>
            rw [claim_superseded cfg h.wf h0 hqh hs] at hp
            simp [hpq] at hp
          | false =>
            rw [(claim_ok cfg h.wf h0 hqh hs).1] at hp
            obtain ⟨x, hx, rfl⟩ := List.mem_map.1 hp
            split at hph
            · cases hph
            · rename_i hne
              simp only [hne, if_false] at hpq
        · rw [put_other _ _ hpq]; exact hf
    · cases ht : st.tracker p.pid with
      | none =>
        rcases cases with ⟨hc, _⟩ | ⟨q, hq, rfl, hqh, hc⟩ <;> rw [hc]
        · exact ht
        · rw [put_other, ht]
          have := (hlt q hq).2.1
          omega
      | some t =>
        have := (h.key _ _ ht).1
        omega
  · intro p hp hph
    rcases cases with ⟨hc, hr⟩ | ⟨q, hq, rfl, hqh, hc⟩
    · obtain ⟨p0, h0, hwas, hph0⟩ := hr p hp hph
      rw [hc, ← hwas.pid]
      exact h.started p0 h0 hph0
    · rw [hc]
      by_cases hpq : p.pid = q.pid
      · exact ⟨_, by rw [hpq, put_same]⟩
      · rw [put_other _ _ hpq]
        rcases procs_step cfg h.wf _ hp with ⟨p0, h0, hwas⟩ | hnew
        · rw [← hwas.pid]
          rcases hwas.running hph with h1 | ⟨h1, _⟩
          · exact h.started p0 h0 h1
          · injection h1 with h1
            exact (hpq h1.symm).elim
        · rw [hnew.2] at hph; cases hph
  · intro i hi; exact some_stays i (h.ent i hi)
  · intro i t ht
    have old : st.tracker i = some t → i < (step cfg st.sys o).nextPid ∧
        ∀ p ∈ (step cfg st.sys o).procs, p.pid = i → p.msg.key = t.key ∧ p.phase = .running := by
      intro ht
      obtain ⟨h1, h2⟩ := h.key i t ht
      refine ⟨Nat.lt_of_lt_of_le h1 hn, fun p hp hpi => ?_⟩
      rcases procs_step cfg h.wf o hp with ⟨p0, h0, hwas⟩ | hnew
      · obtain ⟨a, b⟩ := h2 p0 h0 (hwas.pid.trans hpi)
        exact ⟨hwas.msg ▸ a, hwas.stays b⟩
      · omega
    rcases cases with ⟨hc, _⟩ | ⟨q, hq, rfl, hqh, hc⟩
    · rw [hc] at ht; exact old ht
    · rw [hc] at ht
      by_cases hiq : i = q.pid
      · subst hiq
        rw [put_same] at ht
        cases ht
        refine ⟨Nat.lt_of_lt_of_le (hlt q hq).2.1 hn, fun p hp hpi => ?_⟩
        have hp : p ∈ (step cfg st.sys (.claim q.pid)).procs := hp
        cases hs : isSuperseded st.sys.r q.msg.key q.msg.gen with
        | true =>
          rw [claim_superseded cfg h.wf hq hqh hs] at hp
          simp [hpi] at hp
        | false =>
          rw [(claim_ok cfg h.wf hq hqh hs).1] at hp
          obtain ⟨x, hx, rfl⟩ := List.mem_map.1 hp
          split at hpi
          · rename_i hxq
            have := pid_inj h.wf hx hq hxq
            subst this
            simp
          · rename_i hne; exact (hne hpi).elim
      · rw [put_other _ _ hiq] at ht; exact old ht
  · intro b i hb
    obtain ⟨h1, h2⟩ := h.slot b i hb
    refine ⟨h1, fun p hp hpi => ?_⟩
    rcases procs_step cfg h.wf o hp with ⟨p0, h0, hwas⟩ | hnew
    · have := h2 p0 h0 (hwas.pid.trans hpi)
      rw [← this, objOf, objOf, hwas.worker, hwas.msg]
    · have := h.lt i h1; omega
  · intro c hc
    exact ⟨(h.calls c hc).1, some_stays _ (h.calls c hc).2⟩
  · intro e he; exact some_stays _ (h.told e he)

/-- Changing trackers without losing one, and nothing else that matters. -/
theorem Inv.call {obj : Objects} {st st' : St} (h : Inv obj st) (hw : WF st'.sys)
    (hpr : st'.sys.procs = st.sys.procs) (hn : st'.sys.nextPid = st.sys.nextPid)
    (he : st'.entered = st.entered) (hs : st'.slot = st.slot)
    (ht : ∀ i, (st.tracker i = none → st'.tracker i = none) ∧
      ∀ t, st.tracker i = some t → ∃ t', st'.tracker i = some t' ∧ t'.key = t.key)
    (hc : ∀ c ∈ st'.calls, c.no < st'.nextCall ∧ (st.tracker c.target).isSome)
    (hd : (st'.calls.map (·.no)).Nodup)
    (hl : ∀ e ∈ st'.told, (st.tracker e.source).isSome) : Inv obj st' := by
  have hsome : ∀ i, (st.tracker i).isSome → (st'.tracker i).isSome := by
    intro i hi
    obtain ⟨t, ht1⟩ := Option.isSome_iff_exists.1 hi
    obtain ⟨t', ht2, _⟩ := (ht i).2 t ht1
    simp [ht2]
  refine ⟨hw, ?_, ?_, ?_, ?_, ?_, ?_, ?_, hd, ?_⟩
  · rw [he, hn]; exact h.lt
  · rw [hpr]; intro p hp hph; exact (ht _).1 (h.fresh p hp hph)
  · rw [hpr]; intro p hp hph
    obtain ⟨t, h1⟩ := h.started p hp hph
    obtain ⟨t', h2, _⟩ := (ht _).2 t h1
    exact ⟨t', h2⟩
  · rw [he]; intro i hi; exact hsome i (h.ent i hi)
  · rw [hpr, hn]; intro i t' ht'
    cases h1 : st.tracker i with
    | none => rw [(ht i).1 h1] at ht'; cases ht'
    | some t =>
      obtain ⟨t'', h2, h3⟩ := (ht i).2 t h1
      rw [h2] at ht'; cases ht'
      rw [h3]
      exact h.key i t h1
  · rw [he, hpr, hs]; exact h.slot
  · intro c hc'; exact ⟨(hc c hc').1, hsome _ (hc c hc').2⟩
  · intro e he'; exact hsome _ (hl e he')

theorem put_tracker {st : St} {target : Nat} {t t1 : Tracker} (ht : st.tracker target = some t)
    (hk : t1.key = t.key) (i : Nat) :
    (st.tracker i = none → put st.tracker target (some t1) i = none) ∧
      ∀ u, st.tracker i = some u → ∃ t', put st.tracker target (some t1) i = some t' ∧ t'.key = u.key := by
  by_cases hi : i = target
  · subst hi
    rw [put_same, ht]
    exact ⟨by simp, fun u hu => ⟨t1, rfl, by cases hu; exact hk⟩⟩
  · rw [put_other _ _ hi]
    exact ⟨id, fun u hu => ⟨u, hu, rfl⟩⟩

theorem Inv.callOn (cfg : Cfg) {obj : Objects} {st : St} (h : Inv obj st) (body target : Nat) {t : Tracker}
    (ht : st.tracker target = some t) (r : Report) : Inv obj (callOn st body target t r) := by
  have hs : (st.tracker target).isSome := by simp [ht]
  cases r with
  | total n =>
    simp only [Progress.callOn]
    split
    · exact h
    · rename_i hn
      have hw := h.wf.step (cfg := cfg) (.setTotal t.key n)
      refine h.call hw ?_ ?_ rfl rfl (put_tracker ht (by rfl)) h.calls h.nodup ?_
      · simp [doSetTotal, hn]
      · simp [doSetTotal, hn]
      · intro e he
        rcases List.mem_cons.1 he with rfl | he
        · exact hs
        · exact h.told e he
  | message m =>
    refine h.call (h.wf.step (cfg := cfg) (.setMessage t.key m)) rfl rfl rfl rfl (put_tracker ht (by rfl))
      h.calls h.nodup ?_
    intro e he
    rcases List.mem_cons.1 he with rfl | he
    · exact hs
    · exact h.told e he
  | count n =>
    simp only [Progress.callOn]
    split
    · exact h
    · rename_i hn
      refine h.call (h.wf.step (cfg := cfg) (.increment t.key n)) (by simp [doIncrement, hn])
        (by simp [doIncrement, hn]) rfl rfl (fun i => ⟨id, fun u hu => ⟨u, hu, rfl⟩⟩) ?_ ?_ h.told
      · intro c hc
        rcases List.mem_append.1 hc with hc | hc
        · have := h.calls c hc
          exact ⟨Nat.lt_succ_of_lt this.1, this.2⟩
        · simp only [List.mem_singleton] at hc; subst hc
          exact ⟨Nat.lt_succ_self _, hs⟩
      · simp only [List.map_append, List.map_cons, List.map_nil]
        rw [List.nodup_append]
        refine ⟨h.nodup, by simp, ?_⟩
        intro a ha b hb hab
        simp only [List.mem_singleton] at hb
        obtain ⟨c, hc, rfl⟩ := List.mem_map.1 ha
        have := (h.calls c hc).1
        omega

theorem Inv.step (cfg : Cfg) {obj : Objects} {st : St} (h : Inv obj st) (e : Ev) :
    Inv obj (st.step cfg obj e) := by
  cases e with
  | op o => exact h.op cfg o
  | enter pid =>
    simp only [St.step]
    split
    · rename_i p hp'
      obtain ⟨hp, rfl⟩ := find_pid hp'
      split
      · rename_i hc
        refine ⟨h.wf, ?_, h.fresh, h.started, ?_, h.key, ?_, h.calls, h.nodup, h.told⟩
        · intro i hi
          rcases List.mem_cons.1 hi with rfl | hi
          · exact (h.wf.procs.1 p hp).2.1
          · exact h.lt i hi
        · intro i hi
          rcases List.mem_cons.1 hi with rfl | hi
          · obtain ⟨t, ht⟩ := h.started p hp hc.1
            simp [ht]
          · exact h.ent i hi
        · intro o i hi
          change put st.slot (objOf obj p) (some p.pid) o = some i at hi
          by_cases ho : o = objOf obj p
          · subst ho
            rw [put_same] at hi
            cases hi
            exact ⟨List.mem_cons_self, fun q hq hqp => by rw [pid_inj h.wf hq hp hqp]⟩
          · rw [put_other _ _ ho] at hi
            exact ⟨List.mem_cons_of_mem _ (h.slot o i hi).1, (h.slot o i hi).2⟩
      · exact h
    · exact h
  | report pid r =>
    simp only [St.step]
    split
    · split
      · split
        · split
          · rename_i ht
            exact h.callOn cfg _ _ ht _
          · exact h
        · exact h
      · exact h
    · exact h
  | answer no =>
    simp only [St.step]
    split
    · rename_i c hc
      split
      · rename_i t ht
        refine h.call (st' := answered st c t) h.wf rfl rfl rfl rfl (put_tracker ht (by rfl)) ?_ ?_ ?_
        · intro x hx; exact h.calls x (List.mem_filter.1 hx).1
        · exact List.Sublist.nodup (List.Sublist.map _ List.filter_sublist) h.nodup
        · intro e he
          rcases List.mem_cons.1 he with rfl | he
          · simp [ht]
          · exact h.told e he
      · exact h
    · exact h

theorem Inv.init (obj : Objects) : Inv obj {} := by
  refine ⟨WF.init, ?_, ?_, ?_, ?_, ?_, ?_, ?_, ?_, ?_⟩ <;> simp

theorem Inv.run (cfg : Cfg) {obj : Objects} (es : List Ev) {st : St} (h : Inv obj st) :
    Inv obj (st.run cfg obj es) := by
  induction es generalizing st with
  | nil => exact h
  | cons e es ih => exact ih (h.step cfg e)

/-- The object of an execution in progress holds that execution. -/
def Holds (obj : Objects) (p : Proc) (st : St) : Prop :=
  InProgress st p.pid → st.slot (objOf obj p) = some p.pid

theorem InProgress.before {cfg : Cfg} {obj : Objects} {st : St} (h : Inv obj st) {e : Ev} {pid : Nat}
    (hp : InProgress (st.step cfg obj e) pid) (hne : e ≠ .enter pid) : InProgress st pid := by
  obtain ⟨h1, p, h2, h3⟩ := hp
  have h1' : pid ∈ st.entered := by
    cases e with
    | op o => exact h1
    | enter i =>
      simp only [St.step] at h1
      split at h1
      · split at h1
        · rcases List.mem_cons.1 h1 with rfl | h1
          · exact (hne rfl).elim
          · exact h1
        · exact h1
      · exact h1
    | report i r =>
      simp only [St.step] at h1
      split at h1
      · split at h1
        · split at h1
          · split at h1
            · cases r with
              | total n => simp only [Progress.callOn] at h1; split at h1 <;> exact h1
              | message m => exact h1
              | count n => simp only [Progress.callOn] at h1; split at h1 <;> exact h1
            · exact h1
          · exact h1
        · exact h1
      · exact h1
    | answer no =>
      simp only [St.step] at h1
      split at h1
      · split at h1 <;> exact h1
      · exact h1
  refine ⟨h1', ?_⟩
  rcases procs_ev cfg obj h.wf e h2 with ⟨p0, h0, hpid, _⟩ | hnew
  · exact ⟨p0, h0, hpid.trans h3⟩
  · have := h.lt pid h1'
    omega

theorem slot_step (cfg : Cfg) (obj : Objects) (st : St) (e : Ev) (hne : ∀ pid, e ≠ .enter pid) :
    (st.step cfg obj e).slot = st.slot := by
  cases e with
  | op o => rfl
  | enter i => exact (hne i rfl).elim
  | report i r =>
    simp only [St.step]
    split
    · split
      · split
        · split
          · cases r with
            | total n => simp only [Progress.callOn]; split <;> rfl
            | message m => rfl
            | count n => simp only [Progress.callOn]; split <;> rfl
          · rfl
        · rfl
      · rfl
    · rfl
  | answer no =>
    simp only [St.step]
    split
    · split <;> rfl
    · rfl

theorem Holds.step (cfg : Cfg) {obj : Objects} {st : St} (hi : Inv obj st) {p : Proc} (h : Holds obj p st)
    (e : Ev) (hu : Undisturbed obj p (st.step cfg obj e))
    (hsame : ∀ q ∈ st.sys.procs, q.pid = p.pid → objOf obj q = objOf obj p) :
    Holds obj p (st.step cfg obj e) := by
  intro hp
  by_cases hen : ∃ i, e = .enter i
  · obtain ⟨i, rfl⟩ := hen
    simp only [St.step] at hp hu ⊢
    cases hq : st.sys.proc? i with
    | none => simp only [hq] at hp ⊢; exact h hp
    | some q =>
      simp only [hq] at hp hu ⊢
      obtain ⟨hqm, rfl⟩ := find_pid hq
      by_cases hc : q.phase = .running ∧ q.pid ∉ st.entered
      · simp only [if_pos hc] at hp hu ⊢
        by_cases hqp : q.pid = p.pid
        · rw [hsame q hqm hqp, put_same, hqp]
        · by_cases ho : objOf obj q = objOf obj p
          · exact (hqp (hu hp q hqm List.mem_cons_self ho)).elim
          · rw [put_other _ _ (Ne.symm ho)]
            apply h
            refine ⟨?_, hp.2⟩
            rcases List.mem_cons.1 hp.1 with h1 | h1
            · exact (hqp h1.symm).elim
            · exact h1
      · simp only [if_neg hc] at hp ⊢; exact h hp
  · have hne : ∀ pid, e ≠ .enter pid := fun pid hc => hen ⟨pid, hc⟩
    rw [slot_step cfg obj st e hne]
    exact h (hp.before hi (hne _))

theorem Holds.run (cfg : Cfg) {obj : Objects} (es : List Ev) {st : St} (hi : Inv obj st) {p : Proc}
    (h : Holds obj p st) (hp : p ∈ (st.run cfg obj es).sys.procs)
    (hu : Always cfg obj (Undisturbed obj p) st es) : Holds obj p (st.run cfg obj es) := by
  induction es generalizing st with
  | nil => exact h
  | cons e es ih =>
    refine ih (hi.step cfg e) (h.step cfg hi e ?_ ?_) hp hu.2
    · cases es with
      | nil => exact hu.2
      | cons e' es => exact hu.2.1
    · intro q hq hqp
      rcases origin cfg obj (e :: es) st hi.wf hp with ⟨p0, h0, a1, a2, _, a4⟩ | hnew
      · have := pid_inj hi.wf hq h0 (hqp.trans a1.symm)
        subst this
        rw [objOf, objOf, a2, a4]
      · have := (hi.wf.procs.1 q hq).2.1
        omega

/-! ### C81 -/

/-- The full statement of C81: whatever the body of a running task reports is recorded for that
task, and for no other. -/
def C81_statement : Prop :=
  ∀ (cfg : Cfg) (obj : Objects) (es : List Ev) (p : Proc) (r : Report),
    let st := ({} : St).run cfg obj es
    let st' := st.step cfg obj (.report p.pid r)
    p ∈ st.sys.procs → p.phase = .running → p.pid ∈ st.entered →
    Noted r (st.sys.r.progress p.msg.key) (st'.sys.r.progress p.msg.key) ∧
    ∀ k, k ≠ p.msg.key → st'.sys.r.progress k = st.sys.r.progress k

theorem callOn_noted (st : St) (body target : Nat) (t : Tracker) (r : Report) :
    Noted r (st.sys.r.progress t.key) ((callOn st body target t r).sys.r.progress t.key) ∧
    ∀ k, k ≠ t.key → (callOn st body target t r).sys.r.progress k = st.sys.r.progress k := by
  have h0 : ∀ (x : Option Prog), (x.getD {}).current = x.bind (·.current) ∧
      (x.getD {}).total = x.bind (·.total) ∧ (x.getD {}).message = x.bind (·.message) := by
    intro x; cases x <;> exact ⟨rfl, rfl, rfl⟩
  cases r with
  | total n =>
    simp only [callOn, Noted]
    split
    · exact ⟨rfl, fun _ _ => rfl⟩
    · rename_i hn
      simp only [doSetTotal, hn, if_false, hsetProg, upd_same, Option.bind_some]
      exact ⟨⟨trivial, (h0 _).1, (h0 _).2.2⟩, fun k hk => upd_other _ _ _ _ hk⟩
  | message m =>
    simp only [callOn, Noted, doSetMessage, hsetProg, upd_same, Option.bind_some]
    exact ⟨⟨trivial, (h0 _).1, (h0 _).2.1⟩, fun k hk => upd_other _ _ _ _ hk⟩
  | count n =>
    simp only [callOn, Noted]
    split
    · exact ⟨rfl, fun _ _ => rfl⟩
    · rename_i hn
      simp only [doIncrement, hn, if_false, hsetProg, upd_same, Option.bind_some, (h0 _).1]
      exact ⟨⟨trivial, (h0 _).2.1, (h0 _).2.2⟩, fun k hk => upd_other _ _ _ _ hk⟩

/-- A report by an execution whose object holds that execution. -/
theorem report_eq (cfg : Cfg) {obj : Objects} {st : St} (hi : Inv obj st) {p : Proc} (hp : p ∈ st.sys.procs)
    (hph : p.phase = .running) (hen : p.pid ∈ st.entered) (hh : Holds obj p st) (r : Report) :
    ∃ t, st.tracker p.pid = some t ∧ t.key = p.msg.key ∧
      st.step cfg obj (.report p.pid r) = callOn st p.pid p.pid t r := by
  obtain ⟨t, ht⟩ := hi.started p hp hph
  refine ⟨t, ht, (((hi.key _ _ ht).2 p hp rfl).1).symm, ?_⟩
  simp only [St.step, proc?_of_mem hi.wf hp, if_pos (And.intro hph hen), hh ⟨hen, p, hp, rfl⟩, ht]

/-- C81.  After any history, what the body of a running task reports through its `Progress` is
recorded for that task and changes nobody else's record, provided that, while the task was in
progress, no other task was whose function has the same `Progress` object in its signature, such
as another execution of the same function on the same worker. -/
theorem C81_recorded_partial (cfg : Cfg) (obj : Objects) (es : List Ev) (p : Proc) (r : Report)
    (hp : p ∈ (({} : St).run cfg obj es).sys.procs) (hph : p.phase = .running)
    (hen : p.pid ∈ (({} : St).run cfg obj es).entered)
    (hu : Always cfg obj (Undisturbed obj p) {} es) :
    Noted r ((({} : St).run cfg obj es).sys.r.progress p.msg.key)
      (((({} : St).run cfg obj es).step cfg obj (.report p.pid r)).sys.r.progress p.msg.key) ∧
    ∀ k, k ≠ p.msg.key →
      ((({} : St).run cfg obj es).step cfg obj (.report p.pid r)).sys.r.progress k =
        (({} : St).run cfg obj es).sys.r.progress k := by
  have hi := (Inv.init obj).run cfg es
  have hh := Holds.run cfg es (Inv.init obj) (p := p) (by intro h; simp [InProgress] at h) hp hu
  obtain ⟨t, _, hk, he⟩ := report_eq cfg hi hp hph hen hh r
  rw [he, ← hk]
  exact callOn_noted _ _ _ _ _

/-- At most one execution is in progress in each process; `host` says in which process a worker is. -/
def Serial (host : WorkerName → Nat) (st : St) : Prop :=
  ∀ p ∈ st.sys.procs, ∀ q ∈ st.sys.procs, host p.worker = host q.worker → p.pid ∈ st.entered → q.pid ∈ st.entered → q.pid = p.pid

instance (host : WorkerName → Nat) : DecidablePred (Serial host) := fun st => by unfold Serial; infer_instance

/-- C81 for processes that do one task after the other: what the body of a running task reports is
recorded for that task and for no other. -/
theorem C81_one_after_the_other_partial (cfg : Cfg) (obj : Objects) (host : WorkerName → Nat) (es : List Ev)
    (p : Proc) (r : Report) (hobj : ∀ w w' f f', obj w f = obj w' f' → host w = host w')
    (hp : p ∈ (({} : St).run cfg obj es).sys.procs) (hph : p.phase = .running)
    (hen : p.pid ∈ (({} : St).run cfg obj es).entered)
    (hser : Always cfg obj (Serial host) {} es) :
    Noted r ((({} : St).run cfg obj es).sys.r.progress p.msg.key)
      (((({} : St).run cfg obj es).step cfg obj (.report p.pid r)).sys.r.progress p.msg.key) ∧
    ∀ k, k ≠ p.msg.key →
      ((({} : St).run cfg obj es).step cfg obj (.report p.pid r)).sys.r.progress k =
        (({} : St).run cfg obj es).sys.r.progress k := by
  refine C81_recorded_partial cfg obj es p r hp hph hen ?_
  suffices ∀ (es : List Ev) (st : St), Inv obj st → p ∈ (st.run cfg obj es).sys.procs →
      Always cfg obj (Serial host) st es → Always cfg obj (Undisturbed obj p) st es from
    this es {} (Inv.init obj) hp hser
  intro es
  have here : ∀ (es : List Ev) (st : St), Inv obj st → p ∈ (st.run cfg obj es).sys.procs → Serial host st →
      Undisturbed obj p st := by
    intro es st hi hp hs ⟨h1, x, hx, hxp⟩ q hq hqe ho
    rcases origin cfg obj es st hi.wf hp with ⟨p0, h0, a1, a2, _, _⟩ | hnew
    · have := hs p0 h0 q hq (a2 ▸ (hobj _ _ _ _ ho).symm) (a1 ▸ h1) hqe
      rw [this, a1]
    · have := hi.lt _ h1
      omega
  induction es with
  | nil => intro st hi hp hs; exact here [] st hi hp hs
  | cons e es ih =>
    intro st hi hp hs
    exact ⟨here (e :: es) st hi hp hs.1, ih _ (hi.step cfg e) hp hs.2⟩

/-- Two executions of one function, one after the other, within the hypotheses. -/
example :
    let cfg : Cfg := ⟨1000, 8⟩
    let obj : Objects := fun w _ => w.length
    let host : WorkerName → Nat := fun w => w.length
    let es : List Ev := [.op (.add "k" ⟨"f", "a", "b", 0, 1⟩ 0), .op (.add "j" ⟨"f", "a", "b", 0, 1⟩ 0),
      .op (.poll "w" 1), .op (.claim 0), .enter 0, .report 0 (.count 2), .answer 0,
      .op (.finish 0 .completed none false), .op (.poll "w" 1), .op (.claim 1), .enter 1,
      .report 1 (.total 7)]
    let p : Proc := ⟨1, "w", 2, ⟨"j", ⟨"f", "a", "b", 0, 1⟩, 1⟩, false, .running⟩
    let st := ({} : St).run cfg obj es
    p ∈ st.sys.procs ∧ p.pid ∈ st.entered ∧ Always cfg obj (Undisturbed obj p) {} es ∧
    (∀ w w' f f', obj w f = obj w' f' → host w = host w') ∧ Always cfg obj (Serial host) {} es ∧ st.entered = [1, 0] ∧
    ((st.step cfg obj (.report 1 (.count 3))).sys.r.progress "j").map (fun q => (q.current, q.total)) =
      some (some 3, some 7) := by
  intro cfg obj host es p st
  exact ⟨by decide +kernel, by decide +kernel, by decide +kernel, fun _ _ _ _ h => h, by decide +kernel,
    by decide +kernel, by decide +kernel⟩

/-- The two executions of function `f` that one worker works on at the same time. -/
def together : List Ev :=
  [.op (.add "k" ⟨"f", "a", "b", 0, 1⟩ 0), .op (.add "j" ⟨"f", "a", "b", 0, 1⟩ 0), .op (.poll "w" 2),
    .op (.claim 0), .op (.claim 1), .enter 0, .enter 1]

/-- The code violates it: entering the dependency stores the execution's progress in the object in
the signature of the function and hands out that object (_progress.py:35-38), so that of two
executions of one function in one process, both report for the one that began later. -/
theorem C81_violated_shared : ¬ C81_statement := by
  intro h
  have := h ⟨1000, 8⟩ (fun _ _ => 0) together ⟨0, "w", 1, ⟨"k", ⟨"f", "a", "b", 0, 1⟩, 1⟩, false, .running⟩
    (.count 3) (by decide +kernel) rfl (by decide +kernel)
  exact absurd this.1 (by decide +kernel)

/-- What comes of it: the task that reports stays at 0, the other one gets its increments; and when
the other one has ended, reporting goes on there and leaves a progress record of a completed task
behind. -/
example :
    let st := ({} : St).run ⟨1000, 8⟩ (fun _ _ => 0) (together ++ [.report 0 (.count 3), .answer 0])
    let st' := st.run ⟨1000, 8⟩ (fun _ _ => 0) [.op (.finish 1 .completed none false), .report 0 (.count 2), .answer 1,
      .op (.finish 0 .completed none false), .op (.tick 5000)]
    (st.sys.r.progress "k").bind (·.current) = some 0 ∧ (st.sys.r.progress "j").bind (·.current) = some 3 ∧
    st'.sys.procs = [] ∧ st'.sys.r.runs "j" = none ∧ (st'.sys.r.progress "j").bind (·.current) = some 2 := by
  decide +kernel

/-! ### C82 -/

/-- Something other than a task body writes progress. -/
def Direct : Ev → Bool
  | .op (.increment _ _) | .op (.setTotal _ _) | .op (.setMessage _ _) => true
  | _ => false

/-- The event is a report by the body of `p`. -/
def mine (p : Proc) : Ev → Bool
  | .report pid _ => pid == p.pid
  | _ => false

/-- At most one call of `increment()` of `p`'s progress is under way: the body awaits each call
before it makes the next. -/
def OneAtATime (p : Proc) (st : St) : Prop := (st.calls.filter (fun c => c.target = p.pid)).length ≤ 1

instance (p : Proc) : DecidablePred (OneAtATime p) := fun st => by unfold OneAtATime; infer_instance

/-- Once `p` has started, nothing but its own reports changes the progress record of its key: it is
not cancelled, and no other execution of its key starts, ends or reports. -/
def OnlyOwn (cfg : Cfg) (obj : Objects) (p : Proc) : St → List Ev → Prop
  | _, [] => True
  | st, e :: es =>
    ((∃ q ∈ st.sys.procs, q.pid = p.pid ∧ q.phase = .running) → mine p e = false →
      (st.step cfg obj e).sys.r.progress p.msg.key = st.sys.r.progress p.msg.key) ∧
    OnlyOwn cfg obj p (st.step cfg obj e) es

instance decOnlyOwn (cfg : Cfg) (obj : Objects) (p : Proc) : ∀ st es, Decidable (OnlyOwn cfg obj p st es)
  | st, [] => by unfold OnlyOwn; infer_instance
  | st, e :: es => by
    unfold OnlyOwn
    have := decOnlyOwn cfg obj p (st.step cfg obj e) es
    infer_instance

/-- The last progress event that `p`'s reports led to. -/
def lastTold (st : St) (p : Proc) : Option Told := st.told.find? (fun e => e.source = p.pid)

/-- What the body of `p` reads back, and the last event about it, agree with the record. -/
def Agrees (obj : Objects) (st : St) (p : Proc) : Prop :=
  readsBack obj st p = some (seen (st.sys.r.progress p.msg.key)) ∧
  ∀ e, lastTold st p = some e → e.key = p.msg.key ∧
    (some e.current, e.total, e.message) = seen (st.sys.r.progress p.msg.key)

/-- The full statement of C82: while a task runs and none of its calls is under way, what it reads
back and the last event about its progress agree with the record. -/
def C82_statement : Prop :=
  ∀ (cfg : Cfg) (obj : Objects) (es : List Ev) (p : Proc),
    let st := ({} : St).run cfg obj es
    p ∈ st.sys.procs → p.phase = .running → p.pid ∈ st.entered →
    Always cfg obj (Undisturbed obj p) {} es → (∀ e ∈ es, Direct e = false) → st.calls = [] →
    Agrees obj st p

/-- The invariant behind C82. -/
structure Good (p : Proc) (st : St) (t : Tracker) (q : Prog) : Prop where
  message : q.message = t.message
  total : q.total = some t.total
  busy : ∀ c, st.calls.filter (fun c => c.target = p.pid) = [c] → q.current = some c.value
  idle : st.calls.filter (fun c => c.target = p.pid) = [] → ∃ n, q.current = some n ∧ t.current = some n ∧
    ∀ e, lastTold st p = some e → e.current = n
  told : ∀ e, lastTold st p = some e → e.key = t.key ∧ e.total = t.total ∧ e.message = t.message

def AllGood (p : Proc) (st : St) : Prop :=
  ∀ t, st.tracker p.pid = some t → (∃ x ∈ st.sys.procs, x.pid = p.pid) →
    ∃ q, st.sys.r.progress p.msg.key = some q ∧ Good p st t q

theorem find_none {st : St} {p : Proc} (h : ∀ e ∈ st.told, (st.tracker e.source).isSome)
    (ht : st.tracker p.pid = none) : lastTold st p = none := by
  unfold lastTold
  rw [List.find?_eq_none]
  intro e he hs
  have := h e he
  simp only [decide_eq_true_eq] at hs
  rw [hs, ht] at this
  cases this

theorem filter_nil {st : St} {p : Proc} (h : ∀ c ∈ st.calls, c.no < st.nextCall ∧ (st.tracker c.target).isSome)
    (ht : st.tracker p.pid = none) : st.calls.filter (fun c => c.target = p.pid) = [] := by
  rw [List.filter_eq_nil_iff]
  intro c hc hs
  have := (h c hc).2
  simp only [decide_eq_true_eq] at hs
  rw [hs, ht] at this
  cases this

/-- `p`'s own report. -/
theorem Good.own {st : St} {p : Proc} {t : Tracker} {q : Prog}
    (hq : st.sys.r.progress t.key = some q) (ht : st.tracker p.pid = some t)
    (h : Good p st t q) (r : Report)
    (hone : OneAtATime p (callOn st p.pid p.pid t r)) :
    ∃ t' q', (callOn st p.pid p.pid t r).tracker p.pid = some t' ∧
      (callOn st p.pid p.pid t r).sys.r.progress t.key = some q' ∧
      Good p (callOn st p.pid p.pid t r) t' q' := by
  cases r with
  | total n =>
    simp only [callOn] at hone ⊢
    split
    · exact ⟨t, q, ht, hq, h⟩
    · rename_i hn
      refine ⟨_, _, put_same _ _ _, by simp only [doSetTotal, hn, if_false, hsetProg, upd_same, hq, Option.getD_some]; rfl, ?_⟩
      refine ⟨h.message, rfl, h.busy, ?_, ?_⟩
      · intro hc
        obtain ⟨n1, a1, a2, a3⟩ := h.idle hc
        refine ⟨n1, a1, a2, ?_⟩
        intro e he
        simp only [lastTold, List.find?_cons, decide_true, Option.some.injEq] at he
        subst he
        simp [a2]
      · intro e he
        simp only [lastTold, List.find?_cons, decide_true, Option.some.injEq] at he
        subst he
        exact ⟨rfl, rfl, rfl⟩
  | message m =>
    simp only [callOn] at hone ⊢
    refine ⟨_, _, put_same _ _ _, by simp only [doSetMessage, hsetProg, upd_same, hq, Option.getD_some]; rfl, ?_⟩
    refine ⟨rfl, h.total, h.busy, ?_, ?_⟩
    · intro hc
      obtain ⟨n1, a1, a2, a3⟩ := h.idle hc
      refine ⟨n1, a1, a2, ?_⟩
      intro e he
      simp only [lastTold, List.find?_cons, decide_true, Option.some.injEq] at he
      subst he
      simp [a2]
    · intro e he
      simp only [lastTold, List.find?_cons, decide_true, Option.some.injEq] at he
      subst he
      exact ⟨rfl, rfl, rfl⟩
  | count n =>
    simp only [callOn] at hone ⊢
    split
    · exact ⟨t, q, ht, hq, h⟩
    · rename_i hn
      simp only [if_neg hn] at hone
      have hnil : st.calls.filter (fun c => c.target = p.pid) = [] := by
        simp only [OneAtATime, List.filter_append, List.filter_cons, decide_true, if_true, List.filter_nil,
          List.length_append, List.length_cons, List.length_nil] at hone
        exact List.length_eq_zero_iff.1 (by omega)
      refine ⟨t, _, ht, by simp only [doIncrement, hn, if_false, hsetProg, upd_same, hq, Option.getD_some]; rfl, ?_⟩
      refine ⟨h.message, h.total, ?_, ?_, h.told⟩
      · intro c hc
        simp only [List.filter_append, hnil, List.filter_cons, decide_true, if_true, List.filter_nil,
          List.nil_append, List.cons.injEq, and_true] at hc
        subst hc
        simp [doIncrement, hn, hsetProg, upd_same, hq]
      · intro hc
        simp [List.filter_append] at hc

theorem Good.congr {p : Proc} {st st' : St} {t : Tracker} {q : Prog} (h : Good p st t q)
    (hc : st'.calls.filter (fun c => c.target = p.pid) = st.calls.filter (fun c => c.target = p.pid))
    (hl : lastTold st' p = lastTold st p) : Good p st' t q :=
  ⟨h.message, h.total, hc ▸ h.busy, hc ▸ hl ▸ h.idle, hl ▸ h.told⟩

/-- A report that goes to another tracker. -/
theorem callOn_other {st : St} {body target : Nat} {t : Tracker} {p : Proc} (hne : target ≠ p.pid) (r : Report) :
    (callOn st body target t r).tracker p.pid = st.tracker p.pid ∧
    (callOn st body target t r).calls.filter (fun c => c.target = p.pid) =
      st.calls.filter (fun c => c.target = p.pid) ∧
    lastTold (callOn st body target t r) p = lastTold st p := by
  cases r with
  | total n =>
    simp only [callOn]; split
    · exact ⟨rfl, rfl, rfl⟩
    · exact ⟨put_other _ _ (Ne.symm hne), rfl, by simp [lastTold, hne]⟩
  | message m => exact ⟨put_other _ _ (Ne.symm hne), rfl, by simp [callOn, lastTold, hne]⟩
  | count n =>
    simp only [callOn]; split
    · exact ⟨rfl, rfl, rfl⟩
    · exact ⟨rfl, by simp [List.filter_append, hne], rfl⟩

theorem tracker_none {cfg : Cfg} {obj : Objects} {st : St} (hi : Inv obj st) {e : Ev} {i : Nat}
    (h : st.tracker i = none) (h' : (st.step cfg obj e).tracker i ≠ none) : e = .op (.claim i) := by
  cases e with
  | op o =>
    cases o with
    | claim pid =>
      rcases claimed_cases cfg hi.wf pid with ⟨h1, _⟩ | ⟨p, hp, hpid, _, _, h1⟩
      · have : (st.step cfg obj (.op (.claim pid))).tracker = st.tracker := h1
        rw [this] at h'
        exact (h' h).elim
      · by_cases hi : i = pid
        · rw [hi]
        · have : (st.step cfg obj (.op (.claim pid))).tracker i = st.tracker i := by
            have : (st.step cfg obj (.op (.claim pid))).tracker = _ := h1
            rw [this, put_other _ _ hi]
          rw [this] at h'
          exact (h' h).elim
    | _ => exact (h' h).elim
  | enter pid =>
    simp only [St.step] at h'
    split at h'
    · split at h' <;> exact (h' h).elim
    · exact (h' h).elim
  | report pid r =>
    simp only [St.step] at h'
    split at h'
    · split at h'
      · split at h'
        · split at h'
          · rename_i target _ _ t ht
            have hne : target ≠ i := by intro hc; subst hc; rw [h] at ht; cases ht
            have := (callOn_other (st := st) (body := pid) (t := t) (p := ⟨i, "", 0, ⟨"", ⟨"", "", "", 0, 0⟩, 0⟩, false, .handed⟩) hne r).1
            simp only at this
            rw [this] at h'
            exact (h' h).elim
          · exact (h' h).elim
        · exact (h' h).elim
      · exact (h' h).elim
    · exact (h' h).elim
  | answer no =>
    simp only [St.step] at h'
    split at h'
    · split at h'
      · rename_i c _ _ t ht
        have hne : i ≠ c.target := by intro hc; subst hc; rw [h] at ht; cases ht
        simp only [answered, put_other _ _ hne] at h'
        exact (h' h).elim
      · exact (h' h).elim
    · exact (h' h).elim

theorem one_of_mem {α : Type} {l : List α} {a : α} (ha : a ∈ l) (h : l.length ≤ 1) : l = [a] := by
  match l, h with
  | [b], _ => simp only [List.mem_singleton] at ha; rw [ha]

theorem no_inj {l : List Call} (h : (l.map (·.no)).Nodup) {a b : Call} (ha : a ∈ l) (hb : b ∈ l)
    (hab : a.no = b.no) : a = b := by
  induction l with
  | nil => cases ha
  | cons c l ih =>
    simp only [List.map_cons, List.nodup_cons] at h
    rcases List.mem_cons.1 ha with h1 | ha' <;> rcases List.mem_cons.1 hb with h2 | hb'
    · rw [h1, h2]
    · subst h1; exact (h.1 (hab ▸ List.mem_map.2 ⟨b, hb', rfl⟩)).elim
    · subst h2; exact (h.1 (hab ▸ List.mem_map.2 ⟨a, ha', rfl⟩)).elim
    · exact ih h.2 ha' hb'

theorem AllGood.step (cfg : Cfg) {obj : Objects} {st : St} (hi : Inv obj st) {p : Proc} (h : AllGood p st)
    (hh : Holds obj p st) (hu : Undisturbed obj p st) (e : Ev) (hone0 : OneAtATime p st)
    (hone : OneAtATime p (st.step cfg obj e))
    (honly : (∃ q ∈ st.sys.procs, q.pid = p.pid ∧ q.phase = .running) → mine p e = false →
      (st.step cfg obj e).sys.r.progress p.msg.key = st.sys.r.progress p.msg.key)
    (hsame : ∀ x ∈ st.sys.procs, x.pid = p.pid → x.worker = p.worker ∧ x.msg = p.msg) :
    AllGood p (st.step cfg obj e) := by
  intro t' ht' hx'
  cases ht : st.tracker p.pid with
  | none =>
    have := tracker_none hi ht (by rw [ht']; simp)
    subst this
    rcases claimed_cases cfg hi.wf p.pid with ⟨h1, _⟩ | ⟨x, hx, hxp, _, hpr, h1⟩
    · have : (st.step cfg obj (.op (.claim p.pid))).tracker = st.tracker := h1
      rw [this, ht] at ht'; cases ht'
    · have htr : (st.step cfg obj (.op (.claim p.pid))).tracker = _ := h1
      rw [htr, put_same] at ht'
      cases ht'
      have hm := (hsame x hx hxp).2
      refine ⟨{ current := some 0, total := some 100, gen := some x.msg.gen }, ?_, ?_⟩
      · show (Docket.step cfg st.sys (.claim p.pid)).r.progress p.msg.key = _
        rw [hpr, hm, upd_same]
      · have hl : lastTold (st.step cfg obj (.op (.claim p.pid))) p = none := find_none (st := st) hi.told ht
        have hc : (st.step cfg obj (.op (.claim p.pid))).calls.filter (fun c => c.target = p.pid) = [] :=
          filter_nil (st := st) hi.calls ht
        refine ⟨rfl, rfl, ?_, ?_, ?_⟩
        · intro c hcc; rw [hc] at hcc; cases hcc
        · intro _; exact ⟨0, rfl, rfl, fun e he => by rw [hl] at he; cases he⟩
        · intro e he; rw [hl] at he; cases he
  | some t =>
    -- the execution was there already, and running
    obtain ⟨x', hx'm, hx'p⟩ := hx'
    have hlt := (hi.key _ _ ht).1
    obtain ⟨x, hx, hxp⟩ : ∃ x ∈ st.sys.procs, x.pid = p.pid := by
      rcases procs_ev cfg obj hi.wf e hx'm with ⟨p0, h0, hpid, _⟩ | hnew
      · exact ⟨p0, h0, hpid.trans hx'p⟩
      · omega
    obtain ⟨hkey, hrun⟩ := (hi.key _ _ ht).2 x hx hxp
    obtain ⟨hxw, hxm⟩ := hsame x hx hxp
    have hkey' : t.key = p.msg.key := by rw [← hkey, hxm]
    obtain ⟨q, hq, hg⟩ := h t ht ⟨x, hx, hxp⟩
    have hobj : objOf obj x = objOf obj p := by rw [objOf, objOf, hxw, hxm]
    cases hm : mine p e with
    | true =>
      cases e with
      | report pid r =>
        simp only [mine, beq_iff_eq] at hm
        subst hm
        by_cases hen : p.pid ∈ st.entered
        · have hh' : Holds obj x st := by
            intro hp; rw [hobj, hxp]; exact hh ⟨hen, x, hx, hxp⟩
          obtain ⟨t1, ht1, _, he⟩ := report_eq cfg hi hx hrun (hxp ▸ hen) hh' r
          rw [hxp] at ht1 he
          rw [ht] at ht1; cases ht1
          rw [he] at hone ht' ⊢
          obtain ⟨t2, q2, h2, h3, h4⟩ := Good.own (p := p) (hkey' ▸ hq) ht hg r hone
          rw [h2] at ht'; cases ht'
          exact ⟨q2, hkey' ▸ h3, h4⟩
        · have hno : st.step cfg obj (.report p.pid r) = st := by
            simp only [St.step]
            split
            · rw [if_neg (fun hc => hen hc.2)]
            · rfl
          rw [hno] at ht' ⊢
          rw [ht] at ht'; cases ht'
          exact ⟨q, hq, hg⟩
      | _ => cases hm
    | false =>
      rw [honly ⟨x, hx, hxp, hrun⟩ hm, hq]
      refine ⟨q, rfl, ?_⟩
      cases e with
      | op o =>
        have htr : (st.step cfg obj (.op o)).tracker p.pid = st.tracker p.pid := by
          cases o with
          | claim pid =>
            rcases claimed_cases cfg hi.wf pid with ⟨h1, _⟩ | ⟨y, hy, hyp, hyh, _, h1⟩
            · exact congrFun h1 _
            · have htr : (st.step cfg obj (.op (.claim pid))).tracker = _ := h1
              rw [htr]
              by_cases hpp : p.pid = pid
              · have := pid_inj hi.wf hy hx (hyp.trans (hpp.symm.trans hxp.symm))
                subst this
                rw [hrun] at hyh; cases hyh
              · exact put_other _ _ hpp
          | _ => rfl
        rw [htr, ht] at ht'; cases ht'
        exact hg.congr rfl rfl
      | enter pid =>
        have : (st.step cfg obj (.enter pid)).tracker = st.tracker ∧
            (st.step cfg obj (.enter pid)).calls = st.calls ∧ (st.step cfg obj (.enter pid)).told = st.told := by
          simp only [St.step]
          split
          · split <;> exact ⟨rfl, rfl, rfl⟩
          · exact ⟨rfl, rfl, rfl⟩
        rw [this.1, ht] at ht'; cases ht'
        exact hg.congr (by rw [this.2.1]) (by unfold lastTold; rw [this.2.2])
      | report pid r =>
        have hnop : st.step cfg obj (.report pid r) = st → Good p (st.step cfg obj (.report pid r)) t' q := by
          intro hn
          rw [hn] at ht' ⊢
          rw [ht] at ht'; cases ht'
          exact hg
        cases hy : st.sys.proc? pid with
        | none => exact hnop (by simp only [St.step, hy])
        | some y =>
          obtain ⟨hym, rfl⟩ := find_pid hy
          by_cases hc : y.phase = .running ∧ y.pid ∈ st.entered
          · cases hs : st.slot (objOf obj y) with
            | none => exact hnop (by simp only [St.step, hy, if_pos hc, hs])
            | some target =>
              cases htt : st.tracker target with
              | none => exact hnop (by simp only [St.step, hy, if_pos hc, hs, htt])
              | some tt =>
                have he : st.step cfg obj (.report y.pid r) = callOn st y.pid target tt r := by
                  simp only [St.step, hy, if_pos hc, hs, htt]
                have hne : target ≠ p.pid := by
                  intro hc'
                  subst hc'
                  obtain ⟨h1, h2⟩ := hi.slot _ _ hs
                  have ho := h2 x hx hxp
                  have := hu ⟨h1, x, hx, hxp⟩ y hym hc.2 (ho.symm.trans hobj)
                  simp [mine, this] at hm
                rw [he] at ht' ⊢
                obtain ⟨a1, a2, a3⟩ := callOn_other (st := st) (body := y.pid) (t := tt) hne r
                rw [a1, ht] at ht'; cases ht'
                exact hg.congr a2 a3
          · exact hnop (by simp only [St.step, hy, if_neg hc])
      | answer no =>
        have hnop : st.step cfg obj (.answer no) = st → Good p (st.step cfg obj (.answer no)) t' q := by
          intro hn
          rw [hn] at ht' ⊢
          rw [ht] at ht'; cases ht'
          exact hg
        cases hc : st.calls.find? (fun c => c.no = no) with
        | none => exact hnop (by simp only [St.step, hc])
        | some c =>
          have hcm : c ∈ st.calls := List.mem_of_find?_eq_some hc
          cases htt : st.tracker c.target with
          | none => exact hnop (by simp only [St.step, hc, htt])
          | some tt =>
            have he : st.step cfg obj (.answer no) = answered st c tt := by
              simp only [St.step, hc, htt]
            rw [he] at ht' ⊢
            by_cases hcp : c.target = p.pid
            · rw [hcp, ht] at htt; cases htt
              have hmem : c ∈ st.calls.filter (fun c => c.target = p.pid) :=
                List.mem_filter.2 ⟨hcm, by simpa using hcp⟩
              have hlist := one_of_mem hmem hone0
              have hcur := hg.busy c hlist
              simp only [answered, hcp, put_same, Option.some.injEq] at ht'
              subst ht'
              have hnil : (answered st c t).calls.filter (fun c => c.target = p.pid) = [] := by
                simp only [answered]
                rw [List.filter_eq_nil_iff]
                intro d hd hdp
                obtain ⟨hd1, hd2⟩ := List.mem_filter.1 hd
                have : d ∈ st.calls.filter (fun c => c.target = p.pid) := List.mem_filter.2 ⟨hd1, hdp⟩
                rw [hlist, List.mem_singleton] at this
                subst this
                simp at hd2
              have hl : lastTold (answered st c t) p = some ⟨c.target, t.key, c.value, t.total, t.message⟩ := by
                simp [lastTold, answered, hcp]
              refine ⟨hg.message, hg.total, ?_, ?_, ?_⟩
              · intro d hd; rw [hnil] at hd; cases hd
              · intro _
                refine ⟨c.value, hcur, rfl, ?_⟩
                intro e he'; rw [hl] at he'; cases he'; rfl
              · intro e he'; rw [hl] at he'; cases he'; exact ⟨rfl, rfl, rfl⟩
            · have hne : p.pid ≠ c.target := Ne.symm hcp
              simp only [answered, put_other _ _ hne, ht, Option.some.injEq] at ht'
              subst ht'
              refine hg.congr ?_ ?_
              · simp only [answered, List.filter_filter]
                apply List.filter_congr
                intro d hd
                by_cases hdn : d.no = c.no
                · have := no_inj hi.nodup hd hcm hdn
                  subst this
                  simp [hcp]
                · simp [hdn]
              · simp [lastTold, answered, hcp]

theorem Always.head {cfg : Cfg} {obj : Objects} {P : St → Prop} {st : St} {es : List Ev}
    (h : Always cfg obj P st es) : P st := by
  cases es with
  | nil => exact h
  | cons e es => exact h.1

theorem AllGood.run (cfg : Cfg) {obj : Objects} (es : List Ev) {st : St} (hi : Inv obj st) {p : Proc}
    (h : AllGood p st) (hh : Holds obj p st) (hp : p ∈ (st.run cfg obj es).sys.procs)
    (hu : Always cfg obj (Undisturbed obj p) st es) (hone : Always cfg obj (OneAtATime p) st es)
    (honly : OnlyOwn cfg obj p st es) : AllGood p (st.run cfg obj es) := by
  induction es generalizing st with
  | nil => exact h
  | cons e es ih =>
    have hsame : ∀ x ∈ st.sys.procs, x.pid = p.pid → x.worker = p.worker ∧ x.msg = p.msg := by
      intro q hq hqp
      rcases origin cfg obj (e :: es) st hi.wf hp with ⟨p0, h0, a1, a2, _, a4⟩ | hnew
      · have := pid_inj hi.wf hq h0 (hqp.trans a1.symm)
        subst this
        exact ⟨a2, a4⟩
      · have := (hi.wf.procs.1 q hq).2.1
        omega
    refine ih (hi.step cfg e) (h.step cfg hi hh hu.1 e hone.1 hone.2.head honly.1 hsame)
      (hh.step cfg hi e hu.2.head ?_) hp hu.2 hone.2 honly.2
    intro q hq hqp
    obtain ⟨a, b⟩ := hsame q hq hqp
    rw [objOf, objOf, a, b]

/-- C82.  While a task runs and none of its calls is under way, what its body reads back from its
`Progress` and the last event published about its progress are exactly what a reader of the record
sees, provided that its `Progress` object is not shared with another execution in progress, that
its body awaits each call before the next, and that nothing but its own reports has changed the
record since it started. -/
theorem C82_agrees_partial (cfg : Cfg) (obj : Objects) (es : List Ev) (p : Proc)
    (hp : p ∈ (({} : St).run cfg obj es).sys.procs) (hph : p.phase = .running)
    (hen : p.pid ∈ (({} : St).run cfg obj es).entered)
    (hu : Always cfg obj (Undisturbed obj p) {} es)
    (hone : Always cfg obj (OneAtATime p) {} es) (honly : OnlyOwn cfg obj p {} es)
    (hidle : ∀ c ∈ (({} : St).run cfg obj es).calls, c.target ≠ p.pid) :
    Agrees obj (({} : St).run cfg obj es) p := by
  have hi := (Inv.init obj).run cfg es
  have h0 : Holds obj p {} := by intro h; simp [InProgress] at h
  have hh := Holds.run cfg es (Inv.init obj) h0 hp hu
  have hg := AllGood.run cfg es (Inv.init obj) (p := p) (by intro t ht; cases ht) h0 hp hu hone honly
  generalize ({} : St).run cfg obj es = st at *
  obtain ⟨t, ht⟩ := hi.started p hp hph
  have hk := ((hi.key _ _ ht).2 p hp rfl).1
  obtain ⟨q, hq, hgood⟩ := hg t ht ⟨p, hp, rfl⟩
  have hnil : st.calls.filter (fun c => c.target = p.pid) = [] := by
    rw [List.filter_eq_nil_iff]
    intro c hc; simpa using hidle c hc
  obtain ⟨n, h1, h2, h3⟩ := hgood.idle hnil
  constructor
  · simp only [readsBack, hh ⟨hen, p, hp, rfl⟩, Option.bind_some, ht, Option.map_some, hq, seen, h1, h2,
      hgood.total, hgood.message, Option.getD_some]
  · intro e he
    obtain ⟨a1, a2, a3⟩ := hgood.told e he
    refine ⟨a1.trans hk.symm, ?_⟩
    simp only [hq, seen, h1, h3 e he, hgood.total, hgood.message, Option.getD_some, a2, a3]

/-- A run within these conditions, next to another task on the same worker. -/
def alone : List Ev :=
  [.op (.add "k" ⟨"f", "a", "b", 0, 1⟩ 0), .op (.add "j" ⟨"g", "a", "b", 0, 1⟩ 0), .op (.poll "w" 2),
    .op (.claim 0), .op (.claim 1), .enter 0, .enter 1, .report 1 (.count 5), .report 0 (.total 10),
    .report 0 (.count 3), .answer 0, .report 0 (.message (some "third")), .op (.tick 2), .answer 1,
    .report 0 (.count 4), .op (.finish 1 .failed none false), .answer 2]

example :
    let cfg : Cfg := ⟨1000, 8⟩
    let obj : Objects := fun _ f => if f = "f" then 0 else 1
    let p : Proc := ⟨0, "w", 1, ⟨"k", ⟨"f", "a", "b", 0, 1⟩, 1⟩, false, .running⟩
    let st := ({} : St).run cfg obj alone
    p ∈ st.sys.procs ∧ p.pid ∈ st.entered ∧ Always cfg obj (Undisturbed obj p) {} alone ∧
    Always cfg obj (OneAtATime p) {} alone ∧ OnlyOwn cfg obj p {} alone ∧ st.calls = [] ∧
    lastTold st p = some ⟨0, "k", 7, 10, some "third"⟩ := by decide +kernel

/-- The code violates it when a body makes two calls at once (asyncio.gather): each call writes to
the record, and remembers and publishes the number it got back when its answer arrives
(_execution_progress.py:165-174), so that the last event says less than the record. -/
theorem C82_violated_concurrent : ¬ C82_statement := by
  intro h
  have := h ⟨1000, 8⟩ (fun _ _ => 0) [.op (.add "k" ⟨"f", "a", "b", 0, 1⟩ 0), .op (.poll "w" 1), .op (.claim 0),
    .enter 0, .report 0 (.count 1), .report 0 (.count 1), .answer 1, .answer 0]
    ⟨0, "w", 1, ⟨"k", ⟨"f", "a", "b", 0, 1⟩, 1⟩, false, .running⟩
    (by decide +kernel) rfl (by decide +kernel) (by decide +kernel) (by decide +kernel) (by decide +kernel)
  revert this
  unfold Agrees
  intro ⟨h1, _⟩
  revert h1
  decide +kernel

/-- The code violates it when the task has been cancelled while it runs: `cancel()` deletes the
record (docket.py:101-105), the next increment makes a new one with nothing but the count, and the
event still says the total that was set before. -/
theorem C82_violated_cancelled : ¬ C82_statement := by
  intro h
  have := h ⟨1000, 8⟩ (fun _ _ => 0) [.op (.add "k" ⟨"f", "a", "b", 0, 1⟩ 0), .op (.poll "w" 1), .op (.claim 0),
    .enter 0, .report 0 (.total 10), .op (.cancel "k"), .report 0 (.count 1), .answer 0]
    ⟨0, "w", 1, ⟨"k", ⟨"f", "a", "b", 0, 1⟩, 1⟩, false, .running⟩
    (by decide +kernel) rfl (by decide +kernel) (by decide +kernel) (by decide +kernel) (by decide +kernel)
  revert this
  unfold Agrees
  intro ⟨h1, _⟩
  revert h1
  decide +kernel

end Docket.Progress
