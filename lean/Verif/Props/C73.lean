import Verif.Worker.Finish
import Verif.Props.C01_C04
import Verif.Props.C72
/-
C73: `run_until_finished()` returns when, and only when, nothing is left to do.
-/
namespace Docket
open Redis

/-! ## What a worker holds stays in the stream -/

/-- What is needed for a worker that has been handed a message to be seen by the others:
nobody cancels or replaces a task in the moment between handing out and start, clears the
docket while a worker holds a message, or takes a message away from a living worker. -/
def SteadyHands (s : Sys) : Op → Prop
  | .replace k _ _ | .cancel k => ∀ p ∈ s.procs, p.msg.key = k → p.phase ≠ .handed
  | .clear | .clearWrite => s.procs = []
  | .redeliver _ id => ∀ p ∈ s.procs, p.id ≠ id
  | _ => True

instance (s : Sys) (op : Op) : Decidable (SteadyHands s op) := by
  cases op <;> unfold SteadyHands <;> infer_instance

structure InHand (s : Sys) : Prop where
  held : ∀ p ∈ s.procs, ∃ e ∈ s.r.stream, e.1 = p.id
  ids : ∀ p ∈ s.procs, ∀ q ∈ s.procs, p.id = q.id → p.pid = q.pid
  free : ∀ p ∈ s.procs, p.phase ≠ .handed → s.r.streamIdOf p.msg.key ≠ some p.id

theorem InHand.congr {s s' : Sys} (h : InHand s)
    (hpr : ∀ p ∈ s'.procs, ∃ q ∈ s.procs, q.pid = p.pid ∧ q.id = p.id ∧ q.msg = p.msg)
    (hmem : ∀ p ∈ s'.procs, ∀ e ∈ s.r.stream, e.1 = p.id → e ∈ s'.r.stream)
    (hfree : ∀ p ∈ s'.procs, p.phase ≠ .handed → s'.r.streamIdOf p.msg.key ≠ some p.id) : InHand s' := by
  refine ⟨?_, ?_, hfree⟩
  · intro p hp
    obtain ⟨q, hq, _, h2, _⟩ := hpr p hp
    obtain ⟨e, he, h3⟩ := h.held q hq
    exact ⟨e, hmem p hp e he (by omega), by omega⟩
  · intro p hp q hq hid
    obtain ⟨p', hp', a1, a2, _⟩ := hpr p hp
    obtain ⟨q', hq', b1, b2, _⟩ := hpr q hq
    have := h.ids p' hp' q' hq' (by omega)
    omega

theorem InHand.dropOwn {s : Sys} (hw : WF s) (h : InHand s) {k : Key}
    (hc : ∀ p ∈ s.procs, p.msg.key = k → p.phase ≠ .handed) {p : Proc} (hp : p ∈ s.procs)
    {e : MsgId × Msg} (he : e ∈ s.r.stream) (hid : e.1 = p.id) : e ∈ dropOwn s.r k := by
  by_cases hk : p.msg.key = k
  · have h1 := h.free p hp (hc p hp hk)
    rw [hk] at h1
    simp only [Docket.dropOwn]
    cases hs : s.r.streamIdOf k with
    | none => exact he
    | some i =>
      rw [List.mem_filter]
      refine ⟨he, ?_⟩
      rw [hs] at h1
      simp only [ne_eq, Option.some.injEq] at h1
      simp only [decide_eq_true_eq]
      omega
  · refine mem_dropOwn_of_key hw he ?_
    rw [(hw.procs.1 p hp).2.2 e he hid]
    exact hk

theorem streamIdOf_run (r : Redis) (k : Key) : (r.run k).streamId = r.streamIdOf k := by
  simp only [Redis.run, streamIdOf]
  cases r.runs k <;> rfl

/-- Time leaves a record as it is or removes it. -/
theorem advance_runs_or (r : Redis) (d : Nat) (k : Key) :
    (r.advance d).runs k = r.runs k ∨ (r.advance d).runs k = none := by
  simp only [advance]
  cases hr : r.runs k with
  | none => exact Or.inl rfl
  | some v =>
    rw [Option.filter_some]
    by_cases hb : (match v.expireAt with | none => true | some e => decide (r.now + d < e)) = true
    · exact Or.inl (if_pos hb)
    · exact Or.inr (if_neg hb)

theorem streamIdOf_upd_some (r : Redis) (k : Key) (h : Run) (k' : Key) :
    ({ r with runs := upd r.runs k (some h) } : Redis).streamIdOf k' = if k' = k then h.streamId else r.streamIdOf k' := by
  by_cases hk : k' = k
  · subst hk; simp [streamIdOf]
  · simp [streamIdOf, upd_other _ _ _ _ hk, hk]

/-- A record that names the message about to be added names no message a worker holds. -/
theorem fresh_free {s : Sys} (hw : WF s) {p : Proc} (hp : p ∈ s.procs) : (some s.r.nextId : Option MsgId) ≠ some p.id := by
  intro hc
  injection hc with hc
  have h1 := (hw.procs.1 p hp).1
  have h2 := hw.stream.ldlt
  omega

theorem InHand.step {cfg : Cfg} {s : Sys} (hw : WF s) (h : InHand s) (op : Op) (hc : SteadyHands s op) :
    InHand (Docket.step cfg s op) := by
  have he := step_eff cfg s hw.queue op
  generalize Docket.step cfg s op = s' at he
  have hself : ∀ p ∈ s.procs, ∃ q ∈ s.procs, q.pid = p.pid ∧ q.id = p.id ∧ q.msg = p.msg :=
    fun p hp => ⟨p, hp, rfl, rfl, rfl⟩
  have hfil : ∀ (pid : Nat), ∀ p ∈ s.procs.filter (fun x => decide (x.pid ≠ pid)),
      ∃ q ∈ s.procs, q.pid = p.pid ∧ q.id = p.id ∧ q.msg = p.msg :=
    fun _ p hp => ⟨p, (List.mem_filter.1 hp).1, rfl, rfl, rfl⟩
  have hkeep : ∀ q ∈ s.procs, ∀ p ∈ s.procs.filter (fun x => decide (x.pid ≠ q.pid)), ∀ e ∈ s.r.stream, e.1 = p.id →
      e ∈ s.r.stream.filter (fun e => decide (e.1 ≠ q.id)) := by
    intro q hq p hp e he hid
    simp only [List.mem_filter, decide_eq_true_eq] at hp ⊢
    refine ⟨he, fun hc => hp.2 (h.ids p hp.1 q hq (by omega))⟩
  have hmap : ∀ (f : Proc → Proc), (∀ x, (f x).pid = x.pid ∧ (f x).id = x.id ∧ (f x).msg = x.msg) →
      ∀ p ∈ s.procs.map f, ∃ q ∈ s.procs, q.pid = p.pid ∧ q.id = p.id ∧ q.msg = p.msg := by
    intro f hf p hp
    obtain ⟨y, hy, rfl⟩ := List.mem_map.1 hp
    exact ⟨y, hy, (hf y).1.symm, (hf y).2.1.symm, (hf y).2.2.symm⟩
  cases he with
  | nop => exact h
  | tick d =>
    refine h.congr hself (fun _ _ e he _ => he) ?_
    intro p hp hph
    have h1 := h.free p hp hph
    rcases advance_runs_or s.r d p.msg.key with hr | hr
    · simp only [streamIdOf, hr] at h1 ⊢; exact h1
    · simp [streamIdOf, hr]
  | addNow k q t ht hwh hx =>
    refine h.congr hself (fun _ _ e he _ => List.mem_append_left _ he) ?_
    intro p hp hph
    refine (streamIdOf_upd_some s.r k _ p.msg.key).symm ▸ ?_
    split
    · exact fresh_free hw hp
    · exact h.free p hp hph
  | addLater k q t ht hwh hx =>
    refine h.congr hself (fun _ _ e he _ => he) ?_
    intro p hp hph
    refine (streamIdOf_upd_some s.r k _ p.msg.key).symm ▸ ?_
    split
    · rename_i hk
      have := h.free p hp hph
      rw [hk] at this
      simpa [scheduledRun, streamIdOf_run] using this
    · exact h.free p hp hph
  | replaceNow k q t ht hwh =>
    refine h.congr hself (fun p hp e he hid => List.mem_append_left _ (h.dropOwn hw hc hp he hid)) ?_
    intro p hp hph
    refine (streamIdOf_upd_some s.r k _ p.msg.key).symm ▸ ?_
    split
    · exact fresh_free hw hp
    · exact h.free p hp hph
  | replaceLater k q t ht hwh =>
    refine h.congr hself (fun p hp e he hid => h.dropOwn hw hc hp he hid) ?_
    intro p hp hph
    refine (streamIdOf_upd_some s.r k _ p.msg.key).symm ▸ ?_
    split
    · rename_i hk
      have := h.free p hp hph
      rw [hk] at this
      simpa [scheduledRun, streamIdOf_run] using this
    · exact h.free p hp hph
  | cancel k =>
    refine h.congr hself (fun p hp e he hid => h.dropOwn hw hc hp he hid) ?_
    intro p hp hph
    refine (streamIdOf_upd_some s.r k _ p.msg.key).symm ▸ ?_
    split
    · unfold cancelRun; split <;> simp
    · exact h.free p hp hph
  | cancelTtl k hj =>
    refine h.congr hself (fun _ _ e he _ => he) ?_
    intro p hp hph
    have h1 := h.free p hp hph
    by_cases hk : p.msg.key = k
    · simp only [streamIdOf, hk, upd_same, expiredRun] at h1 ⊢
      split
      · cases hr : s.r.runs k with
        | none => simp
        | some v => rw [hr] at h1; exact h1
      · simp
    · simp only [streamIdOf, upd_other _ _ _ _ hk] at h1 ⊢
      exact h1
  | clear op j js hop =>
    have hnil : s.procs = [] := by rcases hop with ⟨rfl, _⟩ | ⟨rfl, _⟩ <;> exact hc
    refine ⟨?_, ?_, ?_⟩ <;> intro p hp <;> simp [hnil] at hp
  | schedule t ht =>
    refine h.congr hself (fun _ _ e he _ => List.mem_append_left _ he) ?_
    intro p hp hph
    have h1 := h.free p hp hph
    simp only [streamIdOf] at h1 ⊢
    split
    · have := streamIdOf_run s.r p.msg.key
      simp only [streamIdOf] at this
      simpa [this] using h1
    · exact h1
  | poll w n new hnew =>
    have hin : ∀ e ∈ new, e ∈ s.r.stream ∧ s.r.lastDelivered < e.1 := by
      intro e he
      rw [hnew] at he
      have := List.mem_of_mem_take he
      simpa [List.mem_filter] using this
    have hsort : new.Pairwise (fun a b => a.1 < b.1) := by
      rw [hnew]
      exact (hw.stream.sorted.filter _).sublist (List.take_sublist _ _)
    refine ⟨?_, ?_, ?_⟩
    · intro p hp
      rcases List.mem_append.1 hp with hp | hp
      · exact h.held p hp
      · exact ⟨_, (hin _ (mem_newProcs hp).1).1, rfl⟩
    · intro p hp q hq hid
      rcases List.mem_append.1 hp with hp | hp
      · rcases List.mem_append.1 hq with hq | hq
        · exact h.ids p hp q hq hid
        · have h1 := (hin _ (mem_newProcs hq).1).2
          have h2 := (hw.procs.1 p hp).1
          simp only at h1
          omega
      · rcases List.mem_append.1 hq with hq | hq
        · have h1 := (hin _ (mem_newProcs hp).1).2
          have h2 := (hw.procs.1 q hq).1
          simp only at h1
          omega
        · exact newProcs_inj hsort hp hq hid
    · intro p hp hph
      rcases List.mem_append.1 hp with hp | hp
      · exact h.free p hp hph
      · exact absurd (mem_newProcs hp).2.1 hph
  | redeliver w p e hp he hid hidle =>
    refine ⟨?_, ?_, ?_⟩
    · intro x hx
      rcases List.mem_append.1 hx with hx | hx
      · exact h.held x hx
      · rw [List.mem_singleton.1 hx]; exact ⟨e, he, rfl⟩
    · intro x hx y hy hxy
      rcases List.mem_append.1 hx with hx | hx
      · rcases List.mem_append.1 hy with hy | hy
        · exact h.ids x hx y hy hxy
        · rw [List.mem_singleton.1 hy] at hxy
          exact absurd hxy (hc x hx)
      · rcases List.mem_append.1 hy with hy | hy
        · rw [List.mem_singleton.1 hx] at hxy
          exact absurd hxy.symm (hc y hy)
        · rw [List.mem_singleton.1 hx, List.mem_singleton.1 hy]
    · intro x hx hph
      rcases List.mem_append.1 hx with hx | hx
      · exact h.free x hx hph
      · rw [List.mem_singleton.1 hx] at hph; exact absurd rfl hph
  | crash w =>
    exact h.congr (fun p hp => ⟨p, (List.mem_filter.1 hp).1, rfl, rfl, rfl⟩) (fun _ _ e he _ => he)
      (fun p hp => h.free p (List.mem_filter.1 hp).1)
  | abandon pid =>
    exact h.congr (hfil _) (fun _ _ e he _ => he) (fun p hp => h.free p (List.mem_filter.1 hp).1)
  | strikeOut p hp hph =>
    refine h.congr (hmap _ (fun x => by split <;> exact ⟨rfl, rfl, rfl⟩)) (fun _ _ e he _ => he) ?_
    intro x hx hxp
    obtain ⟨y, hy, rfl⟩ := List.mem_map.1 hx
    have hk : ∀ (b : Bool), (if y.pid = p.pid then { y with phase := .stricken } else y).msg = y.msg ∧
        (if y.pid = p.pid then { y with phase := .stricken } else y).id = y.id := by intro _; split <;> exact ⟨rfl, rfl⟩
    rw [(hk true).1, (hk true).2]
    by_cases hyk : y.msg.key = p.msg.key
    · simp only [streamIdOf, hyk, upd_same]
      cases s.r.runs p.msg.key <;> simp
    · have hne : y.pid ≠ p.pid := fun hc => hyk (by rw [pid_inj hw hy hp hc])
      rw [if_neg hne] at hxp
      have := h.free y hy hxp
      simp only [streamIdOf, upd_other _ _ _ _ hyk] at this ⊢
      exact this
  | claimSuperseded p hp hph hs =>
    exact h.congr (hfil _) (hkeep p hp) (fun x hx => h.free x (List.mem_filter.1 hx).1)
  | claim p hp hph hs =>
    refine h.congr (hmap _ (fun x => by split <;> exact ⟨rfl, rfl, rfl⟩)) (fun _ _ e he _ => he) ?_
    intro x hx hxp
    obtain ⟨y, hy, rfl⟩ := List.mem_map.1 hx
    have hk : ∀ (b : Bool), (if y.pid = p.pid then { y with phase := .running } else y).msg = y.msg ∧
        (if y.pid = p.pid then { y with phase := .running } else y).id = y.id := by intro _; split <;> exact ⟨rfl, rfl⟩
    rw [(hk true).1, (hk true).2]
    refine (streamIdOf_upd_some s.r p.msg.key _ y.msg.key).symm ▸ ?_
    split
    · simp [claimedRun]
    · rename_i hyk
      have hne : y.pid ≠ p.pid := fun hc => hyk (by rw [pid_inj hw hy hp hc])
      rw [if_neg hne] at hxp
      exact h.free y hy hxp
  | finish p st e w hp hph hs =>
    refine h.congr (hfil _) (hkeep p hp) ?_
    intro x hx hxp
    have hx' := (List.mem_filter.1 hx).1
    have h1 := h.free x hx' hxp
    by_cases hk : x.msg.key = p.msg.key
    · simp only [streamIdOf, hk, upd_same] at h1 ⊢
      split
      · have := streamIdOf_run s.r p.msg.key
        simp only [streamIdOf] at this
        simpa [terminalRun, this] using h1
      · simp
    · simp only [streamIdOf, upd_other _ _ _ _ hk] at h1 ⊢
      exact h1
  | finishSuperseded p st e w hp hph hs =>
    exact h.congr (hfil _) (hkeep p hp) (fun x hx => h.free x (List.mem_filter.1 hx).1)
  | rescheduleNow p t a d q hp hph hq hd hwh =>
    refine h.congr (hfil _) (fun x hx e he hid => List.mem_append_left _ (hkeep p hp x hx e he hid)) ?_
    intro x hx hxp
    have hx' := (List.mem_filter.1 hx).1
    refine (streamIdOf_upd_some s.r p.msg.key _ x.msg.key).symm ▸ ?_
    split
    · exact fresh_free hw hx'
    · exact h.free x hx' hxp
  | rescheduleLater p t a d q hp hph hq hd hwh =>
    refine h.congr (hfil _) (hkeep p hp) ?_
    intro x hx hxp
    have hx' := (List.mem_filter.1 hx).1
    refine (streamIdOf_upd_some s.r p.msg.key _ x.msg.key).symm ▸ ?_
    split
    · simp
    · exact h.free x hx' hxp
  | _ => exact h.congr hself (fun _ _ e he _ => he) h.free

theorem InHand.runFrom {cfg : Cfg} (ops : List Op) : ∀ {s : Sys}, WF s → InHand s →
    EachStep cfg SteadyHands s ops → InHand (Docket.runFrom cfg s ops) := by
  induction ops with
  | nil => intro s _ h _; exact h
  | cons o ops ih =>
    intro s hw h hc
    exact ih (hw.step o) (h.step hw o hc.1) hc.2

end Docket

namespace Docket.Finish
open Docket Redis

/-! ## Specification -/

/-- Nothing is left to do: no message waits or is held by anybody, nothing is scheduled for
later. -/
def NothingLeft (s : Sys) : Prop := s.r.stream = [] ∧ s.r.queue = []

instance (s : Sys) : Decidable (NothingLeft s) := by unfold NothingLeft; infer_instance

/-- The worker of this name has no task. -/
def HoldsNothing (s : Sys) (w : WorkerName) : Prop := ∀ p ∈ s.procs, p.worker ≠ w

instance (s : Sys) (w : WorkerName) : Decidable (HoldsNothing s w) := by unfold HoldsNothing; infer_instance

/-- A new worker: its name is not in use. -/
def Fresh (cfg : Cfg) (past : List Docket.Op) : Prop := HoldsNothing (Docket.run cfg.core past) cfg.worker

instance (cfg : Cfg) (past : List Docket.Op) : Decidable (Fresh cfg past) := by unfold Fresh; infer_instance

/-- The full statement: when `run_until_finished()` returns, there was a moment, and after it
the worker only returned, at which every accepted task had ended or been cancelled and no
worker was running anything. -/
def C73_statement : Prop := ∀ (cfg : Cfg) (past : List Docket.Op) (ops : List Op), Fresh cfg past →
  (run cfg past ops).pc = .finished →
  ∃ pre post, ops = pre ++ post ∧
    (∀ post', post' <+: post → (run cfg past (pre ++ post')).active = []) ∧
    (∀ k, outstanding (run cfg past pre).sys.log k = none) ∧
    (∀ p ∈ (run cfg past pre).sys.procs, p.phase ≠ .running)

/-! ## Proof -/

theorem runFrom_append (cfg : Cfg) (s : St) (a b : List Op) :
    runFrom cfg s (a ++ b) = runFrom cfg (runFrom cfg s a) b := by simp [runFrom]

theorem run_snoc (cfg : Cfg) (past : List Docket.Op) (ops : List Op) (op : Op) :
    run cfg past (ops ++ [op]) = step cfg (run cfg past ops) op := by simp [run, runFrom]

/-- The docket is changed exactly by the steps of the trace. -/
theorem step_sys (cfg : Cfg) (s : St) (op : Op) :
    (step cfg s op).sys = Docket.runFrom cfg.core s.sys (coreOps cfg s op) := by
  cases op with
  | other op => simp only [step, coreOps]; split <;> rfl
  | done pid => simp only [step, coreOps]; split <;> rfl
  | disconnect => simp only [step, coreOps]; split <;> rfl
  | stop => simp only [step, coreOps]; split <;> rfl
  | loop lapsed ack =>
    simp only [step, loopStep, coreOps]
    cases hpc : s.pc with
    | completing rest => cases rest with
      | nil => dsimp only; split <;> rfl
      | cons u rest => rfl
    | top => dsimp only; split <;> rfl
    | drain =>
      dsimp only
      cases s.active with
      | nil => rfl
      | cons u _ => dsimp only; split <;> rfl
    | _ => rfl

theorem runFrom_sys (cfg : Cfg) (ops : List Op) : ∀ s : St,
    (runFrom cfg s ops).sys = Docket.runFrom cfg.core s.sys (trace cfg s ops) := by
  induction ops with
  | nil => intro s; rfl
  | cons op ops ih =>
    intro s
    simp only [trace, Docket.runFrom_append, ← step_sys]
    exact ih _

/-- The docket a worker sees is one that some history of the docket produces. -/
theorem run_sys (cfg : Cfg) (past : List Docket.Op) (ops : List Op) :
    (run cfg past ops).sys = Docket.run cfg.core (past ++ trace cfg (start cfg past) ops) := by
  rw [run, runFrom_sys, Docket.run, Docket.runFrom_append]
  rfl

theorem run_wf (cfg : Cfg) (past : List Docket.Op) (ops : List Op) : WF (run cfg past ops).sys := by
  rw [run_sys]; exact WF.run _ _

/-- Where an execution in a worker's memory comes from. -/
theorem procs_step {cfg : Docket.Cfg} {s : Sys} (hw : WF s) (op : Docket.Op) :
    s.nextPid ≤ (Docket.step cfg s op).nextPid ∧
    ∀ p ∈ (Docket.step cfg s op).procs,
      (∃ q ∈ s.procs, q.pid = p.pid ∧ q.worker = p.worker) ∨
      (s.nextPid ≤ p.pid ∧ p.pid < (Docket.step cfg s op).nextPid ∧
        ((∃ n, op = .poll p.worker n) ∨ ∃ id, op = .redeliver p.worker id)) := by
  have he := step_eff cfg s hw.queue op
  generalize Docket.step cfg s op = s' at he
  cases he with
  | poll w n new hnew =>
    refine ⟨Nat.le_add_right _ _, fun p hp => ?_⟩
    rcases List.mem_append.1 hp with hp | hp
    · exact Or.inl ⟨p, hp, rfl, rfl⟩
    · have h1 := mem_newProcs hp
      refine Or.inr ⟨h1.2.2.2.2.1, h1.2.2.2.2.2, Or.inl ⟨n, by rw [h1.2.2.1]⟩⟩
  | redeliver w x e hx he hid hidle =>
    refine ⟨Nat.le_add_right _ _, fun p hp => ?_⟩
    rcases List.mem_append.1 hp with hp | hp
    · exact Or.inl ⟨p, hp, rfl, rfl⟩
    · rw [List.mem_singleton.1 hp]
      exact Or.inr ⟨Nat.le_refl _, Nat.lt_succ_self _, Or.inr ⟨_, rfl⟩⟩
  | crash w => exact ⟨Nat.le_refl _, fun p hp => Or.inl ⟨p, (List.mem_filter.1 hp).1, rfl, rfl⟩⟩
  | abandon pid => exact ⟨Nat.le_refl _, fun p hp => Or.inl ⟨p, (List.mem_filter.1 hp).1, rfl, rfl⟩⟩
  | strikeOut p hp hph =>
    refine ⟨Nat.le_refl _, fun x hx => ?_⟩
    obtain ⟨y, hy, rfl⟩ := List.mem_map.1 hx
    exact Or.inl ⟨y, hy, by split <;> rfl, by split <;> rfl⟩
  | claim p hp hph hs =>
    refine ⟨Nat.le_refl _, fun x hx => ?_⟩
    obtain ⟨y, hy, rfl⟩ := List.mem_map.1 hx
    exact Or.inl ⟨y, hy, by split <;> rfl, by split <;> rfl⟩
  | claimSuperseded p hp hph hs => exact ⟨Nat.le_refl _, fun p hp => Or.inl ⟨p, (List.mem_filter.1 hp).1, rfl, rfl⟩⟩
  | finish p st e w hp hph hs => exact ⟨Nat.le_refl _, fun p hp => Or.inl ⟨p, (List.mem_filter.1 hp).1, rfl, rfl⟩⟩
  | finishSuperseded p st e w hp hph hs => exact ⟨Nat.le_refl _, fun p hp => Or.inl ⟨p, (List.mem_filter.1 hp).1, rfl, rfl⟩⟩
  | rescheduleNow p t a d q hp hph hq hd hwh => exact ⟨Nat.le_refl _, fun p hp => Or.inl ⟨p, (List.mem_filter.1 hp).1, rfl, rfl⟩⟩
  | rescheduleLater p t a d q hp hph hq hd hwh => exact ⟨Nat.le_refl _, fun p hp => Or.inl ⟨p, (List.mem_filter.1 hp).1, rfl, rfl⟩⟩
  | _ => exact ⟨Nat.le_refl _, fun p hp => Or.inl ⟨p, hp, rfl, rfl⟩⟩

theorem procs_runFrom {cfg : Docket.Cfg} (ops : List Docket.Op) : ∀ {s : Sys}, WF s →
    s.nextPid ≤ (Docket.runFrom cfg s ops).nextPid ∧
    ∀ p ∈ (Docket.runFrom cfg s ops).procs,
      (∃ q ∈ s.procs, q.pid = p.pid ∧ q.worker = p.worker) ∨
      (s.nextPid ≤ p.pid ∧ p.pid < (Docket.runFrom cfg s ops).nextPid ∧
        ∃ op ∈ ops, (∃ n, op = .poll p.worker n) ∨ ∃ id, op = .redeliver p.worker id) := by
  induction ops with
  | nil => intro s _; exact ⟨Nat.le_refl _, fun p hp => Or.inl ⟨p, hp, rfl, rfl⟩⟩
  | cons op ops ih =>
    intro s hw
    obtain ⟨h1, h2⟩ := procs_step (cfg := cfg) hw op
    obtain ⟨h3, h4⟩ := ih (hw.step op)
    refine ⟨Nat.le_trans h1 h3, fun p hp => ?_⟩
    rcases h4 p hp with ⟨q, hq, a, b⟩ | ⟨a, b, o, ho, c⟩
    · rcases h2 q hq with ⟨q', hq', a', b'⟩ | ⟨a', b', c'⟩
      · exact Or.inl ⟨q', hq', a'.trans a, b'.trans b⟩
      · refine Or.inr ⟨by omega, by simp only [Docket.runFrom_cons]; omega, op, List.mem_cons_self, ?_⟩
        rw [← b]; exact c'
    · exact Or.inr ⟨by omega, b, o, List.mem_cons_of_mem _ ho, c⟩

theorem mem_newPids {a b : Sys} {pid : Nat} (h1 : a.nextPid ≤ pid) (h2 : pid < b.nextPid) : pid ∈ newPids a b := by
  simp only [newPids, List.mem_map, List.mem_range]
  exact ⟨pid - a.nextPid, by omega, by omega⟩

theorem holds_iff {s : Sys} {pid : Nat} : Holds s pid = true ↔ ∃ p ∈ s.procs, p.pid = pid := by
  simp [Holds]

/-- The worker knows of all its executions; and once it has seen that there is no work, it
has none and only returns. -/
structure Inv (cfg : Cfg) (s : St) : Prop where
  own : s.pc ≠ .stopped → ∀ p ∈ s.sys.procs, p.worker = cfg.worker → p.pid ∈ s.active
  idle : s.hasWork = false → s.active = [] ∧ (s.pc = .top ∨ s.pc = .finished ∨ s.pc = .stopped)
  fin : s.pc = .finished → s.hasWork = false ∧ s.active = []

theorem acks_not {pid : Nat} {op : Docket.Op} (h : acks pid op = true) (w : WorkerName) :
    ¬ ((∃ n, op = .poll w n) ∨ ∃ id, op = .redeliver w id) := by
  rintro (⟨n, rfl⟩ | ⟨id, rfl⟩) <;> cases h

theorem putAwayOps_procs {cfg : Cfg} {s : St} (hw : WF s.sys) (pid : Nat) (ack : Option Docket.Op) :
    ∀ p ∈ (Docket.runFrom cfg.core s.sys (putAwayOps s pid ack)).procs,
      ∃ q ∈ s.sys.procs, q.pid = p.pid ∧ q.worker = p.worker := by
  intro p hp
  rcases (procs_runFrom (cfg := cfg.core) (putAwayOps s pid ack) hw).2 p hp with h | ⟨_, _, o, ho, h⟩
  · exact h
  · exfalso
    unfold putAwayOps at ho
    split at ho
    · split at ho
      · split at ho
        · rename_i ha
          rw [List.mem_singleton.1 ho] at h
          exact acks_not ha _ h
        · cases ho
      · cases ho
    · cases ho

theorem putAway_own {cfg : Cfg} {s : St} (hw : WF s.sys)
    (h : ∀ p ∈ s.sys.procs, p.worker = cfg.worker → p.pid ∈ s.active) (pid : Nat) (ack : Option Docket.Op) (next : PC) :
    (putAway cfg s pid ack next).pc ≠ .stopped →
    ∀ p ∈ (putAway cfg s pid ack next).sys.procs, p.worker = cfg.worker → p.pid ∈ (putAway cfg s pid ack next).active := by
  intro hpc p hp hpw
  simp only [putAway] at hpc hp ⊢
  obtain ⟨q, hq, a, b⟩ := putAwayOps_procs hw pid ack p hp
  have h1 := h q hq (b.trans hpw)
  simp only [List.mem_filter, decide_eq_true_eq]
  refine ⟨a ▸ h1, fun hc => hpc ?_⟩
  rw [if_pos (holds_iff.2 ⟨p, hp, hc⟩)]

theorem Inv.step {cfg : Cfg} {s : St} (hw : WF s.sys) (h : Inv cfg s) (op : Op) : Inv cfg (step cfg s op) := by
  cases op with
  | other op =>
    simp only [Finish.step]
    split
    · rename_i ho
      refine ⟨?_, h.idle, h.fin⟩
      intro hpc p hp hpw
      rcases (procs_step (cfg := cfg.core) hw op).2 p hp with ⟨q, hq, a, b⟩ | ⟨_, _, hop⟩
      · exact a ▸ h.own hpc q hq (b.trans hpw)
      · rcases hop with ⟨n, rfl⟩ | ⟨id, rfl⟩ <;> simp [isOther, hpw] at ho
    · exact h
  | done pid =>
    simp only [Finish.step]
    split
    · exact ⟨h.own, h.idle, h.fin⟩
    · exact h
  | disconnect =>
    simp only [Finish.step]
    split
    · rename_i hpc
      refine ⟨fun _ => h.own (by rw [hpc]; simp), fun hf => ?_, by simp⟩
      have := h.idle hf
      simp [hpc] at this
    · rename_i hpc
      refine ⟨fun _ => h.own (by rw [hpc]; simp), fun hf => ?_, by simp⟩
      have := h.idle hf
      simp [hpc] at this
    · rename_i hpc
      refine ⟨fun _ => h.own (by rw [hpc]; simp), fun hf => ?_, by simp⟩
      have := h.idle hf
      simp [hpc] at this
    · exact h
  | stop =>
    simp only [Finish.step]
    split
    · exact h
    · exact ⟨fun hc => absurd rfl hc, fun hf => ⟨(h.idle hf).1, Or.inr (Or.inr rfl)⟩, by simp⟩
  | loop lapsed ack =>
    simp only [Finish.step, loopStep]
    split
    · rename_i hpc
      have hown := h.own (by rw [hpc]; simp)
      split
      · rename_i hb
        refine ⟨fun _ => hown, fun hf => ?_, by simp⟩
        have := h.idle hf
        have hf' : s.hasWork = false := hf
        simp [hf', this.1] at hb
      · rename_i hb
        simp only [not_or, Bool.not_eq_true, ne_eq, Classical.not_not] at hb
        exact ⟨fun _ => hown, fun _ => ⟨hb.2, Or.inr (Or.inl rfl)⟩, fun _ => hb⟩
    · rename_i u rest hpc
      have hf : s.hasWork = true := by
        cases hh : s.hasWork with
        | true => rfl
        | false => have := h.idle hh; simp [hpc] at this
      refine ⟨putAway_own hw (h.own (by rw [hpc]; simp)) _ _ _, fun hc => ?_, fun hc => ?_⟩
      · simp [putAway, hf] at hc
      · simp only [putAway] at hc; split at hc <;> simp at hc
    · rename_i hpc
      have hf : s.hasWork = true := by
        cases hh : s.hasWork with
        | true => rfl
        | false => have := h.idle hh; simp [hpc] at this
      have hown := h.own (by rw [hpc]; simp)
      split
      · exact ⟨fun _ => hown, fun hc => by simp [hf] at hc, by simp⟩
      · exact ⟨fun _ => hown, fun hc => by simp [hf] at hc, by simp⟩
    · rename_i hpc
      have hf : s.hasWork = true := by
        cases hh : s.hasWork with
        | true => rfl
        | false => have := h.idle hh; simp [hpc] at this
      have hown := h.own (by rw [hpc]; simp)
      refine ⟨?_, fun hc => by simp [hf] at hc, fun hc => by simp only at hc; split at hc <;> simp at hc⟩
      intro _ p hp hpw
      simp only [List.mem_append] at hp ⊢
      rcases (procs_runFrom (cfg := cfg.core) _ hw).2 p hp with ⟨q, hq, a, b⟩ | ⟨a, b, _⟩
      · exact Or.inl (a ▸ hown q hq (b.trans hpw))
      · exact Or.inr (mem_newPids a b)
    · rename_i hpc
      have hf : s.hasWork = true := by
        cases hh : s.hasWork with
        | true => rfl
        | false => have := h.idle hh; simp [hpc] at this
      have hown := h.own (by rw [hpc]; simp)
      refine ⟨?_, fun hc => by simp [hf] at hc, by simp⟩
      intro _ p hp hpw
      simp only [List.mem_append] at hp ⊢
      rcases (procs_step (cfg := cfg.core) hw _).2 p hp with ⟨q, hq, a, b⟩ | ⟨a, b, _⟩
      · exact Or.inl (a ▸ hown q hq (b.trans hpw))
      · exact Or.inr (mem_newPids a b)
    · rename_i hpc
      have hf : s.hasWork = true := by
        cases hh : s.hasWork with
        | true => rfl
        | false => have := h.idle hh; simp [hpc] at this
      refine ⟨fun _ => h.own (by rw [hpc]; simp), fun hc => ?_, by simp⟩
      simp only at hc
      split at hc
      · rename_i ha; exact ⟨ha, Or.inl rfl⟩
      · rw [hf] at hc; cases hc
    · rename_i hpc
      have hf : s.hasWork = true := by
        cases hh : s.hasWork with
        | true => rfl
        | false => have := h.idle hh; simp [hpc] at this
      have hown := h.own (by rw [hpc]; simp)
      split
      · exact ⟨fun _ => hown, by simp, by simp⟩
      · split
        · refine ⟨putAway_own hw hown _ _ _, fun hc => ?_, fun hc => ?_⟩
          · simp [putAway, hf] at hc
          · simp only [putAway] at hc; split at hc <;> simp at hc
        · exact h
    · exact h
    · exact h

theorem Inv.runFrom {cfg : Cfg} (ops : List Op) : ∀ {s : St}, WF s.sys → Inv cfg s → Inv cfg (runFrom cfg s ops) := by
  induction ops with
  | nil => intro s _ h; exact h
  | cons op ops ih =>
    intro s hw h
    exact ih (by rw [step_sys]; exact hw.runFrom _) (h.step hw op)

theorem Inv.run {cfg : Cfg} {past : List Docket.Op} (hf : Fresh cfg past) (ops : List Op) :
    Inv cfg (run cfg past ops) :=
  Inv.runFrom ops (WF.run _ _) ⟨fun _ p hp hpw => absurd hpw (hf p hp), by simp [start], by simp [start]⟩

theorem snoc_induction {α : Type} (P : List α → Prop) (h0 : P []) (hs : ∀ l a, P l → P (l ++ [a])) : ∀ l, P l := by
  intro l
  rw [← List.reverse_reverse l]
  induction l.reverse with
  | nil => exact h0
  | cons a l ih => rw [List.reverse_cons]; exact hs _ _ ih

theorem step_hasWork (cfg : Cfg) (s : St) (op : Op) (h : (step cfg s op).hasWork = false) :
    s.hasWork = false ∨ (∃ a b, op = .loop a b ∧ s.pc = .look ∧ s.active = [] ∧ NothingLeft s.sys) := by
  cases op with
  | other op => left; simp only [step] at h; split at h <;> exact h
  | done pid => left; simp only [step] at h; split at h <;> exact h
  | disconnect => left; simp only [step] at h; split at h <;> exact h
  | stop => left; simp only [step] at h; split at h <;> exact h
  | loop a b =>
    simp only [step, loopStep] at h
    split at h
    · left; split at h <;> exact h
    · left; exact h
    · left; split at h <;> exact h
    · left; exact h
    · left; exact h
    · rename_i hpc
      simp only at h
      split at h
      · rename_i ha
        right
        simp only [decide_eq_false_iff_not, not_or, Nat.not_lt, Nat.le_zero, List.length_eq_zero_iff] at h
        exact ⟨a, b, rfl, hpc, ha, h⟩
      · left; exact h
    · left
      split at h
      · cases h
      · split at h <;> exact h
    · left; exact h
    · left; exact h

theorem last_look (cfg : Cfg) (past : List Docket.Op) : ∀ ops, (run cfg past ops).hasWork = false →
    ∃ pre post, ops = pre ++ post ∧ (run cfg past pre).pc = .look ∧ (run cfg past pre).active = [] ∧
      NothingLeft (run cfg past pre).sys ∧
      ∀ post', post' <+: post → post' ≠ [] → (run cfg past (pre ++ post')).hasWork = false := by
  refine snoc_induction _ (fun h => by simp [run, runFrom, start] at h) ?_
  intro ops op ih h
  rw [run_snoc] at h
  rcases step_hasWork _ _ _ h with h0 | ⟨a, b, rfl, h1, h2, h3⟩
  · obtain ⟨pre, post, rfl, h1, h2, h3, h4⟩ := ih h0
    refine ⟨pre, post ++ [op], by simp, h1, h2, h3, ?_⟩
    intro post' hp hne
    rcases List.prefix_concat_iff.1 (by simpa using hp) with rfl | hp
    · rw [← List.append_assoc, run_snoc]; exact h
    · exact h4 post' hp hne
  · refine ⟨ops, [.loop a b], rfl, h1, h2, h3, ?_⟩
    intro post' hp hne
    have : post' = [.loop a b] := by
      cases post' with
      | nil => exact absurd rfl hne
      | cons x l =>
        have := List.cons_prefix_cons.1 hp
        rw [this.1, List.prefix_nil.1 this.2]
    rw [this, run_snoc]; exact h

/-- **C73**, part 1.  When `run_until_finished()` has returned by itself, there was a last
look at the docket, after which the worker took no more work and only returned.  At that
moment nothing was waiting in the stream, nothing was scheduled for later, the worker had no
task, and every task ever accepted had ended or been cancelled, by whatever worker, unless its
record had expired (C16).  Other clients and workers may do anything at any moment. -/
theorem C73_nothing_left_partial (cfg : Cfg) (past : List Docket.Op) (ops : List Op) (hf : Fresh cfg past)
    (h : (run cfg past ops).pc = .finished) :
    ∃ pre post, ops = pre ++ post ∧
      (∀ post', post' <+: post → (run cfg past (pre ++ post')).active = [] ∧
        HoldsNothing (run cfg past (pre ++ post')).sys cfg.worker) ∧
      NothingLeft (run cfg past pre).sys ∧
      (∀ k m, outstanding (run cfg past pre).sys.log k = some m → ¬ HasRecord (run cfg past pre).sys k) := by
  have hinv := Inv.run hf ops
  obtain ⟨pre, post, rfl, h1, h2, h3, h4⟩ := last_look cfg past ops (hinv.fin h).1
  have hact : ∀ post', post' <+: post → (run cfg past (pre ++ post')).active = [] := by
    intro post' hp
    cases post' with
    | nil => simpa using h2
    | cons x l => exact ((Inv.run hf _).idle (h4 _ hp (by simp))).1
  refine ⟨pre, post, rfl, ?_, h3, ?_⟩
  · intro post' hp
    refine ⟨hact post' hp, ?_⟩
    intro p hpm hpw
    have hs : (run cfg past (pre ++ post')).pc ≠ .stopped := by
      intro hs
      obtain ⟨t, rfl⟩ := hp
      have : ∀ (l : List Op) (s : St), s.pc = .stopped → (runFrom cfg s l).pc = .stopped := by
        intro l
        induction l with
        | nil => intro s h; exact h
        | cons o l ih =>
          intro s hs
          refine ih _ ?_
          cases o with
          | other op => simp only [step]; split <;> exact hs
          | done pid => simp only [step]; split <;> exact hs
          | disconnect => simp only [step, hs]
          | stop => simp only [step, hs]
          | loop a b => simp only [step, loopStep, hs]
      have h5 := this t _ hs
      rw [run, ← List.append_assoc, runFrom_append] at h
      rw [run] at h5
      rw [h5] at h; cases h
    have := (Inv.run hf _).own hs p hpm hpw
    rw [hact post' hp] at this
    cases this
  · intro k m ho hr
    rw [run_sys] at ho hr h3
    rcases C01_accepted_never_lost _ _ k m ho hr with ⟨id, hm⟩ | ⟨_, hm⟩
    · rw [h3.1] at hm; cases hm
    · rw [h3.2] at hm; cases hm

/-- **C73**, part 2.  If moreover nobody cancelled or replaced a task just between its being
handed to a worker and its start, cleared the docket while workers held messages, or took a
message over from a worker that was alive, then at the last look no worker had anything in its
hands: no task was running anywhere. -/
theorem C73_nobody_busy_partial (cfg : Cfg) (past : List Docket.Op) (ops : List Op) (hf : Fresh cfg past)
    (h : (run cfg past ops).pc = .finished)
    (hsteady : EachStep cfg.core SteadyHands {} (past ++ trace cfg (start cfg past) ops)) :
    ∃ pre post, ops = pre ++ post ∧
      (∀ post', post' <+: post → (run cfg past (pre ++ post')).active = []) ∧
      (∀ k m, outstanding (run cfg past pre).sys.log k = some m → ¬ HasRecord (run cfg past pre).sys k) ∧
      (run cfg past pre).sys.procs = [] := by
  obtain ⟨pre, post, rfl, h1, h2, h3⟩ := C73_nothing_left_partial cfg past ops hf h
  refine ⟨pre, post, rfl, fun p hp => (h1 p hp).1, h3, ?_⟩
  have htr : ∀ (a b : List Op) (s : St), trace cfg s (a ++ b) = trace cfg s a ++ trace cfg (runFrom cfg s a) b := by
    intro a b
    induction a with
    | nil => intro s; rfl
    | cons o a ih => intro s; simp only [List.cons_append, trace, ih, List.append_assoc]; rfl
  have hes : ∀ (a b : List Docket.Op) (s : Sys), EachStep cfg.core SteadyHands s (a ++ b) → EachStep cfg.core SteadyHands s a := by
    intro a b
    induction a with
    | nil => intro s _; exact trivial
    | cons o a ih => intro s hh; exact ⟨hh.1, ih _ hh.2⟩
  have hh : EachStep cfg.core SteadyHands {} (past ++ trace cfg (start cfg past) pre) := by
    rw [htr, ← List.append_assoc] at hsteady
    exact hes _ _ _ hsteady
  have hin := InHand.runFrom _ WF.init (⟨by simp, by simp, by simp⟩ : InHand {}) hh
  rw [run_sys] at h2 ⊢
  cases hp : (Docket.run cfg.core (past ++ trace cfg (start cfg past) pre)).procs with
  | nil => rfl
  | cons p l =>
    obtain ⟨e, he, _⟩ := hin.held p (by rw [← Docket.run, hp]; exact List.mem_cons_self)
    rw [← Docket.run, h2.1] at he
    cases he

/-! ### It does return -/

/-- The tasks that are being put away at the moment. -/
def St.inProgress (s : St) : List Nat := match s.pc with | .completing rest => rest | _ => []

/-- Nothing is left, and the tasks the worker still has on its list have ended and are
acknowledged. -/
def Drained (s : St) : Prop :=
  NothingLeft s.sys ∧ (∀ u ∈ s.active, u ∈ s.done) ∧ ∀ u ∈ s.active ++ s.inProgress, Holds s.sys u = false

instance (s : St) : Decidable (Drained s) := by unfold Drained; infer_instance

/-- Every state on the way satisfies `P`. -/
def All (cfg : Cfg) (P : St → Prop) : St → List Op → Prop
  | s, [] => P s
  | s, op :: ops => P s ∧ All cfg P (step cfg s op) ops

instance decAll (cfg : Cfg) (P : St → Prop) [DecidablePred P] : ∀ s ops, Decidable (All cfg P s ops)
  | s, [] => by unfold All; infer_instance
  | s, op :: ops =>
    have := decAll cfg P (step cfg s op) ops
    by unfold All; infer_instance

/-- How often the loop of the worker goes on. -/
def rounds (ops : List Op) : Nat := ops.countP (fun | .loop _ _ => true | _ => false)

/-- How many steps the loop still takes at most. -/
def rank (s : St) : Nat := match s.pc with
  | .finished => 0
  | .stopped => 0
  | .top => if s.hasWork = false ∧ s.active = [] then 1 else 6 + s.active.length
  | .look => if s.active = [] then 2 else 7 + s.active.length
  | .askNew => if s.active = [] then 3 else 8 + s.active.length
  | .askOld => if s.active = [] then 4 else 9 + s.active.length
  | .completing rest => (if ∀ u ∈ s.active, u ∈ rest then 5 else 10 + s.active.length) + rest.length
  | .drain => 7 + s.active.length

theorem rank_le (s : St) : rank s ≤ 10 + s.active.length + s.inProgress.length := by
  simp only [rank, St.inProgress]
  split <;> (try split) <;> simp_all <;> omega

theorem putAway_drained {cfg : Cfg} {s : St} {u : Nat} (h : Holds s.sys u = false) (ack : Option Docket.Op) (next : PC) :
    putAway cfg s u ack next = { s with
      active := s.active.filter (fun x => x ≠ u), done := s.done.filter (fun x => x ≠ u), pc := next } := by
  simp [putAway, putAwayOps, h]

theorem redeliver_empty (cfg : Docket.Cfg) {s : Sys} (h : s.r.stream = []) (w : WorkerName) (ids : List MsgId) :
    Docket.runFrom cfg s (ids.map (fun id => .redeliver w id)) = s := by
  induction ids with
  | nil => rfl
  | cons id ids ih =>
    have : Docket.step cfg s (.redeliver w id) = s := by
      simp only [Docket.step, doRedeliver, h, List.find?_nil]
      split
      · rename_i h1; cases h1
      · rfl
    simp only [List.map_cons, Docket.runFrom_cons, this]
    exact ih

theorem poll_empty (cfg : Docket.Cfg) {s : Sys} (h : s.r.stream = []) (w : WorkerName) (n : Nat) :
    (Docket.step cfg s (.poll w n)).nextPid = s.nextPid := by
  simp [Docket.step, doPoll, xreadgroup, handOut, h]

theorem newPids_same {a b : Sys} (h : b.nextPid = a.nextPid) : newPids a b = [] := by
  simp [newPids, h]

theorem loop_rank {cfg : Cfg} (hc : 1 ≤ cfg.concurrency) {s : St} (hd : Drained s) (hs : s.pc ≠ .stopped)
    (a : List MsgId) (b : Option Docket.Op) :
    (loopStep cfg s a b).pc ≠ .stopped ∧ (s.pc ≠ .finished → rank (loopStep cfg s a b) < rank s) ∧
    (s.pc = .finished → (loopStep cfg s a b).pc = .finished) := by
  obtain ⟨hn, hdone, hhold⟩ := hd
  unfold loopStep
  split
  · rename_i hpc
    have hfil : s.active.filter (fun p => decide (p ∈ s.done)) = s.active :=
      List.filter_eq_self.2 (fun u hu => decide_eq_true (hdone u hu))
    split
    · rename_i hb
      refine ⟨by simp, fun _ => ?_, fun h => by rw [hpc] at h; cases h⟩
      have : ¬ (s.hasWork = false ∧ s.active = []) := by
        rintro ⟨h1, h2⟩
        simp [h1, h2] at hb
      simp only [rank, hpc, hfil, if_neg this]
      rw [if_pos (fun u hu => hu)]
      omega
    · rename_i hb
      simp only [not_or, Bool.not_eq_true, ne_eq, Classical.not_not] at hb
      refine ⟨by simp, fun _ => ?_, fun _ => rfl⟩
      simp [rank, hpc, hb]
  · rename_i u rest hpc
    have hu : Holds s.sys u = false := hhold u (by simp [St.inProgress, hpc])
    rw [putAway_drained hu]
    refine ⟨by simp, fun _ => ?_, fun h => by rw [hpc] at h; cases h⟩
    have hle : (s.active.filter (fun x => decide (x ≠ u))).length ≤ s.active.length := List.length_filter_le _ _
    simp only [rank, hpc, List.length_cons]
    by_cases hb : ∀ v ∈ s.active, v ∈ u :: rest
    · rw [if_pos hb, if_pos]
      · omega
      · intro v hv
        simp only [List.mem_filter, decide_eq_true_eq] at hv
        rcases List.mem_cons.1 (hb v hv.1) with h | h
        · exact absurd h hv.2
        · exact h
    · rw [if_neg hb]
      split <;> omega
  · rename_i hpc
    by_cases ha : s.active = []
    · rw [if_neg (by simp [ha]; omega)]
      exact ⟨by simp, fun _ => by simp [rank, hpc, ha], fun h => by rw [hpc] at h; cases h⟩
    · have hne : ¬ ∀ u ∈ s.active, u ∈ ([] : List Nat) := by
        intro hx
        cases hl : s.active with
        | nil => exact ha hl
        | cons x l => have := hx x (by rw [hl]; exact List.mem_cons_self); cases this
      split
      · refine ⟨by simp, fun _ => ?_, fun h => by rw [hpc] at h; cases h⟩
        simp only [rank, hpc, if_neg hne, ha, and_false, if_false]
        simp
      · refine ⟨by simp, fun _ => ?_, fun h => by rw [hpc] at h; cases h⟩
        simp only [rank, hpc, if_neg hne, ha, if_false]
        simp
  · rename_i hpc
    simp only [redeliver_empty cfg.core hn.1, newPids_same (rfl : s.sys.nextPid = s.sys.nextPid), List.append_nil]
    refine ⟨by split <;> simp, fun _ => ?_, fun h => by rw [hpc] at h; cases h⟩
    by_cases ha : s.active = []
    · rw [if_neg (by simp [ha]; omega)]
      simp [rank, hpc, ha]
    · split <;> simp [rank, hpc, ha]
  · rename_i hpc
    simp only [newPids_same (poll_empty cfg.core hn.1 _ _), List.append_nil]
    refine ⟨by simp, fun _ => ?_, fun h => by rw [hpc] at h; cases h⟩
    by_cases ha : s.active = [] <;> simp [rank, hpc, ha]
  · rename_i hpc
    refine ⟨by simp, fun _ => ?_, fun h => by rw [hpc] at h; cases h⟩
    by_cases ha : s.active = []
    · simp [rank, hpc, ha, hn.1, hn.2]
    · simp [rank, hpc, ha]
  · rename_i hpc
    cases ha : s.active with
    | nil =>
      refine ⟨by simp, fun _ => ?_, fun h => by rw [hpc] at h; cases h⟩
      simp [rank, hpc, ha]
    | cons u l =>
      dsimp only
      have hmem : u ∈ s.active := by rw [ha]; exact List.mem_cons_self
      rw [if_pos (hdone u hmem), putAway_drained (hhold u (List.mem_append_left _ hmem))]
      refine ⟨by simp, fun _ => ?_, fun h => by rw [hpc] at h; cases h⟩
      have hle : (l.filter (fun x => decide (x ≠ u))).length ≤ l.length := List.length_filter_le _ _
      simp only [rank, hpc, ha, List.length_cons]
      rw [List.filter_cons_of_neg (by simp)]
      omega
  · rename_i hpc
    exact ⟨by rw [hpc]; simp, fun h => absurd hpc h, fun _ => hpc⟩
  · rename_i hpc; exact absurd hpc hs

/-- Neither told to stop nor disconnected. -/
def Undisturbed : Op → Prop
  | .stop | .disconnect => False
  | _ => True

instance (op : Op) : Decidable (Undisturbed op) := by cases op <;> unfold Undisturbed <;> infer_instance

theorem returns_aux {cfg : Cfg} (hc : 1 ≤ cfg.concurrency) (cont : List Op) : ∀ {s : St}, s.pc ≠ .stopped →
    All cfg Drained s cont → (∀ op ∈ cont, Undisturbed op) →
    (rank s ≤ rounds cont ∨ s.pc = .finished) → (runFrom cfg s cont).pc = .finished := by
  have h0 : ∀ s : St, rank s = 0 → s.pc ≠ .stopped → s.pc = .finished := by
    intro s h hs
    cases hpc : s.pc with
    | finished => rfl
    | stopped => exact absurd hpc hs
    | top => simp only [rank, hpc] at h; split at h <;> omega
    | look => simp only [rank, hpc] at h; split at h <;> omega
    | askNew => simp only [rank, hpc] at h; split at h <;> omega
    | askOld => simp only [rank, hpc] at h; split at h <;> omega
    | completing r => simp only [rank, hpc] at h; split at h <;> omega
    | drain => simp only [rank, hpc] at h; omega
  induction cont with
  | nil =>
    intro s hs _ _ h
    rcases h with h | h
    · exact h0 s (by simpa [rounds] using h) hs
    · exact h
  | cons op cont ih =>
    intro s hs hall hun h
    have hu := hun op List.mem_cons_self
    have hrest := fun o ho => hun o (List.mem_cons_of_mem _ ho)
    show (runFrom cfg (step cfg s op) cont).pc = .finished
    cases op with
    | loop a b =>
      obtain ⟨h1, h2, h3⟩ := loop_rank hc hall.1 hs a b
      refine ih h1 hall.2 hrest ?_
      by_cases hf : s.pc = .finished
      · exact Or.inr (h3 hf)
      · have := h2 hf
        rcases h with h | h
        · left
          simp only [rounds, List.countP_cons] at h ⊢
          simp only [if_true] at h
          have hst : rank (step cfg s (.loop a b)) < rank s := this
          omega
        · exact absurd h hf
    | other o =>
      have hsame : (step cfg s (.other o)).pc = s.pc ∧ rank (step cfg s (.other o)) = rank s := by
        simp only [step]; split <;> exact ⟨rfl, rfl⟩
      refine ih (by rw [hsame.1]; exact hs) hall.2 hrest ?_
      rw [hsame.1, hsame.2]
      simpa [rounds] using h
    | done pid =>
      have hsame : (step cfg s (.done pid)).pc = s.pc ∧ rank (step cfg s (.done pid)) = rank s := by
        simp only [step]; split <;> exact ⟨rfl, rfl⟩
      refine ih (by rw [hsame.1]; exact hs) hall.2 hrest ?_
      rw [hsame.1, hsame.2]
      simpa [rounds] using h
    | stop => exact hu.elim
    | disconnect => exact hu.elim

/-- The numbers of a worker's executions were given out. -/
def Low (s : St) : Prop := ∀ u ∈ s.active ++ s.inProgress, u < s.sys.nextPid

theorem newPids_lt {a b : Sys} {u : Nat} (h : u ∈ newPids a b) : u < b.nextPid := by
  simp only [newPids, List.mem_map, List.mem_range] at h
  obtain ⟨i, hi, rfl⟩ := h
  omega

theorem coreOps_nextPid {cfg : Cfg} {s : St} (hw : WF s.sys) (op : Op) : s.sys.nextPid ≤ (step cfg s op).sys.nextPid := by
  rw [step_sys]; exact (procs_runFrom _ hw).1

theorem putAway_low {cfg : Cfg} {s : St} (hw : WF s.sys) (h : Low s) {u : Nat}
    (ack : Option Docket.Op) {next : PC} (hnext : ∀ r, next = .completing r → ∀ x ∈ r, x ∈ s.inProgress) :
    Low (putAway cfg s u ack next) := by
  intro v hv
  have h1 : s.sys.nextPid ≤ (putAway cfg s u ack next).sys.nextPid := (procs_runFrom _ hw).1
  have h2 : v ∈ s.active ++ s.inProgress := by
    rcases List.mem_append.1 hv with hv | hv
    · exact List.mem_append_left _ (List.mem_filter.1 hv).1
    · refine List.mem_append_right _ ?_
      simp only [putAway, St.inProgress] at hv
      split at hv
      · rename_i r hr
        split at hr
        · cases hr
        · exact hnext r hr v hv
      · cases hv
  have := h v h2
  omega

theorem Low.step {cfg : Cfg} {s : St} (hw : WF s.sys) (h : Low s) (op : Op) : Low (Finish.step cfg s op) := by
  have hle := coreOps_nextPid (cfg := cfg) hw op
  have hact : ∀ u ∈ s.active, u < s.sys.nextPid := fun u hu => h u (List.mem_append_left _ hu)
  cases op with
  | other op =>
    intro u hu
    have : u ∈ s.active ++ s.inProgress := by
      simp only [Finish.step] at hu
      split at hu <;> exact hu
    have := h u this
    omega
  | done pid =>
    simp only [Finish.step]
    split <;> exact h
  | disconnect =>
    simp only [Finish.step]
    split
    · intro u hu; exact hact u (by simpa [St.inProgress] using hu)
    · intro u hu; exact hact u (by simpa [St.inProgress] using hu)
    · intro u hu; exact hact u (by simpa [St.inProgress] using hu)
    · exact h
  | stop =>
    simp only [Finish.step]
    split
    · exact h
    · intro u hu; exact hact u (by simpa [St.inProgress] using hu)
  | loop lapsed ack =>
    simp only [Finish.step, loopStep] at hle ⊢
    split
    · split
      · intro u hu
        rcases List.mem_append.1 hu with hu | hu
        · exact hact u hu
        · exact hact u (List.mem_filter.1 hu).1
      · intro u hu; exact hact u (by simpa [St.inProgress] using hu)
    · rename_i v rest hpc
      refine putAway_low hw h ack ?_
      intro r hr x hx
      injection hr with hr
      simp only [St.inProgress, hpc]
      exact List.mem_cons_of_mem _ (hr ▸ hx)
    · split
      · intro u hu; exact hact u (by simpa [St.inProgress] using hu)
      · intro u hu; exact hact u (by simpa [St.inProgress] using hu)
    · rename_i hpc
      intro u hu
      simp only [hpc] at hle
      rcases List.mem_append.1 hu with hu | hu
      · rcases List.mem_append.1 hu with hu | hu
        · exact Nat.lt_of_lt_of_le (hact u hu) hle
        · exact newPids_lt hu
      · simp only [St.inProgress] at hu
        split at hu
        · rename_i hr; split at hr <;> cases hr
        · cases hu
    · rename_i hpc
      intro u hu
      simp only [hpc] at hle
      rcases List.mem_append.1 hu with hu | hu
      · rcases List.mem_append.1 hu with hu | hu
        · exact Nat.lt_of_lt_of_le (hact u hu) hle
        · exact newPids_lt hu
      · cases hu
    · intro u hu; exact hact u (by simpa [St.inProgress] using hu)
    · rename_i hpc
      split
      · rename_i ha; intro u hu; simp [St.inProgress, ha] at hu
      · split
        · exact putAway_low hw h ack (fun r hr => by cases hr)
        · exact h
    · exact h
    · exact h

theorem Low.run (cfg : Cfg) (past : List Docket.Op) (ops : List Op) : Low (Finish.run cfg past ops) := by
  refine snoc_induction (fun ops => Low (Finish.run cfg past ops)) (by simp [Low, Finish.run, Finish.runFrom, start, St.inProgress]) ?_ ops
  intro l a ih
  rw [run_snoc]
  exact ih.step (run_wf _ _ _) a

theorem Drained.step {cfg : Cfg} {s : St} (hw : WF s.sys) (hlow : Low s) (h : Drained s) {op : Op} (hu : Undisturbed op)
    (hn : NothingLeft (Finish.step cfg s op).sys) : Drained (Finish.step cfg s op) := by
  refine ⟨hn, ?_⟩
  obtain ⟨h0, hdone, hhold⟩ := h
  have hpa : ∀ u, Holds s.sys u = false → ∀ ack next, (∀ r, next = .completing r → ∀ x ∈ r, x ∈ s.inProgress) →
      (∀ v ∈ (putAway cfg s u ack next).active, v ∈ (putAway cfg s u ack next).done) ∧
      ∀ v ∈ (putAway cfg s u ack next).active ++ (putAway cfg s u ack next).inProgress, Holds (putAway cfg s u ack next).sys v = false := by
    intro u hu ack next hnext
    rw [putAway_drained hu]
    refine ⟨?_, ?_⟩
    · intro v hv
      simp only [List.mem_filter, decide_eq_true_eq] at hv ⊢
      exact ⟨hdone v hv.1, hv.2⟩
    · intro v hv
      rcases List.mem_append.1 hv with hv | hv
      · exact hhold v (List.mem_append_left _ (List.mem_filter.1 hv).1)
      · refine hhold v (List.mem_append_right _ ?_)
        simp only [St.inProgress] at hv
        split at hv
        · exact hnext _ rfl v hv
        · cases hv
  cases op with
  | stop => exact hu.elim
  | disconnect => exact hu.elim
  | done pid =>
    simp only [Finish.step]
    split
    · exact ⟨fun u hu => List.mem_cons_of_mem _ (hdone u hu), hhold⟩
    · exact ⟨hdone, hhold⟩
  | other o =>
    simp only [Finish.step]
    split
    · refine ⟨hdone, ?_⟩
      intro u hu
      cases hb : Holds (Docket.step cfg.core s.sys o) u with
      | false => rfl
      | true =>
        obtain ⟨p, hp, rfl⟩ := holds_iff.1 hb
        rcases (procs_step hw o).2 p hp with ⟨q, hq, a, _⟩ | ⟨a, _⟩
        · have := hhold _ hu
          rw [← a, holds_iff.2 ⟨q, hq, rfl⟩] at this
          cases this
        · have := hlow _ hu
          omega
    · exact ⟨hdone, hhold⟩
  | loop lapsed ack =>
    have hkeep : ∀ s' : St, s'.sys = s.sys → s'.active = s.active → s'.done = s.done →
        (∀ x ∈ s'.inProgress, x ∈ s.active) →
        (∀ v ∈ s'.active, v ∈ s'.done) ∧ ∀ v ∈ s'.active ++ s'.inProgress, Holds s'.sys v = false := by
      intro s' e1 e2 e3 e4
      rw [e1, e2, e3]
      refine ⟨hdone, ?_⟩
      intro v hv
      rcases List.mem_append.1 hv with hv | hv
      · exact hhold v (List.mem_append_left _ hv)
      · exact hhold v (List.mem_append_left _ (e4 v hv))
    simp only [Finish.step, loopStep]
    split
    · split
      · refine hkeep _ rfl rfl rfl ?_
        intro x hx; exact (List.mem_filter.1 hx).1
      · exact hkeep _ rfl rfl rfl (fun x hx => by cases hx)
    · rename_i u rest hpc
      refine hpa u (hhold u (by simp [St.inProgress, hpc])) _ _ ?_
      intro r hr x hx
      injection hr with hr
      simp only [St.inProgress, hpc]
      exact List.mem_cons_of_mem _ (hr ▸ hx)
    · split <;> exact hkeep _ rfl rfl rfl (fun x hx => by cases hx)
    · simp only [redeliver_empty cfg.core h0.1, newPids_same (rfl : s.sys.nextPid = s.sys.nextPid), List.append_nil]
      refine hkeep { s with pc := if cfg.concurrency - s.active.length = 0 then PC.look else PC.askNew } rfl rfl rfl ?_
      intro x hx
      simp only [St.inProgress] at hx
      split at hx
      · rename_i hr; split at hr <;> cases hr
      · cases hx
    · simp only [newPids_same (poll_empty cfg.core h0.1 _ _), List.append_nil]
      refine ⟨hdone, ?_⟩
      intro u hu
      cases hb : Holds (Docket.step cfg.core s.sys (.poll cfg.worker (cfg.concurrency - s.active.length))) u with
      | false => rfl
      | true =>
        obtain ⟨p, hp, rfl⟩ := holds_iff.1 hb
        have hu' : p.pid ∈ s.active := by simpa [St.inProgress] using hu
        rcases (procs_step hw _).2 p hp with ⟨q, hq, a, _⟩ | ⟨a, _⟩
        · have := hhold _ (List.mem_append_left _ hu')
          rw [← a, holds_iff.2 ⟨q, hq, rfl⟩] at this
          cases this
        · have := hlow _ (List.mem_append_left _ hu')
          omega
    · exact hkeep _ rfl rfl rfl (fun x hx => by cases hx)
    · split
      · exact hkeep _ rfl (by rename_i ha; simp [ha]) rfl (fun x hx => by cases hx)
      · rename_i u l ha
        have hmem : u ∈ s.active := by rw [ha]; exact List.mem_cons_self
        split
        · exact hpa u (hhold u (List.mem_append_left _ hmem)) _ _ (fun r hr => by cases hr)
        · exact ⟨hdone, hhold⟩
    · exact ⟨hdone, hhold⟩
    · exact ⟨hdone, hhold⟩

theorem All.imp_drained {cfg : Cfg} (cont : List Op) : ∀ {s : St}, WF s.sys → Low s → Drained s →
    (∀ op ∈ cont, Undisturbed op) → All cfg (fun s => NothingLeft s.sys) s cont → All cfg Drained s cont := by
  induction cont with
  | nil => intro s _ _ h _ _; exact h
  | cons op cont ih =>
    intro s hw hl hd hu hall
    have hn : NothingLeft (Finish.step cfg s op).sys := by
      cases cont with
      | nil => exact hall.2
      | cons _ _ => exact hall.2.1
    exact ⟨hd, ih (by rw [step_sys]; exact hw.runFrom _) (hl.step hw op)
      (hd.step hw hl (hu op List.mem_cons_self) hn) (fun o ho => hu o (List.mem_cons_of_mem _ ho)) hall.2⟩

/-- **C73**, part 3.  Once nothing is left to do and the worker's own tasks have ended,
`run_until_finished()` returns after a bounded number of rounds of its loop, whatever other
processes do, as long as they do not give it new work and it is neither stopped nor loses its
connection. -/
theorem C73_returns (cfg : Cfg) (hc : 1 ≤ cfg.concurrency) (past : List Docket.Op) (ops cont : List Op)
    (hs : (run cfg past ops).pc ≠ .stopped) (hd : Drained (run cfg past ops))
    (hn : All cfg (fun s => NothingLeft s.sys) (run cfg past ops) cont)
    (hu : ∀ op ∈ cont, Undisturbed op)
    (hr : 10 + (run cfg past ops).active.length + (run cfg past ops).inProgress.length ≤ rounds cont) :
    (run cfg past (ops ++ cont)).pc = .finished := by
  rw [run, runFrom_append]
  exact returns_aux hc cont hs (All.imp_drained cont (run_wf _ _ _) (Low.run _ _ _) hd hu hn) hu
    (Or.inl (Nat.le_trans (rank_le _) hr))

/-- One round of the loop that finds nothing: five steps from the `while` back to it. -/
def round : List Op := [.loop [] none, .loop [] none, .loop [] none, .loop [] none, .loop [] none]

/-- A history that meets the hypotheses of all parts: one task is scheduled for later, one is
run by another worker, one is taken over from a worker that crashed; one is refused by a
concurrency limit and scheduled again.  The worker stays until all of them have ended. -/
def exampleOps : List Op :=
  [.loop [] none, .loop [] none, .loop [1] none, .loop [] none, .loop [] none,
   -- "a" was taken over as execution 2; "b" runs elsewhere (execution 1)
   .other (.claim 2), .done 2, .loop [] none, .loop [] (some (.reschedule 2 9 1 5)), .loop [] none,
   -- the loop waits: "b" is running elsewhere, "c" and again "a" are scheduled
   .loop [] none, .loop [] none, .loop [] none,
   .other (.finish 1 .completed none false)] ++ round ++
  [.other (.tick 4), .other (.schedule 9), .loop [] none, .loop [] none, .loop [] none, .loop [] none, .loop [] none,
   .other (.claim 3), .other (.claim 4), .other (.finish 3 .completed none false), .other (.finish 4 .failed none false),
   .done 3, .done 4]

def examplePast : List Docket.Op :=
  [.add "a" ⟨"f", "", "", 0, 1⟩ 0, .add "b" ⟨"f", "", "", 0, 1⟩ 0, .add "c" ⟨"f", "", "", 8, 1⟩ 0, .poll "u" 1, .claim 0,
   .crash "u", .tick 5, .poll "v" 1, .claim 1]

def exampleCfg : Cfg := ⟨⟨100, 3⟩, "w", 2⟩

example :
    Fresh exampleCfg examplePast ∧
    -- it has not returned while something is left
    (run exampleCfg examplePast exampleOps).pc = .top ∧
    -- and it does return
    Drained (run exampleCfg examplePast exampleOps) ∧
    (run exampleCfg examplePast exampleOps).active.length + 10 ≤ rounds (round ++ round ++ round) ∧
    All exampleCfg (fun s => NothingLeft s.sys) (run exampleCfg examplePast exampleOps) (round ++ round ++ round) ∧
    (run exampleCfg examplePast (exampleOps ++ (round ++ round ++ round))).pc = .finished ∧
    EachStep exampleCfg.core SteadyHands {}
      (examplePast ++ trace exampleCfg (start exampleCfg examplePast) (exampleOps ++ (round ++ round ++ round))) := by
  decide +kernel

/-- A worker that returns, whatever prefix of its history one looks at. -/
theorem violated_aux {cfg : Cfg} {past : List Docket.Op} {ops : List Op} (hf : Fresh cfg past)
    (hpc : (run cfg past ops).pc = .finished)
    (hb : ∀ n ≤ ops.length, ∃ p ∈ (run cfg past (ops.take n)).sys.procs, p.phase = .running) : ¬ C73_statement := by
  intro h
  obtain ⟨pre, post, rfl, _, _, h3⟩ := h cfg past ops hf hpc
  obtain ⟨p, hp, hr⟩ := hb pre.length (by simp)
  rw [List.take_left] at hp
  exact h3 p hp hr

/-- Violated: a task that is cancelled just after a worker received it is started all the
same (C13), but its message is gone: `run_until_finished()` of another worker returns at once,
while the task runs. -/
theorem C73_violated_cancel : ¬ C73_statement :=
  violated_aux (cfg := exampleCfg)
    (past := [.add "k" ⟨"f", "", "", 0, 1⟩ 0, .poll "v" 1, .cancel "k", .claim 0])
    (ops := round ++ [.loop [] none]) (by decide +kernel) (by decide +kernel) (by decide +kernel)

/-- Violated: the docket is cleared while a worker runs a task. -/
theorem C73_violated_clear : ¬ C73_statement :=
  violated_aux (cfg := exampleCfg)
    (past := [.add "k" ⟨"f", "", "", 0, 1⟩ 0, .poll "v" 1, .claim 0, .clear])
    (ops := round ++ [.loop [] none]) (by decide +kernel) (by decide +kernel) (by decide +kernel)

/-- Violated: a message is taken over from a worker that is alive; the second execution ends
first and removes the message, and the first one is not seen any more. -/
theorem C73_violated_lapse : ¬ C73_statement :=
  violated_aux (cfg := exampleCfg)
    (past := [.add "k" ⟨"f", "", "", 0, 1⟩ 0, .poll "v" 1, .claim 0, .tick 3, .redeliver "u" 1, .claim 1,
      .finish 1 .completed none false])
    (ops := round ++ [.loop [] none]) (by decide +kernel) (by decide +kernel) (by decide +kernel)

end Docket.Finish
