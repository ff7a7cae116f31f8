import Verif.Core.Carried
/-
How the history grows, and how a handed-out message can be claimed.
-/
namespace Docket
open Redis

theorem step_log (cfg : Cfg) {s : Sys} (hw : WF s) (op : Op) :
    ∃ l, (step cfg s op).log = l ++ s.log := by
  have he := step_eff cfg s hw.queue op
  generalize Docket.step cfg s op = s' at he
  cases he <;> first
    | exact ⟨[], rfl⟩
    | exact ⟨[_], rfl⟩
    | exact ⟨_, rfl⟩

theorem runFrom_log (cfg : Cfg) {s : Sys} (hw : WF s) (ops : List Op) :
    ∃ l, (runFrom cfg s ops).log = l ++ s.log := by
  induction ops generalizing s with
  | nil => exact ⟨[], rfl⟩
  | cons o ops ih =>
    obtain ⟨l1, h1⟩ := step_log cfg hw o
    obtain ⟨l2, h2⟩ := ih (hw.step (cfg := cfg) o)
    exact ⟨l2 ++ l1, by rw [runFrom_cons, h2, h1]; simp⟩

theorem newEvents_eq {s s' : Sys} {l : List Event} (h : s'.log = l ++ s.log) :
    newEvents s s' = l := by
  simp [newEvents, h]

/-- The new events are exactly what was added in front of the old history. -/
theorem newEvents_spec (cfg : Cfg) {s : Sys} (hw : WF s) (ops : List Op) :
    (runFrom cfg s ops).log = newEvents s (runFrom cfg s ops) ++ s.log := by
  obtain ⟨l, h⟩ := runFrom_log cfg hw ops
  rw [newEvents_eq h, h]

theorem newEvents_append (cfg : Cfg) {s : Sys} (hw : WF s) (a b : List Op) :
    newEvents s (runFrom cfg s (a ++ b)) =
      newEvents (runFrom cfg s a) (runFrom cfg s (a ++ b)) ++ newEvents s (runFrom cfg s a) := by
  obtain ⟨l1, h1⟩ := runFrom_log cfg hw a
  obtain ⟨l2, h2⟩ := runFrom_log cfg (hw.runFrom (cfg := cfg) a) b
  rw [← runFrom_append] at h2
  rw [newEvents_eq h1, newEvents_eq h2, newEvents_eq (l := l2 ++ l1)]
  rw [h2, h1]; simp

theorem proc?_of_mem {s : Sys} (hw : WF s) {p : Proc} (hp : p ∈ s.procs) :
    s.proc? p.pid = some p := by
  have hn := hw.procs.2
  simp only [Sys.proc?]
  generalize s.procs = ps at hp hn
  induction ps with
  | nil => simp at hp
  | cons a ps ih =>
    simp only [List.map_cons, List.nodup_cons] at hn
    simp only [List.mem_cons] at hp
    rcases hp with rfl | hp
    · simp
    · rw [List.find?_cons_of_neg, ih hp hn.2]
      simp only [decide_eq_true_eq]
      intro hc
      exact hn.1 (by rw [hc]; exact List.mem_map.2 ⟨p, hp, rfl⟩)

/-- A worker that holds the current message can start it. -/
theorem claim_starts (cfg : Cfg) {s : Sys} (hw : WF s) {p : Proc} (hp : p ∈ s.procs)
    (hph : p.phase = .handed) (hg : s.r.genOf p.msg.key = some p.msg.gen) :
    (step cfg s (.claim p.pid)).log = .started p.pid p.id p.msg s.r.now :: s.log := by
  simp only [step, doClaim, proc?_of_mem hw hp, hph, if_true]
  rw [luaClaim_ok _ _ _ _ _ (not_superseded_of_gen hg)]

theorem newProcs_of_mem {pid : Nat} {w : WorkerName} {red : Bool} {ms : List (MsgId × Msg)}
    {e : MsgId × Msg} (h : e ∈ ms) :
    ∃ p ∈ newProcs pid w red ms, p.id = e.1 ∧ p.msg = e.2 ∧ p.phase = .handed ∧ p.worker = w := by
  induction ms generalizing pid with
  | nil => simp at h
  | cons a ms ih =>
    simp only [List.mem_cons] at h
    rcases h with rfl | h
    · exact ⟨_, by simp only [newProcs, List.mem_cons]; exact Or.inl rfl, rfl, rfl, rfl, rfl⟩
    · obtain ⟨p, h1, h2⟩ := ih (pid := pid + 1) h
      exact ⟨p, by simp [newProcs, h1], h2⟩

/-- Polling for everything hands out every undelivered message. -/
theorem poll_all (cfg : Cfg) {s : Sys} (w : WorkerName) {id : MsgId} {m : Msg}
    (hm : (id, m) ∈ s.r.stream) (hld : s.r.lastDelivered < id) :
    ∃ p ∈ (step cfg s (.poll w s.r.stream.length)).procs, p.id = id ∧ p.msg = m ∧
      p.phase = .handed ∧ p.worker = w := by
  simp only [step, doPoll, xreadgroup, handOut_eq]
  have hmem : (id, m) ∈ (s.r.stream.filter (fun e => s.r.lastDelivered < e.1)).take
      s.r.stream.length := by
    rw [List.take_of_length_le (List.length_filter_le _ _)]
    simp [List.mem_filter, hm, hld]
  obtain ⟨p, h1, h2⟩ := newProcs_of_mem (pid := s.nextPid) (w := w) (red := false) hmem
  exact ⟨p, by simp only [List.mem_append]; exact Or.inr h1, h2⟩

theorem poll_redis (cfg : Cfg) (s : Sys) (w : WorkerName) (n : Nat) :
    (step cfg s (.poll w n)).r.runs = s.r.runs ∧ (step cfg s (.poll w n)).r.now = s.r.now := by
  simp [step, doPoll, xreadgroup, handOut_eq]

theorem redeliver_hands (cfg : Cfg) {s : Sys} (hw : WF s) (w : WorkerName) {id : MsgId} {m : Msg}
    (hm : (id, m) ∈ s.r.stream) {p : Pend} (hp : p ∈ s.r.pending) (hid : p.id = id)
    (hidle : p.since + cfg.redelivery ≤ s.r.now) :
    let s' := step cfg s (.redeliver w id)
    (⟨s.nextPid, w, id, m, true, .handed⟩ : Proc) ∈ s'.procs ∧ s'.r.runs = s.r.runs ∧
      s'.r.now = s.r.now := by
  have h1 : s.r.pending.find? (fun x => x.id = id) = some p := by
    have hn := hw.stream.nodup
    generalize s.r.pending = ps at hp hn
    induction ps with
    | nil => simp at hp
    | cons a ps ih =>
      simp only [List.map_cons, List.nodup_cons] at hn
      simp only [List.mem_cons] at hp
      rcases hp with rfl | hp
      · simp [hid]
      · rw [List.find?_cons_of_neg, ih hp hn.2]
        simp only [decide_eq_true_eq]
        intro hc
        exact hn.1 (by rw [hc, ← hid]; exact List.mem_map.2 ⟨p, hp, rfl⟩)
  have h2 : s.r.stream.find? (fun e => e.1 = id) = some (id, m) := by
    cases hf : s.r.stream.find? (fun e => e.1 = id) with
    | none =>
      rw [List.find?_eq_none] at hf
      have := hf _ hm
      simp at this
    | some e =>
      have he := List.mem_of_find?_eq_some hf
      have hi : e.1 = id := by simpa using List.find?_some hf
      rw [hw.stream.unique he hm hi]
  simp only [step, doRedeliver, h1, h2, hidle, if_true, handOut_eq, reassign, newProcs]
  simp

end Docket
