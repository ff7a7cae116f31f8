import Verif.Core.Origin
/-
Every hand-out starts an execution of its own.
-/
namespace Docket
open Redis

structure PidInv (s : Sys) : Prop where
  lt : ∀ pid id w b t m, Event.handed pid id w b t m ∈ s.log → pid < s.nextPid
  once : ∀ pid id w b t m id' w' b' t' m', Event.handed pid id w b t m ∈ s.log →
    Event.handed pid id' w' b' t' m' ∈ s.log → id' = id ∧ m' = m

theorem newHanded_pid {pid : Nat} {w : WorkerName} {red : Bool} {t : Time} {ms : List (MsgId × Msg)}
    {pid' id' : Nat} {w' : WorkerName} {b' : Bool} {t' : Nat} {m' : Msg}
    (h : Event.handed pid' id' w' b' t' m' ∈ newHanded pid w red t ms) :
    pid ≤ pid' ∧ pid' < pid + ms.length ∧ ms[pid' - pid]? = some (id', m') := by
  induction ms generalizing pid with
  | nil => cases h
  | cons e ms ih =>
    simp only [newHanded, List.mem_cons, Event.handed.injEq] at h
    rcases h with ⟨rfl, rfl, _, _, _, rfl⟩ | h
    · simp
    · obtain ⟨h1, h2, h3⟩ := ih h
      refine ⟨by omega, by simp only [List.length_cons]; omega, ?_⟩
      have : pid' - pid = pid' - (pid + 1) + 1 := by omega
      rw [this, List.getElem?_cons_succ, h3]

theorem PidInv.same {s s' : Sys} (h : PidInv s) (l : List Event) (hl : s'.log = l ++ s.log)
    (hno : ∀ pid id w b t m, Event.handed pid id w b t m ∉ l) (hn : s'.nextPid = s.nextPid) : PidInv s' := by
  have hcase : ∀ pid id w b t m, Event.handed pid id w b t m ∈ s'.log → Event.handed pid id w b t m ∈ s.log := by
    intro pid id w b t m h1
    rw [hl] at h1
    rcases List.mem_append.1 h1 with h1 | h1
    · exact (hno _ _ _ _ _ _ h1).elim
    · exact h1
  exact ⟨fun pid id w b t m h1 => hn ▸ h.lt _ _ _ _ _ _ (hcase _ _ _ _ _ _ h1),
    fun _ _ _ _ _ _ _ _ _ _ _ h1 h2 => h.once _ _ _ _ _ _ _ _ _ _ _ (hcase _ _ _ _ _ _ h1) (hcase _ _ _ _ _ _ h2)⟩

theorem PidInv.handed {s s' : Sys} (h : PidInv s) {w : WorkerName} {red : Bool} {t : Time} {ms : List (MsgId × Msg)}
    (hl : s'.log = (newHanded s.nextPid w red t ms).reverse ++ s.log)
    (hn : s'.nextPid = s.nextPid + ms.length) : PidInv s' := by
  have hcase : ∀ pid id w' b t' m, Event.handed pid id w' b t' m ∈ s'.log →
      Event.handed pid id w' b t' m ∈ newHanded s.nextPid w red t ms ∨ Event.handed pid id w' b t' m ∈ s.log := by
    intro pid id w b t m h1
    rw [hl] at h1
    simpa using h1
  constructor
  · intro pid id w' b t' m h1
    rcases hcase _ _ _ _ _ _ h1 with h1 | h1
    · have := newHanded_pid h1; omega
    · have := h.lt _ _ _ _ _ _ h1; omega
  · intro pid id w1 b t1 m id' w' b' t' m' h1 h2
    rcases hcase _ _ _ _ _ _ h1 with h1 | h1 <;> rcases hcase _ _ _ _ _ _ h2 with h2 | h2
    · obtain ⟨_, _, h3⟩ := newHanded_pid h1
      obtain ⟨_, _, h4⟩ := newHanded_pid h2
      rw [h3] at h4
      cases h4
      exact ⟨rfl, rfl⟩
    · have := newHanded_pid h1; have := h.lt _ _ _ _ _ _ h2; omega
    · have := newHanded_pid h2; have := h.lt _ _ _ _ _ _ h1; omega
    · exact h.once _ _ _ _ _ _ _ _ _ _ _ h1 h2

theorem PidInv.step {cfg : Cfg} {s : Sys} (h : PidInv s) (hw : WF s) (op : Op) : PidInv (step cfg s op) := by
  have he := step_eff cfg s hw.queue op
  generalize Docket.step cfg s op = s' at he
  cases he with
  | poll w n new => exact h.handed (w := w) (red := false) (t := s.r.now) (ms := new) rfl rfl
  | redeliver w p e => exact h.handed (w := w) (red := true) (t := s.r.now) (ms := [e]) rfl rfl
  | _ => first
    | exact h
    | exact h.same [] rfl (by simp) rfl
    | exact h.same [_] rfl (by simp) rfl

theorem PidInv.run (cfg : Cfg) (ops : List Op) : PidInv (run cfg ops) := by
  suffices ∀ (ops : List Op) (s : Sys), WF s → PidInv s → PidInv (runFrom cfg s ops) from
    this ops {} WF.init ⟨by simp, by simp⟩
  intro ops
  induction ops with
  | nil => intro s _ h; exact h
  | cons o ops ih => intro s hw h; exact ih _ (hw.step o) (h.step hw o)

end Docket
