import Verif.Props.C85_C86

/-!
# C85, continued: a worker that stops leaves its tasks free to end in their own way

Whatever the worker has been told, a task that it has begun and that nobody has cancelled records
its own outcome, and is not recorded as cancelled.
-/

namespace Docket.Stop

/-- The worker has begun the execution `p`, which has been claimed, and its function is running. -/
structure UnderWay (cfg : Cfg) (s : St) (p : Proc) : Prop where
  held : p ∈ s.sys.procs
  own : p.worker = cfg.worker
  claimed : p.phase = .running
  started : ∃ t ∈ s.active, t.pid = p.pid ∧ t.ending = none

/-- Somebody has cancelled the task, or the end of the run has. -/
def Cancelled (s : St) (pid : Nat) : Prop := pid ∈ s.signalled ∨ pid ∈ s.interrupted

theorem UnderWay.running {cfg : Cfg} {s : St} {p : Proc} (h : UnderWay cfg s p) :
    running s p.pid = true := by
  obtain ⟨t, ht, h1, h2⟩ := h.started
  exact List.any_eq_true.2 ⟨t, ht, by simp [h1, h2]⟩

/-- **C85** (part): at any time, also after it was told to stop, a task of the worker that has
returned or failed can record that, and then its execution is over.  Proved for recording the
outcome in one step; how the outcome is determined is the subject of C110. -/
theorem C85_records_partial (cfg : Cfg) (past : List Docket.Op) (es : List Ev) (p : Proc)
    (h : UnderWay cfg (run cfg past es) p) (st : RunState) (hst : st = .completed ∨ st = .failed)
    (e : Option String) (b : Bool) :
    (step cfg (run cfg past es) (.op (.finish p.pid st e b))).sys =
        Docket.step cfg.core (run cfg past es).sys (.finish p.pid st e b) ∧
      ∀ x ∈ (step cfg (run cfg past es) (.op (.finish p.pid st e b))).sys.procs, x.pid ≠ p.pid := by
  have hw : WF (run cfg past es).sys := (room_run cfg past es).wf
  have hp := proc?_of_mem hw h.held
  have hm : may cfg (run cfg past es) (.finish p.pid st e b) = true := by
    rcases hst with rfl | rfl <;>
      simp [may, subject, hp, h.own, h.running, cancelsItself]
  have hs : (step cfg (run cfg past es) (.op (.finish p.pid st e b))).sys =
      Docket.step cfg.core (run cfg past es).sys (.finish p.pid st e b) := by
    simp only [step, hm, if_true]
  refine ⟨hs, ?_⟩
  rw [hs]
  exact finish_drops cfg.core hw h.held h.claimed st (by rcases hst with rfl | rfl <;> rfl) e b

/-- **C85** (part): it is not recorded as cancelled, unless it was cancelled. -/
theorem C85_not_cancelled_partial (cfg : Cfg) (past : List Docket.Op) (es : List Ev) (p : Proc)
    (h : UnderWay cfg (run cfg past es) p) (hc : ¬ Cancelled (run cfg past es) p.pid)
    (e : Option String) (b : Bool) :
    step cfg (run cfg past es) (.op (.finish p.pid .cancelled e b)) = run cfg past es := by
  have hw : WF (run cfg past es).sys := (room_run cfg past es).wf
  have hp := proc?_of_mem hw h.held
  have h1 : p.pid ∉ (run cfg past es).signalled := fun h => hc (Or.inl h)
  have h2 : p.pid ∉ (run cfg past es).interrupted := fun h => hc (Or.inr h)
  have hm : may cfg (run cfg past es) (.finish p.pid .cancelled e b) = false := by
    simp [may, subject, hp, h.own, h.running, cancelsItself, h.claimed, h1, h2]
  simp [step, hm]

/-- **C85** (part): being told to stop cancels no task, in particular. -/
theorem C85_stop_cancels_none (cfg : Cfg) (past : List Docket.Op) (es : List Ev) (pid : Nat)
    (h : ¬ Cancelled (run cfg past es) pid) :
    ¬ Cancelled (run cfg past (es ++ [.stop])) pid := by
  simpa [run, runFrom, List.foldl_append, step, Cancelled] using h

open Example in
/-- Two tasks under way at a worker that was told to stop. -/
example : ∃ p, UnderWay cfg (run cfg past (begins ++ [.stop])) p ∧
    ¬ Cancelled (run cfg past (begins ++ [.stop])) p.pid := by
  have h : ∃ p ∈ (run cfg past (begins ++ [.stop])).sys.procs, (p.worker = cfg.worker ∧
      p.phase = .running ∧
      ∃ t ∈ (run cfg past (begins ++ [.stop])).active, t.pid = p.pid ∧ t.ending = none) ∧
      p.pid ∉ (run cfg past (begins ++ [.stop])).signalled ∧
      p.pid ∉ (run cfg past (begins ++ [.stop])).interrupted := by decide +kernel
  obtain ⟨p, hp, ⟨h1, h2, h3⟩, h4, h5⟩ := h
  exact ⟨p, ⟨hp, h1, h2, h3⟩, fun hc => hc.elim h4 h5⟩

end Docket.Stop
