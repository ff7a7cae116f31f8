import Verif.Core.Redis
/-
`Cooldown`, dependencies/_cooldown.py.
-/
namespace Docket.Cooldown

inductive Outcome
  | admitted
  | dropped
  /-- SET refuses an expiry of zero milliseconds -/
  | redisError
  deriving DecidableEq, Repr

/-- Redis's clock in milliseconds, the expiry of each cooldown key that was ever set, and
the admissions so far with their time and window (history, not Redis), newest first. -/
structure St where
  clock : Nat := 0
  keys : Key → Option Nat := fun _ => none
  admissions : List (Key × Nat × Nat) := []

/-- The key exists and has not expired. -/
def St.present (s : St) (k : Key) : Bool :=
  match s.keys k with
  | some e => s.clock < e
  | none => false

/-- `int(window.total_seconds() * 1000)`, _cooldown.py:59; `us` is the window in
microseconds, the resolution of timedelta. -/
def windowMs (us : Nat) : Nat := us / 1000

/-- `SET key 1 NX PX window_ms` and what follows, _cooldown.py:61-71. -/
def attempt (s : St) (k : Key) (us : Nat) : St × Outcome :=
  if windowMs us = 0 then (s, .redisError)
  else if s.present k then (s, .dropped)
  else ({ s with
    keys := upd s.keys k (some (s.clock + windowMs us))
    admissions := (k, s.clock, us) :: s.admissions }, .admitted)

inductive Op
  | tick (d : Nat)
  /-- `__aenter__`, _cooldown.py:47-73, under the cooldown key `k` -/
  | attempt (k : Key) (us : Nat)
  deriving DecidableEq, Repr

def step (s : St) : Op → St
  | .tick d => { s with clock := s.clock + d }
  | .attempt k us => (Cooldown.attempt s k us).1

def runFrom (s : St) (ops : List Op) : St := ops.foldl step s
def run (ops : List Op) : St := runFrom {} ops

theorem runFrom_append (s : St) (a b : List Op) : runFrom s (a ++ b) = runFrom (runFrom s a) b := by
  simp [runFrom]

/-- The expiry of a key is the time of its last admission plus its window, and admissions
of one key are at least a window apart. -/
structure Inv (s : St) : Prop where
  last : ∀ k, s.keys k = ((s.admissions.find? (fun a => a.1 = k)).map (fun a => a.2.1 + windowMs a.2.2))
  past : ∀ a ∈ s.admissions, a.2.1 ≤ s.clock
  apart : s.admissions.Pairwise (fun b a => b.1 = a.1 → a.2.1 + windowMs a.2.2 ≤ b.2.1)

theorem Inv.step {s : St} (h : Inv s) (op : Op) : Inv (step s op) := by
  cases op with
  | tick d => exact ⟨h.last, fun a ha => Nat.le_trans (h.past a ha) (Nat.le_add_right _ _), h.apart⟩
  | attempt k us =>
    simp only [Cooldown.step, Cooldown.attempt]
    split
    · exact h
    split
    · exact h
    · rename_i hp
      refine ⟨?_, ?_, ?_⟩
      · intro k'
        by_cases hk : k' = k
        · subst hk; simp
        · rw [List.find?_cons_of_neg (by simpa using fun hc => hk hc.symm)]
          exact (upd_other _ _ _ _ hk).trans (h.last k')
      · intro a ha
        rcases List.mem_cons.1 ha with rfl | ha
        · exact Nat.le_refl _
        · exact h.past a ha
      · refine List.pairwise_cons.2 ⟨?_, h.apart⟩
        intro a ha hka
        simp only at hka
        have hl := h.last k
        have hfind : ∃ b, s.admissions.find? (fun a => a.1 = k) = some b := by
          have := List.find?_isSome (p := fun a : Key × Nat × Nat => decide (a.1 = k)) |>.2 ⟨a, ha, by simp [hka]⟩
          exact Option.isSome_iff_exists.1 this
        obtain ⟨b, hb⟩ := hfind
        have hnp : ¬ s.clock < b.2.1 + windowMs b.2.2 := by
          intro hc
          apply hp
          simp only [St.present, hl, hb, Option.map_some, decide_eq_true_eq]
          exact hc
        have hbk : b.1 = k := by simpa using List.find?_some hb
        obtain ⟨hpb, l1, l2, hsplit, hnone⟩ := List.find?_eq_some_iff_append.1 hb
        have hmem : a ∈ l1 ++ b :: l2 := hsplit ▸ ha
        have hap := h.apart
        rw [hsplit] at hap
        rcases List.mem_append.1 hmem with ha1 | ha1
        · exact absurd hka.symm (by simpa using hnone a ha1)
        · rcases List.mem_cons.1 ha1 with rfl | ha2
          · simp only; omega
          · have := (List.pairwise_cons.1 (List.pairwise_append.1 hap).2.1).1 a ha2 (hbk.trans hka)
            simp only
            omega

theorem Inv.run (ops : List Op) : Inv (run ops) := by
  have : ∀ s, Inv s → Inv (runFrom s ops) := by
    induction ops with
    | nil => intro s h; exact h
    | cons o ops ih => intro s h; exact ih _ (h.step o)
  exact this _ ⟨by simp, by simp, by simp⟩

end Docket.Cooldown
