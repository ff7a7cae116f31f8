import Verif.Core.Redis
/-
`Debounce`, dependencies/_debounce.py: one debounce key, any number of workers.
-/
namespace Docket.Debounce

inductive Outcome
  | proceed
  | reschedule (remaining : Nat)
  | drop
  /-- SET refuses an expiry of zero milliseconds -/
  | redisError
  deriving DecidableEq, Repr

/-- One run of the script: who, with which clock reading, and the answer. -/
structure Call where
  key : Key
  now : Nat
  out : Outcome
  deriving DecidableEq, Repr

/-- Redis's clock, the two keys with their expiry, the tasks that were told to come back
and have neither done so nor been cancelled, and all calls so far, newest first (the last
two are history, not Redis). -/
structure St where
  clock : Nat := 0
  winner : Option (Key × Nat) := none
  seen : Option (Nat × Nat) := none
  pending : List Key := []
  calls : List Call := []

/-- GET: nothing once the key has expired. -/
def get {α : Type} (clock : Nat) : Option (α × Nat) → Option α
  | some (v, e) => if clock < e then some v else none
  | none => none

/-- PEXPIRE: does nothing to a key that is not there. -/
def pexpire {α : Type} (clock ttl : Nat) (x : Option (α × Nat)) : Option (α × Nat) :=
  (get clock x).map (fun v => (v, clock + ttl))

/-- `ttl_ms`, _debounce.py:127. -/
def ttl (settle : Nat) : Nat := settle * 10

/-- The script `_debounce`, _debounce.py:25-72. -/
def script (settle : Nat) (s : St) (k : Key) (now : Nat) : St × Outcome :=
  match get s.clock s.winner with
  | none =>
    if ttl settle = 0 then (s, .redisError)
    else ({ s with
      winner := some (k, s.clock + ttl settle)
      seen := some (now, s.clock + ttl settle) }, .reschedule settle)
  | some w =>
    if w = k then
      let last := (get s.clock s.seen).getD 0
      if last + settle ≤ now then ({ s with winner := none, seen := none }, .proceed)
      else ({ s with
        winner := pexpire s.clock (ttl settle) s.winner
        seen := pexpire s.clock (ttl settle) s.seen }, .reschedule (last + settle - now))
    else ({ s with
      seen := some (now, s.clock + ttl settle)
      winner := pexpire s.clock (ttl settle) s.winner }, .drop)

inductive Op
  | tick (d : Nat)
  /-- `__aenter__` of an execution, _debounce.py:107-158: a new submission, or a task that
  was told to come back -/
  | call (k : Key) (now : Nat)
  /-- the task is cancelled while it waits to come back -/
  | cancel (k : Key)
  deriving DecidableEq, Repr

def step (settle : Nat) (s : St) : Op → St
  | .tick d => { s with clock := s.clock + d }
  | .call k now =>
    if now ≤ s.clock then
      let r := script settle s k now
      { r.1 with
        pending := match r.2 with
          | .reschedule _ => k :: s.pending.filter (· ≠ k)
          | _ => s.pending.filter (· ≠ k)
        calls := ⟨k, now, r.2⟩ :: s.calls }
    else s
  | .cancel k => { s with pending := s.pending.filter (· ≠ k) }

def runFrom (settle : Nat) (s : St) (ops : List Op) : St := ops.foldl (step settle) s
def run (settle : Nat) (ops : List Op) : St := runFrom settle {} ops

theorem runFrom_append (settle : Nat) (s : St) (a b : List Op) :
    runFrom settle s (a ++ b) = runFrom settle (runFrom settle s a) b := by simp [runFrom]

/-- Calls reach Redis in the order of their clock readings. -/
def InOrder (s : St) : Op → Prop
  | .call _ now => ∀ c ∈ s.calls, c.now ≤ now
  | _ => True

def Ordered (settle : Nat) (s : St) : List Op → Prop
  | [] => True
  | op :: ops => InOrder s op ∧ Ordered settle (step settle s op) ops

instance (s : St) : (op : Op) → Decidable (InOrder s op)
  | .call _ _ => by unfold InOrder; infer_instance
  | .tick _ => by unfold InOrder; infer_instance
  | .cancel _ => by unfold InOrder; infer_instance

def decOrdered (settle : Nat) : (s : St) → (ops : List Op) → Decidable (Ordered settle s ops)
  | _, [] => isTrue trivial
  | s, op :: ops => by
    unfold Ordered
    exact @instDecidableAnd _ _ _ (decOrdered settle _ ops)
instance (settle : Nat) (s : St) (ops : List Op) : Decidable (Ordered settle s ops) :=
  decOrdered settle s ops

/-- Both keys are set and expire together, and `last_seen` is not older than any call
except the winner's own returns. -/
structure Inv (settle : Nat) (s : St) : Prop where
  pos : s.winner ≠ none → 0 < settle
  both : ∀ k e, s.winner = some (k, e) → ∃ t, s.seen = some (t, e) ∧
    (∀ c ∈ s.calls, (c.key = k ∧ c.out ≠ .proceed) ∨ c.now ≤ t) ∧
    (∃ c ∈ s.calls, c.key = k ∧ c.now ≤ t)

theorem get_some {α : Type} {clock : Nat} {x : Option (α × Nat)} {v : α} (h : get clock x = some v) :
    ∃ e, x = some (v, e) ∧ clock < e := by
  cases x with
  | none => simp [get] at h
  | some p =>
    obtain ⟨a, e⟩ := p
    simp only [get] at h
    split at h
    · simp only [Option.some.injEq] at h; subst h; exact ⟨e, rfl, by assumption⟩
    · simp at h

theorem Inv.step {settle : Nat} {s : St} (h : Inv settle s) (op : Op) (ho : InOrder s op) :
    Inv settle (step settle s op) := by
  cases op with
  | tick d => exact ⟨h.pos, h.both⟩
  | cancel k => exact ⟨h.pos, h.both⟩
  | call k now =>
    simp only [Debounce.step]
    split
    case isFalse => exact h
    simp only [InOrder] at ho
    rcases Option.eq_none_or_eq_some (get s.clock s.winner) with hg | ⟨w, hg⟩
    · simp only [script, hg]
      split
      · rename_i h0
        have hnone : s.winner = none := by
          rcases Option.eq_none_or_eq_some s.winner with hw | ⟨v, hw⟩
          · exact hw
          · have := h.pos (by simp [hw])
            simp only [ttl] at h0
            omega
        exact ⟨fun hc => absurd hnone hc, fun k1 e1 hw => by rw [hnone] at hw; cases hw⟩
      · rename_i h0
        refine ⟨fun _ => by simp only [ttl] at h0; omega, ?_⟩
        intro k1 e1 hw
        simp only [Option.some.injEq, Prod.mk.injEq] at hw
        obtain ⟨rfl, rfl⟩ := hw
        refine ⟨now, rfl, ?_, ⟨_, List.mem_cons_self, rfl, Nat.le_refl _⟩⟩
        intro c hc
        rcases List.mem_cons.1 hc with rfl | hc
        · right; exact Nat.le_refl _
        · right; exact ho c hc
    · obtain ⟨e, he, hlt⟩ := get_some hg
      obtain ⟨t, h1, h2, h3⟩ := h.both w e he
      have hpos := h.pos (by simp [he])
      simp only [script, hg]
      split
      · rename_i hwk
        subst hwk
        split
        · exact ⟨by simp, by simp⟩
        · refine ⟨fun _ => hpos, ?_⟩
          intro k1 e1 hw
          simp only [pexpire, he, h1, get, if_pos hlt, Option.map_some, Option.some.injEq, Prod.mk.injEq] at hw ⊢
          obtain ⟨rfl, rfl⟩ := hw
          refine ⟨t, ⟨rfl, rfl⟩, ?_, ?_⟩
          · intro c hc
            rcases List.mem_cons.1 hc with rfl | hc
            · left; exact ⟨rfl, by simp⟩
            · exact h2 c hc
          · obtain ⟨c, hc1, hc2⟩ := h3
            exact ⟨c, List.mem_cons_of_mem _ hc1, hc2⟩
      · refine ⟨fun _ => hpos, ?_⟩
        intro k1 e1 hw
        simp only [pexpire, he, get, if_pos hlt, Option.map_some, Option.some.injEq, Prod.mk.injEq] at hw ⊢
        obtain ⟨rfl, rfl⟩ := hw
        refine ⟨now, ⟨rfl, rfl⟩, ?_, ?_⟩
        · intro c hc
          rcases List.mem_cons.1 hc with rfl | hc
          · right; exact Nat.le_refl _
          · right; exact ho c hc
        · obtain ⟨c, hc1, hc2, hc3⟩ := h3
          exact ⟨c, List.mem_cons_of_mem _ hc1, hc2, ho c hc1⟩

theorem Inv.init (settle : Nat) : Inv settle {} := ⟨by simp, by simp⟩

theorem Inv.runFrom {settle : Nat} {s : St} (h : Inv settle s) {ops : List Op}
    (ho : Ordered settle s ops) : Inv settle (runFrom settle s ops) := by
  induction ops generalizing s with
  | nil => exact h
  | cons o ops ih => exact ih (h.step o ho.1) ho.2

/-- Both keys expire together, and nobody saw the future. -/
structure Shape (settle : Nat) (s : St) : Prop where
  seen : ∀ k e, s.winner = some (k, e) → ∃ t, s.seen = some (t, e) ∧ t ≤ s.clock

theorem Shape.step {settle : Nat} {s : St} (h : Shape settle s) (op : Op) : Shape settle (step settle s op) := by
  cases op with
  | tick d =>
    refine ⟨fun k e hw => ?_⟩
    obtain ⟨t, h1, h2⟩ := h.seen k e hw
    exact ⟨t, h1, Nat.le_trans h2 (Nat.le_add_right _ _)⟩
  | cancel k => exact ⟨h.seen⟩
  | call k now =>
    simp only [Debounce.step]
    split
    case isFalse => exact h
    rename_i hnow
    rcases Option.eq_none_or_eq_some (get s.clock s.winner) with hg | ⟨w, hg⟩
    · simp only [script, hg]
      split
      · exact ⟨h.seen⟩
      · refine ⟨fun k1 e1 hw => ?_⟩
        simp only [Option.some.injEq, Prod.mk.injEq] at hw
        obtain ⟨rfl, rfl⟩ := hw
        exact ⟨now, rfl, hnow⟩
    · obtain ⟨e, he, hlt⟩ := get_some hg
      obtain ⟨t, h1, h2⟩ := h.seen w e he
      simp only [script, hg]
      split
      · split
        · exact ⟨by simp⟩
        · refine ⟨fun k1 e1 hw => ?_⟩
          simp only [pexpire, he, h1, get, if_pos hlt, Option.map_some, Option.some.injEq, Prod.mk.injEq] at hw ⊢
          obtain ⟨rfl, rfl⟩ := hw
          exact ⟨t, ⟨rfl, rfl⟩, h2⟩
      · refine ⟨fun k1 e1 hw => ?_⟩
        simp only [pexpire, he, get, if_pos hlt, Option.map_some, Option.some.injEq, Prod.mk.injEq] at hw ⊢
        obtain ⟨rfl, rfl⟩ := hw
        exact ⟨now, ⟨rfl, rfl⟩, hnow⟩

theorem Shape.run (settle : Nat) (ops : List Op) : Shape settle (run settle ops) := by
  have : ∀ s, Shape settle s → Shape settle (Debounce.runFrom settle s ops) := by
    induction ops with
    | nil => intro s h; exact h
    | cons o ops ih => intro s h; exact ih _ (h.step o)
  exact this _ ⟨by simp⟩

def NotCancel : Op → Prop
  | .cancel _ => False
  | _ => True

instance : (op : Op) → Decidable (NotCancel op)
  | .cancel _ => isFalse (fun h => h)
  | .call _ _ => isTrue trivial
  | .tick _ => isTrue trivial

/-- Without cancellations the winner is always on its way back. -/
def WinnerPending (s : St) : Prop := ∀ k e, s.winner = some (k, e) → k ∈ s.pending

theorem WinnerPending.step {settle : Nat} {s : St} (h0 : 0 < settle) (h : WinnerPending s) (op : Op)
    (hc : NotCancel op) :
    WinnerPending (step settle s op) := by
  cases op with
  | tick d => exact h
  | cancel k => exact hc.elim
  | call k now =>
    simp only [Debounce.step]
    split
    case isFalse => exact h
    rcases Option.eq_none_or_eq_some (get s.clock s.winner) with hg | ⟨w, hg⟩
    · simp only [script, hg]
      split
      · rename_i hz
        simp only [ttl] at hz
        omega
      · intro k1 e1 hw
        simp only [Option.some.injEq, Prod.mk.injEq] at hw
        obtain ⟨rfl, rfl⟩ := hw
        exact List.mem_cons_self
    · obtain ⟨e, he, hlt⟩ := get_some hg
      simp only [script, hg]
      split
      · rename_i hwk
        split
        · intro k1 e1 hw; simp at hw
        · intro k1 e1 hw
          simp only [pexpire, he, get, if_pos hlt, Option.map_some, Option.some.injEq, Prod.mk.injEq] at hw
          obtain ⟨rfl, rfl⟩ := hw
          subst hwk
          exact List.mem_cons_self
      · rename_i hwk
        intro k1 e1 hw
        simp only [pexpire, he, get, if_pos hlt, Option.map_some, Option.some.injEq, Prod.mk.injEq] at hw
        obtain ⟨rfl, rfl⟩ := hw
        exact List.mem_filter.2 ⟨h w e he, by simpa using hwk⟩

theorem WinnerPending.run {settle : Nat} (h0 : 0 < settle) (ops : List Op) (hc : ∀ op ∈ ops, NotCancel op) :
    WinnerPending (run settle ops) := by
  have : ∀ s, WinnerPending s → WinnerPending (Debounce.runFrom settle s ops) := by
    induction ops with
    | nil => intro s h; exact h
    | cons o ops ih =>
      intro s h
      exact ih (fun op ho => hc op (List.mem_cons_of_mem _ ho)) _ (h.step h0 o (hc o List.mem_cons_self))
  exact this _ (by intro k e h; simp at h)

end Docket.Debounce
