import Verif.Core.Redis
/-
`RateLimit`, dependencies/_ratelimit.py: one rate-limit key, any number of workers.
-/
namespace Docket.Rate

/-- `limit` and `window_ms` (_ratelimit.py:89-98, 124-126). -/
structure Cfg where
  limit : Nat
  per : Nat

/-- The member text `{execution.key}:{now_ms}` (_ratelimit.py:129) as the pair it is made
of; the digits after the last colon are the time, so the text determines the pair. -/
abbrev Member := Key × Nat

/-- The sorted set, in rank order, its expiry, and Redis's clock in milliseconds. -/
structure Lim where
  clock : Nat := 0
  entries : List (Member × Nat) := []
  expireAt : Option Nat := none

/-- Insertion in rank order (Redis orders equal scores by member; only the score of the
first entry is ever read). -/
def insert (m : Member) (score : Nat) : List (Member × Nat) → List (Member × Nat)
  | [] => [(m, score)]
  | e :: es => if e.2 ≤ score then e :: insert m score es else (m, score) :: e :: es

/-- ZADD. -/
def zadd (m : Member) (score : Nat) (es : List (Member × Nat)) : List (Member × Nat) :=
  insert m score (es.filter (fun e => e.1 ≠ m))

/-- The entries Redis sees: none once the key has expired. -/
def Lim.live (l : Lim) : List (Member × Nat) :=
  match l.expireAt with
  | some e => if e ≤ l.clock then [] else l.entries
  | none => l.entries

inductive Outcome
  | proceed
  | blocked (retryAfter : Nat)
  /-- arithmetic on nil in the script: there is no oldest entry, _ratelimit.py:54-56 -/
  | scriptError
  deriving DecidableEq, Repr

/-- ZREMRANGEBYSCORE -inf (now - window), _ratelimit.py:40-41. -/
def prune (cfg : Cfg) (now : Nat) (es : List (Member × Nat)) : List (Member × Nat) :=
  es.filter (fun e => now < e.2 + cfg.per)

/-- The script `_ratelimit`, _ratelimit.py:24-63, with `ttl_ms = window_ms * 2` (128).
When there is an oldest entry it survived the pruning, so the subtraction is exact. -/
def script (cfg : Cfg) (l : Lim) (m : Member) (now : Nat) : Lim × Outcome :=
  let es := prune cfg now l.live
  if es.length < cfg.limit then
    ({ l with entries := zadd m now es, expireAt := some (l.clock + cfg.per * 2) }, .proceed)
  else match es with
    | [] => ({ l with entries := [] }, .scriptError)
    | e :: _ => ({ l with entries := es }, .blocked (Nat.max 1 (e.2 + cfg.per - now)))

/-- ZREM, _ratelimit.py:165-170. -/
def zrem (l : Lim) (m : Member) : Lim :=
  { l with entries := l.live.filter (fun e => e.1 ≠ m) }

/-- The limiter, the latest clock reading used, and the executions admitted so far and not
turned away by another dependency (history, not Redis), newest first. -/
structure St where
  lim : Lim := {}
  stamp : Nat := 0
  admitted : List Member := []

inductive Op
  | tick (d : Nat)
  /-- `__aenter__` of an execution of the key, with its clock reading (_ratelimit.py:112-157) -/
  | attempt (k : Key) (now : Nat)
  /-- `__aexit__` with AdmissionBlocked of an admitted execution (_ratelimit.py:159-170) -/
  | withdraw (m : Member)
  deriving DecidableEq, Repr

def step (cfg : Cfg) (s : St) : Op → St
  | .tick d => { s with lim := { s.lim with clock := s.lim.clock + d } }
  | .attempt k now =>
    if now ≤ s.lim.clock then
      let out := script cfg s.lim (k, now) now
      { lim := out.1
        stamp := now
        admitted := if out.2 = .proceed then (k, now) :: s.admitted else s.admitted }
    else s
  | .withdraw m =>
    if m ∈ s.admitted then { s with lim := zrem s.lim m, admitted := s.admitted.erase m } else s

def runFrom (cfg : Cfg) (s : St) (ops : List Op) : St := ops.foldl (step cfg) s
def run (cfg : Cfg) (ops : List Op) : St := runFrom cfg {} ops

theorem runFrom_append (cfg : Cfg) (s : St) (a b : List Op) :
    runFrom cfg s (a ++ b) = runFrom cfg (runFrom cfg s a) b := by simp [runFrom]

/-- What the answer to an attempt would be. -/
def answer (cfg : Cfg) (s : St) (k : Key) (now : Nat) : Outcome := (script cfg s.lim (k, now) now).2

/-- The proviso of C33: attempts reach Redis in the order of their clock readings, within a
window of the reading, and the same task is not attempted twice in the same millisecond. -/
def Fair (cfg : Cfg) (s : St) : Op → Prop
  | .attempt k now => s.stamp ≤ now ∧ s.lim.clock ≤ now + cfg.per ∧ (k, now) ∉ s.admitted
  | _ => True

def FairRun (cfg : Cfg) (s : St) : List Op → Prop
  | [] => True
  | op :: ops => Fair cfg s op ∧ FairRun cfg (step cfg s op) ops

instance (cfg : Cfg) (s : St) : (op : Op) → Decidable (Fair cfg s op)
  | .attempt _ _ => by unfold Fair; infer_instance
  | .tick _ => by unfold Fair; infer_instance
  | .withdraw _ => by unfold Fair; infer_instance

def decFairRun (cfg : Cfg) : (s : St) → (ops : List Op) → Decidable (FairRun cfg s ops)
  | _, [] => isTrue trivial
  | s, op :: ops => by
    unfold FairRun
    exact @instDecidableAnd _ _ _ (decFairRun cfg _ ops)
instance (cfg : Cfg) (s : St) (ops : List Op) : Decidable (FairRun cfg s ops) := decFairRun cfg s ops

/-! ### Lemmas -/

theorem mem_insert {m : Member} {t : Nat} {es : List (Member × Nat)} {e : Member × Nat} :
    e ∈ insert m t es ↔ e = (m, t) ∨ e ∈ es := by
  induction es with
  | nil => simp [insert]
  | cons x es ih =>
    simp only [insert]
    split
    · simp only [List.mem_cons, ih]; constructor <;> (rintro (h | h | h) <;> simp_all)
    · simp

theorem mem_zadd {m : Member} {t : Nat} {es : List (Member × Nat)} {e : Member × Nat} :
    e ∈ zadd m t es ↔ e = (m, t) ∨ (e ∈ es ∧ e.1 ≠ m) := by
  simp [zadd, mem_insert, List.mem_filter]

theorem insert_length (m : Member) (t : Nat) (es : List (Member × Nat)) :
    (insert m t es).length = es.length + 1 := by
  induction es with
  | nil => simp [insert]
  | cons x es ih => simp only [insert]; split <;> simp [ih]

theorem zadd_length (m : Member) (t : Nat) (es : List (Member × Nat)) :
    (zadd m t es).length ≤ es.length + 1 := by
  rw [zadd, insert_length]
  have := List.length_filter_le (fun e => decide (e.1 ≠ m)) es
  omega

def Sorted (es : List (Member × Nat)) : Prop := es.Pairwise (fun a b => a.2 ≤ b.2)

theorem insert_sorted {m : Member} {t : Nat} {es : List (Member × Nat)} (h : Sorted es) :
    Sorted (insert m t es) := by
  induction es with
  | nil => simp [insert, Sorted]
  | cons x es ih =>
    simp only [Sorted, List.pairwise_cons] at h
    simp only [insert]
    split
    · simp only [Sorted, List.pairwise_cons]
      refine ⟨?_, ih h.2⟩
      intro e he
      rcases mem_insert.1 he with rfl | he
      · assumption
      · exact h.1 e he
    · simp only [Sorted, List.pairwise_cons]
      refine ⟨?_, h.1, h.2⟩
      intro e he
      rcases List.mem_cons.1 he with rfl | he
      · omega
      · have := h.1 e he; omega

theorem sorted_filter {p : Member × Nat → Bool} {es : List (Member × Nat)} (h : Sorted es) :
    Sorted (es.filter p) := List.Pairwise.filter p h

theorem live_sub (l : Lim) : ∀ e ∈ l.live, e ∈ l.entries := by
  intro e he
  simp only [Lim.live] at he
  split at he
  · split at he
    · simp at he
    · exact he
  · exact he

theorem live_sublist (l : Lim) : l.live.Sublist l.entries := by
  simp only [Lim.live]
  split
  · split
    · simp
    · simp
  · simp

theorem nodup_subset_length {α : Type} [DecidableEq α] {a b : List α} (hn : a.Nodup)
    (hs : ∀ x ∈ a, x ∈ b) : a.length ≤ b.length := by
  induction a generalizing b with
  | nil => simp
  | cons x a ih =>
    rw [List.nodup_cons] at hn
    have hx := hs x List.mem_cons_self
    have h1 : ∀ y ∈ a, y ∈ b.erase x := by
      intro y hy
      have hne : y ≠ x := fun h => hn.1 (h ▸ hy)
      exact (List.mem_erase_of_ne hne).2 (hs y (List.mem_cons_of_mem _ hy))
    have h2 := ih hn.2 h1
    rw [List.length_erase_of_mem hx] at h2
    have : 0 < b.length := List.length_pos_of_mem hx
    simp only [List.length_cons]
    omega

/-- Number of admitted executions whose reading lies in the window `(t - per, t]`. -/
def inWindow (cfg : Cfg) (t : Nat) (l : List Member) : List Member :=
  l.filter (fun m => t < m.2 + cfg.per ∧ m.2 ≤ t)

structure Inv (cfg : Cfg) (s : St) : Prop where
  nodup : s.admitted.Nodup
  past : ∀ m ∈ s.admitted, m.2 ≤ s.stamp
  stamp : s.stamp ≤ s.lim.clock
  covered : ∀ m ∈ s.admitted, m.2 + cfg.per * 2 ≤ s.lim.clock ∨ m.2 + cfg.per ≤ s.stamp ∨
    (m, m.2) ∈ s.lim.entries
  score : ∀ e ∈ s.lim.entries, e.2 = e.1.2 ∧ e.2 ≤ s.stamp
  expire : ∀ e ∈ s.lim.entries, ∃ x, s.lim.expireAt = some x ∧ e.2 + cfg.per * 2 ≤ x
  bound : s.lim.entries.length ≤ cfg.limit
  sorted : Sorted s.lim.entries
  count : ∀ t, (inWindow cfg t s.admitted).length ≤ cfg.limit

theorem Inv.init (cfg : Cfg) : Inv cfg {} := by
  refine ⟨by simp, by simp, by simp, by simp, by simp, by simp, by simp, by simp [Sorted], ?_⟩
  intro t
  simp [inWindow]

/-- Within a window of its reading, an attempt sees every entry younger than the window. -/
theorem Inv.mem_live {cfg : Cfg} {s : St} (h : Inv cfg s) {now : Nat}
    (hf : s.lim.clock ≤ now + cfg.per) {e : Member × Nat} (he : e ∈ s.lim.entries)
    (hy : now < e.2 + cfg.per) : e ∈ s.lim.live := by
  obtain ⟨x, hx, hle⟩ := h.expire e he
  simp only [Lim.live, hx]
  rw [if_neg (by omega)]
  exact he

theorem Inv.step {cfg : Cfg} {s : St} (h : Inv cfg s) (op : Op) (hf : Fair cfg s op) :
    Inv cfg (step cfg s op) := by
  cases op with
  | tick d =>
    refine ⟨h.nodup, h.past, Nat.le_trans h.stamp (Nat.le_add_right _ _), ?_, h.score, h.expire,
      h.bound, h.sorted, h.count⟩
    intro m hm
    rcases h.covered m hm with h1 | h1
    · exact Or.inl (Nat.le_trans h1 (Nat.le_add_right _ _))
    · exact Or.inr h1
  | withdraw m =>
    simp only [Rate.step]
    split
    · rename_i hm
      have hsub : ∀ x ∈ s.admitted.erase m, x ∈ s.admitted ∧ x ≠ m := by
        intro x hx
        exact ⟨List.mem_of_mem_erase hx, by
          intro hc; subst hc; exact (List.Nodup.not_mem_erase h.nodup) hx⟩
      refine ⟨h.nodup.erase m, fun x hx => h.past x (hsub x hx).1, h.stamp, ?_, ?_, ?_, ?_, ?_, ?_⟩
      · intro x hx
        rcases h.covered x (hsub x hx).1 with h1 | h1 | h1
        · exact Or.inl h1
        · exact Or.inr (Or.inl h1)
        · obtain ⟨y, hy, hle⟩ := h.expire _ h1
          by_cases hexp : y ≤ s.lim.clock
          · exact Or.inl (Nat.le_trans hle hexp)
          · right; right
            simp only [zrem, Lim.live, hy, if_neg hexp]
            exact List.mem_filter.2 ⟨h1, by simpa using (hsub x hx).2⟩
      · exact fun e he => h.score e (live_sub _ e (List.mem_filter.1 he).1)
      · exact fun e he => h.expire e (live_sub _ e (List.mem_filter.1 he).1)
      · exact Nat.le_trans ((List.filter_sublist.trans (live_sublist _)).length_le) h.bound
      · exact h.sorted.sublist (List.filter_sublist.trans (live_sublist _))
      · intro t
        refine Nat.le_trans ?_ (h.count t)
        exact ((List.erase_sublist).filter _).length_le
    · exact h
  | attempt k now =>
    simp only [Rate.step]
    by_cases hnow : now ≤ s.lim.clock
    case neg => rw [if_neg hnow]; exact h
    rw [if_pos hnow]
    obtain ⟨hf1, hf2, hf3⟩ := hf
    have hcov : ∀ m ∈ s.admitted, m.2 + cfg.per ≤ now ∨ (m, m.2) ∈ prune cfg now s.lim.live := by
      intro m hm
      by_cases hy : m.2 + cfg.per ≤ now
      · exact Or.inl hy
      · right
        rcases h.covered m hm with h1 | h1 | h1
        · omega
        · omega
        · exact List.mem_filter.2 ⟨h.mem_live hf2 h1 (by simp only; omega), by simp only [decide_eq_true_eq]; omega⟩
    have hes : (prune cfg now s.lim.live).Sublist s.lim.entries :=
      List.filter_sublist.trans (live_sublist _)
    have hscore : ∀ e ∈ prune cfg now s.lim.live, e.2 = e.1.2 ∧ e.2 ≤ now := by
      intro e he
      have := h.score e (hes.subset he)
      exact ⟨this.1, Nat.le_trans this.2 hf1⟩
    have hkeep : Inv cfg ⟨{ s.lim with entries := prune cfg now s.lim.live }, now, s.admitted⟩ := by
      refine ⟨h.nodup, fun m hm => Nat.le_trans (h.past m hm) hf1, hnow, ?_, hscore,
        fun e he => h.expire e (hes.subset he), Nat.le_trans hes.length_le h.bound,
        h.sorted.sublist hes, h.count⟩
      intro m hm
      rcases hcov m hm with h1 | h1
      · exact Or.inr (Or.inl h1)
      · exact Or.inr (Or.inr h1)
    simp only [script]
    split
    · rename_i hlen
      simp only [if_true]
      refine ⟨List.nodup_cons.2 ⟨hf3, h.nodup⟩, ?_, hnow, ?_, ?_, ?_, ?_, ?_, ?_⟩
      · intro m hm
        rcases List.mem_cons.1 hm with rfl | hm
        · exact Nat.le_refl _
        · exact Nat.le_trans (h.past m hm) hf1
      · intro m hm
        rcases List.mem_cons.1 hm with rfl | hm
        · exact Or.inr (Or.inr (mem_zadd.2 (Or.inl rfl)))
        · rcases hcov m hm with h1 | h1
          · exact Or.inr (Or.inl h1)
          · refine Or.inr (Or.inr (mem_zadd.2 (Or.inr ⟨h1, ?_⟩)))
            intro hc
            simp only at hc
            exact hf3 (hc ▸ hm)
      · intro e he
        rcases mem_zadd.1 he with rfl | ⟨he, _⟩
        · exact ⟨rfl, Nat.le_refl _⟩
        · exact hscore e he
      · intro e he
        refine ⟨_, rfl, ?_⟩
        have : e.2 ≤ now := by
          rcases mem_zadd.1 he with rfl | ⟨he, _⟩
          · exact Nat.le_refl _
          · exact (hscore e he).2
        omega
      · have := zadd_length (k, now) now (prune cfg now s.lim.live)
        simp only
        omega
      · exact insert_sorted (sorted_filter (h.sorted.sublist hes))
      · intro t
        simp only [inWindow, List.filter_cons]
        split
        · rename_i hin
          simp only [decide_eq_true_eq] at hin
          simp only [List.length_cons]
          have h1 : (s.admitted.filter (fun m => decide (t < m.2 + cfg.per ∧ m.2 ≤ t))).length ≤
              ((prune cfg now s.lim.live).map (·.1)).length := by
            apply nodup_subset_length (h.nodup.filter _)
            intro m hm
            obtain ⟨hm1, hm2⟩ := List.mem_filter.1 hm
            simp only [decide_eq_true_eq] at hm2
            rcases hcov m hm1 with h1 | h1
            · omega
            · exact List.mem_map.2 ⟨_, h1, rfl⟩
          rw [List.length_map] at h1
          omega
        · exact h.count t
    · cases hp : prune cfg now s.lim.live with
      | nil => simp only [reduceCtorEq, if_false]; rw [hp] at hkeep; exact hkeep
      | cons e es => simp only [reduceCtorEq, if_false]; rw [hp] at hkeep; exact hkeep

theorem Inv.runFrom {cfg : Cfg} {s : St} (h : Inv cfg s) {ops : List Op} (hf : FairRun cfg s ops) :
    Inv cfg (runFrom cfg s ops) := by
  induction ops generalizing s with
  | nil => exact h
  | cons o ops ih => exact ih (h.step o hf.1) hf.2

end Docket.Rate
