import Verif.Keys.Glob
/-
C64 Dockets with different names never touch each other's keys.
C65 A cancellation signal reaches the workers of its docket and no others.
-/
namespace Docket.Keys

/-! ### C64 -/

/-- A name that marks where it ends: no colon if the docket's keys are plain, no closing brace if
they are hash-tagged. -/
def Delimited (cluster : Bool) (name : Text) : Prop := (if cluster then '}' else ':') ∉ name

theorem first_unique {c : Char} {a b s t : Text} (ha : c ∉ a) (hb : c ∉ b) (h : a ++ c :: s = b ++ c :: t) : a = b ∧ s = t := by
  induction a generalizing b with
  | nil =>
    cases b with
    | nil => simpa using h
    | cons y b =>
      simp only [List.nil_append, List.cons_append, List.cons.injEq] at h
      exact absurd (by simp [h.1]) hb
  | cons x a ih =>
    cases b with
    | nil =>
      simp only [List.nil_append, List.cons_append, List.cons.injEq] at h
      exact absurd (by simp [h.1]) ha
    | cons y b =>
      simp only [List.cons_append, List.cons.injEq] at h
      simp only [List.mem_cons, not_or] at ha hb
      obtain ⟨h1, h2⟩ := ih ha.2 hb.2 h.2
      exact ⟨by rw [h.1, h1], h2⟩

/-- Everything a docket stores in Redis or publishes on: its own keys and channels, stored
results, concurrency limits and their waiters (with the default scope or a given one). -/
inductive Used (cluster : Bool) (name : Text) : Text → Prop where
  | own (p : Purpose) : Used cluster name (key cluster name p.suffix)
  | channel (c : Channel) : Used cluster name (key cluster name c.suffix)
  | result (task : Text) : Used cluster name (resultKey cluster name task)
  | limit (scope : Option Text) (what : Text) : Used cluster name (concurrencyKey cluster name scope what)
  | waiters (scope : Option Text) (what : Text) : Used cluster name (waitersKey cluster name scope what)

theorem Used.under {cluster : Bool} {name k : Text} (h : Used cluster name k) : ∃ s, k = pre cluster name ++ ':' :: s := by
  cases h with
  | own p => exact ⟨_, rfl⟩
  | channel c => exact ⟨_, rfl⟩
  | result task => exact ⟨t!"results" ++ ':' :: task, by simp [resultKey, key]⟩
  | limit scope what =>
    rcases scope with _ | _ | ⟨x, s⟩
    · exact ⟨t!"concurrency:" ++ what, by simp [concurrencyKey]⟩
    · exact ⟨t!"concurrency:" ++ what, by simp [concurrencyKey]⟩
    · exact ⟨x :: s ++ t!":concurrency:" ++ what, by simp [concurrencyKey]⟩
  | waiters scope what =>
    rcases scope with _ | _ | ⟨x, s⟩
    · exact ⟨t!"concurrency:" ++ what ++ t!":waiters", by simp [waitersKey, concurrencyKey]⟩
    · exact ⟨t!"concurrency:" ++ what ++ t!":waiters", by simp [waitersKey, concurrencyKey]⟩
    · exact ⟨x :: s ++ t!":concurrency:" ++ what ++ t!":waiters", by simp [waitersKey, concurrencyKey]⟩

/-- **C64**, partial: two dockets whose names contain no colon (in cluster mode: no closing
brace) and that share a key or channel have the same name, whatever their task keys, worker
names, function names, argument values and scopes.  Missing: other names, where it fails
(`C64_violated`), and the limits that are not kept under the docket's prefix (rate limits,
cooldowns and debounces with an explicit scope are shared on purpose). -/
theorem C64_disjoint_partial (cluster : Bool) (name name' : Text) (h : Delimited cluster name) (h' : Delimited cluster name')
    (k : Text) (hk : Used cluster name k) (hk' : Used cluster name' k) : name = name' := by
  obtain ⟨s, hs⟩ := hk.under
  obtain ⟨t, ht⟩ := hk'.under
  rw [hs] at ht
  cases cluster with
  | false => exact (first_unique h h' ht).1
  | true =>
    simp only [pre, if_true, List.cons_append, List.append_assoc, List.cons.injEq, true_and, List.nil_append] at ht
    exact (first_unique h h' ht).1

example : Delimited false t!"docket" ∧ Delimited false t!"jobs-2" ∧ Used false t!"docket" t!"docket:runs:x" := by
  refine ⟨by unfold Delimited; decide, by unfold Delimited; decide, ?_⟩
  exact Used.own (.runs t!"x")

/-- The full statement. -/
def C64_disjoint : Prop :=
  ∀ (cluster : Bool) (name name' k : Text), Used cluster name k → Used cluster name' k → name = name'

/-- **C64, violated**: the docket `app:runs` parks the task `x` under the key that holds the
record of the task `x` of the docket `app`. -/
theorem C64_violated : ¬ C64_disjoint := by
  intro h
  have := h false t!"app" t!"app:runs" t!"app:runs:x" (Used.own (.runs t!"x")) (Used.own (.parked t!"x"))
  revert this
  decide

/-- The same for the waiting tasks themselves: the queue of docket `app:b` is the parked task
`b:queue` of docket `app`. -/
theorem C64_violated_queue : ¬ C64_disjoint := by
  intro h
  have := h false t!"app" t!"app:b" t!"app:b:queue" (Used.own (.parked t!"b:queue")) (Used.own .queue)
  revert this
  decide

/-! ### C65 -/

/-- A text in which no character has a meaning in a pattern. -/
def Literal (t : Text) : Prop := '*' ∉ t ∧ '?' ∉ t ∧ '[' ∉ t ∧ '\\' ∉ t

theorem tails_any_nil (n : Nat) (s : Text) : (suffixes s).any (matches' n []) = true := by
  rw [List.any_eq_true]
  refine ⟨[], ?_, by simp [matches']⟩
  induction s with
  | nil => simp [suffixes]
  | cons c s ih => simp [suffixes, ih]

theorem literal_star (p : Text) (hp : Literal p) (n : Nat) (hn : p.length + 1 ≤ n) (s : Text) :
    matches' n (p ++ t!"*") s = true ↔ ∃ rest, s = p ++ rest := by
  induction p generalizing n s with
  | nil =>
    cases n with
    | zero => omega
    | succ n =>
      simp only [List.nil_append, matches', tails_any_nil, true_iff]
      exact ⟨s, rfl⟩
  | cons x p ih =>
    cases n with
    | zero => simp at hn
    | succ n =>
      simp only [Literal, List.mem_cons, not_or] at hp
      have hlit : Literal p := ⟨hp.1.2, hp.2.1.2, hp.2.2.1.2, hp.2.2.2.2⟩
      have h1 : x ≠ '*' := Ne.symm hp.1.1
      have h2 : x ≠ '?' := Ne.symm hp.2.1.1
      have h3 : x ≠ '[' := Ne.symm hp.2.2.1.1
      have h4 : x ≠ '\\' := Ne.symm hp.2.2.2.1
      have hn' : p.length + 1 ≤ n := by simp at hn; omega
      have hstep : matches' (n + 1) (x :: (p ++ t!"*")) s = match s with
          | [] => false
          | c :: s => x = c && matches' n (p ++ t!"*") s := by
        rw [matches'.eq_def]
        cases s <;> split <;> simp_all
      rw [List.cons_append, hstep]
      cases s with
      | nil => simp
      | cons c s =>
        simp only [Bool.and_eq_true, decide_eq_true_eq, ih hlit n hn' s, List.cons_append, List.cons.injEq]
        constructor
        · rintro ⟨rfl, r, rfl⟩; exact ⟨r, rfl, rfl⟩
        · rintro ⟨r, rfl, rfl⟩; exact ⟨rfl, r, rfl⟩

theorem cancelPattern_literal (cluster : Bool) (name : Text) (h : Literal name) (s : Text) :
    globMatch (cancelPattern cluster name) s = true ↔ ∃ rest, s = key cluster name (t!"cancel:" ++ rest) := by
  have hp : Literal (key cluster name t!"cancel:") := by
    obtain ⟨h1, h2, h3, h4⟩ := h
    cases cluster <;> simp [Literal, key, pre, h1, h2, h3, h4]
  have heq : cancelPattern cluster name = key cluster name t!"cancel:" ++ t!"*" := by
    simp [cancelPattern, key]
  unfold globMatch
  rw [heq, literal_star _ hp _ (by simp) s]
  simp [key]

/-- **C65**, partial: for a docket whose name contains none of `*`, `?`, `[` and `\`, every
cancellation signal of one of its tasks, whatever the task's key, reaches its workers; and of
the signals of all other dockets whose names mark where they end, none does.  Missing: the
other names, where it fails (`C65_violated_own`, `C65_violated_other`). -/
theorem C65_cancel_partial (cluster : Bool) (name : Text) (h : Literal name) :
    (∀ task, globMatch (cancelPattern cluster name) (key cluster name (Channel.cancel task).suffix) = true) ∧
    (∀ name' (c : Channel), Delimited cluster name → Delimited cluster name' → name' ≠ name →
      globMatch (cancelPattern cluster name) (key cluster name' c.suffix) = false) ∧
    (∀ (c : Channel), globMatch (cancelPattern cluster name) (key cluster name c.suffix) = true → ∃ task, c = .cancel task) := by
  refine ⟨fun task => (cancelPattern_literal cluster name h _).2 ⟨task, rfl⟩, ?_, ?_⟩
  · intro name' c hd hd' hne
    rw [← Bool.not_eq_true, cancelPattern_literal cluster name h]
    rintro ⟨rest, hr⟩
    refine hne (C64_disjoint_partial cluster name' name hd' hd _ (Used.channel c) ?_)
    rw [hr]
    exact Used.channel (.cancel rest)
  · intro c hc
    obtain ⟨rest, hr⟩ := (cancelPattern_literal cluster name h _).1 hc
    have : c.suffix = (Channel.cancel rest).suffix := by
      have := List.append_cancel_left hr
      exact (List.cons.inj this).2
    cases c with
    | cancel t => exact ⟨t, rfl⟩
    | state t => simp [Channel.suffix] at this
    | progress t => simp [Channel.suffix] at this

example : Literal t!"docket" ∧ Delimited false t!"docket" := by
  unfold Literal Delimited
  decide

/-- The full statement. -/
def C65_cancel : Prop :=
  ∀ (cluster : Bool) (name : Text),
    (∀ task, globMatch (cancelPattern cluster name) (key cluster name (Channel.cancel task).suffix) = true) ∧
    (∀ name' task, name' ≠ name →
      globMatch (cancelPattern cluster name) (key cluster name' (Channel.cancel task).suffix) = false)

/-- **C65, violated**: the workers of the docket `jobs[eu]` subscribe to a pattern that does not
match its own channels, so running tasks of that docket can never be cancelled. -/
theorem C65_violated_own : ¬ C65_cancel := by
  intro h
  have := (h false t!"jobs[eu]").1 t!"k"
  revert this
  decide +kernel

/-- No cancellation of the docket `jobs[eu]` reaches its workers, whatever the task. -/
theorem C65_violated_own_always (task : Text) :
    globMatch (cancelPattern false t!"jobs[eu]") (key false t!"jobs[eu]" (Channel.cancel task).suffix) = false := by
  rfl

/-- **C65, violated**: the workers of the docket `jobs?` also obey the cancellations of the
docket `jobs2`: a task that runs there under the same key is cancelled. -/
theorem C65_violated_other : ¬ C65_cancel := by
  intro h
  have := (h false t!"jobs?").2 t!"jobs2" t!"k" (by decide)
  revert this
  decide +kernel

theorem literal_prefix (p q s : Text) (hp : Literal p) (n : Nat) :
    matches' (p.length + n) (p ++ q) (p ++ s) = matches' n q s := by
  induction p with
  | nil => simp
  | cons x p ih =>
    simp only [Literal, List.mem_cons, not_or] at hp
    have hlit : Literal p := ⟨hp.1.2, hp.2.1.2, hp.2.2.1.2, hp.2.2.2.2⟩
    have h1 : x ≠ '*' := Ne.symm hp.1.1
    have h2 : x ≠ '?' := Ne.symm hp.2.1.1
    have h3 : x ≠ '[' := Ne.symm hp.2.2.1.1
    have h4 : x ≠ '\\' := Ne.symm hp.2.2.2.1
    have e : (x :: p).length + n = (p.length + n) + 1 := by simp; omega
    rw [e, List.cons_append, List.cons_append]
    have hstep : matches' (p.length + n + 1) (x :: (p ++ q)) (x :: (p ++ s)) = matches' (p.length + n) (p ++ q) (p ++ s) := by
      rw [matches'.eq_def]
      split <;> simp_all
    rw [hstep, ih hlit]

/-- **C65**: what goes wrong with a range in the name of a docket, exactly: of the dockets whose
names have a single character in the place of the range, its workers obey the cancellations of
those whose character is in the range, and of no others. -/
theorem C65_violated_range (cluster : Bool) (front back task : Text) (lo hi c : Char)
    (hf : Literal front) (hb : Literal back) (h1 : lo ≠ '^') (h2 : lo ≠ '\\') (h3 : lo ≠ ']') (hle : lo.toNat ≤ hi.toNat) :
    globMatch (cancelPattern cluster (front ++ '[' :: lo :: '-' :: hi :: ']' :: back))
        (key cluster (front ++ c :: back) (Channel.cancel task).suffix) = true ↔
      lo.toNat ≤ c.toNat ∧ c.toNat ≤ hi.toNat := by
  obtain ⟨a, b, ha, hbq, hkey⟩ : ∃ a b : Text, Literal a ∧ Literal b ∧
      ∀ name suffix, key cluster name suffix = a ++ name ++ (b ++ suffix) := by
    cases cluster
    · exact ⟨[], t!":", by simp [Literal], by simp [Literal], fun name suffix => by simp [key, pre]⟩
    · exact ⟨t!"{", t!"}:", by simp [Literal], by simp [Literal], fun name suffix => by simp [key, pre]⟩
  have hlit : ∀ {x y : Text}, Literal x → Literal y → Literal (x ++ y) := by
    intro x y hx hy
    simp only [Literal, List.mem_append, not_or] at *
    exact ⟨⟨hx.1, hy.1⟩, ⟨hx.2.1, hy.2.1⟩, ⟨hx.2.2.1, hy.2.2.1⟩, hx.2.2.2, hy.2.2.2⟩
  have hpat : cancelPattern cluster (front ++ '[' :: lo :: '-' :: hi :: ']' :: back) =
      (a ++ front) ++ '[' :: lo :: '-' :: hi :: ']' :: ((back ++ b ++ t!"cancel:") ++ t!"*") := by
    simp [cancelPattern, hkey]
  have hch : key cluster (front ++ c :: back) (Channel.cancel task).suffix =
      (a ++ front) ++ c :: ((back ++ b ++ t!"cancel:") ++ task) := by
    simp [hkey, Channel.suffix]
  have hcl : ∀ rest, charClass c (lo :: '-' :: hi :: ']' :: rest) =
      (decide (lo.toNat ≤ c.toNat ∧ c.toNat ≤ hi.toNat), rest) := by
    intro rest
    have e1 : charClass c (lo :: '-' :: hi :: ']' :: rest) =
        ((lo.toNat ≤ c.toNat && c.toNat ≤ hi.toNat || hi.toNat ≤ c.toNat && c.toNat ≤ lo.toNat)
          || (charClass c (']' :: rest)).1, (charClass c (']' :: rest)).2) := by
      conv => lhs; rw [charClass.eq_def]
      split
      · next h => cases h
      · next x p h => simp only [List.cons.injEq] at h; exact absurd h.1 h2
      · next p h => simp only [List.cons.injEq] at h; exact absurd h.1 h3
      · next h => simp only [List.cons.injEq] at h; obtain ⟨rfl, -, rfl, rfl⟩ := h; rfl
      · next hno h => simp only [List.cons.injEq] at h; obtain ⟨rfl, rfl⟩ := h; exact absurd rfl (hno _ _)
    have e2 : charClass c (']' :: rest) = (false, rest) := by
      rw [charClass]
    rw [e1, e2]
    simp only [Bool.or_false, Prod.mk.injEq, and_true]
    rw [Bool.eq_iff_iff]
    simp only [Bool.or_eq_true, Bool.and_eq_true, decide_eq_true_eq]
    omega
  have hrest : Literal (back ++ b ++ t!"cancel:") := hlit (hlit hb hbq) (by simp [Literal])
  unfold globMatch
  rw [hpat, hch, List.length_append, literal_prefix _ _ _ (hlit ha hf)]
  generalize back ++ b ++ t!"cancel:" = p at *
  have hm : matches' (('[' :: lo :: '-' :: hi :: ']' :: (p ++ t!"*")).length) ('[' :: lo :: '-' :: hi :: ']' :: (p ++ t!"*"))
      (c :: (p ++ task)) = (decide (lo.toNat ≤ c.toNat ∧ c.toNat ≤ hi.toNat) && matches' (p.length + 5) (p ++ t!"*") (p ++ task)) := by
    have e : ('[' :: lo :: '-' :: hi :: ']' :: (p ++ t!"*")).length = (p.length + 5) + 1 := by simp
    have e' : matches' (p.length + 5 + 1) ('[' :: lo :: '-' :: hi :: ']' :: (p ++ t!"*")) (c :: (p ++ task)) =
        ((charClass c (lo :: '-' :: hi :: ']' :: (p ++ t!"*"))).1 &&
          matches' (p.length + 5) (charClass c (lo :: '-' :: hi :: ']' :: (p ++ t!"*"))).2 (p ++ task)) := by
      generalize hq : lo :: '-' :: hi :: ']' :: (p ++ t!"*") = q
      have hq' : ∀ r, q ≠ '^' :: r := by
        intro r hr
        rw [← hq] at hr
        simp only [List.cons.injEq] at hr
        exact h1 hr.1
      generalize p.length + 5 = n
      rw [matches']
      exact fun r hr => hq' r hr
    rw [e, e', hcl]
  rw [hm, (literal_star p hrest _ (by omega) _).2 ⟨task, rfl⟩]
  simp

/-- **C65**: what goes wrong with the complement of a range, like `[^a-z]`, in the name of a docket,
exactly: of the dockets whose names have a single character in its place, its workers obey the
cancellations of those whose character is not in the range, and of no others. -/
theorem C65_violated_complement (cluster : Bool) (front back task : Text) (lo hi c : Char)
    (hf : Literal front) (hb : Literal back) (h2 : lo ≠ '\\') (h3 : lo ≠ ']') (hle : lo.toNat ≤ hi.toNat) :
    globMatch (cancelPattern cluster (front ++ '[' :: '^' :: lo :: '-' :: hi :: ']' :: back))
        (key cluster (front ++ c :: back) (Channel.cancel task).suffix) = true ↔
      ¬ (lo.toNat ≤ c.toNat ∧ c.toNat ≤ hi.toNat) := by
  obtain ⟨a, b, ha, hbq, hkey⟩ : ∃ a b : Text, Literal a ∧ Literal b ∧
      ∀ name suffix, key cluster name suffix = a ++ name ++ (b ++ suffix) := by
    cases cluster
    · exact ⟨[], t!":", by simp [Literal], by simp [Literal], fun name suffix => by simp [key, pre]⟩
    · exact ⟨t!"{", t!"}:", by simp [Literal], by simp [Literal], fun name suffix => by simp [key, pre]⟩
  have hlit : ∀ {x y : Text}, Literal x → Literal y → Literal (x ++ y) := by
    intro x y hx hy
    simp only [Literal, List.mem_append, not_or] at *
    exact ⟨⟨hx.1, hy.1⟩, ⟨hx.2.1, hy.2.1⟩, ⟨hx.2.2.1, hy.2.2.1⟩, hx.2.2.2, hy.2.2.2⟩
  have hpat : cancelPattern cluster (front ++ '[' :: '^' :: lo :: '-' :: hi :: ']' :: back) =
      (a ++ front) ++ '[' :: '^' :: lo :: '-' :: hi :: ']' :: ((back ++ b ++ t!"cancel:") ++ t!"*") := by
    simp [cancelPattern, hkey]
  have hch : key cluster (front ++ c :: back) (Channel.cancel task).suffix =
      (a ++ front) ++ c :: ((back ++ b ++ t!"cancel:") ++ task) := by
    simp [hkey, Channel.suffix]
  have hcl : ∀ rest, charClass c (lo :: '-' :: hi :: ']' :: rest) =
      (decide (lo.toNat ≤ c.toNat ∧ c.toNat ≤ hi.toNat), rest) := by
    intro rest
    have e1 : charClass c (lo :: '-' :: hi :: ']' :: rest) =
        ((lo.toNat ≤ c.toNat && c.toNat ≤ hi.toNat || hi.toNat ≤ c.toNat && c.toNat ≤ lo.toNat)
          || (charClass c (']' :: rest)).1, (charClass c (']' :: rest)).2) := by
      conv => lhs; rw [charClass.eq_def]
      split
      · next h => cases h
      · next x p h => simp only [List.cons.injEq] at h; exact absurd h.1 h2
      · next p h => simp only [List.cons.injEq] at h; exact absurd h.1 h3
      · next h => simp only [List.cons.injEq] at h; obtain ⟨rfl, -, rfl, rfl⟩ := h; rfl
      · next hno h => simp only [List.cons.injEq] at h; obtain ⟨rfl, rfl⟩ := h; exact absurd rfl (hno _ _)
    have e2 : charClass c (']' :: rest) = (false, rest) := by
      rw [charClass]
    rw [e1, e2]
    simp only [Bool.or_false, Prod.mk.injEq, and_true]
    rw [Bool.eq_iff_iff]
    simp only [Bool.or_eq_true, Bool.and_eq_true, decide_eq_true_eq]
    omega
  have hrest : Literal (back ++ b ++ t!"cancel:") := hlit (hlit hb hbq) (by simp [Literal])
  unfold globMatch
  rw [hpat, hch, List.length_append, literal_prefix _ _ _ (hlit ha hf)]
  generalize back ++ b ++ t!"cancel:" = p at *
  have hm : matches' (('[' :: '^' :: lo :: '-' :: hi :: ']' :: (p ++ t!"*")).length) ('[' :: '^' :: lo :: '-' :: hi :: ']' :: (p ++ t!"*"))
      (c :: (p ++ task)) = (!decide (lo.toNat ≤ c.toNat ∧ c.toNat ≤ hi.toNat) && matches' (p.length + 6) (p ++ t!"*") (p ++ task)) := by
    have e : ('[' :: '^' :: lo :: '-' :: hi :: ']' :: (p ++ t!"*")).length = (p.length + 6) + 1 := by simp
    rw [e]
    generalize p.length + 6 = n
    rw [matches', hcl]
  rw [hm, (literal_star p hrest _ (by omega) _).2 ⟨task, rfl⟩]
  simp only [Bool.and_true, Bool.not_eq_true', decide_eq_false_iff_not]

example : Literal t!"jobs" ∧ Literal t!"-eu" := by simp [Literal]

end Docket.Keys
