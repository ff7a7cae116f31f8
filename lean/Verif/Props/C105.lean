import Verif.Keys.Acl
import Verif.Props.C64_C65
/-
C105: a Redis user confined as the documentation says can do all that a docket does, and nothing
that concerns another docket.
-/
namespace Docket.Keys

/-- What a docket and its workers ask of Redis under the docket's own prefix: accesses to its own
keys, stored results and concurrency limits; announcements of cancellations, states and progress; and
followers of one task. -/
inductive Common (cluster : Bool) (name : Text) : Request → Prop where
  | own (p : Purpose) : Common cluster name (.access (key cluster name p.suffix))
  | result (task : Text) : Common cluster name (.access (resultKey cluster name task))
  | limit (scope : Option Text) (what : Text) : Common cluster name (.access (concurrencyKey cluster name scope what))
  | waiters (scope : Option Text) (what : Text) : Common cluster name (.access (waitersKey cluster name scope what))
  | announce (c : Channel) : Common cluster name (.publish (key cluster name c.suffix))
  | follow (c : Channel) : Common cluster name (.subscribe (key cluster name c.suffix))

/-- What it asks for a cooldown, a rate limit or a debounce with a given scope, or without one. -/
inductive Scoped (name : Text) (scope : Option Text) : Request → Prop where
  | cooldown (what : Text) : Scoped name scope (.access (cooldownKey (scopeOr name scope) what))
  | ratelimit (what : Text) : Scoped name scope (.access (ratelimitKey (scopeOr name scope) what))
  | winner (what : Text) : Scoped name scope (.access (winnerKey (scopeOr name scope) what))
  | lastSeen (what : Text) : Scoped name scope (.access (seenKey (scopeOr name scope) what))

/-- All that a docket and its workers ask of Redis: the above, and the workers' subscription to all
cancellations (worker.py:1343-1348, _concurrency.py:695-699). -/
inductive Asks (cluster : Bool) (name : Text) : Request → Prop where
  | common (h : Common cluster name r) : Asks cluster name r
  | scoped (h : Scoped name scope r) : Asks cluster name r
  | listen : Asks cluster name (.psubscribe (cancelPattern cluster name))

theorem key_literal (cluster : Bool) (name s : Text) (h : Literal name) (hs : Literal s) :
    Literal (key cluster name s) := by
  obtain ⟨h1, h2, h3, h4⟩ := h
  obtain ⟨g1, g2, g3, g4⟩ := hs
  cases cluster <;> simp [Literal, key, pre, h1, h2, h3, h4, g1, g2, g3, g4]

theorem under_pattern (cluster : Bool) (name s x : Text) (h : Literal name) (hs : Literal s) :
    globMatch (key cluster name (s ++ t!"*")) x = true ↔ ∃ rest, x = key cluster name s ++ rest := by
  have heq : key cluster name (s ++ t!"*") = key cluster name s ++ t!"*" := by simp [key]
  unfold globMatch
  rw [heq, literal_star _ (key_literal cluster name s h hs) _ (by simp) x]

theorem documented_match (cluster : Bool) (name x : Text) (h : Literal name) :
    globMatch (key cluster name t!"*") x = true ↔ ∃ rest, x = pre cluster name ++ ':' :: rest := by
  have h0 : Literal ([] : Text) := by simp [Literal]
  have := under_pattern cluster name [] x h h0
  simp only [List.nil_append] at this
  rw [this]
  simp [key]

/-- **C105**, full statement: the documented user can do all that the docket asks for. -/
def C105_enough : Prop := ∀ cluster name r, Asks cluster name r → permitted (documentedUser cluster name) r = true

theorem scopedKey_under {name : Text} {scope : Option Text} {r : Request} (h : Scoped name scope r) :
    ∃ c rest, r = .access (scopeOr name scope ++ ':' :: c :: rest) ∧ c ≠ ':' := by
  cases h with
  | cooldown what => exact ⟨'c', t!"ooldown:" ++ what, by simp [cooldownKey], by decide⟩
  | ratelimit what => exact ⟨'r', t!"atelimit:" ++ what, by simp [ratelimitKey], by decide⟩
  | winner what => exact ⟨'d', t!"ebounce:" ++ what ++ t!":{" ++ what ++ t!"}:winner", by simp [winnerKey, debounceBase], by decide⟩
  | lastSeen what => exact ⟨'d', t!"ebounce:" ++ what ++ t!":{" ++ what ++ t!"}:last_seen", by simp [seenKey, debounceBase], by decide⟩

theorem Common.under {cluster : Bool} {name : Text} {r : Request} (h : Common cluster name r) :
    ∃ rest, r = .access (pre cluster name ++ ':' :: rest) ∨ r = .publish (pre cluster name ++ ':' :: rest) ∨
      r = .subscribe (pre cluster name ++ ':' :: rest) := by
  cases h with
  | own p => exact ⟨_, .inl rfl⟩
  | result task => obtain ⟨s, hs⟩ := (Used.result (cluster := cluster) (name := name) task).under; exact ⟨s, .inl (by rw [hs])⟩
  | limit scope what => obtain ⟨s, hs⟩ := (Used.limit (cluster := cluster) (name := name) scope what).under; exact ⟨s, .inl (by rw [hs])⟩
  | waiters scope what => obtain ⟨s, hs⟩ := (Used.waiters (cluster := cluster) (name := name) scope what).under; exact ⟨s, .inl (by rw [hs])⟩
  | announce c => exact ⟨_, .inr (.inl rfl)⟩
  | follow c => exact ⟨_, .inr (.inr rfl)⟩

/-- **C105**, partial: for a docket whose name contains none of `*`, `?`, `[` and `\`, the documented
user may do everything except subscribe to the cancellations of all tasks, and except the
cooldowns, rate limits and debounces that have a scope of their own or belong to a docket on a
cluster.  Missing: those, which are refused (`C105_violated_listening`, `C105_violated_cluster`,
`C105_violated_scope`), and the other names (`C105_violated_name`). -/
theorem C105_enough_partial (cluster : Bool) (name : Text) (hn : Literal name) :
    (∀ r, Common cluster name r → permitted (documentedUser cluster name) r = true) ∧
    (cluster = false → ∀ r, (Scoped name none r ∨ Scoped name (some []) r) →
      permitted (documentedUser cluster name) r = true) := by
  refine ⟨fun r h => ?_, ?_⟩
  · obtain ⟨rest, h | h | h⟩ := h.under <;>
    · subst h
      simp only [permitted, documentedUser, List.any_cons, List.any_nil, Bool.or_false]
      exact (documented_match cluster name _ hn).2 ⟨rest, rfl⟩
  · rintro rfl r h
    have : ∃ c rest, r = .access (name ++ ':' :: c :: rest) := by
      rcases h with h | h
      · obtain ⟨c, rest, he, -⟩ := scopedKey_under h; exact ⟨c, rest, he⟩
      · obtain ⟨c, rest, he, -⟩ := scopedKey_under h; exact ⟨c, rest, he⟩
    obtain ⟨c, rest, rfl⟩ := this
    simp only [permitted, documentedUser, List.any_cons, List.any_nil, Bool.or_false]
    exact (documented_match false name _ hn).2 ⟨c :: rest, rfl⟩

/-- Beside it: a scheduled task's parked data on a cluster, its key full of pattern characters, and a
cooldown without a scope. -/
example : permitted (documentedUser true t!"orders") (.access (key true t!"orders" (Purpose.parked t!"*[a]").suffix)) = true :=
  (C105_enough_partial true t!"orders" (by simp [Literal])).1 _ (.own (.parked t!"*[a]"))
example : permitted (documentedUser false t!"orders") (.access t!"orders:cooldown:f") = true :=
  (C105_enough_partial false t!"orders" (by simp [Literal])).2 rfl _ (.inl (.cooldown t!"f"))

/-- The workers' subscription to cancellations is refused to every documented user, whatever the
docket: access control wants it to be one of the user's channel patterns. -/
theorem C105_violated_listening_always (cluster : Bool) (name : Text) :
    permitted (documentedUser cluster name) (.psubscribe (cancelPattern cluster name)) = false := by
  simp [permitted, documentedUser, cancelPattern, key]

theorem C105_violated_listening : ¬ C105_enough := fun h => by
  have := h false t!"orders" _ .listen
  rw [C105_violated_listening_always] at this
  exact Bool.noConfusion this

/-- On a cluster the documented user is refused every cooldown, rate limit and debounce of the
docket's default scope, unless the docket's name itself begins with a brace. -/
theorem C105_violated_cluster_always (name : Text) (hn : Literal name) (hb : name.head? ≠ some '{')
    (scope : Option Text) (hs : scope = none ∨ scope = some []) (r : Request) (h : Scoped name scope r) :
    permitted (documentedUser true name) r = false := by
  obtain ⟨c, rest, rfl, -⟩ := scopedKey_under h
  have hself : scopeOr name scope = name := by rcases hs with rfl | rfl <;> rfl
  rw [hself]
  simp only [permitted, documentedUser, List.any_cons, List.any_nil, Bool.or_false]
  rw [Bool.eq_false_iff]
  intro hm
  obtain ⟨rest', he⟩ := (documented_match true name _ hn).1 hm
  cases name with
  | nil => simp [pre] at he
  | cons x name =>
    simp only [pre, if_true, List.cons_append, List.cons.injEq] at he
    exact hb (by simp [he.1])

theorem C105_violated_cluster : ¬ C105_enough := fun h => by
  have := h true t!"orders" _ (.scoped (scope := none) (.cooldown t!"f"))
  rw [C105_violated_cluster_always t!"orders" (by simp [Literal]) (by simp) none (.inl rfl) _ (.cooldown t!"f")] at this
  exact Bool.noConfusion this

theorem begins {c : Char} {a s u v : Text} (ha : c ∉ a) (h : s ++ c :: u = a ++ c :: v) :
    s = a ∨ ∃ t, s = a ++ c :: t := by
  induction a generalizing s with
  | nil =>
    cases s with
    | nil => exact .inl rfl
    | cons x s =>
      simp only [List.cons_append, List.nil_append, List.cons.injEq] at h
      exact .inr ⟨s, by rw [h.1]; rfl⟩
  | cons y a ih =>
    simp only [List.mem_cons, not_or] at ha
    cases s with
    | nil =>
      simp only [List.nil_append, List.cons_append, List.cons.injEq] at h
      exact absurd h.1 ha.1
    | cons x s =>
      simp only [List.cons_append, List.cons.injEq] at h
      rcases ih ha.2 h.2 with h' | ⟨t, h'⟩
      · exact .inl (by rw [h.1, h'])
      · exact .inr ⟨t, by rw [h.1, h']; rfl⟩

/-- A cooldown, rate limit or debounce with a scope of its own is permitted exactly if the scope is
the docket's prefix, or begins with it and a colon; for docket names without a colon. -/
theorem C105_scopes (cluster : Bool) (name s : Text) (hn : Literal name) (hc : ':' ∉ name) (hs : s ≠ [])
    (r : Request) (h : Scoped name (some s) r) :
    permitted (documentedUser cluster name) r = true ↔
      s = pre cluster name ∨ ∃ rest, s = pre cluster name ++ ':' :: rest := by
  obtain ⟨c, rest, rfl, -⟩ := scopedKey_under h
  have hself : scopeOr name (some s) = s := by
    cases s with
    | nil => exact absurd rfl hs
    | cons x s => rfl
  have hp : ':' ∉ pre cluster name := by cases cluster <;> simp [pre, hc]
  rw [hself]
  simp only [permitted, documentedUser, List.any_cons, List.any_nil, Bool.or_false]
  rw [documented_match cluster name _ hn]
  constructor
  · rintro ⟨v, hv⟩
    exact begins hp hv
  · rintro (rfl | ⟨t, rfl⟩)
    · exact ⟨_, rfl⟩
    · exact ⟨t ++ ':' :: c :: rest, by simp⟩

/-- A rate limit under a scope of its own is refused. -/
theorem C105_violated_scope : ¬ C105_enough := fun h => by
  have := h false t!"orders" _ (.scoped (scope := some t!"billing") (.ratelimit t!"f"))
  rw [C105_scopes false t!"orders" t!"billing" (by simp [Literal]) (by simp) (by simp) _ (.ratelimit t!"f")] at this
  simp [pre] at this

/-- A docket whose name contains a pattern character is refused its own queue. -/
theorem C105_violated_name : ¬ C105_enough := fun h => by
  have := h false t!"a[b]" _ (.common (.own .queue))
  revert this
  decide +kernel

/-- **C105**, what would be enough: the three channel patterns that docket's own tests grant, one for
each kind of announcement, permit all announcements, all followers and the workers' subscription,
besides the accesses. -/
theorem C105_tested (cluster : Bool) (name : Text) (hn : Literal name) :
    (∀ r, Common cluster name r → permitted (testedUser cluster name) r = true) ∧
    permitted (testedUser cluster name) (.psubscribe (cancelPattern cluster name)) = true := by
  have hlit : ∀ s : Text, Literal s → ∀ x, globMatch (key cluster name (s ++ t!"*")) (key cluster name (s ++ x)) = true :=
    fun s hs x => (under_pattern cluster name s _ hn hs).2 ⟨x, by simp [key]⟩
  have hch : ∀ c : Channel, (testedUser cluster name).channels.any (globMatch · (key cluster name c.suffix)) = true := by
    intro c
    rw [List.any_eq_true]
    cases c with
    | cancel t => exact ⟨_, by simp [testedUser], hlit t!"cancel:" (by simp [Literal]) t⟩
    | state t => exact ⟨key cluster name (t!"state:" ++ t!"*"), by simp [testedUser], hlit t!"state:" (by simp [Literal]) t⟩
    | progress t => exact ⟨key cluster name (t!"progress:" ++ t!"*"), by simp [testedUser], hlit t!"progress:" (by simp [Literal]) t⟩
  refine ⟨fun r h => ?_, by simp [permitted, testedUser, cancelPattern]⟩
  have hdoc := (C105_enough_partial cluster name hn).1 r h
  cases h with
  | announce c => exact hch c
  | follow c => exact hch c
  | own p => exact hdoc
  | result task => exact hdoc
  | limit scope what => exact hdoc
  | waiters scope what => exact hdoc

/-- **C105**, the other half: neither user may do anything that another docket asks for under its own
prefix, nor listen to its cancellations, if both names mark where they end. -/
theorem C105_confined (cluster : Bool) (name other : Text) (hn : Literal name) (hne : other ≠ name)
    (hd : Delimited cluster name) (hd' : Delimited cluster other) (u : User)
    (hu : u = documentedUser cluster name ∨ u = testedUser cluster name) :
    (∀ r, Common cluster other r → permitted u r = false) ∧
    permitted u (.psubscribe (cancelPattern cluster other)) = false := by
  have hpre : ∀ s t, pre cluster name ++ ':' :: s = pre cluster other ++ ':' :: t → False := by
    intro s t he
    cases cluster with
    | false => exact hne (first_unique hd' hd (by simpa [pre] using he.symm)).1
    | true =>
      simp only [pre, if_true, List.cons_append, List.append_assoc, List.cons.injEq, true_and, List.nil_append] at he
      exact hne (first_unique hd' hd he.symm).1
  have hkeys : u.keys = [key cluster name t!"*"] := by rcases hu with rfl | rfl <;> rfl
  have hchan : ∀ p ∈ u.channels, ∃ s : Text, Literal s ∧ p = key cluster name (s ++ t!"*") := by
    intro p hp
    rcases hu with rfl | rfl
    · simp only [documentedUser, List.mem_singleton] at hp
      exact ⟨[], by simp [Literal], hp⟩
    · simp only [testedUser, List.mem_cons, List.not_mem_nil, or_false] at hp
      rcases hp with h | h | h
      · exact ⟨t!"cancel:", by simp [Literal], h⟩
      · exact ⟨t!"state:", by simp [Literal], h⟩
      · exact ⟨t!"progress:", by simp [Literal], h⟩
  have hno : ∀ rest, u.channels.any (globMatch · (pre cluster other ++ ':' :: rest)) = false := by
    intro rest
    rw [List.any_eq_false]
    intro p hp hm
    obtain ⟨s, hs, rfl⟩ := hchan p hp
    obtain ⟨v, hv⟩ := (under_pattern cluster name s _ hn hs).1 hm
    exact hpre (s ++ v) rest (by rw [hv]; simp [key])
  refine ⟨fun r h => ?_, ?_⟩
  · obtain ⟨rest, h | h | h⟩ := h.under <;> subst h
    · simp only [permitted, hkeys, List.any_cons, List.any_nil, Bool.or_false]
      rw [Bool.eq_false_iff]
      intro hm
      obtain ⟨v, hv⟩ := (documented_match cluster name _ hn).1 hm
      exact hpre v rest hv.symm
    · exact hno rest
    · exact hno rest
  · simp only [permitted]
    rw [List.any_eq_false]
    intro p hp he
    obtain ⟨s, hs, rfl⟩ := hchan p hp
    have := eq_of_beq he
    exact hpre (s ++ t!"*") t!"cancel:*" this

/-- Beside it: two dockets on one cluster. -/
example : permitted (testedUser true t!"orders") (.access (key true t!"orders2" Purpose.stream.suffix)) = false :=
  (C105_confined true t!"orders" t!"orders2" (by simp [Literal]) (by simp) (by simp [Delimited]) (by simp [Delimited])
    _ (.inr rfl)).1 _ (.own .stream)

/-- Names that do not mark where they end are not kept apart: the user of docket `a` may read the
queue of docket `a:b`. -/
theorem C105_violated_confined :
    ¬ ∀ (name other : Text), Literal name → other ≠ name → ∀ r, Common false other r →
      permitted (documentedUser false name) r = false := fun h => by
  have := h t!"a" t!"a:b" (by simp [Literal]) (by simp) _ (.own .queue)
  revert this
  decide +kernel

end Docket.Keys
