import Verif.Views.Opening
import Verif.Props.C118

/-!
C123: a docket opens with every kind of URL that is documented, and connects to the kind of
server the URL says.
-/

namespace Docket.Opening
open Decimal Sentinel Target

/-! ### Specification -/

/-- The schemes in the documentation (docs/production.md, docs/testing.md and the docstrings of
`Docket` and `RedisConnection`) and the servers they stand for. -/
inductive Documented : Text → Kind → Prop
  | redis : Documented t!"redis" (.server false)
  | rediss : Documented t!"rediss" (.server true)
  | cluster : Documented t!"redis+cluster" (.cluster false)
  | clusters : Documented t!"rediss+cluster" (.cluster true)
  | sentinel : Documented t!"redis+sentinel" (.master false)
  | sentinels : Documented t!"rediss+sentinel" (.master true)
  | memory : Documented t!"memory" .memory
  | valkey : Documented t!"valkey" (.server false)

/-- The text is this scheme in some mixture of small and capital letters. -/
def Spells (s scheme : Text) : Prop := s.map Char.toLower = scheme

/-- C123 in full.  Each documented scheme, in any letters and with anything after it, opens the
server it stands for, and a docket with a URL of no scheme like that does not open. -/
def C123_statement : Prop :=
  (∀ s scheme kind rest, Documented scheme kind → Spells s scheme →
    opens (s ++ t!"://" ++ rest) = some kind) ∧
  (∀ s rest, (∀ c ∈ s, c ∉ t!":\t\r\n") → (∀ scheme kind, Documented scheme kind → ¬ Spells s scheme) →
    ¬ Spells s t!"unix" → (∀ c ∈ s.head?, c.isAlpha = true) → opens (s ++ t!"://" ++ rest) = none)

/-! ### Schemes -/

/-- A text in which no character is removed and none is a colon. -/
def Plain (s : Text) : Prop := ∀ c ∈ s, c ∉ t!":\t\r\n"

theorem partition_colon (s rest : Text) (h : ∀ c ∈ s, c ≠ ':') :
    (partitionScheme (s ++ t!"://" ++ rest)).1 = s := by
  have := partitionScheme_colon s rest h
  simpa using this

theorem plain_filter {s : Text} (h : Plain s) : s.filter (fun c => !isRemoved c) = s := by
  rw [List.filter_eq_self]
  intro c hc
  have := h c hc
  simp only [List.mem_cons, List.not_mem_nil, or_false, not_or] at this
  simp [isRemoved, this]

theorem alpha_not_stripped {c : Char} (h : c.isAlpha = true) : isStripped c = false := by
  simp only [Char.isAlpha, Char.isUpper, Char.isLower, Bool.or_eq_true, Bool.and_eq_true, decide_eq_true_eq] at h
  simp only [isStripped, decide_eq_false_iff_not]
  rcases h with h | h
  · have := UInt32.le_iff_toNat_le.1 h.1
    simp at this; omega
  · have := UInt32.le_iff_toNat_le.1 h.1
    simp at this; omega

/-- The scheme of a URL that starts with a letter. -/
theorem urlScheme_at (c : Char) (s rest : Text) (hc : c.isAlpha = true) (h : Plain (c :: s)) :
    urlScheme (c :: s ++ t!"://" ++ rest) = if (c :: s).all isSchemeChar then (c :: s).map Char.toLower else [] := by
  unfold urlScheme
  have hd : (c :: s ++ t!"://" ++ rest).dropWhile isStripped = c :: s ++ t!"://" ++ rest := by
    simp [alpha_not_stripped hc]
  have hf : (c :: s ++ t!"://" ++ rest).filter (fun c => !isRemoved c) =
      (c :: s) ++ ':' :: '/' :: '/' :: rest.filter (fun c => !isRemoved c) := by
    rw [List.filter_append, List.filter_append, plain_filter h]
    simp [isRemoved]
  have ht : ∀ r : Text, ((c :: s) ++ ':' :: r).takeWhile (fun c => c ≠ ':') = c :: s := by
    intro r
    rw [List.takeWhile_append_of_pos]
    · simp
    · intro x hx
      have := h x hx
      simp only [List.mem_cons, List.not_mem_nil, or_false, not_or] at this
      simp [this.1]
  simp only [hd, hf, ht]
  simp [hc]

theorem opens_at (c : Char) (s rest : Text) (hc : c.isAlpha = true) (h : Plain (c :: s)) :
    parsedScheme (c :: s ++ t!"://" ++ rest) = if (c :: s).all isSchemeChar then (c :: s).map Char.toLower else [] := by
  unfold parsedScheme
  split
  · rw [partition_colon (c :: s) rest]
    · simpa using urlScheme_at c s t!"netloc-placeholder" hc h
    · intro x hx e
      subst e
      exact h _ hx (by simp)
  · exact urlScheme_at c s rest hc h

theorem toLower_alpha {c : Char} (h : c.toLower.isAlpha = true) : c.isAlpha = true := by
  by_cases hu : c.isUpper = true
  · simp [Char.isAlpha, hu]
  · have : c.toLower = c := by
      unfold Char.toLower
      rw [dif_neg]
      simpa [Char.isUpper] using hu
    rwa [this] at h

/-- A character whose small letter is in a scheme. -/
theorem toLower_cases (c : Char) : c.toLower = c ∨ (c.isUpper = true ∧ c.isAlpha = true) := by
  by_cases hu : c.isUpper = true
  · exact .inr ⟨hu, by simp [Char.isAlpha, hu]⟩
  · left
    unfold Char.toLower
    rw [dif_neg]
    simpa [Char.isUpper] using hu

theorem spelled_plain {s scheme : Text} (h : Spells s scheme) (hp : Plain scheme) : Plain s := by
  intro c hc hm
  have hl : c.toLower ∈ scheme := by rw [← h]; exact List.mem_map_of_mem hc
  refine hp _ hl ?_
  simp only [List.mem_cons, List.not_mem_nil, or_false] at hm
  rcases hm with rfl | rfl | rfl | rfl <;> decide

theorem spelled_chars {s scheme : Text} (h : Spells s scheme) (hp : scheme.all isSchemeChar = true) :
    s.all isSchemeChar = true := by
  rw [List.all_eq_true] at hp ⊢
  intro c hc
  have hl : c.toLower ∈ scheme := by rw [← h]; exact List.mem_map_of_mem hc
  rcases toLower_cases c with e | ⟨_, e⟩
  · rw [← e]; exact hp _ hl
  · simp [isSchemeChar, Char.isAlphanum, e]

theorem parsed_spelled {s : Text} {x : Char} {scheme : Text} (rest : Text) (h : Spells s (x :: scheme))
    (hx : x.isAlpha = true) (hp : Plain (x :: scheme)) (hc : (x :: scheme).all isSchemeChar = true) :
    parsedScheme (s ++ t!"://" ++ rest) = x :: scheme := by
  cases s with
  | nil => cases h
  | cons c s =>
    have h1 : c.toLower = x := by
      have := h
      simp only [Spells, List.map_cons, List.cons.injEq] at this
      exact this.1
    rw [opens_at c s rest (toLower_alpha (h1 ▸ hx)) (spelled_plain h hp), if_pos (spelled_chars h hc)]
    exact h

/-! ### Property -/

/-- **C123**, in part: every documented scheme but `valkey`, in small or capital letters and
whatever comes after it, opens the kind of server it stands for, with TLS if it says so.
Missing: `valkey`. -/
theorem C123_opens_partial (s scheme : Text) (kind : Kind) (rest : Text) (hd : Documented scheme kind)
    (hv : scheme ≠ t!"valkey") (hs : Spells s scheme) : opens (s ++ t!"://" ++ rest) = some kind := by
  have : parsedScheme (s ++ t!"://" ++ rest) = scheme := by
    cases hd <;> first
      | exact absurd rfl hv
      | exact parsed_spelled rest hs (by decide) (by unfold Plain; decide) (by decide)
  unfold opens
  simp only [this]
  cases hd <;> first | exact absurd rfl hv | decide

/-- The hypotheses can be met. -/
example : opens t!"Redis+Cluster://node-1:6379/0" = some (.cluster false) ∧
    opens t!"rediss+sentinel://a:1,b:2/mymaster/0" = some (.master true) :=
  ⟨C123_opens_partial t!"Redis+Cluster" _ _ t!"node-1:6379/0" .cluster (by decide) (by unfold Spells; decide),
   C123_opens_partial t!"rediss+sentinel" _ _ t!"a:1,b:2/mymaster/0" .sentinels (by decide) (by unfold Spells; decide)⟩

/-- What opens has one of the schemes that count. -/
theorem opens_some {url : Text} {kind : Kind} (h : opens url = some kind) :
    Documented (parsedScheme url) kind ∧ parsedScheme url ≠ t!"valkey" ∨ parsedScheme url = t!"unix" ∧ kind = .socket := by
  unfold opens at h
  generalize parsedScheme url = scheme at h
  simp only [isCluster, Bool.or_eq_true, decide_eq_true_eq] at h
  split at h
  · rename_i hc
    rcases hc with rfl | rfl
    · simp [clusterClient, withoutCluster, redisPy] at h; subst h; exact .inl ⟨.cluster, by decide⟩
    · simp [clusterClient, withoutCluster, redisPy] at h; subst h; exact .inl ⟨.clusters, by decide⟩
  · split at h
    · rename_i hm; subst hm; cases h; exact .inl ⟨.memory, by decide⟩
    · unfold poolFromUrl at h
      split at h
      · rename_i hs
        simp only [isSentinel, Bool.or_eq_true, decide_eq_true_eq] at hs
        rcases hs with rfl | rfl
        · simp at h; subst h; exact .inl ⟨.sentinel, by decide⟩
        · simp at h; subst h; exact .inl ⟨.sentinels, by decide⟩
      · unfold redisPy at h
        split at h
        · rename_i hm; cases h; exact .inr ⟨hm, rfl⟩
        · split at h
          · rename_i hm; subst hm; cases h; exact .inl ⟨.redis, by decide⟩
          · split at h
            · rename_i hm; subst hm; cases h; exact .inl ⟨.rediss, by decide⟩
            · cases h

/-- **C123**, nothing else opens: a URL that starts with a letter and has no documented scheme, nor
`unix`, is refused; no docket is opened in memory or elsewhere instead. -/
theorem C123_refused (s rest : Text) (hp : ∀ c ∈ s, c ∉ t!":\t\r\n")
    (hd : ∀ scheme kind, Documented scheme kind → ¬ Spells s scheme) (hu : ¬ Spells s t!"unix")
    (ha : ∃ c, s.head? = some c ∧ c.isAlpha = true) : opens (s ++ t!"://" ++ rest) = none := by
  cases ho : opens (s ++ t!"://" ++ rest) with
  | none => rfl
  | some kind =>
    exfalso
    obtain ⟨c, hc, hca⟩ := ha
    cases s with
    | nil => cases hc
    | cons x s =>
      simp only [List.head?_cons, Option.some.injEq] at hc
      subst hc
      have hq := opens_some ho
      rw [opens_at x s rest hca hp] at hq
      split at hq
      · rcases hq with hq | hq
        · exact hd _ _ hq.1 rfl
        · exact hu hq.1
      · rcases hq with hq | hq
        · cases hq.1
        · cases hq.1

/-- The hypotheses can be met. -/
example : opens t!"http://localhost/" = none := by
  refine C123_refused t!"http" t!"localhost/" (by decide) ?_ (by unfold Spells; decide) ⟨'h', rfl, by decide⟩
  intro scheme kind h
  cases h <;> (unfold Spells; decide)

/-- **C123**: a docket lives in memory if and only if the scheme of its URL is `memory`, as
`urlsplit` reads it; C118 says which commands notice. -/
theorem C123_memory (url : Text) : opens url = some .memory ↔ isSentinelUrl url = false ∧ urlScheme url = t!"memory" := by
  constructor
  · intro h
    have hm : parsedScheme url = t!"memory" := by
      rcases opens_some h with ⟨hd, _⟩ | ⟨_, hk⟩
      · generalize parsedScheme url = s at hd
        cases hd
        rfl
      · cases hk
    unfold parsedScheme at hm
    split at hm
    · rename_i hs
      exfalso
      simp only [isSentinelUrl, schemes, List.contains_iff_mem, List.mem_cons, List.not_mem_nil, or_false] at hs
      rcases hs with e | e <;> (rw [e] at hm; revert hm; decide)
    · rename_i hs
      exact ⟨by simpa using hs, hm⟩
  · rintro ⟨h1, h2⟩
    have : parsedScheme url = t!"memory" := by simp [parsedScheme, h1, h2]
    unfold opens
    simp only [this]
    decide

/-- Both sides can be met. -/
example : opens t!" MEMORY:test" = some .memory := (C123_memory _).2 (by decide)

/-- **C123 fails** for the URL of docs/production.md's "Valkey Support", and for every other with
that scheme: redis-py knows no such scheme, so no docket opens. -/
theorem C123_violated_valkey (s rest : Text) (hs : Spells s t!"valkey") : opens (s ++ t!"://" ++ rest) = none := by
  have : parsedScheme (s ++ t!"://" ++ rest) = t!"valkey" :=
    parsed_spelled rest hs (by decide) (by unfold Plain; decide) (by decide)
  unfold opens
  simp only [this]
  decide

/-- The hypothesis can be met, by the documented URL. -/
example : opens t!"valkey://valkey.prod.com:6379/0" = none :=
  C123_violated_valkey t!"valkey" t!"valkey.prod.com:6379/0" (by unfold Spells; decide)

theorem C123_violated : ¬ C123_statement := by
  intro h
  have := h.1 t!"valkey" _ _ t!"valkey.prod.com:6379/0" .valkey (by unfold Spells; decide)
  rw [C123_violated_valkey t!"valkey" _ (by unfold Spells; decide)] at this
  cases this

end Docket.Opening
