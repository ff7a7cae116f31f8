import Verif.Cli.Target

/-!
C118: the commands of the command line work on the docket that was named, and not on one that
nobody else can see.
-/

namespace Docket.Target
open Decimal Sentinel

/-- The value of an option with the given environment variable: what was written, else the
variable if it is set to something, else the default. -/
inductive Means (env : Environ) (var default_ : Text) : Option Text → Text → Prop
  | written (v : Text) : Means env var default_ (some v) v
  | fromEnv (v : Text) : env var = some v → v ≠ [] → Means env var default_ none v
  | empty : env var = some [] → Means env var default_ none default_
  | unset : env var = none → Means env var default_ none default_

/-- The docket that the user named, by `--docket`, `--url`, `DOCKET_NAME` and `DOCKET_URL`. -/
def Named (env : Environ) (g : Given) (name url : Text) : Prop :=
  Means env t!"DOCKET_NAME" t!"docket" g.docket name ∧
  Means env t!"DOCKET_URL" t!"redis://localhost:6379/0" g.url url

/-- C118 in full.  Every command opens the docket that was named; all but the worker refuse
exactly the dockets that live in their own memory. -/
def C118_statement : Prop :=
  (∀ c env g name url, opened c env g = some (name, url) → Named env g name url) ∧
  (∀ c env g name url, c ≠ .worker → opened c env g = some (name, url) → inMemory url = false) ∧
  (∀ c env g, opened c env g = none → ∃ name url, Named env g name url ∧ inMemory url = true)

theorem means_resolve (env : Environ) (var d : Text) (o : Option Text) :
    Means env var d o (resolve o (env var) d) := by
  cases o with
  | some v => exact .written v
  | none =>
    cases h : env var with
    | none => exact .unset h
    | some v =>
      by_cases e : v = []
      · subst e; simpa [resolve] using Means.empty (default_ := d) h
      · simpa [resolve, e] using Means.fromEnv (default_ := d) v h e

theorem means_unique {env : Environ} {var d : Text} {o : Option Text} {a b : Text}
    (ha : Means env var d o a) (hb : Means env var d o b) : a = b := by
  cases ha <;> cases hb <;> simp_all

theorem opened_some {c : Command} {env : Environ} {g : Given} {name url : Text}
    (h : opened c env g = some (name, url)) :
    name = resolve g.docket (env (docketVar c)) t!"docket" ∧
    url = resolve g.url (env (urlVar c)) t!"redis://localhost:6379/0" ∧
    (validated c = true → t!"memory://".isPrefixOf url = false) := by
  unfold opened at h
  by_cases v : validated c = true
  · simp only [v, if_true] at h
    unfold validateUrl at h
    split at h
    · cases h
    · rename_i hp
      simp only [Option.map_some, Option.some.injEq, Prod.mk.injEq] at h
      refine ⟨h.1.symm, h.2.symm, fun _ => ?_⟩
      rw [← h.2]; exact Bool.eq_false_iff.mpr hp
  · simp only [v] at h
    simp only [Bool.false_eq_true, if_false, Option.some.injEq, Prod.mk.injEq] at h
    exact ⟨h.1.symm, h.2.symm, fun x => absurd x v⟩

/-- C118, what was named: every command but `watch` opens the docket named by the options and the
environment; `watch` does if the URL is on the command line, or neither of `DOCKET_URL` and
`DOCKET_REDIS_URL` is set. -/
theorem C118_named_partial (c : Command) (env : Environ) (g : Given) (name url : Text)
    (hc : c ≠ .watch ∨ g.url ≠ none ∨
      (env t!"DOCKET_URL" = none ∧ env t!"DOCKET_REDIS_URL" = none))
    (h : opened c env g = some (name, url)) : Named env g name url := by
  obtain ⟨hn, hu, -⟩ := opened_some h
  refine ⟨?_, ?_⟩
  · rw [hn]; exact means_resolve _ _ _ _
  · rw [hu]
    have key : c ≠ .watch → urlVar c = t!"DOCKET_URL" := by
      intro hw; cases c <;> first | rfl | exact absurd rfl hw
    rcases hc with hw | hg | ⟨h1, h2⟩
    · rw [key hw]; exact means_resolve _ _ _ _
    · cases e : g.url with
      | none => exact absurd e hg
      | some v => exact .written v
    · have : env (urlVar c) = none := by
        by_cases hw : c = .watch
        · subst hw; exact h2
        · rw [key hw]; exact h1
      rw [this]
      cases e : g.url with
      | none => exact .unset h1
      | some v => exact .written v

/-- C118, one docket: with the same options and environment, any two commands but `watch` that
accept their URL work on the same docket. -/
theorem C118_same_partial (c c' : Command) (env : Environ) (g : Given) (d d' : Text × Text)
    (hc : c ≠ .watch) (hc' : c' ≠ .watch)
    (h : opened c env g = some d) (h' : opened c' env g = some d') : d = d' := by
  have a := C118_named_partial c env g d.1 d.2 (.inl hc) h
  have b := C118_named_partial c' env g d'.1 d'.2 (.inl hc') h'
  exact Prod.ext (means_unique a.1 b.1) (means_unique a.2 b.2)

/-! The schemes of URLs. -/

theorem takeWhile_colon (s rest : Text) (hs : ∀ c ∈ s, c ≠ ':') :
    (s ++ ':' :: rest).takeWhile (fun c => c ≠ ':') = s := by
  induction s with
  | nil => simp
  | cons a s ih =>
    have ha : a ≠ ':' := hs a (by simp)
    rw [List.cons_append, List.takeWhile_cons, if_pos (by simpa using ha),
      ih (fun c hc => hs c (by simp [hc]))]

theorem filter_keeps (s : Text) (hs : ∀ c ∈ s, isRemoved c = false) (rest : Text) :
    (s ++ ':' :: rest).filter (fun c => !isRemoved c) =
      s ++ ':' :: rest.filter (fun c => !isRemoved c) := by
  rw [List.filter_append, List.filter_eq_self.mpr (by intro a ha; simp [hs a ha])]
  rfl

/-- A URL as one writes it: `scheme://`, the scheme in small letters, digits, `+`, `-` and `.`. -/
def Plain (url : Text) : Prop :=
  ∃ s rest, url = s ++ t!"://" ++ rest ∧
    ∀ c ∈ s, c.isLower = true ∨ c.isDigit = true ∨ c = '+' ∨ c = '-' ∨ c = '.'

theorem plain_char {c : Char}
    (h : c.isLower = true ∨ c.isDigit = true ∨ c = '+' ∨ c = '-' ∨ c = '.') :
    c ≠ ':' ∧ isRemoved c = false ∧ isStripped c = false ∧ c.toLower = c := by
  have low : c.toLower = c ∨ c.isUpper = true := by
    by_cases u : c.isUpper = true
    · exact .inr u
    · left
      unfold Char.toLower
      split
      · rename_i hh
        exact absurd (by simp only [Char.isUpper, decide_eq_true_eq]; exact hh) u
      · rfl
  have big : 33 ≤ c.toNat ∧ c ≠ ':' ∧ c.isUpper = false := by
    rcases h with h | h | rfl | rfl | rfl
    · simp only [Char.isLower, Bool.and_eq_true, decide_eq_true_eq, ge_iff_le] at h
      have h1 : 97 ≤ c.toNat := h.1
      have h2 : c.toNat ≤ 122 := h.2
      refine ⟨by omega, ?_, ?_⟩
      · rintro rfl; revert h1; decide
      · cases e : c.isUpper with
        | false => rfl
        | true =>
          simp only [Char.isUpper, decide_eq_true_eq, ge_iff_le] at e
          have h3 : c.toNat ≤ 90 := e.2
          omega
    · simp only [Char.isDigit, Bool.and_eq_true, decide_eq_true_eq, ge_iff_le] at h
      have h1 : 48 ≤ c.toNat := h.1
      have h2 : c.toNat ≤ 57 := h.2
      refine ⟨by omega, ?_, ?_⟩
      · rintro rfl; revert h2; decide
      · cases e : c.isUpper with
        | false => rfl
        | true =>
          simp only [Char.isUpper, decide_eq_true_eq, ge_iff_le] at e
          have h3 : 65 ≤ c.toNat := e.1
          omega
    · decide
    · decide
    · decide
  refine ⟨big.2.1, ?_, ?_, ?_⟩
  · cases e : isRemoved c with
    | false => rfl
    | true =>
      simp only [isRemoved, Bool.or_eq_true, decide_eq_true_eq] at e
      have := big.1
      rcases e with (rfl | rfl) | rfl <;> revert this <;> decide
  · simp only [isStripped, decide_eq_false_iff_not]; omega
  · rcases low with l | u
    · exact l
    · rw [big.2.2] at u; cases u

theorem strip_none (s rest : Text) (hs : ∀ c ∈ s, isStripped c = false) :
    (s ++ ':' :: rest).dropWhile isStripped = s ++ ':' :: rest := by
  cases s with
  | nil => simp [isStripped]
  | cons a s => simp [hs a (by simp)]

/-- The scheme of a plain URL is what is before `://`, or it has none. -/
theorem urlScheme_plain (s rest : Text)
    (hs : ∀ c ∈ s, c.isLower = true ∨ c.isDigit = true ∨ c = '+' ∨ c = '-' ∨ c = '.') :
    urlScheme (s ++ t!"://" ++ rest) = s ∨ urlScheme (s ++ t!"://" ++ rest) = [] := by
  have e : s ++ t!"://" ++ rest = s ++ ':' :: ('/' :: '/' :: rest) := by simp
  rw [e]
  unfold urlScheme
  simp only
  rw [strip_none s _ (fun c hc => (plain_char (hs c hc)).2.2.1),
    filter_keeps s (fun c hc => (plain_char (hs c hc)).2.1),
    takeWhile_colon s _ (fun c hc => (plain_char (hs c hc)).1)]
  cases s with
  | nil => right; rfl
  | cons a s =>
    simp only
    split
    · left
      exact (List.map_congr_left (g := id) (fun c hc => (plain_char (hs c hc)).2.2.2)).trans
        (List.map_id _)
    · right; rfl

/-- C118, the store: for URLs as one writes them, no command but the worker and `watch` works on
a docket that lives in its own memory and is gone when it ends. -/
theorem C118_memory_partial (c : Command) (env : Environ) (g : Given) (name url : Text)
    (hw : c ≠ .worker) (hc : c ≠ .watch) (hp : Plain url)
    (h : opened c env g = some (name, url)) : inMemory url = false := by
  obtain ⟨-, -, hv⟩ := opened_some h
  have v : validated c = true := by
    cases c <;> first | rfl | exact absurd rfl hw | exact absurd rfl hc
  have hv := hv v
  obtain ⟨s, rest, rfl, hs⟩ := hp
  cases m : inMemory (s ++ t!"://" ++ rest) with
  | false => rfl
  | true =>
    simp only [inMemory, Bool.and_eq_true, decide_eq_true_eq] at m
    rcases urlScheme_plain s rest hs with e | e
    · rw [e] at m
      rw [m.2] at hv
      simp [List.isPrefixOf] at hv
    · rw [e] at m
      exact absurd m.2 (by decide)

/-- C118, nothing else is refused: a command refuses its URL only if the docket that was named
lives in memory. -/
theorem C118_refused (c : Command) (env : Environ) (g : Given) (h : opened c env g = none) :
    ∃ name url, Named env g name url ∧ inMemory url = true := by
  have v : validated c = true := by
    cases e : validated c with
    | true => rfl
    | false => simp [opened, e] at h
  have hc : c ≠ .watch := by rintro rfl; cases v
  have hu : urlVar c = t!"DOCKET_URL" := by cases c <;> first | rfl | exact absurd rfl hc
  refine ⟨resolve g.docket (env t!"DOCKET_NAME") t!"docket",
    resolve g.url (env t!"DOCKET_URL") t!"redis://localhost:6379/0",
    ⟨means_resolve _ _ _ _, means_resolve _ _ _ _⟩, ?_⟩
  simp only [opened, v, if_true, Option.map_eq_none_iff, validateUrl, hu] at h
  split at h
  · rename_i hp
    generalize resolve g.url (env t!"DOCKET_URL") t!"redis://localhost:6379/0" = u at hp
    obtain ⟨rest, rfl⟩ := List.isPrefixOf_iff_prefix.mp hp
    simp only [inMemory, Bool.and_eq_true, decide_eq_true_eq, Bool.not_eq_true']
    refine ⟨by simp [isSentinelUrl, partitionScheme, schemes, List.isPrefixOf], ?_⟩
    simp [urlScheme, isStripped, isRemoved, isSchemeChar, Char.toLower,
      Char.isAlpha, Char.isAlphanum, Char.isUpper, Char.isLower]
  · cases h

/-- C118, the worker: it refuses no URL, so that a docket in memory can be worked on by the process
that fills it, and opens the docket that was named. -/
theorem C118_worker (env : Environ) (g : Given) :
    ∃ name url, opened .worker env g = some (name, url) ∧ Named env g name url :=
  ⟨_, _, rfl, C118_named_partial .worker env g _ _ (.inl (by decide)) rfl⟩

/-! A production server named in the environment, as docs/production.md does. -/

def production : Environ := fun v =>
  if v = t!"DOCKET_URL" then some t!"redis://redis.production.com:6379/0"
  else if v = t!"DOCKET_NAME" then some t!"orders" else none

example : opened .snapshot production ⟨none, none⟩ =
    some (t!"orders", t!"redis://redis.production.com:6379/0") := by decide +kernel

example : opened .clear production ⟨some t!"emails", some t!"rediss://b"⟩ =
    some (t!"emails", t!"rediss://b") := by decide +kernel

example : opened .watch production ⟨none, some t!"rediss://b"⟩ =
    some (t!"orders", t!"rediss://b") := by decide +kernel

example : Plain t!"redis+cluster://a:7000/0" :=
  ⟨t!"redis+cluster", t!"a:7000/0", rfl, by decide +kernel⟩

example : opened .trace production ⟨none, some t!"memory://a"⟩ = none ∧
    opened .worker production ⟨none, some t!"memory://a"⟩ = some (t!"orders", t!"memory://a") ∧
    inMemory t!"memory://a" = true ∧ inMemory t!"redis://a" = false := by decide +kernel

/-- C118 fails for `watch`: it reads `DOCKET_REDIS_URL` where the others read `DOCKET_URL`, so in
the environment of the documentation it looks at the server on localhost. -/
theorem C118_violated_watch : ¬ C118_statement := by
  intro h
  have := (h.1 .watch production ⟨none, none⟩ t!"orders" t!"redis://localhost:6379/0"
    (by decide +kernel)).2
  have b : Means production t!"DOCKET_URL" t!"redis://localhost:6379/0" none
      t!"redis://redis.production.com:6379/0" :=
    .fromEnv _ (by decide +kernel) (by decide +kernel)
  exact absurd (means_unique this b) (by decide +kernel)

/-- C118 fails for a URL in capitals: it is accepted, and the task is added to a docket in the
memory of a process that ends. -/
theorem C118_violated_memory : ¬ C118_statement := by
  intro h
  exact absurd (h.2.1 .trace production ⟨none, some t!"MEMORY://"⟩ t!"orders" t!"MEMORY://"
    (by decide) (by decide +kernel)) (by decide +kernel)

/-- A character that is a small letter when written small. -/
theorem lower_char {c : Char} (h : c.toLower.isLower = true) :
    c ≠ ':' ∧ isRemoved c = false ∧ isStripped c = false ∧ c.isAlpha = true ∧ isSchemeChar c = true := by
  have hl : c.isLower = true ∨ c.isUpper = true := by
    by_cases u : c.isUpper = true
    · exact .inr u
    · left
      unfold Char.toLower at h
      split at h
      · rename_i hh
        exact absurd (by simp only [Char.isUpper, decide_eq_true_eq]; exact hh) u
      · exact h
  have ha : c.isAlpha = true := by
    rcases hl with h | h <;> simp [Char.isAlpha, h]
  have hn : 65 ≤ c.toNat := by
    rcases hl with h | h
    · simp only [Char.isLower, Bool.and_eq_true, decide_eq_true_eq, ge_iff_le] at h
      have h1 : 97 ≤ c.toNat := h.1
      omega
    · simp only [Char.isUpper, decide_eq_true_eq, ge_iff_le] at h
      exact h.1
  refine ⟨?_, ?_, ?_, ha, by simp [isSchemeChar, Char.isAlphanum, ha]⟩
  · rintro rfl; revert hn; decide
  · cases e : isRemoved c with
    | false => rfl
    | true =>
      simp only [isRemoved, Bool.or_eq_true, decide_eq_true_eq] at e
      rcases e with (rfl | rfl) | rfl <;> revert hn <;> decide
  · simp only [isStripped, decide_eq_false_iff_not]; omega

theorem partitionScheme_colon (s rest : Text) (hs : ∀ c ∈ s, c ≠ ':') :
    (partitionScheme (s ++ ':' :: '/' :: '/' :: rest)).1 = s := by
  induction s with
  | nil => simp [partitionScheme, List.isPrefixOf]
  | cons a s ih =>
    have ha : a ≠ ':' := hs a (by simp)
    have : t!"://".isPrefixOf (a :: (s ++ ':' :: '/' :: '/' :: rest)) = false := by
      simp [List.isPrefixOf, Ne.symm ha]
    rw [List.cons_append, partitionScheme, this]
    simp only [Bool.false_eq_true, if_false]
    rw [ih (fun c hc => hs c (by simp [hc]))]

/-- C118 fails for every spelling of `memory://` with a capital letter: all commands accept it and
work on a docket in the memory of a process that ends. -/
theorem C118_violated_spelling (c : Command) (env : Environ) (n : Option Text) (s rest : Text)
    (hs : s.map Char.toLower = t!"memory") (hne : s ≠ t!"memory") :
    (opened c env ⟨n, some (s ++ t!"://" ++ rest)⟩).map (·.2) = some (s ++ t!"://" ++ rest) ∧
    inMemory (s ++ t!"://" ++ rest) = true := by
  have hc : ∀ x ∈ s, x.toLower.isLower = true := by
    intro x hx
    have : x.toLower ∈ t!"memory" := by rw [← hs]; exact List.mem_map_of_mem hx
    revert this
    generalize x.toLower = y
    intro hy
    simp only [List.mem_cons, List.not_mem_nil, or_false] at hy
    rcases hy with rfl | rfl | rfl | rfl | rfl | rfl <;> rfl
  have hlen : s.length = 6 := by rw [← List.length_map (f := Char.toLower), hs]; rfl
  have e : s ++ t!"://" ++ rest = s ++ ':' :: ('/' :: '/' :: rest) := by simp
  constructor
  · have hp : t!"memory://".isPrefixOf (s ++ t!"://" ++ rest) = false := by
      cases hq : t!"memory://".isPrefixOf (s ++ t!"://" ++ rest) with
      | false => rfl
      | true =>
        obtain ⟨t, ht⟩ := List.isPrefixOf_iff_prefix.mp hq
        have hr : (s ++ (t!"://" ++ rest)).take 6 = s := by
          rw [List.take_append_of_le_length (by omega), List.take_of_length_le (by omega)]
        have this : t!"memory" = s := by
          rw [← hr, ← List.append_assoc, ← ht]; rfl
        exact absurd this.symm hne
    simp only [opened, resolve, validateUrl, hp]
    cases validated c <;> rfl
  · rw [e]
    simp only [inMemory, Bool.and_eq_true, decide_eq_true_eq, Bool.not_eq_true']
    constructor
    · unfold isSentinelUrl
      rw [partitionScheme_colon s rest (fun x hx => (lower_char (hc x hx)).1)]
      cases hq : schemes.contains s with
      | false => rfl
      | true =>
        simp only [schemes, List.contains_iff_mem, List.mem_cons, List.not_mem_nil, or_false] at hq
        rcases hq with rfl | rfl <;> simp at hlen
    · unfold urlScheme
      simp only
      rw [strip_none s _ (fun x hx => (lower_char (hc x hx)).2.2.1),
        filter_keeps s (fun x hx => (lower_char (hc x hx)).2.1),
        takeWhile_colon s _ (fun x hx => (lower_char (hc x hx)).1)]
      cases s with
      | nil => simp at hlen
      | cons a s =>
        simp only
        rw [if_pos, hs]
        simp only [Bool.and_eq_true, List.all_eq_true]
        exact ⟨⟨by simp, (lower_char (hc a (by simp))).2.2.2.1⟩, fun x hx => (lower_char (hc x hx)).2.2.2.2⟩

example : t!"Memory".map Char.toLower = t!"memory" := by decide +kernel

end Docket.Target
