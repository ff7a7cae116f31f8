import Verif.Keys.Model
/-
C24 Distinct tasks use distinct Redis keys.
C25 All keys of a docket live in one cluster slot.
-/
namespace Docket.Keys

/-! ### C24 -/

theorem key_inj {cluster : Bool} {name s s' : Text} (h : key cluster name s = key cluster name s') :
    s = s' := by
  have := List.append_cancel_left h
  simpa using this

/-- The purpose is not the parked payload of a task, whose key is the bare task key. -/
def Purpose.Named : Purpose → Prop
  | .parked _ => False
  | _ => True

/-- C24.  For every docket name, in cluster mode or not: two keys used for purposes other
than parked payloads coincide only if they are the same key of the same task or worker;
and two parked payloads share a key only if they belong to the same task.  Partial: a
parked payload may collide with another key (`C24_violated`). -/
theorem C24_distinct_keys_partial (cluster : Bool) (name : Text) (p q : Purpose) :
    (p.Named → q.Named → key cluster name p.suffix = key cluster name q.suffix → p = q) ∧
    (∀ t u, key cluster name (Purpose.parked t).suffix = key cluster name (Purpose.parked u).suffix →
      t = u) := by
  refine ⟨?_, fun t u h => ?_⟩
  rotate_left
  · have := key_inj h
    simpa only [Purpose.suffix] using this
  intro hp hq h
  have h := key_inj h
  cases p <;> cases q <;> first
    | rfl
    | exact absurd hp id
    | exact absurd hq id
    | (simp [Purpose.suffix] at h; done)
    | (simp [Purpose.suffix] at h; simp [h])

/-- A task key that cannot be mistaken for another key: no colon, and not one of the
four reserved words. -/
def Safe (t : Text) : Prop :=
  ':' ∉ t ∧ t ≠ t!"queue" ∧ t ≠ t!"stream" ∧ t ≠ t!"workers" ∧ t ≠ t!"strikes"

/-- C24 for safe task keys: the parked payload of a safe task key collides with
nothing. -/
theorem C24_safe_parked_key (cluster : Bool) (name t : Text) (ht : Safe t) (q : Purpose)
    (h : key cluster name (Purpose.parked t).suffix = key cluster name q.suffix) : q = .parked t := by
  have h := key_inj h
  have h : t = q.suffix := by simpa only [Purpose.suffix] using h
  obtain ⟨hc, h1, h2, h3, h4⟩ := ht
  cases q with
  | parked u => rw [h]; rfl
  | queue => exact absurd h h1
  | stream => exact absurd h h2
  | workers => exact absurd h h3
  | strikes => exact absurd h h4
  | _ => exact absurd (by rw [h]; simp [Purpose.suffix]) hc

/-- Channels of different kinds or tasks never coincide. -/
theorem C24_distinct_channels (cluster : Bool) (name : Text) (c d : Channel)
    (h : key cluster name c.suffix = key cluster name d.suffix) : c = d := by
  have h := key_inj h
  cases c <;> cases d <;> first
    | (simp [Channel.suffix] at h; done)
    | (simp [Channel.suffix] at h; simp [h])

/-- C24, results and concurrency limits.  The key of a stored result belongs to one task and is
no key of the docket's own; the slots (and likewise the waiters) of different limits of a
docket are kept apart, and are not any of the named keys or a result.  (`what` is the
function name, or the parameter's name and its value.) -/
theorem C24_results_and_limits (cluster : Bool) (name : Text) :
    (∀ t u, resultKey cluster name t = resultKey cluster name u → t = u) ∧
    (∀ t (p : Purpose), p.Named → resultKey cluster name t ≠ key cluster name p.suffix) ∧
    (∀ w v, concurrencyKey cluster name none w = concurrencyKey cluster name none v → w = v) ∧
    (∀ w v, waitersKey cluster name none w = waitersKey cluster name none v → w = v) ∧
    (∀ w (p : Purpose), p.Named → concurrencyKey cluster name none w ≠ key cluster name p.suffix ∧
      waitersKey cluster name none w ≠ key cluster name p.suffix) ∧
    (∀ w t, concurrencyKey cluster name none w ≠ resultKey cluster name t ∧
      waitersKey cluster name none w ≠ resultKey cluster name t) ∧
    (∀ w v, concurrencyKey cluster name none w = waitersKey cluster name none v ↔ w = v ++ t!":waiters") := by
  have hr : ∀ t, resultKey cluster name t = key cluster name (t!"results:" ++ t) := by
    intro t; simp [resultKey, key]
  have hc : ∀ w, concurrencyKey cluster name none w = key cluster name (t!"concurrency:" ++ w) := by
    intro w; simp [concurrencyKey, key]
  have hw : ∀ w, waitersKey cluster name none w = key cluster name (t!"concurrency:" ++ (w ++ t!":waiters")) := by
    intro w; simp [waitersKey, concurrencyKey, key]
  refine ⟨?_, ?_, ?_, ?_, ?_, ?_, ?_⟩
  · intro t u h
    rw [hr, hr] at h
    exact List.append_cancel_left (key_inj h)
  · intro t p hp h
    rw [hr] at h
    have h := key_inj h
    cases p <;> first | exact hp | (simp [Purpose.suffix] at h; done)
  · intro w v h
    rw [hc, hc] at h
    exact List.append_cancel_left (key_inj h)
  · intro w v h
    rw [hw, hw] at h
    exact List.append_cancel_right (List.append_cancel_left (key_inj h))
  · intro w p hp
    rw [hc, hw]
    constructor <;>
    · intro h
      have h := key_inj h
      cases p <;> first | exact hp | (simp [Purpose.suffix] at h; done)
  · intro w t
    rw [hc, hw, hr]
    constructor <;>
    · intro h
      have h := key_inj h
      simp at h
  · intro w v
    rw [hc, hw]
    constructor
    · intro h; exact List.append_cancel_left (key_inj h)
    · intro h; rw [h]

/-- The full statement for concurrency limits: slots and waiters are never mixed up. -/
def C24_limits_statement : Prop := ∀ (cluster : Bool) (name w v : Text),
  concurrencyKey cluster name none w ≠ waitersKey cluster name none v

/-- The code violates it: the slots of the limit on the value `5:waiters` of a parameter are
kept under the key of the wait list for the value `5` (a sorted set and a stream, so Redis
answers with an error). -/
theorem C24_violated_waiters : ¬ C24_limits_statement := by
  intro h
  exact h false t!"docket" t!"customer:5:waiters" t!"customer:5" (by decide)

/-- The default task keys are UUIDs: hexadecimal digits and dashes. -/
example : Safe t!"019308a2-5b7c-7d3e-8f00-0123456789ab" := by
  refine ⟨?_, ?_, ?_, ?_, ?_⟩ <;> decide

example : (Purpose.runs t!"a").Named ∧ (Purpose.progress t!"a").Named := ⟨trivial, trivial⟩

/-- The full statement. -/
def C24_statement : Prop := ∀ (cluster : Bool) (name : Text) (p q : Purpose),
  key cluster name p.suffix = key cluster name q.suffix → p = q

/-- The code violates it: the payload of a task with key "queue", parked for the future,
is stored in the docket's own schedule. -/
theorem C24_violated : ¬ C24_statement := by
  intro h
  have := h false t!"docket" (.parked t!"queue") .queue rfl
  cases this

/-- And the payload of a task with key "runs:x" is stored in the record of task "x". -/
theorem C24_violated_record : ¬ C24_statement := by
  intro h
  have := h false t!"docket" (.parked t!"runs:x") (.runs t!"x") rfl
  cases this

/-! ### C25 -/

theorem before_append (c : Char) (a b : Text) (h : c ∈ a) : before c (a ++ b) = before c a := by
  induction a with
  | nil => cases h
  | cons x a ih =>
    simp only [List.cons_append, before]
    by_cases hx : x = c
    · simp [hx]
    · simp only [hx, if_false]
      rw [ih]
      rcases List.mem_cons.1 h with rfl | h
      · exact absurd rfl hx
      · exact h

theorem after_append (c : Char) (a b : Text) (h : c ∈ a) :
    after c (a ++ b) = (after c a).map (· ++ b) := by
  induction a with
  | nil => cases h
  | cons x a ih =>
    simp only [List.cons_append, after]
    by_cases hx : x = c
    · simp [hx]
    · simp only [hx, if_false]
      rw [ih]
      rcases List.mem_cons.1 h with rfl | h
      · exact absurd rfl hx
      · exact h

theorem before_isSome (c : Char) (a : Text) (h : c ∈ a) : ∃ x, before c a = some x := by
  induction a with
  | nil => cases h
  | cons x a ih =>
    simp only [before]
    by_cases hx : x = c
    · exact ⟨[], by simp [hx]⟩
    · simp only [hx, if_false]
      rcases List.mem_cons.1 h with rfl | h
      · exact absurd rfl hx
      · obtain ⟨y, hy⟩ := ih h
        exact ⟨x :: y, by simp [hy]⟩

/-- The docket name can carry a hash tag: not empty and not starting with a closing
brace. -/
def Taggable : Text → Prop
  | [] => False
  | c :: _ => c ≠ '}'

/-- In cluster mode every key that starts with the docket's prefix is hashed by the same,
non-empty part of the name. -/
theorem hashTag_pre (name rest : Text) (hn : Taggable name) :
    ∃ tag, tag ≠ [] ∧ before '}' (name ++ ['}']) = some tag ∧ hashTag (pre true name ++ rest) = tag := by
  obtain ⟨tag, htag⟩ := before_isSome '}' (name ++ ['}']) (by simp)
  refine ⟨tag, ?_, htag, ?_⟩
  · rintro rfl
    cases name with
    | nil => exact hn
    | cons c name =>
      have hc : c ≠ '}' := hn
      simp only [List.cons_append, before, hc, if_false] at htag
      cases hb : before '}' (name ++ ['}']) <;> simp [hb] at htag
  · have hb : before '}' (name ++ ['}'] ++ rest) = some tag := by
      rw [before_append _ _ _ (by simp)]; exact htag
    simp only [hashTag, pre, if_true, List.cons_append, after]
    have : name ++ ['}'] ++ rest = name ++ ([ '}'] ++ rest) := List.append_assoc _ _ _
    rw [this] at hb
    simp only [List.append_assoc]
    rw [hb]
    cases tag with
    | nil =>
      exfalso
      cases name with
      | nil => exact hn
      | cons c name =>
        have hc : c ≠ '}' := hn
        simp only [List.cons_append, before, hc, if_false] at htag
        cases hb : before '}' (name ++ ['}']) <;> simp [hb] at htag
    | cons a as => rfl

/-- C25.  In cluster mode, for every docket name that is not empty and does not start
with `}`, every key of the docket (for every purpose, every suffix, every concurrency
limit with or without scope, its waiters, and every stored result) is in the same slot.
Partial: the two exceptions and debounce keys are `C25_violated_*`. -/
theorem C25_one_slot_partial (name : Text) (hn : Taggable name) :
    ∃ n, (∀ suffix, slot (key true name suffix) = n) ∧
      (∀ p : Purpose, slot (key true name p.suffix) = n) ∧
      (∀ scope what, slot (concurrencyKey true name scope what) = n ∧
        slot (waitersKey true name scope what) = n) ∧
      (∀ task, slot (resultKey true name task) = n) := by
  obtain ⟨tag, htag⟩ := before_isSome '}' (name ++ ['}']) (by simp)
  have main : ∀ rest, hashTag (pre true name ++ rest) = tag := by
    intro rest
    obtain ⟨tag', _, h2, h3⟩ := hashTag_pre name rest hn
    rw [htag] at h2
    cases h2
    exact h3
  have hkey : ∀ suffix, hashTag (key true name suffix) = tag := fun suffix => main _
  have hconc : ∀ scope what, ∃ rest, concurrencyKey true name scope what = pre true name ++ rest := by
    intro scope what
    unfold concurrencyKey
    split
    · exact ⟨_, List.append_assoc _ _ _⟩
    · exact ⟨_, List.append_assoc _ _ _⟩
    · exact ⟨_, by rw [List.append_assoc, List.append_assoc]⟩
  refine ⟨(tag.map Char.toNat).foldl crcByte 0 % 16384, ?_, ?_, ?_, ?_⟩
  · intro suffix; simp only [slot, hkey]
  · intro p; simp only [slot, hkey]
  · intro scope what
    obtain ⟨rest, hr⟩ := hconc scope what
    refine ⟨?_, ?_⟩
    · simp only [slot]; rw [hr, main]
    · simp only [slot, waitersKey]; rw [hr, List.append_assoc, main]
  · intro task
    simp only [slot, resultKey, key]
    rw [List.append_assoc, main]

/-- The docket's default name. -/
example : Taggable t!"docket" := by simp [Taggable]

/-- The full statement. -/
def C25_statement : Prop := ∀ (name s s' : Text), slot (key true name s) = slot (key true name s')

/-- The code violates it for an empty name: `{}` is not a hash tag. -/
theorem C25_violated_empty_name : ¬ C25_statement := by
  intro h
  have := h [] t!"queue" t!"stream"
  revert this
  decide +kernel

/-- And for a name that starts with a closing brace. -/
theorem C25_violated_brace_name : ¬ C25_statement := by
  intro h
  have := h t!"}a" t!"queue" t!"stream"
  revert this
  decide +kernel

/-- The first opening brace of the text, if any, is not immediately closed. -/
def NoEmptyTag (t : Text) : Prop :=
  match after '{' t with
  | some ('}' :: _) => False
  | _ => True

theorem hashTag_common (base a b : Text) (ho : '{' ∈ base) (hc : ∃ r, after '{' base = some r ∧ '}' ∈ r)
    (hne : NoEmptyTag base) : hashTag (base ++ a) = hashTag (base ++ b) := by
  obtain ⟨r, hr, hcr⟩ := hc
  have h1 : ∀ x, hashTag (base ++ x) = (before '}' r).getD [] := by
    intro x
    simp only [hashTag, after_append _ _ _ ho, hr, Option.map_some, before_append _ _ _ hcr]
    obtain ⟨tag, ht⟩ := before_isSome '}' r hcr
    rw [ht]
    cases tag with
    | cons c cs => rfl
    | nil =>
      exfalso
      cases r with
      | nil => cases hcr
      | cons c r =>
        by_cases hcc : c = '}'
        · subst hcc
          simp [NoEmptyTag, hr] at hne
        · simp only [before, hcc, if_false] at ht
          cases hb : before '}' r <;> simp [hb] at ht
  rw [h1, h1]

theorem after_isSome (c : Char) (a : Text) (h : c ∈ a) : ∃ x, after c a = some x := by
  induction a with
  | nil => cases h
  | cons x a ih =>
    simp only [after]
    by_cases hx : x = c
    · exact ⟨a, by simp [hx]⟩
    · simp only [hx, if_false]
      rcases List.mem_cons.1 h with rfl | h
      · exact absurd rfl hx
      · exact ih h

/-- What follows the first `{` contains everything that follows a later one. -/
theorem mem_after (c d : Char) (a b : Text) (hd : d ∈ b) :
    ∀ r, after c (a ++ c :: b) = some r → d ∈ r := by
  induction a with
  | nil => intro r hr; simp [after] at hr; subst hr; exact hd
  | cons x a ih =>
    intro r hr
    simp only [List.cons_append, after] at hr
    by_cases hx : x = c
    · simp only [hx, if_true, Option.some.injEq] at hr
      subst hr; simp [hd]
    · simp only [hx, if_false] at hr
      exact ih r hr

/-- C25, debounce.  The two keys of a debounce, which one script uses together, are in the
same slot for every scope and every tag, unless the first opening brace in them is
immediately closed. -/
theorem C25_debounce_one_slot_partial (scope tag : Text) (h : NoEmptyTag (debounceBase scope tag)) :
    slot (winnerKey scope tag) = slot (seenKey scope tag) := by
  have hb : debounceBase scope tag =
      (scope ++ t!":debounce:" ++ tag ++ [':']) ++ '{' :: (tag ++ t!"}:") := by
    simp [debounceBase]
  have ho : '{' ∈ debounceBase scope tag := by rw [hb]; simp
  have hc : ∃ r, after '{' (debounceBase scope tag) = some r ∧ '}' ∈ r := by
    obtain ⟨r, hr⟩ := after_isSome '{' _ ho
    refine ⟨r, hr, ?_⟩
    rw [hb] at hr
    exact mem_after '{' '}' _ _ (by simp) r hr
  simp only [slot, winnerKey, seenKey]
  rw [hashTag_common _ _ _ ho hc h]

example : NoEmptyTag (debounceBase t!"docket" t!"customer_id:42") := by
  have : after '{' (debounceBase t!"docket" t!"customer_id:42") =
      some t!"customer_id:42}:" := by decide
  rw [NoEmptyTag, this]
  simp

/-- The full statement for debounce. -/
def C25_debounce_statement : Prop := ∀ scope tag : Text,
  slot (winnerKey scope tag) = slot (seenKey scope tag)

/-- The code violates it when the debounced argument prints as `{}`, such as an empty
dictionary: the script then gets keys from two slots. -/
theorem C25_violated_debounce : ¬ C25_debounce_statement := by
  intro h
  have := h t!"docket" t!"data:{}"
  revert this
  decide +kernel

end Docket.Keys
