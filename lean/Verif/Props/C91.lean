import Verif.Views.Exporter

/-!
C91: what a scrape of the metrics endpoint is told.
-/
namespace Docket.Exporter

/-! ## Specification -/

/-- One thing a scrape is told: a value of a named metric, with its labels. -/
structure Told where
  kind : Kind
  name : Text
  doc : Text
  unit : Text
  labels : List (Text × Text)
  reading : Reading
deriving DecidableEq, Repr

/-- What a family tells: each of its samples, with the label values next to the label names. -/
def Family.tells (f : Family) : List Told :=
  f.samples.map fun s => ⟨f.kind, f.name, f.doc, f.unit, f.labels.zip s.1, s.2⟩

/-- The running totals of a histogram: at each bound the number of values up to it, and at
`+Inf` the number of all. -/
def cumulative (counts : List Nat) (bounds : List Text) : List (Text × Nat) :=
  ((bounds ++ [t!"+Inf"]).zipIdx.take counts.length).map fun b =>
    (b.1, (counts.take (b.2 + 1)).sum)

/-- The text a label has for a value: a string as it is, anything else as JSON. -/
def labelText : Value → Text
  | .str t => t
  | .other json => json

/-- The labels of a data point: one for each attribute, in the order of the attributes'
names. -/
def labelsOf (a : Attrs) : List (Text × Text) :=
  (sortAttrs a).map fun x => (sanitizeAttribute x.1, labelText x.2)

/-- What is to be told of one metric: each of its data points.  A sum is a counter, except
a running sum that may go down. -/
def Metric.facts (m : Metric) : List Told :=
  let told kind (a : Attrs) r : Told :=
    ⟨kind, sanitizeFullName m.name, m.description, mapUnit m.unit, labelsOf a, r⟩
  match m.data with
  | .sum true _ ps => ps.map fun p => told .counter p.attrs (.number p.value)
  | .sum false false ps => ps.map fun p => told .counter p.attrs (.number p.value)
  | .sum false true ps => ps.map fun p => told .gauge p.attrs (.number p.value)
  | .gauge ps => ps.map fun p => told .gauge p.attrs (.number p.value)
  | .histogram ps =>
    ps.map fun p => told .histogram p.attrs (.buckets (cumulative p.counts p.bounds) p.sum)

/-- What is to be told of a measurement. -/
def Measurement.facts (d : Measurement) : List Told := d.metrics.flatMap Metric.facts

/-- The attributes of all data points of a metric. -/
def Metric.attrs (m : Metric) : List Attrs :=
  match m.data with
  | .sum _ _ ps => ps.map (·.attrs)
  | .gauge ps => ps.map (·.attrs)
  | .histogram ps => ps.map (·.attrs)

/-- No attribute has the empty name. -/
def Measurement.Named (d : Measurement) : Prop :=
  ∀ m ∈ d.metrics, ∀ a ∈ m.attrs, ∀ x ∈ a, x.1 ≠ []

/-- The scrape `i` is under way. -/
def Busy (s : State) (i : Nat) : Prop :=
  ∃ c, s.scrapes i = some c ∧ c.phase ≠ .done ∧ c.phase ≠ .failed

/-- No scrape begins while another one is under way. -/
def OneAtATime (es : List Ev) : Prop :=
  ∀ pre i d post, es = pre ++ .start i d :: post → ∀ j, ¬ Busy (run pre) j

/-- Scrape `i` has ended well and has been told `told`. -/
def Ended (es : List Ev) (i : Nat) (told : List Family) : Prop :=
  ∃ c, (run es).scrapes i = some c ∧ c.phase = .done ∧ c.told = told

/-- Scrape `i` measured `d`: that is what its first `start` says. -/
def Measured (es : List Ev) (i : Nat) (d : Measurement) : Prop :=
  ∃ pre post, es = pre ++ .start i d :: post ∧ ∀ d', Ev.start i d' ∉ pre

/-- What tells one family from another. -/
def Family.header (f : Family) : Kind × Text × Text × List Text × Text :=
  (f.kind, f.name, f.doc, f.labels, f.unit)

/-- The scrape was told the description of the target and, once each, exactly the facts of
the measurement, grouped in families no two of which are alike. -/
def Tells (told : List Family) (d : Measurement) : Prop :=
  ∃ info fams, told = info :: fams ∧ info.kind = .info ∧
    (fams.flatMap Family.tells).Perm d.facts ∧
    (fams.map Family.header).Nodup ∧ (∀ f ∈ fams, f.kind ≠ .info ∧ f.samples ≠ [])

/-- The measurement of the first scrape there was. -/
def FirstMeasured (es : List Ev) (d : Measurement) : Prop :=
  ∃ i pre post, es = pre ++ .start i d :: post ∧ ∀ j d', Ev.start j d' ∉ pre

/-- The family describes the target by the attributes of its resource: each label is there
once and has the value of the last attribute of that name. -/
def Describes (f : Family) (resource : Attrs) : Prop :=
  f.kind = .info ∧ f.name = t!"target" ∧
    ∃ ls labels, f.samples = [(ls, .info labels)] ∧ (labels.map (·.1)).Nodup ∧
      ∀ k, labels.lookup k =
        (resource.reverse.find? fun a => sanitizeAttribute a.1 = k).map fun a => labelText a.2

/-- A family a scrape may be told: the description of the target, or facts that have been
measured. -/
def Truthful (es : List Ev) (f : Family) : Prop :=
  (∃ d, FirstMeasured es d ∧ Describes f d.resource) ∨
  (f.kind ≠ .info ∧ ∀ t ∈ f.tells, ∃ i d, Measured es i d ∧ t ∈ d.facts)

/-- A text cleaned of the characters that are not `ok`: each longest run of them is one
underscore. -/
inductive Cleaned (ok : Char → Prop) : Text → Text → Prop
  | nil : Cleaned ok [] []
  | keep {c cs out} : ok c → Cleaned ok cs out → Cleaned ok (c :: cs) (c :: out)
  | run {r rest out} : r ≠ [] → (∀ c ∈ r, ¬ ok c) → (∀ c ∈ rest.head?, ok c) →
      Cleaned ok rest out → Cleaned ok (r ++ rest) ('_' :: out)

/-- A letter or a digit. -/
def AlphaNum (c : Char) : Prop :=
  ('a' ≤ c ∧ c ≤ 'z') ∨ ('A' ≤ c ∧ c ≤ 'Z') ∨ ('0' ≤ c ∧ c ≤ '9')

/-- A name without its leading digit. -/
def Undigited (t t' : Text) : Prop :=
  (∃ c cs, t = c :: cs ∧ '0' ≤ c ∧ c ≤ '9' ∧ t' = '_' :: cs) ∨
  ((∀ c ∈ t.head?, ¬ ('0' ≤ c ∧ c ≤ '9')) ∧ t' = t)

/-- The names of units, as Prometheus wants them. -/
def unitNames : List (Text × Text) :=
  [(t!"d", t!"days"), (t!"h", t!"hours"), (t!"min", t!"minutes"), (t!"s", t!"seconds"),
   (t!"ms", t!"milliseconds"), (t!"us", t!"microseconds"), (t!"ns", t!"nanoseconds"),
   (t!"By", t!"bytes"), (t!"KiBy", t!"kibibytes"), (t!"MiBy", t!"mebibytes"),
   (t!"GiBy", t!"gibibytes"), (t!"TiBy", t!"tibibytes"), (t!"KBy", t!"kilobytes"),
   (t!"MBy", t!"megabytes"), (t!"GBy", t!"gigabytes"), (t!"TBy", t!"terabytes"),
   (t!"m", t!"meters"), (t!"V", t!"volts"), (t!"A", t!"amperes"), (t!"J", t!"joules"),
   (t!"W", t!"watts"), (t!"g", t!"grams"), (t!"Cel", t!"celsius"), (t!"Hz", t!"hertz"),
   (t!"1", []), (t!"%", t!"percent")]

/-- The names of units after a "per". -/
def perNames : List (Text × Text) :=
  [(t!"s", t!"second"), (t!"m", t!"minute"), (t!"h", t!"hour"), (t!"d", t!"day"),
   (t!"w", t!"week"), (t!"mo", t!"month"), (t!"y", t!"year")]

/-- "`top` per `bottom`", or "per `bottom`" when there is no name for the top. -/
def per (top bottom : Text) : Text :=
  match (unitNames.lookup top).getD top with
  | [] => t!"per_" ++ (perNames.lookup bottom).getD bottom
  | name => name ++ t!"_per_" ++ (perNames.lookup bottom).getD bottom

/-! ## Texts -/

theorem subFrom_chars (ok : Char → Bool) : ∀ (t : Text) (b : Bool),
    ∀ c ∈ subFrom ok b t, ok c = true ∨ c = '_'
  | [], b, c, h => by simp [subFrom] at h
  | x :: xs, b, c, h => by
    unfold subFrom at h
    split at h
    · rcases List.mem_cons.mp h with h | h
      · subst h; exact Or.inl (by assumption)
      · exact subFrom_chars ok xs false c h
    · split at h
      · exact subFrom_chars ok xs true c h
      · rcases List.mem_cons.mp h with h | h
        · exact Or.inr h
        · exact subFrom_chars ok xs true c h

theorem nameChar_iff (c : Char) : nameChar c = true ↔ AlphaNum c ∨ c = ':' := by
  simp [nameChar, AlphaNum, or_assoc]

theorem keyChar_iff (c : Char) : keyChar c = true ↔ AlphaNum c := by
  simp [keyChar, AlphaNum, or_assoc]

theorem subFrom_run (ok : Char → Bool) : ∀ (t : Text),
    (∀ c ∈ t.head?, ok c = true) → subFrom ok true t = subFrom ok false t
  | [], _ => by simp [subFrom]
  | x :: xs, h => by
    have := h x (by simp)
    simp [subFrom, this]

/-- Inside a run, the rest of the run is dropped. -/
theorem subFrom_true (ok : Char → Bool) : ∀ (t : Text), ∃ r rest, t = r ++ rest ∧
    (∀ c ∈ r, ok c = false) ∧ (∀ c ∈ rest.head?, ok c = true) ∧
    subFrom ok true t = subFrom ok false rest
  | [] => ⟨[], [], rfl, by simp, by simp, by simp [subFrom]⟩
  | x :: xs => by
    cases hx : ok x with
    | true => exact ⟨[], x :: xs, rfl, by simp, by simpa using hx, by simp [subFrom, hx]⟩
    | false =>
      obtain ⟨r, rest, h1, h2, h3, h4⟩ := subFrom_true ok xs
      refine ⟨x :: r, rest, by simp [h1], ?_, h3, ?_⟩
      · intro c hc
        rcases List.mem_cons.mp hc with hc | hc
        · subst hc; exact hx
        · exact h2 c hc
      · simp [subFrom, hx, h4]

theorem cleaned_subFrom (ok : Char → Bool) (P : Char → Prop) (hP : ∀ c, ok c = true ↔ P c) :
    ∀ (n : Nat) (t : Text), t.length ≤ n → Cleaned P t (subFrom ok false t)
  | _, [], _ => by simpa [subFrom] using Cleaned.nil
  | 0, x :: xs, h => by simp at h
  | n + 1, x :: xs, h => by
    cases hx : ok x with
    | true =>
      have := cleaned_subFrom ok P hP n xs (by simpa using h)
      simpa [subFrom, hx] using Cleaned.keep ((hP x).mp hx) this
    | false =>
      obtain ⟨r, rest, h1, h2, h3, h4⟩ := subFrom_true ok xs
      have hl : rest.length ≤ n := by
        have : xs.length = r.length + rest.length := by rw [h1]; simp
        simp at h; omega
      have := cleaned_subFrom ok P hP n rest hl
      have hc := Cleaned.run (ok := P) (r := x :: r) (by simp)
        (by
          intro c hc
          rw [← hP]
          rcases List.mem_cons.mp hc with hc | hc
          · subst hc; simp [hx]
          · simp [h2 c hc])
        (fun c hc => (hP c).mp (h3 c hc)) this
      have e : subFrom ok false (x :: xs) = '_' :: subFrom ok false rest := by
        simp [subFrom, hx, h4]
      rw [e, h1]
      exact hc

theorem append_runs {P : Char → Prop} : ∀ {r r' rest rest' : Text},
    r ++ rest = r' ++ rest' → (∀ c ∈ r, ¬ P c) → (∀ c ∈ r', ¬ P c) →
    (∀ c ∈ rest.head?, P c) → (∀ c ∈ rest'.head?, P c) → rest = rest'
  | [], [], _, _, h, _, _, _, _ => by simpa using h
  | [], y :: ys, rest, rest', h, _, h2, h3, _ => by
    simp at h; subst h
    exact absurd (h3 y (by simp)) (h2 y (by simp))
  | x :: xs, [], rest, rest', h, h1, _, _, h4 => by
    simp at h; subst h
    exact absurd (h4 x (by simp)) (h1 x (by simp))
  | x :: xs, y :: ys, rest, rest', h, h1, h2, h3, h4 => by
    simp at h
    exact append_runs h.2 (fun c hc => h1 c (by simp [hc])) (fun c hc => h2 c (by simp [hc])) h3 h4

theorem cleaned_unique {P : Char → Prop} {t a b : Text} (ha : Cleaned P t a) :
    Cleaned P t b → a = b := by
  induction ha generalizing b with
  | nil =>
    intro hb
    generalize ht : ([] : Text) = t at hb
    cases hb with
    | nil => rfl
    | keep _ _ => simp at ht
    | run hr _ _ _ =>
      exact absurd (List.append_eq_nil_iff.mp ht.symm).1 hr
  | @keep c cs out hc _ ih =>
    intro hb
    generalize ht : c :: cs = t at hb
    cases hb with
    | nil => simp at ht
    | keep _ h => simp at ht; obtain ⟨rfl, rfl⟩ := ht; rw [ih h]
    | @run r rest _ hr h1 _ _ =>
      cases r with
      | nil => exact absurd rfl hr
      | cons y ys =>
        simp at ht
        obtain ⟨rfl, _⟩ := ht
        exact absurd hc (h1 _ (by simp))
  | @run r rest out hr h1 h2 _ ih =>
    intro hb
    generalize ht : r ++ rest = t at hb
    cases hb with
    | nil => simp at ht; exact absurd ht.1 hr
    | @keep c cs _ hc _ =>
      cases r with
      | nil => exact absurd rfl hr
      | cons y ys =>
        simp at ht
        obtain ⟨rfl, _⟩ := ht
        exact absurd hc (h1 _ (by simp))
    | @run r' rest' _ _ h1' h2' h =>
      have := append_runs ht h1 h1' h2 h2'
      subst this
      rw [ih h]

theorem undigited_noDigit (t : Text) : Undigited t (noDigit t) := by
  cases t with
  | nil => exact Or.inr ⟨by simp, rfl⟩
  | cons c cs =>
    cases h : isDigit c with
    | true =>
      have h' := h
      simp [isDigit] at h'
      exact Or.inl ⟨c, cs, rfl, h'.1, h'.2, by simp [noDigit, h]⟩
    | false =>
      have h' := h
      simp [isDigit] at h'
      refine Or.inr ⟨?_, by simp [noDigit, h]⟩
      intro x hx
      simp at hx
      subst hx
      rintro ⟨h1, h2⟩
      exact absurd h2 (by simpa using h' h1)

/-! ## Family ids -/

theorem cut_front {c : Char} : ∀ {a a' r r' : Text}, c ∉ a → c ∉ a' →
    a ++ c :: r = a' ++ c :: r' → a = a' ∧ r = r'
  | [], [], _, _, _, _, h => by simpa using h
  | [], y :: ys, _, _, _, h2, h => by
    simp at h; exact absurd h.1 (by intro e; exact h2 (by simp [e]))
  | x :: xs, [], _, _, h1, _, h => by
    simp at h; exact absurd h.1 (by intro e; exact h1 (by simp [e]))
  | x :: xs, y :: ys, _, _, h1, h2, h => by
    simp at h
    obtain ⟨h3, h4⟩ := cut_front (fun e => h1 (by simp [e])) (fun e => h2 (by simp [e])) h.2
    exact ⟨by rw [h.1, h3], h4⟩

theorem cut_back {c : Char} {a a' r r' : Text} (h1 : c ∉ a) (h2 : c ∉ a')
    (h : r ++ c :: a = r' ++ c :: a') : r = r' ∧ a = a' := by
  have := congrArg List.reverse h
  simp only [List.reverse_append, List.reverse_cons, List.append_assoc, List.singleton_append] at this
  obtain ⟨h3, h4⟩ := cut_front (by simpa using h1) (by simpa using h2) this
  exact ⟨List.reverse_inj.mp h4, List.reverse_inj.mp h3⟩

theorem join_inj {c : Char} : ∀ {l l' : List Text}, (∀ t ∈ l, t ≠ [] ∧ c ∉ t) →
    (∀ t ∈ l', t ≠ [] ∧ c ∉ t) → join c l = join c l' → l = l'
  | [], [], _, _, _ => rfl
  | [], [t], _, h2, h => absurd h.symm (h2 t (by simp)).1
  | [], t :: u :: us, _, _, h => by simp [join] at h
  | [t], [], h1, _, h => absurd h (h1 t (by simp)).1
  | t :: u :: us, [], _, _, h => by simp [join] at h
  | [t], [t'], _, _, h => by simp [join] at h; simp [h]
  | [t], t' :: u' :: us', h1, _, h => by
    simp only [join] at h
    exact absurd (show c ∈ t by rw [h]; simp) (h1 t (by simp)).2
  | t :: u :: us, [t'], _, h2, h => by
    simp only [join] at h
    exact absurd (show c ∈ t' by rw [← h]; simp) (h2 t' (by simp)).2
  | t :: u :: us, t' :: u' :: us', h1, h2, h => by
    simp only [join] at h
    obtain ⟨h3, h4⟩ := cut_front (h1 t (by simp)).2 (h2 t' (by simp)).2 h
    rw [h3, join_inj (fun x hx => h1 x (List.mem_cons_of_mem _ hx))
      (fun x hx => h2 x (List.mem_cons_of_mem _ hx)) h4]

theorem mem_join {sep c : Char} : ∀ {l : List Text}, c ∈ join sep l → c = sep ∨ ∃ t ∈ l, c ∈ t
  | [], h => by simp [join] at h
  | [t], h => Or.inr ⟨t, by simp, by simpa [join] using h⟩
  | t :: u :: us, h => by
    simp only [join, List.mem_append, List.mem_cons] at h
    rcases h with h | h | h
    · exact Or.inr ⟨t, by simp, h⟩
    · exact Or.inl h
    · rcases mem_join h with h | ⟨x, hx, hc⟩
      · exact Or.inl h
      · exact Or.inr ⟨x, List.mem_cons_of_mem _ hx, hc⟩

/-- The characters of Prometheus names. -/
def Plain (t : Text) : Prop := ∀ c ∈ t, nameChar c = true ∨ c = '_'

theorem Plain.append {a b : Text} (ha : Plain a) (hb : Plain b) : Plain (a ++ b) := by
  intro c hc
  rcases List.mem_append.mp hc with h | h
  · exact ha c h
  · exact hb c h

theorem plain_sanitizeName (t : Text) : Plain (sanitizeName t) := subFrom_chars _ _ _

theorem plain_sanitizeAttribute (t : Text) : Plain (sanitizeAttribute t) := by
  intro c hc
  rcases subFrom_chars _ _ _ c hc with h | h
  · exact Or.inl ((nameChar_iff c).mpr (Or.inl ((keyChar_iff c).mp h)))
  · exact Or.inr h

theorem plain_strip {t : Text} (h : Plain t) : Plain (strip t) := by
  intro c hc
  simp only [strip, List.mem_reverse] at hc
  have h1 := (List.dropWhile_sublist _).subset hc
  simp only [List.mem_reverse] at h1
  exact h c ((List.dropWhile_sublist _).subset h1)

theorem lookup_mem {m : List (Text × Text)} {t u : Text} (h : m.lookup t = some u) :
    (t, u) ∈ m := by
  induction m with
  | nil => simp at h
  | cons p ps ih =>
    obtain ⟨a, b⟩ := p
    rw [List.lookup_cons] at h
    split at h
    · rename_i he
      simp at he h
      simp [he, h]
    · simp [ih h]

instance (t : Text) : Decidable (Plain t) := by unfold Plain; infer_instance

theorem plain_units : ∀ p ∈ unitMappings, Plain p.2 := by decide +kernel
theorem plain_perUnits : ∀ p ∈ perUnitMappings, Plain p.2 := by decide +kernel

theorem plain_getOr {m : List (Text × Text)} (hm : ∀ p ∈ m, Plain p.2) {t : Text} (h : Plain t) :
    Plain (getOr m t) := by
  unfold getOr
  cases hl : m.lookup t with
  | none => exact h
  | some u => exact hm _ (lookup_mem hl)

theorem plain_mapUnit (u : Text) : Plain (mapUnit u) := by
  unfold mapUnit
  simp only
  split
  · rename_i v hv
    exact plain_units _ (lookup_mem hv)
  · split
    · split
      · exact plain_strip (plain_sanitizeName _)
      · split
        · exact Plain.append (by decide +kernel)
            (plain_getOr plain_perUnits (plain_sanitizeName _))
        · exact Plain.append (Plain.append (plain_getOr plain_units (plain_sanitizeName _))
            (by decide +kernel)) (plain_getOr plain_perUnits (plain_sanitizeName _))
    · exact plain_strip (plain_sanitizeName _)

theorem Plain.no_bar {t : Text} (h : Plain t) : '|' ∉ t := by
  intro hc
  rcases h _ hc with h | h
  · revert h; decide
  · revert h; decide

theorem Plain.no_percent {t : Text} (h : Plain t) : '%' ∉ t := by
  intro hc
  rcases h _ hc with h | h
  · revert h; decide
  · revert h; decide

theorem cls_no_bar (k : Kind) : '|' ∉ k.cls := by cases k <;> decide
theorem cls_inj {k k' : Kind} (h : k.cls = k'.cls) : k = k' := by
  revert h; cases k <;> cases k' <;> decide

/-- Labels as the code makes them: plain, and not empty. -/
def LabelsOK (keys : List Text) : Prop := ∀ t ∈ keys, t ≠ [] ∧ Plain t

theorem no_bar_keys {keys : List Text} (h : LabelsOK keys) : '|' ∉ join '%' keys := by
  intro hc
  rcases mem_join hc with h1 | ⟨t, ht, h1⟩
  · revert h1; decide
  · exact (h t ht).2.no_bar h1

theorem familyId_eq (k : Kind) (name doc : Text) (keys : List Text) (unit : Text) :
    familyId k name doc keys unit =
      (name ++ '|' :: (doc ++ '|' :: (join '%' keys ++ '|' :: unit))) ++ '|' :: k.cls := by
  simp [familyId, join]

/-- The id determines the family. -/
theorem familyId_inj {k k' : Kind} {name name' doc doc' unit unit' : Text}
    {keys keys' : List Text} (hn : Plain name) (hn' : Plain name') (hu : Plain unit)
    (hu' : Plain unit') (hk : LabelsOK keys) (hk' : LabelsOK keys')
    (h : familyId k name doc keys unit = familyId k' name' doc' keys' unit') :
    k = k' ∧ name = name' ∧ doc = doc' ∧ keys = keys' ∧ unit = unit' := by
  rw [familyId_eq, familyId_eq] at h
  obtain ⟨h1, h2⟩ := cut_back (cls_no_bar k) (cls_no_bar k') h
  obtain ⟨h3, h4⟩ := cut_front hn.no_bar hn'.no_bar h1
  have e : ∀ (d K u : Text), d ++ '|' :: (K ++ '|' :: u) = (d ++ '|' :: K) ++ '|' :: u := by simp
  rw [e, e] at h4
  obtain ⟨h5, h6⟩ := cut_back hu.no_bar hu'.no_bar h4
  obtain ⟨h7, h8⟩ := cut_back (no_bar_keys hk) (no_bar_keys hk') h5
  exact ⟨cls_inj h2, h3, h7,
    join_inj (fun t ht => ⟨(hk t ht).1, (hk t ht).2.no_percent⟩)
      (fun t ht => ⟨(hk' t ht).1, (hk' t ht).2.no_percent⟩) h8, h6⟩

theorem familyId_ne_target (k : Kind) (name doc : Text) (keys : List Text) (unit : Text) :
    familyId k name doc keys unit ≠ t!"target" := by
  intro h
  have h1 : '|' ∈ familyId k name doc keys unit := by rw [familyId_eq]; simp
  rw [h] at h1
  revert h1; decide

/-! ## Buckets -/

theorem convertFrom_eq : ∀ (counts : List Nat) (bounds : List Text) (total n : Nat)
    (before : List Nat), before.length = n → before.sum = total →
    convertFrom total counts bounds =
      ((bounds.zipIdx n).take counts.length).map fun b =>
        (b.1, ((before ++ counts).take (b.2 + 1)).sum)
  | [], bounds, total, n, before, _, _ => by cases bounds <;> simp [convertFrom]
  | c :: cs, [], total, n, before, _, _ => by simp [convertFrom]
  | c :: cs, b :: bs, total, n, before, h1, h2 => by
    have ih := convertFrom_eq cs bs (total + c) (n + 1) (before ++ [c])
      (by simp [h1]) (by simp [h2])
    simp only [convertFrom, List.zipIdx_cons, List.length_cons, List.take_succ_cons,
      List.map_cons]
    congr 1
    · have : (before ++ c :: cs).take (n + 1) = before ++ [c] := by
        rw [List.take_append, List.take_of_length_le (by omega)]
        simp [← h1]
      rw [this]; simp [h2]
    · rw [ih]; simp

theorem convertBuckets_eq (counts : List Nat) (bounds : List Text) :
    convertBuckets counts bounds = cumulative counts bounds := by
  unfold convertBuckets cumulative
  rw [convertFrom_eq counts _ 0 0 [] rfl rfl]
  simp


/-! ## Sorting -/

theorem insertAttr_perm (x : Text × Value) : ∀ a : Attrs, (insertAttr x a).Perm (x :: a)
  | [] => by simp [insertAttr]
  | y :: ys => by
    unfold insertAttr
    split
    · exact List.Perm.refl _
    · exact ((insertAttr_perm x ys).cons y).trans (List.Perm.swap x y ys)

theorem sortAttrs_perm : ∀ a : Attrs, (sortAttrs a).Perm a
  | [] => by simp [sortAttrs]
  | x :: xs => (insertAttr_perm x _).trans ((sortAttrs_perm xs).cons x)

theorem insertAttr_sorted (x : Text × Value) : ∀ a : Attrs, a.Pairwise (fun x y => x.1 ≤ y.1) →
    (insertAttr x a).Pairwise (fun x y => x.1 ≤ y.1)
  | [], _ => by simp [insertAttr]
  | y :: ys, h => by
    have h' := List.pairwise_cons.mp h
    unfold insertAttr
    split
    · rename_i hxy
      refine List.pairwise_cons.mpr ⟨?_, h⟩
      intro z hz
      rcases List.mem_cons.mp hz with hz | hz
      · rw [hz]; exact hxy
      · exact List.le_trans hxy (h'.1 z hz)
    · rename_i hxy
      refine List.pairwise_cons.mpr ⟨?_, insertAttr_sorted x ys h'.2⟩
      intro z hz
      rcases List.mem_cons.mp ((insertAttr_perm x ys).subset hz) with hz | hz
      · rw [hz]
        exact (List.le_total y.1 x.1).resolve_right hxy
      · exact h'.1 z hz

theorem sortAttrs_sorted : ∀ a : Attrs, (sortAttrs a).Pairwise (fun x y => x.1 ≤ y.1)
  | [] => by simp [sortAttrs]
  | x :: xs => insertAttr_sorted x _ (sortAttrs_sorted xs)

/-! ## Families -/

/-- An entry of the dictionary as the code makes it. -/
def Own (e : Text × Family) : Prop :=
  e.2.kind ≠ .info ∧ e.1 = familyId e.2.kind e.2.name e.2.doc e.2.labels e.2.unit ∧
    Plain e.2.name ∧ Plain e.2.unit ∧ LabelsOK e.2.labels ∧ e.2.samples ≠ []

/-- All that the families tell. -/
def saysAll (fs : Families) : List Told := fs.flatMap fun e => e.2.tells

/-- The metrics' part of the dictionary. -/
structure Rest (fs : Families) : Prop where
  own : ∀ e ∈ fs, Own e
  nodup : (fs.map Prod.fst).Nodup

theorem Rest.nil : Rest [] := ⟨by simp, by simp⟩

theorem addSample_ids (fid : Text) (new : Family) (smp : List Text × Reading) :
    ∀ fs : Families, (addSample fid new smp fs).map Prod.fst =
      if fid ∈ fs.map Prod.fst then fs.map Prod.fst else fs.map Prod.fst ++ [fid]
  | [] => by simp [addSample]
  | (id, f) :: fs => by
    have ih := addSample_ids fid new smp fs
    unfold addSample
    by_cases h : id = fid
    · simp [h]
    · have h' : ¬ fid = id := fun e => h e.symm
      simp only [h, if_false, List.map_cons, ih, List.mem_cons, h', false_or]
      split <;> simp

theorem addSample_own {new : Family} {smp : List Text × Reading} (hk : new.kind ≠ .info)
    (hn : Plain new.name) (hu : Plain new.unit) (hl : LabelsOK new.labels) :
    ∀ fs : Families, (∀ e ∈ fs, Own e) →
      (∀ e ∈ addSample (familyId new.kind new.name new.doc new.labels new.unit) new smp fs, Own e) ∧
      (saysAll (addSample (familyId new.kind new.name new.doc new.labels new.unit) new smp fs)).Perm
        (⟨new.kind, new.name, new.doc, new.unit, new.labels.zip smp.1, smp.2⟩ :: saysAll fs)
  | [], _ => by
    constructor
    · intro e he
      simp [addSample] at he
      subst he
      exact ⟨hk, rfl, hn, hu, hl, by simp⟩
    · simp [addSample, saysAll, Family.tells]
  | (id, f) :: fs, ho => by
    obtain ⟨ih1, ih2⟩ := addSample_own (smp := smp) hk hn hu hl fs
      (fun e he => ho e (List.mem_cons_of_mem _ he))
    have hf := ho (id, f) (by simp)
    unfold addSample
    split
    · rename_i hid
      obtain ⟨g1, g2, g3, g4, g5, g6⟩ := hf
      simp only at g1 g2 g3 g4 g5 g6
      rw [g2] at hid
      obtain ⟨e1, e2, e3, e4, e5⟩ := familyId_inj g3 hn g4 hu g5 hl hid
      constructor
      · intro e he
        rcases List.mem_cons.mp he with he | he
        · subst he
          exact ⟨g1, g2, g3, g4, g5, by simp⟩
        · exact ho e (List.mem_cons_of_mem _ he)
      · simp only [saysAll, List.flatMap_cons, Family.tells, List.map_append, List.map_cons,
          List.map_nil, List.append_assoc, List.singleton_append, e1, e2, e3, e4, e5]
        exact List.perm_middle
    · constructor
      · intro e he
        rcases List.mem_cons.mp he with he | he
        · subst he; exact hf
        · exact ih1 e he
      · simp only [saysAll, List.flatMap_cons]
        refine (List.Perm.append_left _ ih2).trans ?_
        exact List.perm_middle

/-- The fact of one data point. -/
def fact (kind : Kind) (m : Metric) (a : Attrs) (r : Reading) : Told :=
  ⟨kind, sanitizeFullName m.name, m.description, mapUnit m.unit, labelsOf a, r⟩

theorem sanitizeAttribute_ne {k : Text} (h : k ≠ []) : sanitizeAttribute k ≠ [] := by
  cases k with
  | nil => exact absurd rfl h
  | cons c cs =>
    cases hc : isDigit c <;> simp only [sanitizeAttribute, noDigit, hc, if_true, if_false,
      Bool.false_eq_true] <;> unfold subFrom <;> split <;> simp

theorem checkValue_eq (v : Value) : checkValue v = labelText v := by cases v <;> rfl

theorem zip_map_map {α β γ : Type} (f : α → β) (g : α → γ) :
    ∀ l : List α, (l.map f).zip (l.map g) = l.map fun x => (f x, g x)
  | [] => rfl
  | x :: xs => by simp [zip_map_map f g xs]

theorem addPoint_rest {kind : Kind} {m : Metric} {a : Attrs} {r : Reading} {fs : Families}
    (hk : kind ≠ .info) (ha : ∀ x ∈ a, x.1 ≠ []) (h : Rest fs) :
    Rest (addPoint kind m a r fs) ∧
      (saysAll (addPoint kind m a r fs)).Perm (fact kind m a r :: saysAll fs) := by
  have hl : LabelsOK ((sortAttrs a).map fun x => sanitizeAttribute x.1) := by
    intro t ht
    obtain ⟨x, hx, rfl⟩ := List.mem_map.mp ht
    have : x ∈ a := (sortAttrs_perm a).subset hx
    exact ⟨sanitizeAttribute_ne (ha x this), plain_sanitizeAttribute _⟩
  have := addSample_own (new := ⟨kind, sanitizeFullName m.name, m.description,
      (sortAttrs a).map fun x => sanitizeAttribute x.1, mapUnit m.unit, []⟩)
    (smp := ((sortAttrs a).map fun x => checkValue x.2, r)) hk (plain_sanitizeName _)
    (plain_mapUnit _) hl fs h.own
  refine ⟨⟨this.1, ?_⟩, ?_⟩
  · show ((addSample _ _ _ fs).map Prod.fst).Nodup
    rw [addSample_ids]
    split
    · exact h.nodup
    · rename_i hn
      rw [List.nodup_append]
      refine ⟨h.nodup, by simp, ?_⟩
      intro x hx y hy e
      simp at hy
      exact hn (by rw [← hy, ← e]; exact hx)
  · have h2 := this.2
    simp only [zip_map_map, checkValue_eq] at h2
    exact h2

/-- The facts of a metric, point by point. -/
theorem facts_points (m : Metric) :
    m.facts = (points m.data).map fun p => fact p.1 m p.2.1 p.2.2 := by
  unfold Metric.facts points
  cases m.data with
  | sum a b ps => cases a <;> cases b <;> simp [fact]
  | gauge ps => simp [fact]
  | histogram ps => simp [fact, convertBuckets_eq]

theorem attrs_points (m : Metric) : m.attrs = (points m.data).map fun p => p.2.1 := by
  unfold Metric.attrs points
  cases m.data with
  | sum a b ps => cases a <;> cases b <;> simp
  | gauge ps => simp
  | histogram ps => simp

theorem kind_points (d : Data) : ∀ p ∈ points d, p.1 ≠ .info := by
  intro p hp
  unfold points at hp
  cases d with
  | sum a b ps => cases a <;> cases b <;> simp at hp <;> obtain ⟨x, _, rfl⟩ := hp <;> simp
  | gauge ps => simp at hp; obtain ⟨x, _, rfl⟩ := hp; simp
  | histogram ps => simp at hp; obtain ⟨x, _, rfl⟩ := hp; simp

theorem translateMetric_rest {m : Metric} (hm : ∀ a ∈ m.attrs, ∀ x ∈ a, x.1 ≠ [])
    {fs : Families} (h : Rest fs) : Rest (translateMetric fs m) ∧
      (saysAll (translateMetric fs m)).Perm (m.facts ++ saysAll fs) := by
  have key : ∀ (ps : List (Kind × Attrs × Reading)), (∀ p ∈ ps, p.1 ≠ .info) →
      (∀ p ∈ ps, ∀ x ∈ p.2.1, x.1 ≠ []) → ∀ fs, Rest fs →
      Rest (ps.foldl (fun fs p => addPoint p.1 m p.2.1 p.2.2 fs) fs) ∧
      (saysAll (ps.foldl (fun fs p => addPoint p.1 m p.2.1 p.2.2 fs) fs)).Perm
        ((ps.map fun p => fact p.1 m p.2.1 p.2.2) ++ saysAll fs) := by
    intro ps
    induction ps with
    | nil => intro _ _ fs h; exact ⟨h, by simp⟩
    | cons p ps ih =>
      intro h1 h2 fs h
      obtain ⟨g1, g2⟩ := addPoint_rest (m := m) (r := p.2.2) (h1 p (by simp)) (h2 p (by simp)) h
      obtain ⟨g3, g4⟩ := ih (fun q hq => h1 q (by simp [hq])) (fun q hq => h2 q (by simp [hq])) _ g1
      refine ⟨g3, g4.trans ?_⟩
      refine (List.Perm.append_left _ g2).trans ?_
      simp only [List.map_cons, List.cons_append]
      exact List.perm_middle
  rw [facts_points]
  refine key _ (kind_points _) ?_ fs h
  intro p hp
  exact hm p.2.1 (by rw [attrs_points]; exact List.mem_map.mpr ⟨p, hp, rfl⟩)

theorem translate_rest {d : Measurement} (hd : d.Named) {fs : Families} (h : Rest fs) :
    Rest (translate d fs) ∧ (saysAll (translate d fs)).Perm (d.facts ++ saysAll fs) := by
  obtain ⟨res, ms⟩ := d
  unfold translate Measurement.facts
  simp only [Measurement.Named] at hd ⊢
  induction ms generalizing fs with
  | nil => exact ⟨h, by simp⟩
  | cons m ms ih =>
    obtain ⟨g1, g2⟩ := translateMetric_rest (hd m (by simp)) h
    obtain ⟨g3, g4⟩ := ih g1 (fun m' hm => hd m' (by simp [hm]))
    refine ⟨g3, g4.trans ?_⟩
    refine (List.Perm.append_left _ g2).trans ?_
    simp only [List.flatMap_cons, ← List.append_assoc]
    exact List.Perm.append_right _ List.perm_append_comm

/-! The description of the target stays at the head. -/

theorem addSample_target {fid : Text} (hf : fid ≠ t!"target") (new : Family)
    (smp : List Text × Reading) (i : Family) (fs : Families) :
    addSample fid new smp ((t!"target", i) :: fs) = (t!"target", i) :: addSample fid new smp fs := by
  have : ¬ t!"target" = fid := fun e => hf e.symm
  rw [addSample, if_neg this]

theorem translate_target (d : Measurement) (i : Family) (fs : Families) :
    translate d ((t!"target", i) :: fs) = (t!"target", i) :: translate d fs := by
  have h1 : ∀ kind m a r fs, addPoint kind m a r ((t!"target", i) :: fs) =
      (t!"target", i) :: addPoint kind m a r fs := by
    intro kind m a r fs
    exact addSample_target (familyId_ne_target _ _ _ _ _) _ _ _ _
  have h2 : ∀ fs m, translateMetric ((t!"target", i) :: fs) m =
      (t!"target", i) :: translateMetric fs m := by
    intro fs m
    unfold translateMetric
    generalize points m.data = ps
    induction ps generalizing fs with
    | nil => rfl
    | cons p ps ih => simp only [List.foldl_cons, h1, ih]
  unfold translate
  generalize d.metrics = ms
  induction ms generalizing fs with
  | nil => rfl
  | cons m ms ih => simp only [List.foldl_cons, h2, ih]

theorem header_nodup {fs : Families} (h : Rest fs) :
    ((fs.map Prod.snd).map Family.header).Nodup := by
  have : fs.map Prod.fst = ((fs.map Prod.snd).map Family.header).map
      (fun k => familyId k.1 k.2.1 k.2.2.1 k.2.2.2.1 k.2.2.2.2) := by
    rw [List.map_map, List.map_map]
    exact List.map_congr_left fun e he => (h.own e he).2.1
  have hn := h.nodup
  rw [this] at hn
  exact List.Pairwise.of_map _ (fun a b hab e => hab (by rw [e])) hn

/-- A scrape that meets one measurement tells it. -/
theorem tells_translate {d : Measurement} (hd : d.Named) {info : Family} (hi : info.kind = .info) :
    Tells ((translate d [(t!"target", info)]).map Prod.snd) d := by
  rw [translate_target]
  obtain ⟨h1, h2⟩ := translate_rest hd Rest.nil
  refine ⟨info, (translate d []).map Prod.snd, rfl, hi, ?_, header_nodup h1, ?_⟩
  · simpa [saysAll, List.flatMap_map] using h2
  · intro f hf
    obtain ⟨e, he, rfl⟩ := List.mem_map.mp hf
    exact ⟨(h1.own e he).1, (h1.own e he).2.2.2.2.2⟩


/-! ## One scrape at a time -/

theorem run_snoc (es : List Ev) (e : Ev) : run (es ++ [e]) = step (run es) e := by
  simp [run, List.foldl_append]

theorem OneAtATime.init {es : List Ev} {e : Ev} (h : OneAtATime (es ++ [e])) : OneAtATime es := by
  intro pre i d post he
  exact h pre i d (post ++ [e]) (by simp [he])

theorem Measured.snoc {es : List Ev} {i : Nat} {d : Measurement} (e : Ev)
    (h : Measured es i d) : Measured (es ++ [e]) i d := by
  obtain ⟨pre, post, h1, h2⟩ := h
  exact ⟨pre, post ++ [e], by simp [h1], h2⟩

theorem Measured.unique {es : List Ev} {i : Nat} {d d' : Measurement}
    (h : Measured es i d) (h' : Measured es i d') : d = d' := by
  obtain ⟨pre, post, h1, h2⟩ := h
  obtain ⟨pre', post', h1', h2'⟩ := h'
  rw [h1] at h1'
  clear h1
  induction pre generalizing pre' with
  | nil =>
    cases pre' with
    | nil => simp at h1'; exact h1'.1
    | cons x xs =>
      simp at h1'
      exact absurd (by simp [h1'.1]) (h2' d)
  | cons y ys ih =>
    cases pre' with
    | nil =>
      simp at h1'
      exact absurd (by simp [h1'.1]) (h2 d')
    | cons x xs =>
      simp at h1'
      exact ih (fun d hd => h2 d (by simp [hd])) xs h1'.2 (fun d hd => h2' d (by simp [hd]))

theorem snocInduction {α : Type} {P : List α → Prop} (h0 : P [])
    (hs : ∀ l a, P l → P (l ++ [a])) (l : List α) : P l := by
  have : ∀ l : List α, P l.reverse := by
    intro l
    induction l with
    | nil => exact h0
    | cons a l ih => simpa using hs _ a ih
  simpa using this l.reverse

/-- A scrape is known when its `start` has happened. -/
theorem known_iff (es : List Ev) (i : Nat) :
    (run es).scrapes i = none ↔ ∀ d, Ev.start i d ∉ es := by
  induction es using snocInduction with
  | h0 => simp [run, init]
  | hs es e ih =>
    rw [run_snoc]
    have goOn_scrapes : ∀ (s : State) (j : Nat) (c : Scrape), s.scrapes j = some c →
        ((goOn s j c).scrapes i = none ↔ s.scrapes i = none) := by
      intro s j c hj
      by_cases h : i = j
      · subst h
        unfold goOn
        split <;> (try split) <;> simp [State.put, hj]
      · unfold goOn
        split <;> (try split) <;> simp [State.put, h]
    cases e with
    | start j d =>
      simp only [step]
      cases hj : (run es).scrapes j with
      | some c =>
        simp only [List.mem_append, not_or, List.mem_singleton, Ev.start.injEq]
        by_cases h : i = j
        · subst h
          rw [hj]
          constructor
          · intro h; cases h
          · intro h
            have := ih.mpr (fun d => (h d).1)
            rw [hj] at this; cases this
        · simp [h, ih]
      | none =>
        by_cases h : i = j
        · subst h
          simp only [State.put, if_true, List.mem_append, not_or]
          constructor
          · intro h; cases h
          · intro h; exact absurd (by simp) (h d).2
        · simp [State.put, h, ih]
    | go j =>
      simp only [step]
      cases hj : (run es).scrapes j with
      | none => simp [ih]
      | some c =>
        simp only [goOn_scrapes _ _ _ hj, ih, List.mem_append, not_or]
        simp

/-- Where a scrape that is alone can be, with what it has and what it was told. -/
def Shape (q : List Measurement) (c : Scrape) (d : Measurement) : Prop :=
  (c.phase = .info ∧ q = [d] ∧ c.families = [] ∧ c.told = []) ∨
  ((c.phase = .head ∨ c.phase = .pop) ∧ q = [d] ∧
    (∃ info, info.kind = .info ∧ c.families = [(t!"target", info)]) ∧ c.told = []) ∨
  (c.phase = .head ∧ q = [] ∧ Tells c.told d) ∨
  (c.phase = .done ∧ Tells c.told d)

/-- The invariant of histories with one scrape at a time. -/
structure Seq (es : List Ev) (s : State) : Prop where
  shape : ∀ i c, s.scrapes i = some c → ∃ d, Measured es i d ∧ d.Named ∧ Shape s.queue c d
  one : ∀ i j, Busy s i → Busy s j → i = j
  idle : (∀ i, ¬ Busy s i) → s.queue = []
  target : ∀ f, s.target = some f → f.kind = .info

theorem infoMetric_kind (a : Attrs) : (infoMetric a).kind = .info := rfl

theorem Shape.settled {q : List Measurement} {c : Scrape} {d : Measurement}
    (h : Shape q c d) (hb : ¬ (c.phase ≠ .done ∧ c.phase ≠ .failed)) (q' : List Measurement) :
    Shape q' c d := by
  rcases h with h | h | h | h
  · exact absurd ⟨by simp [h.1], by simp [h.1]⟩ hb
  · rcases h.1 with h1 | h1 <;> exact absurd ⟨by simp [h1], by simp [h1]⟩ hb
  · exact absurd ⟨by simp [h.1], by simp [h.1]⟩ hb
  · exact Or.inr (Or.inr (Or.inr h))

theorem Seq.put {es : List Ev} {s : State} (e : Ev) (h : Seq es s) {i : Nat} {c : Scrape}
    (hc : s.scrapes i = some c) (hb : c.phase ≠ .done ∧ c.phase ≠ .failed)
    {q : List Measurement} {t : Option Family} {c' : Scrape} {d : Measurement}
    (hm : Measured es i d) (hn : d.Named)
    (hs : Shape q c' d) (hi : c'.phase = .done → q = [])
    (ht : ∀ f, t = some f → f.kind = .info) :
    Seq (es ++ [e]) (State.put ⟨q, t, s.scrapes⟩ i c') := by
  have hbi : Busy s i := ⟨c, hc, hb⟩
  have others : ∀ j x, j ≠ i → s.scrapes j = some x → ¬ (x.phase ≠ .done ∧ x.phase ≠ .failed) := by
    intro j x hj hx hbx
    exact hj (h.one j i ⟨x, hx, hbx⟩ hbi)
  refine ⟨?_, ?_, ?_, ht⟩
  · intro j x hx
    simp only [State.put] at hx
    by_cases hj : j = i
    · rw [if_pos hj] at hx
      cases hx
      subst hj
      exact ⟨d, hm.snoc e, hn, hs⟩
    · rw [if_neg hj] at hx
      obtain ⟨d', h1, h2, h3⟩ := h.shape j x hx
      exact ⟨d', h1.snoc e, h2, h3.settled (others j x hj hx) _⟩
  · intro j k hj hk
    have sub : ∀ j, Busy (State.put ⟨q, t, s.scrapes⟩ i c') j → j = i := by
      intro j ⟨x, hx, hbx⟩
      simp only [State.put] at hx
      by_cases hji : j = i
      · exact hji
      · rw [if_neg hji] at hx
        exact absurd hbx (others j x hji hx)
    rw [sub j hj, sub k hk]
  · intro hidle
    apply hi
    have := hidle i
    by_cases hd : c'.phase = .done
    · exact hd
    · exfalso
      apply this
      refine ⟨c', by simp [State.put], hd, ?_⟩
      rcases hs with h | h | h | h
      · simp [h.1]
      · rcases h.1 with h1 | h1 <;> simp [h1]
      · simp [h.1]
      · simp [h.1]

theorem Seq.run {es : List Ev} (h1 : OneAtATime es) (h2 : ∀ i d, Ev.start i d ∈ es → d.Named) :
    Seq es (run es) := by
  induction es using snocInduction with
  | h0 =>
    exact ⟨by intro i c h; simp [Exporter.run, init] at h,
      by intro i j ⟨c, hc, _⟩; simp [Exporter.run, init] at hc,
      fun _ => rfl, by intro f h; simp [Exporter.run, init] at h⟩
  | hs es e ih =>
    have ih := ih h1.init (fun i d h => h2 i d (by simp [h]))
    rw [run_snoc]
    have keep : Seq (es ++ [e]) (Exporter.run es) :=
      ⟨fun i c hc => by
          obtain ⟨d, g1, g2⟩ := ih.shape i c hc
          exact ⟨d, g1.snoc e, g2⟩, ih.one, ih.idle, ih.target⟩
    cases e with
    | start i d =>
      have hfree := h1 es i d [] (by simp)
      have hq := ih.idle hfree
      simp only [step]
      cases hi : (Exporter.run es).scrapes i with
      | some c => exact keep
      | none =>
        have others : ∀ j x, (Exporter.run es).scrapes j = some x →
            ¬ (x.phase ≠ .done ∧ x.phase ≠ .failed) :=
          fun j x hx hb => hfree j ⟨x, hx, hb⟩
        have sub : ∀ j, Busy (State.put { Exporter.run es with queue := (Exporter.run es).queue ++ [d] }
            i ⟨.info, [], []⟩) j → j = i := by
          intro j ⟨x, hx, hbx⟩
          simp only [State.put] at hx
          by_cases hji : j = i
          · exact hji
          · rw [if_neg hji] at hx
            exact absurd hbx (others j x hx)
        refine ⟨?_, ?_, ?_, ih.target⟩
        · intro j x hx
          simp only [State.put] at hx
          by_cases hj : j = i
          · rw [if_pos hj] at hx
            cases hx
            subst hj
            refine ⟨d, ⟨es, [], by simp, (known_iff es j).mp hi⟩, h2 j d (by simp), ?_⟩
            exact Or.inl ⟨rfl, by simp [State.put, hq], rfl, rfl⟩
          · rw [if_neg hj] at hx
            obtain ⟨d', g1, g2, g3⟩ := ih.shape j x hx
            exact ⟨d', g1.snoc _, g2, g3.settled (others j x hx) _⟩
        · intro j k hj hk
          rw [sub j hj, sub k hk]
        · intro hidle
          exfalso
          exact hidle i ⟨⟨.info, [], []⟩, by simp [State.put], by simp, by simp⟩
    | go i =>
      simp only [step]
      cases hi : (Exporter.run es).scrapes i with
      | none => exact keep
      | some c =>
        obtain ⟨d, g1, g2, g3⟩ := ih.shape i c hi
        obtain ⟨ph, fs, told⟩ := c
        rcases g3 with ⟨p1, p2, p3, p4⟩ | ⟨p1, p2, ⟨info, p3, p4⟩, p5⟩ | ⟨p1, p2, p3⟩ | ⟨p1, p2⟩
        · simp only at p1 p3 p4
          subst p1 p3 p4
          simp only [goOn, p2]
          have hk : ((Exporter.run es).target.getD (infoMetric d.resource)).kind = .info := by
            cases ht : (Exporter.run es).target with
            | none => rfl
            | some f => exact ih.target f ht
          refine Seq.put _ ih hi ⟨by simp, by simp⟩ (q := [d]) g1 g2 ?_ (by intro h; cases h) ?_
          · exact Or.inr (Or.inl ⟨Or.inl rfl, rfl, ⟨_, hk, rfl⟩, rfl⟩)
          · intro f hf
            cases hf
            exact hk
        · simp only at p1 p4 p5
          subst p4 p5
          rcases p1 with p1 | p1
          · subst p1
            simp only [goOn, p2]
            exact Seq.put _ ih hi ⟨by simp, by simp⟩ g1 g2
              (Or.inr (Or.inl ⟨Or.inr rfl, p2, ⟨info, p3, rfl⟩, rfl⟩)) (by simp) ih.target
          · subst p1
            simp only [goOn, p2]
            refine Seq.put _ ih hi ⟨by simp, by simp⟩ g1 g2
              (Or.inr (Or.inr (Or.inl ⟨rfl, rfl, ?_⟩))) (by simp) ih.target
            simpa using tells_translate g2 p3
        · simp only at p1 p3
          subst p1
          simp only [goOn, p2]
          exact Seq.put _ ih hi ⟨by simp, by simp⟩ g1 g2
            (Or.inr (Or.inr (Or.inr ⟨rfl, p3⟩))) (fun _ => p2) ih.target
        · simp only at p1
          subst p1
          exact keep

/-! ## Any number of scrapes -/

theorem FirstMeasured.snoc {es : List Ev} {d : Measurement} (e : Ev)
    (h : FirstMeasured es d) : FirstMeasured (es ++ [e]) d := by
  obtain ⟨i, pre, post, h1, h2⟩ := h
  exact ⟨i, pre, post ++ [e], by simp [h1], h2⟩

theorem Truthful.snoc {es : List Ev} {f : Family} (e : Ev)
    (h : Truthful es f) : Truthful (es ++ [e]) f := by
  rcases h with ⟨d, h1, h2⟩ | ⟨h1, h2⟩
  · exact Or.inl ⟨d, h1.snoc e, h2⟩
  · refine Or.inr ⟨h1, fun t ht => ?_⟩
    obtain ⟨i, d, h3, h4⟩ := h2 t ht
    exact ⟨i, d, h3.snoc e, h4⟩

theorem setItem_lookup (k v : Text) : ∀ (is : List (Text × Text)) (x : Text),
    (setItem k v is).lookup x = if x = k then some v else is.lookup x
  | [], x => by
    by_cases h : x = k
    · simp [setItem, h]
    · have h' : (x == k) = false := by simpa using h
      simp [setItem, List.lookup_cons, h, h']
  | (k', v') :: is, x => by
    unfold setItem
    by_cases h : k' = k
    · subst h
      by_cases hx : x = k'
      · simp [hx]
      · have h' : (x == k') = false := by simpa using hx
        simp [List.lookup_cons, hx, h']
    · simp only [h, if_false, List.lookup_cons, setItem_lookup k v is x]
      by_cases hx : x = k'
      · subst hx; simp [h]
      · have : (x == k') = false := by simpa using hx
        simp [this]

theorem setItem_keys (k v : Text) : ∀ (is : List (Text × Text)),
    (setItem k v is).map Prod.fst =
      if k ∈ is.map Prod.fst then is.map Prod.fst else is.map Prod.fst ++ [k]
  | [] => by simp [setItem]
  | (k', v') :: is => by
    unfold setItem
    by_cases h : k' = k
    · simp [h]
    · have h' : ¬ k = k' := fun e => h e.symm
      simp only [h, if_false, List.map_cons, setItem_keys k v is, List.mem_cons, h', false_or]
      split <;> simp

theorem infoMetric_describes (a : Attrs) : Describes (infoMetric a) a := by
  refine ⟨rfl, rfl, _, _, rfl, ?_, ?_⟩
  · have key : ∀ (a : Attrs) (is : List (Text × Text)), (is.map Prod.fst).Nodup →
        ((a.foldl (fun d a => setItem (sanitizeAttribute a.1) (checkValue a.2) d) is).map
          Prod.fst).Nodup := by
      intro a
      induction a with
      | nil => intro is h; exact h
      | cons x xs ih =>
        intro is h
        apply ih
        rw [setItem_keys]
        split
        · exact h
        · rename_i hn
          rw [List.nodup_append]
          refine ⟨h, by simp, ?_⟩
          intro y hy z hz e
          simp at hz
          exact hn (by rw [← hz, ← e]; exact hy)
    exact key a [] (by simp)
  · intro k
    have key : ∀ (a : Attrs) (is : List (Text × Text)),
        (a.foldl (fun d a => setItem (sanitizeAttribute a.1) (checkValue a.2) d) is).lookup k =
          ((a.reverse.find? fun a => sanitizeAttribute a.1 = k).map fun a => labelText a.2).or
            (is.lookup k) := by
      intro a
      induction a with
      | nil => intro is; simp
      | cons x xs ih =>
        intro is
        rw [List.foldl_cons, ih, setItem_lookup]
        simp only [List.reverse_cons, List.find?_append]
        cases List.find? (fun a => decide (sanitizeAttribute a.fst = k)) xs.reverse with
        | some y => simp
        | none =>
          by_cases h : sanitizeAttribute x.1 = k
          · simp [h, checkValue_eq]
          · have h' : ¬ k = sanitizeAttribute x.1 := fun e => h e.symm
            simp [h, h']
    have := key a []
    simpa using this

/-- What holds of one scrape whatever the others do. -/
structure Fair (es : List Ev) (t : Option Family) (c : Scrape) : Prop where
  fams : ∃ rest, Rest rest ∧ (∀ x ∈ saysAll rest, ∃ i d, Measured es i d ∧ x ∈ d.facts) ∧
    (c.families = rest ∨ ∃ f, t = some f ∧ c.families = (t!"target", f) :: rest)
  told : ∀ f ∈ c.told, Truthful es f

theorem Fair.snoc {es : List Ev} {t : Option Family} {c : Scrape} (e : Ev) (h : Fair es t c) :
    Fair (es ++ [e]) t c := by
  obtain ⟨rest, h1, h2, h3⟩ := h.fams
  refine ⟨⟨rest, h1, ?_, h3⟩, fun f hf => (h.told f hf).snoc e⟩
  intro x hx
  obtain ⟨i, d, g1, g2⟩ := h2 x hx
  exact ⟨i, d, g1.snoc e, g2⟩

/-- The invariant of all histories. -/
structure Any (es : List Ev) (s : State) : Prop where
  queue : ∀ d ∈ s.queue, d.Named ∧ ∃ i, Measured es i d
  fair : ∀ i c, s.scrapes i = some c → Fair es s.target c
  target : ∀ f, s.target = some f → ∃ d, FirstMeasured es d ∧ Describes f d.resource
  fresh : s.target = none → (∀ i c, s.scrapes i = some c → c = ⟨.info, [], []⟩ ∧ s.queue ≠ []) ∧
    (∀ d q, s.queue = d :: q → FirstMeasured es d)

theorem Any.snoc {es : List Ev} {s : State} (e : Ev) (h : Any es s) : Any (es ++ [e]) s := by
  refine ⟨?_, fun i c hc => (h.fair i c hc).snoc e, ?_, ?_⟩
  · intro d hd
    obtain ⟨h1, i, h2⟩ := h.queue d hd
    exact ⟨h1, i, h2.snoc e⟩
  · intro f hf
    obtain ⟨d, h1, h2⟩ := h.target f hf
    exact ⟨d, h1.snoc e, h2⟩
  · intro ht
    exact ⟨(h.fresh ht).1, fun d q hq => ((h.fresh ht).2 d q hq).snoc e⟩

/-- A scrape of a collector that knows its target takes a step. -/
theorem Any.put {es : List Ev} {s : State} (h : Any es s) {q : List Measurement}
    {t : Option Family} {i : Nat} {c : Scrape} (hq : ∀ d ∈ q, d ∈ s.queue)
    (ht : s.target = none ∨ t = s.target) (hs : t ≠ none)
    (ht' : ∀ f, t = some f → ∃ d, FirstMeasured es d ∧ Describes f d.resource)
    (hc : Fair es t c) : Any es (State.put ⟨q, t, s.scrapes⟩ i c) := by
  refine ⟨fun d hd => h.queue d (hq d hd), ?_, ht', fun e => absurd e hs⟩
  intro j x hx
  simp only [State.put] at hx ⊢
  by_cases hj : j = i
  · rw [if_pos hj] at hx; cases hx; exact hc
  · rw [if_neg hj] at hx
    rcases ht with ht | ht
    · obtain ⟨rfl, _⟩ := (h.fresh ht).1 j x hx
      exact ⟨⟨[], Rest.nil, by simp [saysAll], Or.inl rfl⟩, by simp⟩
    · subst ht; exact h.fair j x hx

theorem tells_says {fs : Families} {f : Family} (hf : f ∈ fs.map Prod.snd) :
    ∀ x ∈ f.tells, x ∈ saysAll fs := by
  intro x hx
  obtain ⟨e, he, rfl⟩ := List.mem_map.mp hf
  exact List.mem_flatMap.mpr ⟨e, he, hx⟩

theorem Any.run {es : List Ev} (h2 : ∀ i d, Ev.start i d ∈ es → d.Named) : Any es (run es) := by
  induction es using snocInduction with
  | h0 =>
    exact ⟨by intro d h; simp [Exporter.run, init] at h,
      by intro i c h; simp [Exporter.run, init] at h,
      by intro f h; simp [Exporter.run, init] at h,
      fun _ => ⟨by intro i c h; simp [Exporter.run, init] at h,
        by intro d q h; simp [Exporter.run, init] at h⟩⟩
  | hs es e ih =>
    have ih := ih (fun i d h => h2 i d (by simp [h]))
    rw [run_snoc]
    have keep := ih.snoc e
    cases e with
    | start i d =>
      simp only [step]
      cases hi : (Exporter.run es).scrapes i with
      | some c => exact keep
      | none =>
        have hm : Measured (es ++ [.start i d]) i d := ⟨es, [], by simp, (known_iff es i).mp hi⟩
        refine ⟨?_, ?_, keep.target, ?_⟩
        · intro d' hd
          simp only [State.put, List.mem_append, List.mem_singleton] at hd
          rcases hd with hd | hd
          · exact keep.queue d' hd
          · subst hd; exact ⟨h2 i d' (by simp), i, hm⟩
        · intro j x hx
          simp only [State.put] at hx ⊢
          by_cases hj : j = i
          · rw [if_pos hj] at hx; cases hx
            exact ⟨⟨[], Rest.nil, by simp [saysAll], Or.inl rfl⟩, by simp⟩
          · rw [if_neg hj] at hx; exact keep.fair j x hx
        · intro ht
          have ht' : (Exporter.run es).target = none := ht
          obtain ⟨f1, f2⟩ := keep.fresh ht'
          constructor
          · intro j x hx
            simp only [State.put] at hx ⊢
            refine ⟨?_, by simp⟩
            by_cases hj : j = i
            · rw [if_pos hj] at hx; cases hx; rfl
            · rw [if_neg hj] at hx; exact (f1 j x hx).1
          · intro d' q hq
            simp only [State.put] at hq
            cases hq' : (Exporter.run es).queue with
            | cons a b =>
              rw [hq'] at hq
              simp at hq
              rw [← hq.1]
              exact f2 a b hq'
            | nil =>
              rw [hq'] at hq
              simp at hq
              rw [← hq.1]
              refine ⟨i, es, [], by simp, ?_⟩
              intro j d'' hmem
              cases hj : (Exporter.run es).scrapes j with
              | none => exact (known_iff es j).mp hj d'' hmem
              | some x => exact (f1 j x hj).2 hq'
    | go i =>
      simp only [step]
      cases hi : (Exporter.run es).scrapes i with
      | none => exact keep
      | some c =>
        have hf := keep.fair i c hi
        have hstill : c.phase ≠ .info → (Exporter.run es).target ≠ none := by
          intro hp ht
          exact hp (by rw [((keep.fresh ht).1 i c hi).1])
        obtain ⟨ph, fs, told⟩ := c
        have same : ∀ ph', Fair (es ++ [.go i]) (Exporter.run es).target ⟨ph', fs, told⟩ :=
          fun _ => ⟨hf.fams, hf.told⟩
        cases ph with
        | info =>
          cases hq : (Exporter.run es).queue with
          | nil =>
            simp only [goOn, hq]
            have ht : (Exporter.run es).target ≠ none := by
              intro ht
              exact ((keep.fresh ht).1 i _ hi).2 hq
            exact Any.put keep (q := (Exporter.run es).queue) (fun _ h => h) (Or.inr rfl) ht
              keep.target (same _)
          | cons d q =>
            simp only [goOn, hq]
            cases ht : (Exporter.run es).target with
            | some f =>
              simp only [Option.getD_some]
              refine Any.put keep (q := d :: q) (fun _ h => by rw [hq]; exact h) (Or.inr ht.symm)
                (by simp) (fun g hg => keep.target g (by rw [ht]; exact hg)) ?_
              exact ⟨⟨[], Rest.nil, by simp [saysAll], Or.inr ⟨f, rfl, rfl⟩⟩, hf.told⟩
            | none =>
              simp only [Option.getD_none]
              have hd : FirstMeasured (es ++ [.go i]) d := (keep.fresh ht).2 d q hq
              refine Any.put keep (q := d :: q) (t := some (infoMetric d.resource))
                (fun _ h => by rw [hq]; exact h) (Or.inl ht) (by simp) ?_ ?_
              · intro f h
                cases h
                exact ⟨d, hd, infoMetric_describes _⟩
              · exact ⟨⟨[], Rest.nil, by simp [saysAll], Or.inr ⟨_, rfl, rfl⟩⟩, hf.told⟩
        | head =>
          have ht := hstill (by simp)
          cases hq : (Exporter.run es).queue with
          | nil =>
            simp only [goOn, hq]
            exact Any.put keep (q := (Exporter.run es).queue) (fun _ h => h) (Or.inr rfl) ht
              keep.target (same _)
          | cons d q =>
            simp only [goOn, hq]
            exact Any.put keep (q := (Exporter.run es).queue) (fun _ h => h) (Or.inr rfl) ht
              keep.target (same _)
        | pop =>
          have ht := hstill (by simp)
          cases hq : (Exporter.run es).queue with
          | nil =>
            simp only [goOn, hq]
            exact Any.put keep (q := (Exporter.run es).queue) (fun _ h => h) (Or.inr rfl) ht
              keep.target (same _)
          | cons d q =>
            simp only [goOn, hq]
            obtain ⟨hn, k, hm⟩ := keep.queue d (by rw [hq]; simp)
            obtain ⟨rest, r1, r2, r3⟩ := hf.fams
            obtain ⟨g1, g2⟩ := translate_rest hn r1
            have g3 : ∀ x ∈ saysAll (translate d rest), ∃ i' d', Measured (es ++ [.go i]) i' d' ∧
                x ∈ d'.facts := by
              intro x hx
              rcases List.mem_append.mp (g2.subset hx) with h | h
              · exact ⟨k, d, hm, h⟩
              · exact r2 x h
            have g4 : ∀ f ∈ (translate d rest).map Prod.snd, Truthful (es ++ [.go i]) f := by
              intro f h
              refine Or.inr ⟨?_, fun x hx => g3 x (tells_says h x hx)⟩
              obtain ⟨e, he, rfl⟩ := List.mem_map.mp h
              exact (g1.own e he).1
            refine Any.put keep (fun _ h => by rw [hq]; exact List.mem_cons_of_mem _ h) (Or.inr rfl) ht
              keep.target ⟨⟨translate d rest, g1, g3, ?_⟩, ?_⟩
            · rcases r3 with r3 | ⟨f, r3, r4⟩
              · simp only at r3; subst r3; exact Or.inl rfl
              · simp only at r4; subst r4
                exact Or.inr ⟨f, r3, by rw [translate_target]⟩
            · intro f h
              rcases List.mem_append.mp h with h | h
              · exact hf.told f h
              · rcases r3 with r3 | ⟨f', r3, r4⟩
                · simp only at r3; subst r3; exact g4 f h
                · simp only at r4; subst r4
                  rw [translate_target] at h
                  rcases List.mem_cons.mp h with h | h
                  · rw [h]
                    exact Or.inl (keep.target f' r3)
                  · exact g4 f h
        | done => exact keep
        | failed => exact keep

/-! ## Theorems -/

/-- **C91, one scrape at a time.**  As long as no scrape begins while another is under way,
no scrape fails, and one that ended has been told exactly what was measured for it: every
data point once, no two families alike, after the description of the target. -/
theorem C91_scrape_partial {es : List Ev} (h1 : OneAtATime es)
    (h2 : ∀ i d, Ev.start i d ∈ es → d.Named) :
    (∀ i c, (run es).scrapes i = some c → c.phase ≠ .failed) ∧
    ∀ i d told, Measured es i d → Ended es i told → Tells told d := by
  have hs := Seq.run h1 h2
  constructor
  · intro i c hc
    obtain ⟨d, _, _, h⟩ := hs.shape i c hc
    rcases h with h | h | h | h
    · simp [h.1]
    · rcases h.1 with h1 | h1 <;> simp [h1]
    · simp [h.1]
    · simp [h.1]
  · rintro i d told hm ⟨c, hc, hp, rfl⟩
    obtain ⟨d', g1, _, h⟩ := hs.shape i c hc
    rw [hm.unique g1]
    rcases h with h | h | h | h
    · simp [h.1] at hp
    · rcases h.1 with h1 | h1 <;> simp [h1] at hp
    · simp [h.1] at hp
    · exact h.2


/-- **C91, any number of scrapes at once.**  Whatever scrapes overlap, a scrape is told
nothing but facts that have been measured and the description of the target. -/
theorem C91_truthful {es : List Ev} (h : ∀ i d, Ev.start i d ∈ es → d.Named) {i : Nat}
    {c : Scrape} (hc : (run es).scrapes i = some c) : ∀ f ∈ c.told, Truthful es f :=
  ((Any.run h).fair i c hc).told

theorem goOn_self (s : State) (i : Nat) (c : Scrape) : ∀ j, j ≠ i →
    (goOn s i c).scrapes j = s.scrapes j := by
  intro j hj
  unfold goOn
  split <;> (try split) <;> simp [State.put, hj]

/-- **C91, a scrape ends.**  When no scrape is under way, a scrape that begins and goes on
by itself is through after its four steps. -/
theorem C91_ends {es : List Ev} (h1 : OneAtATime es) (h2 : ∀ i d, Ev.start i d ∈ es → d.Named)
    (hidle : ∀ j, ¬ Busy (run es) j) {i : Nat} (hi : ∀ d, Ev.start i d ∉ es)
    {d : Measurement} (hd : d.Named) :
    OneAtATime (es ++ .start i d :: List.replicate 4 (.go i)) ∧
    ∃ told, Ended (es ++ .start i d :: List.replicate 4 (.go i)) i told ∧ Tells told d := by
  have hone : OneAtATime (es ++ .start i d :: List.replicate 4 (.go i)) := by
    intro pre j e post heq
    have : ∃ post', (pre ++ .start j e :: post' = es) ∨ pre = es := by
      rw [List.append_eq_append_iff] at heq
      rcases heq with ⟨a, h3, h4⟩ | ⟨a, h3, h4⟩
      · cases a with
        | nil => exact ⟨[], Or.inr (by simpa using h3)⟩
        | cons x xs =>
          exfalso
          simp at h4
          have : Ev.start j e ∈ List.replicate 4 (Ev.go i) := by
            show Ev.start j e ∈ [Ev.go i, Ev.go i, Ev.go i, Ev.go i]
            rw [h4.2]; simp
          simp at this
      · cases a with
        | nil => exact ⟨[], Or.inr (by simpa using h3.symm)⟩
        | cons x xs =>
          simp at h4
          exact ⟨xs, Or.inl (by rw [h3, h4.1])⟩
    obtain ⟨post', h | h⟩ := this
    · exact h1 pre j e post' h.symm
    · rw [h]; exact hidle
  refine ⟨hone, ?_⟩
  have hq := (Seq.run h1 h2).idle hidle
  have hn := (known_iff es i).mpr hi
  have hend : ∃ c, (run (es ++ .start i d :: List.replicate 4 (.go i))).scrapes i = some c ∧
      c.phase = .done := by
    simp [run, List.foldl_append, List.replicate]
    show ∃ c, (step (step (step (step (step (run es) _) _) _) _) _).scrapes i = some c ∧ _
    simp [step, hn, State.put, hq, goOn]
  obtain ⟨c, hc, hp⟩ := hend
  refine ⟨c.told, ⟨c, hc, hp, rfl⟩, ?_⟩
  refine (C91_scrape_partial hone ?_).2 i d _ ⟨es, _, rfl, hi⟩ ⟨c, hc, hp, rfl⟩
  intro j e hm
  rcases List.mem_append.mp hm with hm | hm
  · exact h2 j e hm
  · simp at hm
    rw [hm.2]; exact hd

/-- **C91, names.**  The name of a metric and the name of a label are the given ones with a
leading digit replaced and every run of other characters made one underscore; and a text can
be cleaned in one way only. -/
theorem C91_names (t : Text) :
    (∃ u, Undigited t u ∧ Cleaned (fun c => AlphaNum c ∨ c = ':') u (sanitizeFullName t)) ∧
    (∃ u, Undigited t u ∧ Cleaned AlphaNum u (sanitizeAttribute t)) ∧
    (∀ P a b, Cleaned P t a → Cleaned P t b → a = b) :=
  ⟨⟨_, undigited_noDigit t, cleaned_subFrom _ _ nameChar_iff _ _ (Nat.le_refl _)⟩,
    ⟨_, undigited_noDigit t, cleaned_subFrom _ _ keyChar_iff _ _ (Nat.le_refl _)⟩,
    fun _ _ _ h h' => cleaned_unique h h'⟩

theorem key_inj {a : Attrs} (hn : (a.map Prod.fst).Nodup) {x y : Text × Value} (hx : x ∈ a)
    (hy : y ∈ a) (h : x.1 = y.1) : x = y := by
  induction a with
  | nil => cases hx
  | cons z zs ih =>
    simp only [List.map_cons, List.nodup_cons] at hn
    rcases List.mem_cons.mp hx with hx | hx <;> rcases List.mem_cons.mp hy with hy | hy
    · rw [hx, hy]
    · exact absurd (List.mem_map.mpr ⟨y, hy, by rw [← h, hx]⟩) hn.1
    · exact absurd (List.mem_map.mpr ⟨x, hx, by rw [h, hy]⟩) hn.1
    · exact ih hn.2 hx hy

theorem subFrom_ok (ok : Char → Bool) (b : Bool) : ∀ (t : Text), (∀ c ∈ t, ok c = true) →
    subFrom ok b t = t
  | [], _ => by simp [subFrom]
  | c :: cs, h => by
    have h1 := h c (by simp)
    simp [subFrom, h1, subFrom_ok ok false cs (fun x hx => h x (by simp [hx]))]

theorem sanitizeName_alpha {t : Text} (h : ∀ c ∈ t, AlphaNum c) : sanitizeName t = t :=
  subFrom_ok _ _ t fun c hc => (nameChar_iff c).mpr (Or.inl (h c hc))

theorem noAnnotation_plain : ∀ {t : Text}, '{' ∉ t → noAnnotation t = t
  | [], _ => rfl
  | c :: cs, h => by
    have h1 : (c == '{') = false := by
      simp; intro e; exact h (by simp [e])
    simp [noAnnotation, h1, noAnnotation_plain (t := cs) (fun e => h (by simp [e]))]

theorem afterLast_end : ∀ (a : Text), afterLast (a ++ ['}']) = some []
  | [] => by simp [afterLast]
  | c :: cs => by simp [afterLast, afterLast_end cs]

theorem noAnnotation_end : ∀ {t : Text} (a : Text), '{' ∉ t →
    noAnnotation (t ++ '{' :: a ++ ['}']) = t
  | [], a, _ => by simp [noAnnotation, afterLast_end]
  | c :: cs, a, h => by
    have h1 : (c == '{') = false := by
      simp; intro e; exact h (by simp [e])
    have := noAnnotation_end (t := cs) a (fun e => h (by simp [e]))
    simp at this
    simp [noAnnotation, h1, this]

theorem atSlash_at : ∀ {t : Text} (b : Text), '/' ∉ t → atSlash (t ++ '/' :: b) = some (t, b)
  | [], b, _ => by simp [atSlash]
  | c :: cs, b, h => by
    have h1 : (c == '/') = false := by
      simp; intro e; exact h (by simp [e])
    simp [atSlash, h1, atSlash_at (t := cs) b (fun e => h (by simp [e]))]

theorem noSlash_units : ∀ p ∈ unitMappings, '/' ∉ p.1 := by decide +kernel

/-- **C91, units.**  A known unit has its Prometheus name, a remark in braces is left out, a
ratio is "… per …", and what comes out can be part of a name. -/
theorem C91_units (u v : Text) :
    ((u, v) ∈ unitNames → mapUnit u = v) ∧
    ('{' ∉ u → '}' ∉ v → mapUnit (u ++ '{' :: v ++ ['}']) = mapUnit u) ∧
    ((∀ c ∈ u, AlphaNum c) → (∀ c ∈ v, AlphaNum c) → v ≠ [] →
      mapUnit (u ++ '/' :: v) = per u v) ∧
    (∀ c ∈ mapUnit u, AlphaNum c ∨ c = ':' ∨ c = '_') := by
  refine ⟨?_, ?_, ?_, ?_⟩
  · intro h
    have : ∀ p ∈ unitNames, mapUnit p.1 = p.2 := by decide +kernel
    exact this _ h
  · intro h _
    simp only [mapUnit, noAnnotation_end v h, noAnnotation_plain h]
  · intro hu hv hne
    have no : ∀ x : Char, ¬ AlphaNum x → ∀ t : Text, (∀ c ∈ t, AlphaNum c) → x ∉ t :=
      fun x hx t ht hm => hx (ht x hm)
    have b1 : ¬ AlphaNum '{' := by unfold AlphaNum; decide
    have b2 : ¬ AlphaNum '/' := by unfold AlphaNum; decide
    have h1 : noAnnotation (u ++ '/' :: v) = u ++ '/' :: v := by
      apply noAnnotation_plain
      intro hm
      rcases List.mem_append.mp hm with hm | hm
      · exact no _ b1 u hu hm
      · rcases List.mem_cons.mp hm with hm | hm
        · revert hm; decide
        · exact no _ b1 v hv hm
    have h2 : unitMappings.lookup (u ++ '/' :: v) = none := by
      cases h : unitMappings.lookup (u ++ '/' :: v) with
      | none => rfl
      | some x => exact absurd (show '/' ∈ u ++ '/' :: v by simp) (noSlash_units _ (lookup_mem h))
    have e1 : unitMappings = unitNames := rfl
    rw [e1] at h2
    have e2 : perUnitMappings = perNames := rfl
    simp only [mapUnit, h1, h2, atSlash_at v (no _ b2 u hu), sanitizeName_alpha hu,
      sanitizeName_alpha hv, hne, if_false, getOr, per, e1, e2]
    cases hp : (unitNames.lookup u).getD u with
    | nil => simp
    | cons c cs => simp
  · intro c hc
    rcases plain_mapUnit u c hc with h | h
    · rcases (nameChar_iff c).mp h with h | h
      · exact Or.inl h
      · exact Or.inr (Or.inl h)
    · exact Or.inr (Or.inr h)

example : mapUnit t!"By{of text}" = t!"bytes" ∧ mapUnit t!"KiBy/m" = t!"kibibytes_per_minute" ∧
    mapUnit t!"1/s" = t!"per_second" := by decide +kernel

/-- **C91, labels.**  A data point has one label for each attribute, and it does not matter
in which order its attributes were given. -/
theorem C91_labels (a : Attrs) :
    (labelsOf a).Perm (a.map fun x => (sanitizeAttribute x.1, labelText x.2)) ∧
    ∀ b, a.Perm b → (a.map Prod.fst).Nodup → labelsOf a = labelsOf b := by
  constructor
  · exact (sortAttrs_perm a).map _
  · intro b hab hn
    have hp : (sortAttrs a).Perm (sortAttrs b) :=
      (sortAttrs_perm a).trans (hab.trans (sortAttrs_perm b).symm)
    have : sortAttrs a = sortAttrs b := by
      refine hp.eq_of_pairwise ?_ (sortAttrs_sorted a) (sortAttrs_sorted b)
      intro x y hx hy h1 h2
      have hk : x.1 = y.1 := List.le_antisymm h1 h2
      have hx' : x ∈ a := (sortAttrs_perm a).subset hx
      have hy' : y ∈ a := hab.symm.subset ((sortAttrs_perm b).subset hy)
      exact key_inj hn hx' hy' hk
    simp [labelsOf, this]

theorem take_sum_le {i j : Nat} : ∀ (l : List Nat), i ≤ j → (l.take i).sum ≤ (l.take j).sum := by
  intro l
  induction l generalizing i j with
  | nil => simp
  | cons x xs ih =>
    intro h
    cases i with
    | zero => simp
    | succ i =>
      cases j with
      | zero => omega
      | succ j => simpa using ih (by omega)

/-- **C91, histograms.**  With a count for each bound and one more, the last number told is
at `+Inf` and is the number of all values. -/
theorem C91_total (counts : List Nat) (bounds : List Text)
    (h : counts.length = bounds.length + 1) :
    (convertBuckets counts bounds).map Prod.fst = bounds ++ [t!"+Inf"] ∧
    (convertBuckets counts bounds).getLast? = some (t!"+Inf", counts.sum) ∧
    ((convertBuckets counts bounds).map Prod.snd).Pairwise (· ≤ ·) := by
  rw [convertBuckets_eq]
  have e : cumulative counts bounds = ((bounds ++ [t!"+Inf"]).zipIdx).map fun b =>
      (b.1, (counts.take (b.2 + 1)).sum) := by
    unfold cumulative
    rw [List.take_of_length_le (by simp [h])]
  rw [e]
  refine ⟨?_, ?_, ?_⟩
  · rw [List.map_map]
    exact List.zipIdx_map_fst _ _
  · rw [List.zipIdx_append]
    simp [h, List.take_of_length_le]
  · rw [List.map_map, List.pairwise_iff_getElem]
    intro i j hi hj hij
    simp only [List.getElem_map, List.getElem_zipIdx, Function.comp_apply, Nat.zero_add]
    exact take_sum_le _ (by omega)


/-! ## Where the code disagrees -/

/-- The property without the condition that scrapes come one at a time. -/
def C91_statement : Prop :=
  ∀ es : List Ev, (∀ i d, Ev.start i d ∈ es → d.Named) →
    (∀ i c, (run es).scrapes i = some c → c.phase ≠ .failed) ∧
    ∀ i d told, Measured es i d → Ended es i told → Tells told d

/-- A measurement of one counter with one data point. -/
def sample : Measurement :=
  ⟨[], [⟨t!"n", [], [], .sum true true [⟨[(t!"k", .str t!"v")], 5⟩]⟩]⟩

theorem sample_named : sample.Named := by
  intro m hm a ha x hx
  simp [sample] at hm
  subst hm
  simp [Metric.attrs] at ha
  subst ha
  simp at hx
  subst hx
  simp

/-- Two scrapes that overlap: the first one finds both measurements in the queue. -/
def twoScrapes : List Ev :=
  [.start 0 sample, .start 1 sample] ++ List.replicate 6 (.go 0) ++ List.replicate 2 (.go 1)

/-- **Disagreement.** All scrapes share one queue of measurements.  When two scrapes overlap,
the first takes the measurements of both and tells every data point three times (its families
are told again, with the new samples added, after the second measurement), and the second one
is told nothing at all. -/
theorem C91_violated_overlapping :
    Ended twoScrapes 1 [] ∧
    (∃ told, Ended twoScrapes 0 told ∧ (told.flatMap Family.tells).count
      ⟨.counter, t!"n", [], [], [(t!"k", t!"v")], .number 5⟩ = 3) ∧
    ¬ C91_statement := by
  have h1 : Ended twoScrapes 1 [] := ⟨⟨.done, [], []⟩, by decide +kernel, rfl, rfl⟩
  refine ⟨h1, ?_, ?_⟩
  · have : ∃ c, (run twoScrapes).scrapes 0 = some c ∧ c.phase = .done ∧
        (c.told.flatMap Family.tells).count
          ⟨.counter, t!"n", [], [], [(t!"k", t!"v")], .number 5⟩ = 3 := by
      have h : ((run twoScrapes).scrapes 0).any (fun c => decide (c.phase = .done ∧
          (c.told.flatMap Family.tells).count
            ⟨.counter, t!"n", [], [], [(t!"k", t!"v")], .number 5⟩ = 3)) = true := by
        decide +kernel
      rw [Option.any_eq_true] at h
      obtain ⟨c, hc, hd⟩ := h
      exact ⟨c, hc, of_decide_eq_true hd⟩
    obtain ⟨c, hc, hp, hn⟩ := this
    exact ⟨c.told, ⟨c, hc, hp, rfl⟩, hn⟩
  · intro h
    have := (h twoScrapes (by
      intro i d hm
      simp [twoScrapes] at hm
      rcases hm with h | h <;> rw [h.2] <;> exact sample_named)).2 1 sample []
      ⟨[.start 0 sample], _, rfl, by simp⟩ h1
    obtain ⟨info, fams, h, _⟩ := this
    cases h

/-- **Disagreement.** Two overlapping scrapes can both find the last measurement in the queue;
the one that is later to take it fails with an `IndexError`. -/
theorem C91_violated_fails : ∃ es : List Ev, (∀ i d, Ev.start i d ∈ es → d.Named) ∧
    ∃ i c, (run es).scrapes i = some c ∧ c.phase = .failed := by
  refine ⟨[.start 0 sample, .start 1 sample] ++ List.replicate 4 (.go 0) ++
    [.go 1, .go 1, .go 0, .go 1], ?_, 1, ?_⟩
  · intro i d hm
    simp at hm
    rcases hm with h | h <;> rw [h.2] <;> exact sample_named
  · have h : ((run ([.start 0 sample, .start 1 sample] ++ List.replicate 4 (.go 0) ++
        [.go 1, .go 1, .go 0, .go 1])).scrapes 1).any (fun c => decide (c.phase = .failed))
        = true := by decide +kernel
    rw [Option.any_eq_true] at h
    obtain ⟨c, hc, hd⟩ := h
    exact ⟨c, hc, of_decide_eq_true hd⟩

/-- **Disagreement.** Cleaning names can make different attributes one label: two data points
with different attributes are told with the same labels. -/
theorem C91_violated_same_labels : ∃ a b : Attrs, a ≠ b ∧ a.map Prod.fst ≠ b.map Prod.fst ∧
    labelsOf a = labelsOf b :=
  ⟨[(t!"a.b", .str t!"v")], [(t!"a_b", .str t!"v")], by decide, by decide, by decide +kernel⟩

/-! ## Examples -/

/-- A history of two scrapes, one after the other, with a counter that has two data points
whose attributes come in different orders, a sum that may go down, and a histogram. -/
def day : Measurement :=
  ⟨[(t!"service.name", .str t!"docket")],
   [⟨t!"docket.tasks", t!"Tasks | all", t!"1",
      .sum true true [⟨[(t!"b", .str t!"x"), (t!"a", .other t!"1")], 5⟩,
        ⟨[(t!"a", .str t!"2"), (t!"b", .str t!"y")], 7⟩]⟩,
    ⟨t!"running", [], t!"1", .sum false true [⟨[], 3⟩]⟩,
    ⟨t!"seconds", [], t!"s", .histogram [⟨[], [1, 2, 3], [t!"0.5", t!"1.0"], 9⟩]⟩]⟩

example : ((run (.start 0 day :: List.replicate 4 (.go 0))).scrapes 0).map (·.told.map
    fun f => (f.name, f.labels, f.samples.length)) =
    some [(t!"target", [t!"service_name"], 1), (t!"docket_tasks", [t!"a", t!"b"], 2),
      (t!"running", [], 1), (t!"seconds", [], 1)] := by decide +kernel

example : convertBuckets [1, 2, 3] [t!"0.5", t!"1.0"] =
    [(t!"0.5", 1), (t!"1.0", 3), (t!"+Inf", 6)] := by decide

example : sanitizeFullName t!"9 lives.of::a-cat" = t!"_lives_of::a_cat" := by decide

/-- The hypotheses of `C91_scrape_partial` and `C91_ends` are met. -/
example : OneAtATime (.start 0 sample :: List.replicate 4 (.go 0)) ∧
    ∃ told, Ended (.start 0 sample :: List.replicate 4 (.go 0)) 0 told ∧ Tells told sample :=
  C91_ends (es := []) (by intro pre i d post h; simp at h) (by simp)
    (by intro j ⟨c, hc, _⟩; simp [run, init] at hc) (by simp) sample_named

end Docket.Exporter
