import Verif.Cli.Settings
import Verif.Props.C54

/-!
# C122: a worker runs with the settings it was given

The specification: where the text of a setting comes from (`Given`), what a text means (integers
and durations as in C54, with milliseconds as in docs/production.md; levels in capitals or in small
letters, as there), and that the worker has, for every setting, the value meant.
-/

namespace Docket.Settings
open Decimal Cli Target

/-- The text given for a setting: on the command line, else in a variable that is not empty. -/
inductive Given (env : Environ) (var : Text) : Option Text → Option Text → Prop
  | written (v : Text) : Given env var (some v) (some v)
  | fromEnv (v : Text) (h : env var = some v) (hv : v ≠ []) : Given env var none (some v)
  | unset (h : env var = none ∨ env var = some []) : Given env var none none

/-- A setting: what its text means, or its default. -/
inductive Meant (Means : Text → α → Prop) (default_ : α) : Option Text → α → Prop
  | text {v a} (h : Means v a) : Meant Means default_ (some v) a
  | default : Meant Means default_ none default_

/-- What a duration means, in milliseconds; Python has no longer and no shorter ones than
`longest` and `shortest`. -/
inductive Lasts : Text → Int → Prop
  | seconds {t n} (h : Denotes t n) (hs : shortest ≤ n) (hl : n ≤ longest) : Lasts t (1000 * n)
  | milliseconds {t n} (h : Written t n) : Lasts (t ++ t!"ms") n

/-- The names of the levels. -/
inductive Named : Text → Level → Prop
  | debug : Named t!"DEBUG" .debug
  | info : Named t!"INFO" .info
  | warning : Named t!"WARNING" .warning
  | error : Named t!"ERROR" .error
  | critical : Named t!"CRITICAL" .critical
  | small {t l} (h : Named t l) : Named (t.map Char.toLower) l

/-- The names of the formats. -/
inductive Formatted : Text → Format → Prop
  | rich : Formatted t!"rich" .rich
  | plain : Formatted t!"plain" .plain
  | json : Formatted t!"json" .json

/-- The words of a text: nothing but blanks between them, none empty, none with a blank in it. -/
inductive Words : Text → List Text → Prop
  | none {t} (h : ∀ c ∈ t, Blank c) : Words t []
  | last {pre w} (h : ∀ c ∈ pre, Blank c) (hw : w ≠ []) (hb : ∀ c ∈ w, ¬ Blank c) : Words (pre ++ w) [w]
  | more {pre w b rest ws} (h : ∀ c ∈ pre, Blank c) (hw : w ≠ []) (hb : ∀ c ∈ w, ¬ Blank c)
    (hblank : Blank b) (hr : Words rest ws) : Words (pre ++ w ++ b :: rest) (w :: ws)

/-- The task collections of a worker. -/
inductive Collections (env : Environ) : List Text → List Text → Prop
  | written {ts} (h : ts ≠ []) : Collections env ts ts
  | fromEnv {v ts} (h : env t!"DOCKET_TASKS" = some v) (hv : v ≠ []) (hw : Words v ts) :
    Collections env [] ts
  | unset (h : env t!"DOCKET_TASKS" = none ∨ env t!"DOCKET_TASKS" = some []) :
    Collections env [] [t!"docket.tasks:standard_tasks"]

/-- What the settings of a worker are, given what durations and levels mean. -/
structure Wanted (Lasts : Text → Int → Prop) (Named : Text → Level → Prop)
    (host : Text) (terminal : Bool) (env : Environ) (o : Options) (s : Settings) : Prop where
  name : ∃ t, Given env t!"DOCKET_WORKER_NAME" o.name t ∧
    Meant (fun v a => if v = [] then a = host else a = v) host t s.name
  concurrency : ∃ t, Given env t!"DOCKET_WORKER_CONCURRENCY" o.concurrency t ∧
    Meant Padded 10 t s.concurrency
  redelivery : ∃ t, Given env t!"DOCKET_WORKER_REDELIVERY_TIMEOUT" o.redeliveryTimeout t ∧
    Meant Lasts 300000 t s.redeliveryTimeout
  reconnection : ∃ t, Given env t!"DOCKET_WORKER_RECONNECTION_DELAY" o.reconnectionDelay t ∧
    Meant Lasts 5000 t s.reconnectionDelay
  check : ∃ t, Given env t!"DOCKET_WORKER_MINIMUM_CHECK_INTERVAL" o.minimumCheckInterval t ∧
    Meant Lasts 100 t s.minimumCheckInterval
  resolution : ∃ t, Given env t!"DOCKET_WORKER_SCHEDULING_RESOLUTION" o.schedulingResolution t ∧
    Meant Lasts 250 t s.schedulingResolution
  health : ∃ t, Given env t!"DOCKET_WORKER_HEALTHCHECK_PORT" o.healthcheckPort t ∧
    Meant (fun v a => ∃ n, a = some n ∧ Padded v n) none t s.healthcheckPort
  metrics : ∃ t, Given env t!"DOCKET_WORKER_METRICS_PORT" o.metricsPort t ∧
    Meant (fun v a => ∃ n, a = some n ∧ Padded v n) none t s.metricsPort
  level : ∃ t, Given env t!"DOCKET_LOGGING_LEVEL" o.loggingLevel t ∧
    Meant Named .info t s.loggingLevel
  format : ∃ t, Given env t!"DOCKET_LOGGING_FORMAT" o.loggingFormat t ∧
    Meant Formatted (if terminal then .rich else .plain) t s.loggingFormat
  tasks : Collections env o.tasks s.tasks

/-- **C122.**  Whatever settings a worker is given on the command line and in the environment, it
runs, with these settings. -/
def C122_statement : Prop :=
  ∀ host terminal env o s, Wanted Lasts Named host terminal env o s →
    worker host terminal env o = some s

/-! ## Proof -/

theorem choose_meant {Means : Text → α → Prop} {read : Text → Option α} {env : Environ} {var : Text}
    {given t : Option Text} {d a : α} (hread : ∀ v a, Means v a → read v = some a)
    (hg : Given env var given t) (hm : Meant Means d t a) : choose read given (env var) d = some a := by
  cases hg with
  | written v => cases hm with | text h => exact hread v a h
  | fromEnv v h hv => cases hm with | text hh => simp [choose, h, hv, hread v a hh]
  | unset h => cases hm with | default => rcases h with h | h <;> simp [choose, h]

theorem words_blank {pre : Text} (rest : Text) (h : ∀ c ∈ pre, Blank c) : words [] (pre ++ rest) = words [] rest := by
  induction pre with
  | nil => rfl
  | cons c pre ih =>
    have hc := (isSpace_iff c).2 (h c (by simp))
    simp only [List.cons_append, words, hc, if_true]
    exact ih (fun x hx => h x (by simp [hx]))

theorem words_word (acc w rest : Text) (h : ∀ c ∈ w, ¬ Blank c) : words acc (w ++ rest) = words (acc ++ w) rest := by
  induction w generalizing acc with
  | nil => simp
  | cons c w ih =>
    have hc : ¬ isSpace c = true := fun hh => h c (by simp) ((isSpace_iff c).1 hh)
    rw [List.cons_append, words, if_neg hc, ih _ (fun x hx => h x (by simp [hx]))]
    simp

theorem words_eq {t : Text} {ws : List Text} (h : Words t ws) : words [] t = ws := by
  induction h with
  | none h =>
    have := words_blank [] h
    simpa [words] using this
  | last h hw hb =>
    have := words_word [] _ [] hb
    rw [words_blank _ h]
    simp only [List.append_nil, List.nil_append] at this
    rw [this]
    simp [words, hw]
  | @more pre w b rest ws h hw hb hblank hr ih =>
    rw [List.append_assoc, words_blank _ h, words_word [] _ _ hb]
    simp [words, (isSpace_iff b).2 hblank, hw, ih]

/-- The durations that the code reads: no milliseconds. -/
def Read (t : Text) (n : Int) : Prop := ∃ m, n = 1000 * m ∧ Denotes t m ∧ shortest ≤ m ∧ m ≤ longest

/-- The levels as the code reads them: in capitals. -/
def Capital (t : Text) (l : Level) : Prop :=
  (t, l) ∈ [(t!"DEBUG", Level.debug), (t!"INFO", .info), (t!"WARNING", .warning), (t!"ERROR", .error),
    (t!"CRITICAL", .critical)]

theorem read_duration (v : Text) (a : Int) (h : Read v a) : readDuration v = some a := by
  obtain ⟨m, rfl, hd, h1, h2⟩ := h
  rw [readDuration, C54_reads v m hd, if_pos ⟨h1, h2⟩]
  rfl

theorem read_level (v : Text) (l : Level) (h : Capital v l) : readLevel v = some l := by
  simp only [Capital, List.mem_cons, Prod.mk.injEq, List.not_mem_nil, or_false] at h
  rcases h with ⟨rfl, rfl⟩ | ⟨rfl, rfl⟩ | ⟨rfl, rfl⟩ | ⟨rfl, rfl⟩ | ⟨rfl, rfl⟩ <;> decide

theorem read_format (v : Text) (f : Format) (h : Formatted v f) : readFormat v = some f := by
  cases h <;> decide

/-- C122 for durations without milliseconds and levels in capitals: the worker runs, with the
settings that were meant. -/
theorem C122_runs_partial (host : Text) (terminal : Bool) (env : Environ) (o : Options) (s : Settings)
    (h : Wanted Read Capital host terminal env o s) : worker host terminal env o = some s := by
  obtain ⟨⟨t0, g0, m0⟩, ⟨t1, g1, m1⟩, ⟨t2, g2, m2⟩, ⟨t3, g3, m3⟩, ⟨t4, g4, m4⟩, ⟨t5, g5, m5⟩, ⟨t6, g6, m6⟩,
    ⟨t7, g7, m7⟩, ⟨t8, g8, m8⟩, ⟨t9, g9, m9⟩, hc⟩ := h
  have port : ∀ (v : Text) (a : Option Int), (∃ n, a = some n ∧ Padded v n) → (pyInt v).map some = some a := by
    rintro v a ⟨n, rfl, hp⟩
    rw [pyInt_padded hp]; rfl
  have hname : ∃ x, choose some o.name (env t!"DOCKET_WORKER_NAME") host = some x ∧
      (if x = [] then host else x) = s.name := by
    generalize o.name = on at g0 ⊢
    cases g0 with
    | written v =>
      cases m0 with
      | text hm =>
        refine ⟨v, rfl, ?_⟩
        split at hm <;> rename_i hv <;> simp [hv, hm]
    | fromEnv v hv hne =>
      cases m0 with
      | text hm => simp only [if_neg hne] at hm; exact ⟨v, by simp [choose, hv, hne], by simp [hne, hm]⟩
    | unset hu =>
      generalize hs : s.name = sn at m0 ⊢
      cases m0 with
      | default =>
        refine ⟨host, by rcases hu with hu | hu <;> simp [choose, hu], ?_⟩
        split <;> rfl
  obtain ⟨x, hx, hxs⟩ := hname
  have ht : chooseTasks o.tasks (env t!"DOCKET_TASKS") = s.tasks := by
    generalize o.tasks = ot at hc ⊢
    generalize s.tasks = st at hc ⊢
    cases hc with
    | written hne => simp [chooseTasks, hne]
    | fromEnv hv hne hw => simp [chooseTasks, hv, hne, words_eq hw]
    | unset hu => rcases hu with hu | hu <;> simp [chooseTasks, hu]
  unfold worker
  rw [hx, choose_meant read_level g8 m8, choose_meant read_format g9 m9,
    choose_meant (fun v a hp => pyInt_padded hp) g1 m1, choose_meant read_duration g2 m2,
    choose_meant read_duration g3 m3, choose_meant read_duration g4 m4, choose_meant read_duration g5 m5,
    choose_meant port g6 m6, choose_meant port g7 m7]
  simp only [Option.bind_eq_bind, Option.bind_some, hxs, ht]

/-! What is not understood is not passed over. -/

/-- What the worker has is what was chosen. -/
theorem worker_some {host : Text} {terminal : Bool} {env : Environ} {o : Options} {s : Settings}
    (h : worker host terminal env o = some s) :
    choose readLevel o.loggingLevel (env t!"DOCKET_LOGGING_LEVEL") .info = some s.loggingLevel ∧
    choose readFormat o.loggingFormat (env t!"DOCKET_LOGGING_FORMAT") (if terminal then .rich else .plain) =
      some s.loggingFormat ∧
    choose pyInt o.concurrency (env t!"DOCKET_WORKER_CONCURRENCY") 10 = some s.concurrency ∧
    choose readDuration o.redeliveryTimeout (env t!"DOCKET_WORKER_REDELIVERY_TIMEOUT") 300000 =
      some s.redeliveryTimeout ∧
    choose readDuration o.reconnectionDelay (env t!"DOCKET_WORKER_RECONNECTION_DELAY") 5000 =
      some s.reconnectionDelay ∧
    choose readDuration o.minimumCheckInterval (env t!"DOCKET_WORKER_MINIMUM_CHECK_INTERVAL") 100 =
      some s.minimumCheckInterval ∧
    choose readDuration o.schedulingResolution (env t!"DOCKET_WORKER_SCHEDULING_RESOLUTION") 250 =
      some s.schedulingResolution := by
  unfold worker at h
  simp only [Option.bind_eq_bind, Option.bind_eq_some_iff] at h
  obtain ⟨a, ha, b, hb, c, hc, d, hd, e, he, f, hf, g, hg, i, hi, j, hj, k, hk, h⟩ := h
  cases h
  exact ⟨hb, hc, hd, he, hf, hg, hi⟩

theorem choose_given {read : Text → Option α} {env : Environ} {var : Text} {given : Option Text} {v : Text} {d a : α}
    (hg : Given env var given (some v)) (h : choose read given (env var) d = some a) : read v = some a := by
  cases hg with
  | written => exact h
  | fromEnv v he hv => simpa [choose, he, hv] using h

/-- The characters of a duration: of numbers, colons, and a unit at the end. -/
def DurationText (t : Text) : Prop :=
  ∀ c ∈ t, NumberChar c ∨ c = ':' ∨ (t.getLast? = some c ∧ (c = 's' ∨ c = 'm' ∨ c = 'h'))

/-- C122, mistakes: a worker that runs has understood what it was given; a level, format, number or
duration that is none is not passed over in favour of the default. -/
theorem C122_understood {host : Text} {terminal : Bool} {env : Environ} {o : Options} {s : Settings}
    (h : worker host terminal env o = some s) :
    (∀ v, Given env t!"DOCKET_LOGGING_LEVEL" o.loggingLevel (some v) → Capital v s.loggingLevel) ∧
    (∀ v, Given env t!"DOCKET_LOGGING_FORMAT" o.loggingFormat (some v) → Formatted v s.loggingFormat) ∧
    (∀ v, Given env t!"DOCKET_WORKER_CONCURRENCY" o.concurrency (some v) → ∀ c ∈ v, NumberChar c) ∧
    (∀ v, Given env t!"DOCKET_WORKER_REDELIVERY_TIMEOUT" o.redeliveryTimeout (some v) → DurationText v) ∧
    (∀ v, Given env t!"DOCKET_WORKER_RECONNECTION_DELAY" o.reconnectionDelay (some v) → DurationText v) ∧
    (∀ v, Given env t!"DOCKET_WORKER_MINIMUM_CHECK_INTERVAL" o.minimumCheckInterval (some v) → DurationText v) ∧
    (∀ v, Given env t!"DOCKET_WORKER_SCHEDULING_RESOLUTION" o.schedulingResolution (some v) → DurationText v) := by
  obtain ⟨h1, h2, h3, h4, h5, h6, h7⟩ := worker_some h
  have dur : ∀ v a, readDuration v = some a → DurationText v := by
    intro v a hv
    obtain ⟨n, hn, -⟩ := Option.map_eq_some_iff.1 hv
    exact C54_rejects v n hn
  refine ⟨fun v hv => ?_, fun v hv => ?_, fun v hv => pyInt_chars (choose_given hv h3),
    fun v hv => dur v _ (choose_given hv h4), fun v hv => dur v _ (choose_given hv h5),
    fun v hv => dur v _ (choose_given hv h6), fun v hv => dur v _ (choose_given hv h7)⟩
  · have := choose_given hv h1
    generalize s.loggingLevel = l at this ⊢
    unfold readLevel at this
    repeat' split at this
    all_goals first
      | (cases this; subst_vars; simp [Capital])
      | cases this
  · have := choose_given hv h2
    generalize s.loggingFormat = l at this ⊢
    unfold readFormat at this
    split at this
    · cases this; subst_vars; exact .rich
    · split at this
      · cases this; subst_vars; exact .plain
      · split at this
        · cases this; subst_vars; exact .json
        · cases this

/-- No duration in milliseconds is read. -/
theorem milliseconds_refused {t : Text} {n : Int} (h : Written t n) : readDuration (t ++ t!"ms") = none := by
  have hcolon : ':' ∉ t ++ t!"ms" := by
    have := no_colon (.none h)
    simp [this]
  have e : t ++ t!"ms" = (t ++ t!"m") ++ ['s'] := by simp
  unfold readDuration duration
  rw [if_neg hcolon, e, unsuffix_same]
  cases hp : pyInt (t ++ t!"m") with
  | none => simp [hp]
  | some k =>
    have := pyInt_chars hp 'm' (by simp)
    exact absurd this (by unfold NumberChar; decide)

/-- C122 fails for durations in milliseconds, whatever else is given: the command ends with an
error.  docs/production.md gives two settings in this way. -/
theorem C122_violated_milliseconds (host : Text) (terminal : Bool) (env : Environ) (o : Options)
    {t : Text} {n : Int} (h : Written t n)
    (ho : o.minimumCheckInterval = some (t ++ t!"ms") ∨
      (o.minimumCheckInterval = none ∧ env t!"DOCKET_WORKER_MINIMUM_CHECK_INTERVAL" = some (t ++ t!"ms"))) :
    worker host terminal env o = none := by
  have hc : choose readDuration o.minimumCheckInterval (env t!"DOCKET_WORKER_MINIMUM_CHECK_INTERVAL") 100 = none := by
    rcases ho with ho | ⟨ho, he⟩
    · simp [choose, ho, milliseconds_refused h]
    · simp [choose, ho, he, milliseconds_refused h]
  have bindNone : ∀ {α β : Type} (x : Option α), (x.bind fun _ => (none : Option β)) = none := by
    intro α β x; cases x <;> rfl
  unfold worker
  rw [hc]
  simp only [Option.bind_eq_bind, Option.bind_none, bindNone]

/-- C122 fails for all levels in small letters, whatever else is given: docs/production.md, lines
448 and 451, has `--logging-level info` and `--logging-level warning`. -/
theorem C122_violated_level (host : Text) (terminal : Bool) (env : Environ) (o : Options) (t : Text)
    (l : Level) (ht : Capital t l) (ho : o.loggingLevel = some (t.map Char.toLower)) :
    worker host terminal env o = none := by
  have hc : choose readLevel o.loggingLevel (env t!"DOCKET_LOGGING_LEVEL") .info = none := by
    rw [ho]
    show readLevel (t.map Char.toLower) = none
    simp only [Capital, List.mem_cons, Prod.mk.injEq, List.not_mem_nil, or_false] at ht
    rcases ht with ⟨rfl, rfl⟩ | ⟨rfl, rfl⟩ | ⟨rfl, rfl⟩ | ⟨rfl, rfl⟩ | ⟨rfl, rfl⟩ <;> decide +kernel
  have bindNone : ∀ {α β : Type} (x : Option α), (x.bind fun _ => (none : Option β)) = none := by
    intro α β x; cases x <;> rfl
  unfold worker
  rw [hc]
  simp only [Option.bind_eq_bind, Option.bind_none, bindNone]

/-- The environment of docs/production.md, lines 31 to 51. -/
def documented : Environ := fun v =>
  if v = t!"DOCKET_WORKER_NAME" then some t!"orders-worker-1"
  else if v = t!"DOCKET_WORKER_CONCURRENCY" then some t!"50"
  else if v = t!"DOCKET_WORKER_REDELIVERY_TIMEOUT" then some t!"10m"
  else if v = t!"DOCKET_WORKER_RECONNECTION_DELAY" then some t!"5s"
  else if v = t!"DOCKET_WORKER_MINIMUM_CHECK_INTERVAL" then some t!"100ms"
  else if v = t!"DOCKET_WORKER_SCHEDULING_RESOLUTION" then some t!"250ms"
  else if v = t!"DOCKET_WORKER_HEALTHCHECK_PORT" then some t!"8080"
  else if v = t!"DOCKET_WORKER_METRICS_PORT" then some t!"9090"
  else if v = t!"DOCKET_LOGGING_LEVEL" then some t!"INFO"
  else if v = t!"DOCKET_LOGGING_FORMAT" then some t!"json"
  else if v = t!"DOCKET_TASKS" then some t!"myapp.tasks:production_tasks"
  else none

/-- … without the two settings in milliseconds. -/
def shortened : Environ := fun v =>
  if v = t!"DOCKET_WORKER_MINIMUM_CHECK_INTERVAL" ∨ v = t!"DOCKET_WORKER_SCHEDULING_RESOLUTION" then none
  else documented v

/-- No worker starts in the documented environment. -/
theorem C122_violated_documented (host : Text) (terminal : Bool) : worker host terminal documented {} = none :=
  C122_violated_milliseconds host terminal documented {} (t := t!"100")
    (Written.bare (a := [1, 0, 0]) ⟨by simp, by decide⟩) (.inr ⟨rfl, by decide +kernel⟩)

/-- C122 does not hold. -/
theorem C122_violated : ¬ C122_statement := by
  intro h
  have unset : ∀ v, Given (fun _ => none) v none none := fun v => .unset (.inl rfl)
  have := h t!"a" false (fun _ => none) { minimumCheckInterval := some t!"100ms" }
    ⟨t!"a", 10, 300000, 5000, 100, 250, none, none, .info, .plain, [t!"docket.tasks:standard_tasks"]⟩
    ⟨⟨_, unset _, .default⟩, ⟨_, unset _, .default⟩, ⟨_, unset _, .default⟩, ⟨_, unset _, .default⟩,
      ⟨_, .written _, .text (.milliseconds (t := t!"100") (Written.bare (a := [1, 0, 0]) ⟨by simp, by decide⟩))⟩,
      ⟨_, unset _, .default⟩, ⟨_, unset _, .default⟩, ⟨_, unset _, .default⟩, ⟨_, unset _, .default⟩,
      ⟨_, unset _, .default⟩, .unset (.inl rfl)⟩
  rw [C122_violated_milliseconds _ _ _ _ (t := t!"100")
    (Written.bare (a := [1, 0, 0]) ⟨by simp, by decide⟩) (.inl rfl)] at this
  cases this

/-! ## Examples -/

example : worker t!"host#1" false (fun _ => none) { concurrency := some t!"ten" } = none ∧
    worker t!"host#1" false (fun _ => none) { reconnectionDelay := some t!"5 sec" } = none ∧
    worker t!"host#1" false (fun _ => none) { loggingFormat := some t!"xml" } = none := by decide +kernel


example : worker t!"host#1" false shortened {} = some
    ⟨t!"orders-worker-1", 50, 600000, 5000, 100, 250, some 8080, some 9090, .info, .json,
      [t!"myapp.tasks:production_tasks"]⟩ := by decide +kernel

example : worker t!"host#1" true shortened
    { concurrency := some t!"5", tasks := [t!"a:b", t!"c:d"], loggingLevel := some t!"DEBUG" } = some
    ⟨t!"orders-worker-1", 5, 600000, 5000, 100, 250, some 8080, some 9090, .debug, .json,
      [t!"a:b", t!"c:d"]⟩ := by decide +kernel

example : Words t!" a:b  c:d" [t!"a:b", t!"c:d"] :=
  .more (pre := t!" ") (w := t!"a:b") (b := ' ') (by decide) (by decide) (by decide) (by decide)
    (.last (pre := t!" ") (w := t!"c:d") (by decide) (by decide) (by decide))

example : (t!"INFO").map Char.toLower = t!"info" ∧ Capital t!"INFO" .info := by
  unfold Capital; decide +kernel

/-- The hypotheses of `C122_runs_partial` for settings from all three places. -/
example : Wanted Read Capital t!"host#1" true (fun v => if v = t!"DOCKET_WORKER_CONCURRENCY" then some t!"50" else none)
    { redeliveryTimeout := some t!"10m", loggingLevel := some t!"ERROR" }
    ⟨t!"host#1", 50, 600000, 5000, 100, 250, none, none, .error, .rich, [t!"docket.tasks:standard_tasks"]⟩ :=
  ⟨⟨_, .unset (.inl (by decide)), .default⟩,
    ⟨_, .fromEnv t!"50" (by decide) (by decide), .text (.none (Written.bare (a := [5, 0]) ⟨by simp, by decide⟩))⟩,
    ⟨_, .written _, .text ⟨600, by decide, .minutes (.none (Written.bare (a := [1, 0]) ⟨by simp, by decide⟩)), by decide, by decide⟩⟩,
    ⟨_, .unset (.inl (by decide)), .default⟩, ⟨_, .unset (.inl (by decide)), .default⟩,
    ⟨_, .unset (.inl (by decide)), .default⟩, ⟨_, .unset (.inl (by decide)), .default⟩,
    ⟨_, .unset (.inl (by decide)), .default⟩, ⟨_, .written _, .text (by unfold Capital; decide)⟩,
    ⟨_, .unset (.inl (by decide)), .default⟩, .unset (.inl (by decide))⟩

end Docket.Settings
