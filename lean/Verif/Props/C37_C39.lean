import Verif.Retry.Inv
import Verif.Retry.Perpetual
/-
C37 Retry runs a failing task exactly the configured number of times.
C38 Retry delays are as documented.
C39 Perpetual tasks reschedule themselves at the right time.
-/
namespace Docket.Retrying
open Docket

/-! ### C37

A key that was never used is scheduled once, by `add`, after any history `pre`.  After
that anything may happen (time, polling, crashes, redeliveries, other tasks), except
that nobody else schedules, cancels, clears or strikes this key, and that its message is
redelivered only when its worker is gone.  `failed`, `ended` and `blocked` count how its
runs ended. -/

/-- The history after scheduling `k` once. -/
def life (cfg : Cfg) (pol : Policy) (pre : List Op) (k : Key) (q : Request) (t : Time)
    (ops : List HOp) : Hist :=
  hrun cfg pol (hstep cfg pol ⟨run cfg pre, []⟩ (.add k q t)) ops

/-- The situation described above. -/
structure Setting (cfg : Cfg) (pol : Policy) (pre : List Op) (k : Key) (q : Request) (t : Time)
    (ops : List HOp) : Prop where
  unused : Unused (run cfg pre) k
  time : t ≤ (run cfg pre).r.now
  alone : Alone cfg pol k (hstep cfg pol ⟨run cfg pre, []⟩ (.add k q t)) ops
  sound : Sound (pol q.fn)

theorem Setting.inv {cfg : Cfg} {pol : Policy} {pre : List Op} {k : Key} {q : Request} {t : Time}
    {ops : List HOp} (h : Setting cfg pol pre k q t ops) :
    RInv pol (life cfg pol pre k q t ops) k q :=
  RInv.hrun h.sound ops (RInv.init (WF.run cfg pre) h.unused h.time) h.alone

/-- C37, the bound and what happens when it is reached.  With `attempts=n` (at least 1)
at most `n` runs fail; once `n` runs have failed the task is over: none of them ended
otherwise, no message of it exists any more, and it was started at least `n` times and at
most `n` times plus once per redelivery and admission refusal; so exactly `n` times if
there was none of either. -/
theorem C37_runs_exactly_n_times_partial {cfg : Cfg} {pol : Policy} {pre : List Op} {k : Key} {q : Request}
    {t : Time} {ops : List HOp} (hs : Setting cfg pol pre k q t ops) {n : Nat} (hn : 1 ≤ n)
    (hpol : (pol q.fn).attempts = some n) :
    let h := life cfg pol pre k q t ops
    count .failed h.ends k ≤ n ∧
    (count .failed h.ends k = n → count .ended h.ends k = 0 ∧ ¬ SomeMessage h.s k ∧
      n ≤ starts h.s.log k ∧
      starts h.s.log k ≤ n + redeliveries h.s.log k + count .blocked h.ends k ∧
      (redeliveries h.s.log k = 0 → count .blocked h.ends k = 0 → starts h.s.log k = n)) := by
  intro h
  obtain ⟨_, hi⟩ := hs.inv
  rcases hi with ⟨m, hsolo, _, _, hleft, _⟩ | ⟨hov, hout⟩
  · have := hleft n hpol
    change count .failed h.ends k < max 1 n at this
    refine ⟨by omega, fun he => by omega⟩
  · change Over h.s k (count .failed h.ends k + count .ended h.ends k + count .blocked h.ends k) at hov
    change (count .ended h.ends k = 1 ∧ Left _ (count .failed h.ends k)) ∨ (count .ended h.ends k = 0 ∧
      ∃ n', _ ∧ count .failed h.ends k = max 1 n') at hout
    have h1 := hov.low
    have h2 := hov.high
    rcases hout with ⟨he, hleft⟩ | ⟨he, n', hn', hf⟩
    · have := hleft n hpol
      exact ⟨by omega, fun _ => by omega⟩
    · rw [hpol] at hn'
      cases hn'
      refine ⟨by omega, fun _ => ⟨he, hov.none, ?_⟩⟩
      refine ⟨by omega, by omega, by omega⟩

/-- C37, retrying.  As long as no run of the task ended other than by failing and its
attempts are not used up (never, with `attempts=None`), it is still there, in the stream or
in the schedule, with the same function and arguments, numbered one more than the failures
so far: crashes, redeliveries and admission refusals do not count. -/
theorem C37_failure_is_retried_partial {cfg : Cfg} {pol : Policy} {pre : List Op} {k : Key} {q : Request}
    {t : Time} {ops : List HOp} (hs : Setting cfg pol pre k q t ops) :
    let h := life cfg pol pre k q t ops
    count .ended h.ends k = 0 → (∀ n, (pol q.fn).attempts = some n → count .failed h.ends k < n) →
    ∃ m : Msg, m.key = k ∧ SameCall m.req q ∧ m.req.attempt = count .failed h.ends k + 1 ∧
      (InStream h.s m ∨ InSchedule h.s m) := by
  intro h he hlt
  obtain ⟨_, hi⟩ := hs.inv
  rcases hi with ⟨m, hsolo, hcall, hat, _, _⟩ | ⟨hov, hout⟩
  · refine ⟨m, hsolo.key, hcall, hat, ?_⟩
    rcases hsolo.place with ⟨⟨h1, h2⟩, _⟩ | ⟨_, id, h2, _⟩
    · right
      have hk := hsolo.key
      exact ⟨by rw [hk]; exact h1, by rw [hk]; exact h2⟩
    · exact Or.inl ⟨id, h2⟩
  · change (count .ended h.ends k = 1 ∧ _) ∨ (count .ended h.ends k = 0 ∧
      ∃ n', _ ∧ count .failed h.ends k = max 1 n') at hout
    rcases hout with ⟨he', _⟩ | ⟨_, n', hn', hf⟩
    · omega
    · have := hlt n' hn'
      omega

/-- C37, success.  Once a run of the task has ended by returning (or being cancelled), no
message of it exists and it is never started again, whatever follows. -/
theorem C37_success_is_final_partial {cfg : Cfg} {pol : Policy} {pre : List Op} {k : Key} {q : Request}
    {t : Time} {ops more : List HOp} (hs : Setting cfg pol pre k q t (ops ++ more))
    (he : count .ended (life cfg pol pre k q t ops).ends k ≠ 0) :
    ¬ SomeMessage (life cfg pol pre k q t (ops ++ more)).s k ∧
    starts (life cfg pol pre k q t (ops ++ more)).s.log k =
      starts (life cfg pol pre k q t ops).s.log k ∧
    count .ended (life cfg pol pre k q t (ops ++ more)).ends k = 1 := by
  have halone : Alone cfg pol k (hstep cfg pol ⟨run cfg pre, []⟩ (.add k q t)) ops ∧
      Alone cfg pol k (life cfg pol pre k q t ops) more := by
    have := hs.alone
    unfold life
    generalize hstep cfg pol ⟨run cfg pre, []⟩ (.add k q t) = h0 at *
    clear hs he
    induction ops generalizing h0 with
    | nil => exact ⟨trivial, this⟩
    | cons o ops ih =>
      obtain ⟨h1, h2⟩ := ih _ this.2
      exact ⟨⟨this.1, h1⟩, h2⟩
  have hs1 : Setting cfg pol pre k q t ops := ⟨hs.unused, hs.time, halone.1, hs.sound⟩
  have hlife : life cfg pol pre k q t (ops ++ more) = hrun cfg pol (life cfg pol pre k q t ops) more := by
    unfold life; rw [hrun_append]
  obtain ⟨hw, hi⟩ := hs1.inv
  rcases hi with ⟨m, _, _, _, _, he0⟩ | ⟨hov, hout⟩
  · exact absurd he0 he
  rcases hout with ⟨he1, _⟩ | ⟨he0, _⟩
  case inr => exact absurd he0 he
  rw [hlife]
  generalize life cfg pol pre k q t ops = h at *
  have ha := halone.2
  have main : ∀ (more : List HOp) (h : Hist), WF h.s → ¬ SomeMessage h.s k →
      Alone cfg pol k h more →
      ¬ SomeMessage (hrun cfg pol h more).s k ∧
      starts (hrun cfg pol h more).s.log k = starts h.s.log k ∧
      count .ended (hrun cfg pol h more).ends k = count .ended h.ends k := by
    intro more
    induction more with
    | nil => intro h _ hno _; exact ⟨hno, rfl, rfl⟩
    | cons o more ih =>
      intro h hw hno ha
      rw [hrun_cons]
      have hstep1 : WF (hstep cfg pol h o).s ∧ ¬ SomeMessage (hstep cfg pol h o).s k ∧
          starts (hstep cfg pol h o).s.log k = starts h.s.log k ∧
          count .ended (hstep cfg pol h o).ends k = count .ended h.ends k := by
        have h1 := ha.1
        simp only [hstep]
        cases ho : toOp pol h.s o with
        | none => exact ⟨hw, hno, rfl, rfl⟩
        | some o' =>
          rw [ho] at h1
          have hov : Over { h.s with log := h.s.log } k (starts h.s.log k) :=
            ⟨hno, Nat.le_refl _, by simp⟩
          have hov' := Over.step (cfg := cfg) hw hov o' h1
          have hend : ∀ y, ending h.s o = some y → y.2.key ≠ k := fun y hy =>
            ending_none_of_no_proc (fun p hp hk => hno (Or.inr (Or.inr ⟨p, hp, hk⟩))) hy
          refine ⟨hw.step o', hov'.none, ?_, count_other hend⟩
          obtain ⟨l, hl⟩ := step_log cfg hw o'
          have h0 : l.countP (isStart k) = 0 := by
            rw [List.countP_eq_zero]
            intro ev hev
            cases ev with
            | started pid id m t =>
              obtain ⟨p, hp, _, _, _, hm, _⟩ := started_step cfg hw o' hl hev
              simp only [isStart, decide_eq_true_eq]
              intro hk
              exact hno (Or.inr (Or.inr ⟨p, hp, hm ▸ hk⟩))
            | _ => simp [isStart]
          rw [hl, starts, List.countP_append, h0, Nat.zero_add]; rfl
      obtain ⟨a1, a2, a3, a4⟩ := hstep1
      obtain ⟨b1, b2, b3⟩ := ih _ a1 a2 ha.2
      exact ⟨b1, b2.trans a3, b3.trans a4⟩
  obtain ⟨b1, b2, b3⟩ := main more h hw hov.none ha
  exact ⟨b1, b2, b3.trans he1⟩

/-! Every history, without any assumption of being undisturbed. -/

/-- All schedulings in the history number their attempt between 1 and the limit. -/
structure AttInv (pol : Policy) (h : Hist) : Prop where
  wf : WF h.s
  origin : OriginInv h.s
  bound : ∀ m, Event.accepted m ∈ h.s.log → 1 ≤ m.req.attempt ∧
    ∀ n, (pol m.req.fn).attempts = some n → m.req.attempt ≤ max 1 n

theorem accepted_by (cfg : Cfg) {s : Sys} (hw : WF s) (op : Op) {m : Msg}
    (h : Event.accepted m ∈ (step cfg s op).log) :
    Event.accepted m ∈ s.log ∨ (∃ k q t, (op = .add k q t ∨ op = .replace k q t) ∧ m.req = q) ∨
    ∃ p ∈ s.procs, ∃ t a d, op = .reschedule p.pid t a d ∧
      m.req = { p.msg.req with when_ := t, attempt := a } := by
  have he := step_eff cfg s hw.queue op
  generalize Docket.step cfg s op = s' at he h
  cases he with
  | addNow k q t _ _ _ =>
    simp only [List.mem_cons, Event.accepted.injEq] at h
    rcases h with rfl | h
    · exact Or.inr (Or.inl ⟨k, q, t, Or.inl rfl, rfl⟩)
    · exact Or.inl h
  | addLater k q t _ _ _ =>
    simp only [List.mem_cons, Event.accepted.injEq] at h
    rcases h with rfl | h
    · exact Or.inr (Or.inl ⟨k, q, t, Or.inl rfl, rfl⟩)
    · exact Or.inl h
  | replaceNow k q t _ _ =>
    simp only [List.mem_cons, Event.accepted.injEq] at h
    rcases h with rfl | h
    · exact Or.inr (Or.inl ⟨k, q, t, Or.inr rfl, rfl⟩)
    · exact Or.inl h
  | replaceLater k q t _ _ =>
    simp only [List.mem_cons, Event.accepted.injEq] at h
    rcases h with rfl | h
    · exact Or.inr (Or.inl ⟨k, q, t, Or.inr rfl, rfl⟩)
    · exact Or.inl h
  | rescheduleNow p t a d q hp hph hq hd hwh =>
    simp only [List.mem_cons, Event.accepted.injEq] at h
    rcases h with rfl | h
    · exact Or.inr (Or.inr ⟨p, hp, t, a, d, rfl, hq⟩)
    · exact Or.inl h
  | rescheduleLater p t a d q hp hph hq hd hwh =>
    simp only [List.mem_cons, Event.accepted.injEq] at h
    rcases h with rfl | h
    · exact Or.inr (Or.inr ⟨p, hp, t, a, d, rfl, hq⟩)
    · exact Or.inl h
  | poll w n new hnew =>
    simp only [List.mem_append, List.mem_reverse] at h
    rcases h with h | h
    · obtain ⟨_, _, h1, _⟩ := mem_newHanded h; cases h1
    · exact Or.inl h
  | _ => left; simpa using h

theorem AttInv.step {cfg : Cfg} {pol : Policy} {h : Hist} (hi : AttInv pol h) (op : HOp) :
    AttInv pol (hstep cfg pol h op) := by
  simp only [hstep]
  cases ho : toOp pol h.s op with
  | none => exact hi
  | some o =>
    refine ⟨hi.wf.step o, hi.origin.step hi.wf o, ?_⟩
    intro m hm
    rcases accepted_by cfg hi.wf o hm with h1 | ⟨k, q, t, hop, hq⟩ | ⟨p, hp, t, a, d, rfl, hq⟩
    · exact hi.bound m h1
    · have : q.attempt = 1 := by
        cases op with
        | other op =>
          rcases hop with rfl | rfl <;> cases op <;> simp [toOp] at ho
        | add k' q' t' =>
          simp only [toOp, Option.some.injEq] at ho
          subst ho
          rcases hop with hop | hop <;> cases hop
          rfl
        | replace k' q' t' =>
          simp only [toOp, Option.some.injEq] at ho
          subst ho
          rcases hop with hop | hop <;> cases hop
          rfl
        | finish pid st w =>
          simp only [toOp] at ho
          rcases hop with rfl | rfl <;> split at ho <;> cases ho
        | fail pid dl e w =>
          obtain ⟨p', _, ho⟩ := Option.map_eq_some_iff.1 ho
          rcases hop with rfl | rfl <;>
            cases hf : onFail (pol p'.msg.req.fn) p'.msg.req.attempt h.s.r.now dl <;> simp [hf] at ho
        | blocked pid dl =>
          obtain ⟨p', _, ho⟩ := Option.map_eq_some_iff.1 ho
          rcases hop with rfl | rfl <;> cases ho
      rw [hq, this]
      exact ⟨by omega, fun n _ => by omega⟩
    · have hb := hi.bound _ (hi.origin.procs p hp)
      have hpp := proc?_of_mem hi.wf hp
      rw [hq]
      simp only
      cases op with
      | other op => cases op <;> simp [toOp] at ho
      | add k' q' t' => simp [toOp] at ho
      | replace k' q' t' => simp [toOp] at ho
      | finish pid st w => simp only [toOp] at ho; split at ho <;> simp at ho
      | fail pid dl e w =>
        obtain ⟨p', hp', ho⟩ := Option.map_eq_some_iff.1 ho
        cases hf : onFail (pol p'.msg.req.fn) p'.msg.req.attempt h.s.r.now dl with
        | none => simp [hf] at ho
        | some x =>
          simp only [hf, Op.reschedule.injEq] at ho
          obtain ⟨rfl, rfl, rfl, rfl⟩ := ho
          rw [hpp, Option.some.injEq] at hp'
          subst hp'
          have hx : x.2 = p.msg.req.attempt + 1 ∧ ∀ n, (pol p.msg.req.fn).attempts = some n →
              p.msg.req.attempt < n := by
            simp only [onFail] at hf
            split at hf
            · cases hf
            · simp only [handleFailure] at hf
              split at hf
              · split at hf
                · cases hf
                · rename_i n hn hlt
                  cases hf
                  exact ⟨rfl, fun n' hn' => by rw [hn] at hn'; cases hn'; omega⟩
              · rename_i hn
                cases hf
                exact ⟨rfl, fun n' hn' => by rw [hn] at hn'; cases hn'⟩
          rw [hx.1]
          exact ⟨by omega, fun n hn => by have := hx.2 n hn; omega⟩
      | blocked pid dl =>
        obtain ⟨p', hp', ho⟩ := Option.map_eq_some_iff.1 ho
        simp only [Op.reschedule.injEq] at ho
        obtain ⟨rfl, rfl, rfl, rfl⟩ := ho
        rw [hpp, Option.some.injEq] at hp'
        subst hp'
        exact hb

/-- C37, every history.  Whatever happens, concurrently or not, no run of a task with
`attempts=n` is ever numbered above `n` (or above 1 if `n` is 0). -/
theorem C37_attempt_number_bounded (cfg : Cfg) (pol : Policy) (ops : List HOp) (pid id : Nat) (m : Msg)
    (t : Time) (h : Event.started pid id m t ∈ (hrun cfg pol ⟨{}, []⟩ ops).s.log) :
    1 ≤ m.req.attempt ∧ ∀ n, (pol m.req.fn).attempts = some n → m.req.attempt ≤ max 1 n := by
  have : ∀ (ops : List HOp) (h : Hist), AttInv pol h → AttInv pol (hrun cfg pol h ops) := by
    intro ops
    induction ops with
    | nil => intro h hi; exact hi
    | cons o ops ih => intro h hi; exact ih _ (hi.step o)
  have hi := this ops ⟨{}, []⟩ ⟨WF.init, OriginInv.run cfg [], by simp⟩
  exact hi.bound m (hi.origin.started pid id m t h)

/-- `Retry` (with a fixed delay) always works; `ExponentialRetry` does as long as its
largest delay before capping can be represented. -/
theorem sound_linear (a : Option Nat) (d : Nat) : Sound ⟨a, .linear d⟩ := by
  intro f _; rfl

theorem sound_exponential (n lo hi : Nat) (h : lo * 2 ^ (n - 1) ≤ maxDelta) :
    Sound ⟨some n, .exponential lo hi⟩ := by
  intro f hf
  have hf := hf n rfl
  simp only [enter]
  split
  · have : lo * 2 ^ (f + 1 - 1) ≤ lo * 2 ^ (n - 1) :=
      Nat.mul_le_mul_left _ (Nat.pow_le_pow_right (by omega) (by omega))
    rw [if_neg (by omega)]
    split <;> rfl
  · rfl

section examples_C37
private def pol3 : Policy := fun _ => ⟨some 3, .exponential 1000000 64000000⟩
private def req : Request := ⟨"f", "a", "b", 0, 1⟩
/-- One run: poll, claim, fail, wait for the retry and let the scheduler move it. -/
private def cycle (pid : Nat) : List HOp :=
  [.other (.poll "w" 1), .other (.claim pid), .fail pid none none true, .other (.tick 4000000),
   .other (.schedule (4000000 * (pid + 1)))]
/-- The situation is met by a task that fails three times; it is over then. -/
example : Setting ⟨10, 3⟩ pol3 [] "k" req 0 (cycle 0 ++ cycle 1 ++ cycle 2) :=
  ⟨⟨rfl, by decide, by simp [run], rfl, rfl, rfl⟩, by decide, by decide +kernel,
    sound_exponential 3 _ _ (by decide)⟩
example : count .failed (life ⟨10, 3⟩ pol3 [] "k" req 0 (cycle 0 ++ cycle 1 ++ cycle 2)).ends "k" = 3 ∧
    starts (life ⟨10, 3⟩ pol3 [] "k" req 0 (cycle 0 ++ cycle 1 ++ cycle 2)).s.log "k" = 3 := by
  decide +kernel
/-- And by one whose worker dies during the first run, and which then succeeds. -/
private def crashed : List HOp :=
  [.other (.poll "w" 1), .other (.claim 0), .other (.crash "w"), .other (.tick 5),
   .other (.redeliver "v" 1), .other (.claim 1), .finish 1 .completed false]
example : Setting ⟨10, 3⟩ pol3 [] "k" req 0 (crashed ++ [.other (.poll "v" 3)]) :=
  ⟨⟨rfl, by decide, by simp [run], rfl, rfl, rfl⟩, by decide, by decide +kernel,
    sound_exponential 3 _ _ (by decide)⟩
example : count .ended (life ⟨10, 3⟩ pol3 [] "k" req 0 crashed).ends "k" ≠ 0 := by decide +kernel

/-- `ExponentialRetry.forever()` with the default delays. -/
private def forever : Policy := fun _ => ⟨none, .exponential 1000000 64000000⟩
private def round (pid : Nat) : List HOp :=
  [.other (.poll "w" 1), .other (.claim pid), .fail pid (some 0) none true]

/-- The full statement of C37's second part: with `attempts=None` the task is retried
after every failure. -/
def C37_forever : Prop := ∀ (cfg : Cfg) (pol : Policy) (pre : List Op) (k : Key) (q : Request) (t : Time)
    (ops : List HOp), Unused (run cfg pre) k → t ≤ (run cfg pre).r.now →
    Alone cfg pol k (hstep cfg pol ⟨run cfg pre, []⟩ (.add k q t)) ops →
    (pol q.fn).attempts = none → count .ended (life cfg pol pre k q t ops).ends k = 0 →
    SomeMessage (life cfg pol pre k q t ops).s k

/-- The code violates it for `ExponentialRetry.forever()`: at the 48th attempt
`delay * 2 ** (attempt - 1)` (_retry.py:207-208) exceeds the largest `timedelta` and raises
before the cap is applied.  The run then has no failure handler, so the task is marked as
failed without being called, and never retried.  (With the default delays this happens
about 45 minutes after the first failure.) -/
theorem C37_violated_exponential_forever : ¬ C37_forever := by
  intro h
  have := h ⟨10, 3⟩ forever [] "k" req 0 ((List.range 48).flatMap round)
    ⟨rfl, by decide, by simp [run], rfl, rfl, rfl⟩ (by decide) (by decide +kernel) rfl (by decide +kernel)
  revert this
  decide +kernel
end examples_C37

/-! ### C38 -/

/-- The documented delay before the retry that follows attempt `a`: the minimum doubled
`a - 1` times, but at most the maximum. -/
def documented (minimum maximum a : Nat) : Nat := min (minimum * 2 ^ (a - 1)) maximum

/-- C38, the formula.  With `minimum_delay ≤ maximum_delay`, the delay an
`ExponentialRetry` waits after attempt `a` is the documented one, at least the minimum,
at most the maximum and not less than after an earlier attempt; this holds unless the
delay before capping is too large for a `timedelta` (then entering the dependency raises,
see `C37_violated_exponential_forever`). -/
theorem C38_delay_partial {minimum maximum a : Nat} (h : minimum ≤ maximum) (ha : 1 ≤ a)
    (hrep : minimum * 2 ^ (a - 1) ≤ maxDelta) :
    ∃ d, enter (.exponential minimum maximum) a = some d ∧ d = documented minimum maximum a ∧
      minimum ≤ d ∧ d ≤ maximum ∧
      ∀ a' d', 1 ≤ a' → a' ≤ a → enter (.exponential minimum maximum) a' = some d' → d' ≤ d := by
  have hpos : ∀ b, minimum ≤ minimum * 2 ^ b := fun b => Nat.le_mul_of_pos_right _ (Nat.two_pow_pos b)
  have key : ∀ b, 1 ≤ b → minimum * 2 ^ (b - 1) ≤ maxDelta →
      enter (.exponential minimum maximum) b = some (documented minimum maximum b) := by
    intro b hb hr
    simp only [enter, documented]
    split
    · rw [if_neg (by omega)]
      split
      · rw [Nat.min_eq_right (by omega)]
      · rw [Nat.min_eq_left (by omega)]
    · have : b = 1 := by omega
      subst this
      simp [Nat.min_eq_left h]
  refine ⟨_, key a ha hrep, rfl, ?_, Nat.min_le_right _ _, ?_⟩
  · exact Nat.le_min.2 ⟨hpos _, h⟩
  · intro a' d' ha' hle hd
    have hm : minimum * 2 ^ (a' - 1) ≤ minimum * 2 ^ (a - 1) :=
      Nat.mul_le_mul_left _ (Nat.pow_le_pow_right (by omega) (by omega))
    rw [key a' ha' (by omega), Option.some.injEq] at hd
    subst hd
    simp only [documented]
    omega

/-- With the default delays of one and 64 seconds: 1, 2, 4, ... 64, 64 seconds. -/
example : (1000000 : Nat) ≤ 64000000 ∧ 1000000 * 2 ^ (9 - 1) ≤ maxDelta ∧
    enter (.exponential 1000000 64000000) 9 = some 64000000 ∧
    enter (.exponential 1000000 64000000) 3 = some 4000000 := by decide

/-- The full statement of C38's bound: never more than the maximum. -/
def C38_bound : Prop := ∀ minimum maximum a d, 1 ≤ a →
  enter (.exponential minimum maximum) a = some d → d ≤ maximum

/-- The code violates it when the minimum exceeds the maximum: the cap is applied from
the second attempt on only (_retry.py:206-213), so the first delay is the minimum and the
later ones, being the maximum, are shorter. -/
theorem C38_violated_first_delay_uncapped : ¬ C38_bound ∧
    ¬ (∀ minimum maximum a d d', 1 ≤ a → enter (.exponential minimum maximum) a = some d →
      enter (.exponential minimum maximum) (a + 1) = some d' → d ≤ d') := by
  constructor
  · intro h
    have := h 5 3 1 5 (by decide) rfl
    omega
  · intro h
    have := h 5 3 1 5 3 (by decide) rfl rfl
    omega

/-- The delay `Retry.at(when)` computes and hands to `after`, _retry.py:88-93; `when_` may
lie in the past, hence an integer. -/
def atDelay (when_ : Int) (now : Nat) : Nat :=
  let diff := when_ - now
  if diff ≥ 0 then diff.toNat else 0

/-- A request for time `at_` is waiting: message `m` is the one outstanding for its key,
in the stream if the time has come, else in the schedule at that time. -/
structure WaitingFor (now : Time) (s' : Sys) (m : Msg) (at_ : Time) : Prop where
  when_ : m.req.when_ = at_
  outstanding : outstanding s'.log m.key = some m
  due : at_ ≤ now → InStream s' m
  later : now < at_ → InSchedule s' m

theorem reschedule_place (cfg : Cfg) {s : Sys} (hw : WF s) {p : Proc} (hp : p ∈ s.procs)
    (hph : p.phase = .running) (t a : Nat) :
    ∃ m : Msg, m.key = p.msg.key ∧ m.req = { p.msg.req with when_ := t, attempt := a } ∧
      WaitingFor s.r.now (Docket.step cfg s (.reschedule p.pid t a s.r.now)) m t := by
  have hpp := proc?_of_mem hw hp
  refine ⟨⟨p.msg.key, { p.msg.req with when_ := t, attempt := a },
    s.r.nextGen p.msg.key⟩, rfl, rfl, ?_⟩
  have he := step_eff cfg s hw.queue (.reschedule p.pid t a s.r.now)
  have hne : Docket.step cfg s (.reschedule p.pid t a s.r.now) ≠ s := by
    intro hc
    have := congrArg (fun x => x.log.length) hc
    simp [Docket.step, doReschedule, hpp, hph] at this
  generalize hs' : Docket.step cfg s (.reschedule p.pid t a s.r.now) = s' at he hne
  clear hs'
  generalize hop : Op.reschedule p.pid t a s.r.now = op at he
  cases he with
  | nop => exact absurd rfl hne
  | rescheduleNow p' t' a' d q hp' hph' hq hd hle =>
    simp only [Op.reschedule.injEq] at hop
    obtain ⟨h1, rfl, rfl, rfl⟩ := hop
    have := pid_inj hw hp hp' h1
    subst this
    subst hq
    refine ⟨rfl, by simp [Docket.outstanding], fun _ => ?_, fun h => by omega⟩
    exact ⟨s.r.nextId, by simp⟩
  | rescheduleLater p' t' a' d q hp' hph' hq hd hlt =>
    simp only [Op.reschedule.injEq] at hop
    obtain ⟨h1, rfl, rfl, rfl⟩ := hop
    have := pid_inj hw hp hp' h1
    subst this
    subst hq
    refine ⟨rfl, by simp [Docket.outstanding], fun h => by omega, fun _ => ⟨by simp, ?_⟩⟩
    exact zinsert_mem.2 (Or.inl rfl)
  | prog op k f h =>
    subst hop
    simp at h
  | clear op j js h =>
    subst hop
    simp at h
  | _ => cases hop

/-- C38, what is done with the delay.  In any reachable state, when a run of a task with
attempts left fails, its retry is scheduled for exactly the moment of handling the failure
plus the delay: the one asked for through `Retry.after`, else the one of the formula. -/
theorem C38_retry_is_scheduled_after_delay (cfg : Cfg) (pol : Policy) (ops : List HOp) (p : Proc)
    (after : Option Nat) (e : Option String) (w : Bool) (d : Nat) :
    let h := hrun cfg pol ⟨{}, []⟩ ops
    p ∈ h.s.procs → p.phase = .running →
    (∀ n, (pol p.msg.req.fn).attempts = some n → p.msg.req.attempt < n) →
    enter (pol p.msg.req.fn).backoff p.msg.req.attempt = some d →
    ∃ m : Msg, m.key = p.msg.key ∧ SameCall m.req p.msg.req ∧
      m.req.attempt = p.msg.req.attempt + 1 ∧
      WaitingFor h.s.r.now (hstep cfg pol h (.fail p.pid after e w)).s m
        (h.s.r.now + after.getD d) := by
  intro h hp hph hleft hd
  have hw : WF h.s := by
    have : ∀ (ops : List HOp) (h : Hist), WF h.s → WF (hrun cfg pol h ops).s := by
      intro ops
      induction ops with
      | nil => intro h hi; exact hi
      | cons o ops ih =>
        intro h hi
        refine ih _ ?_
        simp only [hstep]
        cases toOp pol h.s o with
        | none => exact hi
        | some o => exact hi.step o
    exact this ops _ WF.init
  have hf : onFail (pol p.msg.req.fn) p.msg.req.attempt h.s.r.now after =
      some (h.s.r.now + after.getD d, p.msg.req.attempt + 1) := by
    simp only [onFail, hd, handleFailure]
    cases hat : (pol p.msg.req.fn).attempts with
    | none => rfl
    | some n =>
      have := hleft n hat
      simp only
      rw [if_neg (by omega)]
  have hto : (hstep cfg pol h (.fail p.pid after e w)).s = Docket.step cfg h.s
      (.reschedule p.pid (h.s.r.now + after.getD d) (p.msg.req.attempt + 1) h.s.r.now) := by
    simp only [hstep, toOp, proc?_of_mem hw hp, Option.map_some, hf]
  rw [hto]
  obtain ⟨m, h1, h2, h3⟩ := reschedule_place cfg hw hp hph (h.s.r.now + after.getD d) (p.msg.req.attempt + 1)
  exact ⟨m, h1, by rw [h2]; exact ⟨rfl, rfl, rfl⟩, by rw [h2], h3⟩

/-- C38, `Retry.at`.  Called at `called` with moment `when_`, and the failure being handled
at `now` (not before), the retry is scheduled (`now` plus the delay) neither in the past
nor before `when_`, and exactly at `when_` plus the time between the two if that moment was
still to come. -/
theorem C38_retry_at (when_ : Int) (called now : Nat) (h : called ≤ now) :
    now ≤ now + atDelay when_ called ∧ when_ ≤ (now + atDelay when_ called : Nat) ∧
    ((called : Int) ≤ when_ → ((now + atDelay when_ called : Nat) : Int) = when_ + (now - called)) := by
  simp only [atDelay]
  split <;> omega

section examples_C38
private def ready : List HOp := [.other (.tick 7), .add "k" req 7, .other (.poll "w" 1), .other (.claim 0)]
/-- A running task, of which two attempts are left, that asks for a delay of 3. -/
example : ∃ p ∈ (hrun ⟨10, 3⟩ pol3 ⟨{}, []⟩ ready).s.procs, p.phase = .running ∧
    p.msg.req.attempt < 3 ∧ enter (pol3 p.msg.req.fn).backoff p.msg.req.attempt = some 1000000 ∧
    (hstep ⟨10, 3⟩ pol3 (hrun ⟨10, 3⟩ pol3 ⟨{}, []⟩ ready) (.fail p.pid (some 3) none true)).s.r.queue
      = [("k", 10)] := by decide +kernel
example : atDelay 12 5 = 7 ∧ atDelay 3 5 = 0 ∧ atDelay (-4) 5 = 0 := by decide
end examples_C38

end Docket.Retrying

namespace Docket.Perpetuals
open Docket Docket.Retrying

/-! ### C39 -/

/-- C39, the time.  A time the run asked for is taken as it is; otherwise the next run is
not in the past, and if the run took no longer than `every` it is `every` after the run
began (or as much later as `on_complete` came after the end of the run).  `started`
is when the run began. -/
theorem C39_time (i : Inst) (started duration now : Nat) (hd : started + duration ≤ now) :
    (∀ t, i.nextWhen = some t → nextTime i now duration = t) ∧
    (i.nextWhen = none → now ≤ nextTime i now duration ∧
      nextTime i now duration = max now (now + i.every - duration) ∧
      (duration ≤ i.every → nextTime i now duration = started + i.every + (now - (started + duration))) ∧
      (i.every ≤ duration → nextTime i now duration = now)) := by
  constructor
  · intro t h; simp [nextTime, h]
  · intro h
    simp only [nextTime, h]
    refine ⟨by omega, trivial, by omega, by omega⟩

example : nextTime { every := 10, args := "", kwargs := "" } 107 7 = 110 ∧
    nextTime { every := 10, args := "", kwargs := "" } 112 12 = 112 := by decide

/-- C39, what a run can ask for.  A run begins with nothing requested, not cancelled, and
the arguments it was itself called with; `after()` requests the moment of the call plus
the delay, `at()` the given time, the last request counting, and neither changes the
arguments or whether the task is cancelled. -/
theorem C39_requests (every : Nat) (m : Msg) (i : Inst) (t t' called delay now duration : Nat) :
    (let f := Inst.fresh every m
     f.every = every ∧ f.cancelled = false ∧ f.nextWhen = none ∧ f.args = m.req.args ∧ f.kwargs = m.req.kwargs) ∧
    nextTime (i.after called delay) now duration = called + delay ∧
    nextTime (i.at_ t) now duration = t ∧
    nextTime ((i.at_ t').after called delay) now duration = called + delay ∧
    nextTime ((i.after called delay).at_ t) now duration = t ∧
    (∀ j, j = i.after called delay ∨ j = i.at_ t →
      j.args = i.args ∧ j.kwargs = i.kwargs ∧ j.cancelled = i.cancelled) := by
  refine ⟨⟨rfl, rfl, rfl, rfl, rfl⟩, rfl, rfl, rfl, rfl, ?_⟩
  rintro j (rfl | rfl) <;> exact ⟨rfl, rfl, rfl⟩

/-- The start of run number `n`: the first starts at `first`; each later one starts `lag`
after the time it was scheduled for, where run `n` takes `duration n`. -/
def startOf (i : Inst) (first : Nat) (duration lag : Nat → Nat) : Nat → Nat
  | 0 => first
  | n + 1 => nextTime i (startOf i first duration lag n + duration n) (duration n) + lag n

/-- C39, sequences of runs.  If no run takes longer than `every` and each starts when it
is due, the starts are exactly `every` apart, for ever; delays in starting add up. -/
theorem C39_spacing (i : Inst) (h : i.nextWhen = none) (first : Nat) (duration lag : Nat → Nat)
    (hd : ∀ n, duration n ≤ i.every) (n : Nat) :
    startOf i first duration lag (n + 1) = startOf i first duration lag n + i.every + lag n ∧
    ((∀ j, lag j = 0) → startOf i first duration lag n = first + n * i.every) := by
  have one : ∀ n, startOf i first duration lag (n + 1) = startOf i first duration lag n + i.every + lag n := by
    intro n
    have := (((C39_time i (startOf i first duration lag n) (duration n) _ (Nat.le_refl _)).2 h).2.2.1 (hd n))
    simp only [startOf, this]
    omega
  refine ⟨one n, fun hl => ?_⟩
  induction n with
  | zero => simp [startOf]
  | succ n ih =>
    rw [one n, ih, hl n, Nat.succ_mul]
    omega

example : startOf { every := 10, args := "", kwargs := "" } 100 (fun _ => 7) (fun _ => 0) 5 = 150 := by decide

theorem replace_place (cfg : Cfg) {s : Sys} (hw : WF s) (k : Key) (q : Request) :
    WaitingFor s.r.now (Docket.step cfg s (.replace k q s.r.now)) ⟨k, q, s.r.nextGen k⟩ q.when_ ∧
    (Docket.step cfg s (.replace k q s.r.now)).r.genOf k = some (s.r.nextGen k) ∧
    (Docket.step cfg s (.replace k q s.r.now)).procs = s.procs ∧
    (∀ e ∈ (Docket.step cfg s (.replace k q s.r.now)).r.stream, e ∈ s.r.stream ∨
      e.1 = s.r.nextId) ∧
    (q.when_ ≤ s.r.now → (s.r.nextId, ⟨k, q, s.r.nextGen k⟩) ∈
      (Docket.step cfg s (.replace k q s.r.now)).r.stream) := by
  have he := step_eff cfg s hw.queue (.replace k q s.r.now)
  have hne : Docket.step cfg s (.replace k q s.r.now) ≠ s := by
    intro hc
    have := congrArg (fun x => x.log.length) hc
    simp only [Docket.step, doReplace, doSchedule, luaSchedule, Nat.le_refl, if_true] at this
    by_cases hx : q.when_ ≤ s.r.now <;> simp [hx] at this
  generalize hs' : Docket.step cfg s (.replace k q s.r.now) = s' at he hne
  clear hs'
  generalize hop : Op.replace k q s.r.now = op at he
  cases he with
  | nop => exact absurd rfl hne
  | replaceNow k' q' t ht hle =>
    simp only [Op.replace.injEq] at hop
    obtain ⟨rfl, rfl, rfl⟩ := hop
    refine ⟨⟨rfl, by simp [Docket.outstanding], fun _ => ⟨s.r.nextId, by simp⟩, fun h => by omega⟩, ?_, rfl, ?_, ?_⟩
    · simp [Redis.genOf, queuedRun]
    · intro e he
      simp only [List.mem_append, List.mem_singleton] at he
      rcases he with he | rfl
      · exact Or.inl (mem_dropOwn he)
      · exact Or.inr rfl
    · intro _; simp
  | replaceLater k' q' t ht hlt =>
    simp only [Op.replace.injEq] at hop
    obtain ⟨rfl, rfl, rfl⟩ := hop
    refine ⟨⟨rfl, by simp [Docket.outstanding], fun h => by omega, fun _ => ⟨by simp, ?_⟩⟩, ?_, rfl, ?_, ?_⟩
    · exact zinsert_mem.2 (Or.inl rfl)
    · simp [Redis.genOf, scheduledRun]
    · intro e he
      exact Or.inl (mem_dropOwn he)
    · intro h; omega
  | prog op k f h =>
    subst hop
    simp at h
  | clear op j js h =>
    subst hop
    simp at h
  | _ => cases hop

/-- Something newer was scheduled under the key of `m`. -/
def NewerScheduled (s : Sys) (m : Msg) : Prop := ∃ g, s.r.genOf m.key = some g ∧ m.gen < g

instance (s : Sys) (m : Msg) : Decidable (NewerScheduled s m) := by
  unfold NewerScheduled
  cases h : s.r.genOf m.key with
  | none => exact isFalse (by simp)
  | some g => exact decidable_of_iff (m.gen < g) (by simp)

theorem supersededNow_iff {s : Sys} {m : Msg} (h : 0 < m.gen) :
    supersededNow s m = true ↔ NewerScheduled s m := by
  unfold supersededNow NewerScheduled
  rw [if_neg (by omega)]
  cases s.r.genOf m.key with
  | none => simp
  | some g => simp

/-- C39, rescheduling.  In every state reached without losing the key's record while a
message of the key exists, when a run `p` of a perpetual task that did not call
`cancel()` ends, successfully or not, and has not been superseded, the next run is
waiting afterwards, under the same key, for the time above, as a first attempt, with the
arguments given to `perpetuate()` (by default its own); and `p` itself is over. -/
theorem C39_rescheduled_partial (cfg : Cfg) (ops : List Op) (p : Proc) (i : Inst) (duration : Nat)
    (st : RunState) :
    let s := run cfg ops
    Throughout cfg (fun s => ¬ Orphaned s p.msg.key) {} ops →
    p ∈ s.procs → p.phase = .running → st = .completed ∨ st = .failed → i.cancelled = false →
    ¬ NewerScheduled s p.msg →
    ∃ m : Msg, m.key = p.msg.key ∧
      m.req = ⟨p.msg.req.fn, i.args, i.kwargs, nextTime i s.r.now duration, 1⟩ ∧
      WaitingFor s.r.now (complete cfg s p i duration st) m (nextTime i s.r.now duration) ∧
      (∀ p' ∈ (complete cfg s p i duration st).procs, p'.pid ≠ p.pid) ∧
      (∀ e ∈ (complete cfg s p i duration st).r.stream, e.1 ≠ p.id) := by
  intro s hth hp hph hst hc hnew
  have hw : WF s := WF.run cfg ops
  have hsup : supersededNow s p.msg = false := by
    have ho : OriginInv s := OriginInv.run cfg ops
    rw [← Bool.not_eq_true, supersededNow_iff (ho.pos _ (ho.procs p hp))]
    exact hnew
  have hgi : GenInv s p.msg.key := GenInv.runFrom WF.init (GenInv.init _) hth
  have hno : ¬ Orphaned s p.msg.key := Throughout.last hth
  have hrec : HasRecord s p.msg.key := by
    by_cases h : HasRecord s p.msg.key
    · exact h
    · exact absurd ⟨h, Or.inr (Or.inr ⟨p, hp, rfl⟩)⟩ hno
  obtain ⟨g, hg⟩ := Option.isSome_iff_exists.1 hrec
  have hle := hgi.procs_le g hg p hp rfl
  have hdec : complete cfg s p i duration st = Docket.step cfg (Docket.step cfg s
      (.replace p.msg.key (againRequest p.msg i (nextTime i s.r.now duration)) s.r.now))
      (.finish p.pid st none false) := by
    simp [complete, onComplete, hc, hsup, actions]
  refine ⟨⟨p.msg.key, againRequest p.msg i (nextTime i s.r.now duration), s.r.nextGen p.msg.key⟩, rfl, rfl, ?_⟩
  rw [hdec]
  obtain ⟨h1, h2, h3, h4, h5⟩ := replace_place cfg hw p.msg.key (againRequest p.msg i (nextTime i s.r.now duration))
  have hw1 := hw.step (cfg := cfg)
    (.replace p.msg.key (againRequest p.msg i (nextTime i s.r.now duration)) s.r.now)
  generalize Docket.step cfg s (.replace p.msg.key (againRequest p.msg i (nextTime i s.r.now duration)) s.r.now)
    = s1 at *
  have hp1 : p ∈ s1.procs := h3 ▸ hp
  have hgen : s.r.nextGen p.msg.key = g + 1 := by rw [nextGen_eq, hg]; rfl
  have ho : OriginInv s := OriginInv.run cfg ops
  have hpos := ho.pos _ (ho.procs p hp)
  have hid : p.id < s.r.nextId := by
    have := (hw.procs.1 p hp).1
    have := hw.stream.ldlt
    omega
  have hss : isSuperseded s1.r p.msg.key p.msg.gen = true := by
    simp only [isSuperseded, h2, hgen, Bool.and_eq_true, decide_eq_true_eq]
    omega
  have he := step_eff cfg s1 hw1.queue (.finish p.pid st none false)
  have hne : Docket.step cfg s1 (.finish p.pid st none false) ≠ s1 := by
    intro hcc
    have := congrArg (fun x => x.log.length) hcc
    have hter : st.terminal = true := by rcases hst with rfl | rfl <;> rfl
    simp [Docket.step, doFinish, proc?_of_mem hw1 hp1, hph, hter] at this
  generalize Docket.step cfg s1 (.finish p.pid st none false) = s' at he hne
  generalize hop : Op.finish p.pid st none false = op at he
  cases he with
  | nop => exact absurd rfl hne
  | finish p' st' e w hp' _ hs =>
    simp only [Op.finish.injEq] at hop
    have := pid_inj hw1 hp1 hp' hop.1
    subst this
    rw [hss] at hs
    cases hs
  | finishSuperseded p' st' e w hp' _ _ =>
    simp only [Op.finish.injEq] at hop
    have := pid_inj hw1 hp1 hp' hop.1
    subst this
    refine ⟨⟨rfl, ?_, fun h => ⟨s.r.nextId, ?_⟩, fun h => ⟨(h1.later h).1, (h1.later h).2⟩⟩, ?_, ?_⟩
    · simpa [Docket.outstanding] using h1.outstanding
    · simp only [List.mem_filter, decide_eq_true_eq]
      exact ⟨h5 h, by omega⟩
    · intro p' hp'
      simpa using (List.mem_filter.1 hp').2
    · intro e he
      simpa using (List.mem_filter.1 he).2
  | prog op k f h =>
    subst hop
    simp at h
  | clear op j js h =>
    subst hop
    simp at h
  | _ => cases hop

/-- C39, not rescheduled.  A run that called `cancel()`, or that was superseded when
`on_complete` looked, does not schedule anything: whatever request of its key was accepted
before, no other is. -/
theorem C39_not_rescheduled (cfg : Cfg) (ops : List Op) (p : Proc) (i : Inst) (duration : Nat)
    (st : RunState) :
    let s := run cfg ops
    p ∈ s.procs → i.cancelled = true ∨ NewerScheduled s p.msg →
    (∀ m, Event.accepted m ∈ (complete cfg s p i duration st).log → Event.accepted m ∈ s.log) ∧
    (i.cancelled = true → outstanding (complete cfg s p i duration st).log p.msg.key = none ∧
      (complete cfg s p i duration st).r.parked p.msg.key = none) := by
  intro s hp h
  have hw : WF s := WF.run cfg ops
  have ho : OriginInv s := OriginInv.run cfg ops
  have nof : ∀ s : Sys, WF s → ∀ m, Event.accepted m ∈
      (Docket.step cfg s (.finish p.pid st none false)).log → Event.accepted m ∈ s.log := by
    intro s hw m hm
    rcases accepted_by cfg hw _ hm with h1 | ⟨k, q, t, h1 | h1, _⟩ | ⟨_, _, _, _, _, h1, _⟩
    · exact h1
    all_goals cases h1
  cases hc : i.cancelled with
  | false =>
    have hsup : supersededNow s p.msg = true := by
      rw [supersededNow_iff (ho.pos _ (ho.procs p hp))]
      simpa [hc] using h
    have hdec : complete cfg s p i duration st = Docket.step cfg s (.finish p.pid st none false) := by
      simp [complete, onComplete, hc, hsup, actions]
    rw [hdec]
    exact ⟨nof s hw, fun hf => by cases hf⟩
  | true =>
    have hdec : complete cfg s p i duration st = Docket.step cfg (Docket.step cfg (Docket.step cfg s
        (.cancel p.msg.key)) (.cancelTtl p.msg.key)) (.finish p.pid st none false) := by
      simp [complete, onComplete, hc, actions]
    rw [hdec]
    have hw1 := hw.step (cfg := cfg) (.cancel p.msg.key)
    have hw2 := hw1.step (cfg := cfg) (.cancelTtl p.msg.key)
    have e1 : (Docket.step cfg s (.cancel p.msg.key)).log = .cancelled p.msg.key :: s.log := rfl
    have e2 : (Docket.step cfg (Docket.step cfg s (.cancel p.msg.key)) (.cancelTtl p.msg.key)).log
        = (Docket.step cfg s (.cancel p.msg.key)).log := by
      generalize Docket.step cfg s (.cancel p.msg.key) = s1
      simp only [Docket.step, doCancelTtl]
      split <;> rfl
    have p1 : (Docket.step cfg s (.cancel p.msg.key)).r.parked p.msg.key = none := by
      simp only [Docket.step, doCancel, luaCancel_eq]
      simp
    have p2 : (Docket.step cfg (Docket.step cfg s (.cancel p.msg.key)) (.cancelTtl p.msg.key)).r.parked
        p.msg.key = none := by
      rw [← p1]
      generalize Docket.step cfg s (.cancel p.msg.key) = s1
      simp only [Docket.step, doCancelTtl, expireRun_eq]
      split <;> rfl
    generalize Docket.step cfg (Docket.step cfg s (.cancel p.msg.key)) (.cancelTtl p.msg.key) = s2 at *
    rw [e1] at e2
    refine ⟨fun m hm => ?_, fun _ => ?_⟩
    · have := nof s2 hw2 m hm
      rw [e2] at this
      simpa using this
    · have he := step_eff cfg s2 hw2.queue (.finish p.pid st none false)
      generalize Docket.step cfg s2 (.finish p.pid st none false) = s' at he
      generalize hop : Op.finish p.pid st none false = op at he
      cases he with
      | nop => rw [e2]; exact ⟨by simp [Docket.outstanding], p2⟩
      | finish p' st' e w hp' _ hs =>
        refine ⟨?_, p2⟩
        simp only [Docket.outstanding, e2]
        split <;> simp
      | finishSuperseded p' st' e w hp' _ _ =>
        exact ⟨by simp [Docket.outstanding, e2], p2⟩
      | prog op k f h =>
        subst hop
        simp at h
      | clear op j js h =>
        subst hop
        simp at h
      | _ => cases hop

section examples_C39
private def req0 : Request := ⟨"f", "a", "b", 5, 1⟩
private def running : List Op := [.tick 5, .add "k" req0 5, .poll "w" 1, .claim 0, .tick 4]
private def inst : Inst := { every := 10, args := "a", kwargs := "b" }
private def prun : Proc := ⟨0, "w", 1, ⟨"k", req0, 1⟩, false, .running⟩

/-- A run that began at 5 and takes 4, with `every` 10: the next is at 15. -/
example : Throughout ⟨10, 3⟩ (fun s => ¬ Orphaned s "k") {} running ∧
    prun ∈ (run ⟨10, 3⟩ running).procs ∧ inst.cancelled = false ∧
    ¬ NewerScheduled (run ⟨10, 3⟩ running) prun.msg ∧
    (complete ⟨10, 3⟩ (run ⟨10, 3⟩ running) prun inst 4 .completed).r.queue = [("k", 15)] := by
  decide +kernel
/-- A superseded run, and the other hypothesis. -/
example : NewerScheduled (run ⟨10, 3⟩ (running ++ [.replace "k" ⟨"f", "c", "d", 50, 1⟩ 9])) prun.msg ∧
    prun ∈ (run ⟨10, 3⟩ (running ++ [.replace "k" ⟨"f", "c", "d", 50, 1⟩ 9])).procs ∧
    ({ inst with cancelled := true }).cancelled = true := by decide +kernel

/-- The full statement of C39's last part, with what other processes do (`between`) after
`on_complete` has looked and before it acts: a run superseded by `replace()` leaves the
replacement outstanding. -/
def C39_superseded : Prop := ∀ (cfg : Cfg) (ops between : List Op) (p : Proc) (i : Inst) (duration : Nat),
  let s := run cfg ops
  let s1 := runFrom cfg s between
  p ∈ s.procs → p.phase = .running → NewerScheduled s1 p.msg →
  outstanding (runFrom cfg s1 (actions s p.msg i (onComplete s p.msg i duration))).log p.msg.key =
    outstanding s1.log p.msg.key

/-- The code violates it: `on_complete` checks `is_superseded()` and then calls `replace()`
(_perpetual.py:109-141), which are two separate round trips, so a `replace()` by a client in
between is undone by the perpetual task's own. -/
theorem C39_violated_race : ¬ C39_superseded := by
  intro h
  have := h ⟨10, 3⟩ running [.replace "k" ⟨"f", "new", "args", 50, 1⟩ 9] prun inst 4
    (by decide +kernel) rfl (by decide +kernel)
  revert this
  decide +kernel

/-- C39 for `Cron`: the next run is at the next time of the cron expression, if it was not
cancelled or superseded. -/
theorem C39_cron_time (s : Sys) (m : Msg) (i : Inst) (next_ : Time) (duration : Nat)
    (hc : i.cancelled = false) (hm : 0 < m.gen) (hs : ¬ NewerScheduled s m) :
    cronComplete s m i next_ duration = .again next_ := by
  rw [← supersededNow_iff hm, Bool.not_eq_true] at hs
  simp [cronComplete, onComplete, Inst.at_, hc, hs, nextTime]

/-- The full statement for a `Cron` task that asked for a time. -/
def C39_cron_requested : Prop := ∀ (s : Sys) (m : Msg) (i : Inst) (next_ t : Time) (duration : Nat),
  i.cancelled = false → ¬ NewerScheduled s m →
  cronComplete s m (i.at_ t) next_ duration = .again t

/-- The code violates it: `Cron` inherits `at()` and `after()`, but its `on_complete`
overwrites the requested time with the next cron time (_cron.py:110-117). -/
theorem C39_violated_cron_ignores_request : ¬ C39_cron_requested := by
  intro h
  have := h {} prun.msg inst 100 7 0 rfl (by decide)
  revert this
  decide

/-- A `Cron` run's next time is computed from when the run began (the iterator is created
on entry, _cron.py:90-98), so it can be in the past: a run longer than the interval is
followed at once by another. -/
theorem C39_cron_may_be_past : ¬ (∀ (s : Sys) (m : Msg) (i : Inst) (next_ t : Time) (duration started : Nat),
    started + duration ≤ s.r.now → started < next_ → cronComplete s m i next_ duration = .again t →
    s.r.now ≤ t) := by
  intro h
  have := h (run ⟨10, 3⟩ running) prun.msg inst 6 6 4 5 (by decide +kernel) (by decide +kernel) (by decide +kernel)
  revert this
  decide +kernel
end examples_C39

end Docket.Perpetuals
