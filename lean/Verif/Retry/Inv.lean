import Verif.Retry.Model
/-
The invariant behind C37.
-/
namespace Docket.Retrying
open Docket

theorem Unused.add {cfg : Cfg} {s : Sys} {k : Key} {q : Request} {t : Time}
    (h : Unused s k) (ht : t ≤ s.r.now) :
    ∃ m, m.req = q ∧ Solo (step cfg s (.add k q t)) k m 0 := by
  have hx : scheduleExists s.r k = false := by
    simp [scheduleExists, Redis.knownOf, Redis.stateOf, h.record]
  have hst : ∀ e ∈ s.r.stream, e.2.key ≠ k := fun e he hk => h.message (Or.inl ⟨e, he, hk⟩)
  have hps : ∀ p ∈ s.procs, p.msg.key ≠ k := fun p hp hk => h.message (Or.inr (Or.inr ⟨p, hp, hk⟩))
  have hpk : s.r.parked k = none := by
    cases hp : s.r.parked k with
    | none => rfl
    | some m => exact absurd (Or.inr (Or.inl (by simp [hp]))) h.message
  by_cases hwh : q.when_ ≤ t
  · have e : step cfg s (.add k q t) = { s with
        r := { s.r with
          nextId := s.r.nextId + 1
          stream := s.r.stream ++ [(s.r.nextId, ⟨k, q, s.r.nextGen k⟩)]
          runs := upd s.r.runs k (some (queuedRun s.r k q))
          published := ⟨k, .queued⟩ :: s.r.published }
        log := .accepted ⟨k, q, s.r.nextGen k⟩ :: s.log } := by
      simp [step, ht, doAdd, doSchedule, luaSchedule, hx, hwh, schedulePlace_now, newMsg,
        Redis.genOf, queuedRun]
    have hs : Docket.starts (Event.accepted ⟨k, q, s.r.nextGen k⟩ :: s.log) k = 0 :=
      (starts_cons_of rfl).trans h.starts
    refine ⟨⟨k, q, s.r.nextGen k⟩, rfl, ?_⟩
    rw [e]
    exact {
      key := rfl
      pos := by simp [Redis.nextGen]
      gen := by simp [Redis.genOf, queuedRun]
      keep := by
        intro v hv
        simp only [upd_same, Option.some.injEq] at hv
        subst hv
        simp [queuedRun, Redis.run, h.record]
      ttl := h.ttl
      jobs := h.jobs
      place := by
        right
        refine ⟨hpk, s.r.nextId, by simp, ?_, fun p hp hk => absurd hk (hps p hp)⟩
        intro e he hk
        rcases List.mem_append.1 he with he | he
        · exact absurd hk (hst e he)
        · simpa using he
      one := fun p hp _ _ hk => absurd hk (hps p hp)
      low := Nat.zero_le _
      lowRun := fun p hp hk => absurd hk (hps p hp)
      high := by simp only [hs]; omega
      handed := by intro _ _ _ _; simp only [hs]; omega
      parked := by intro _; simp only [hs]; omega
      undelivered := by intro _ _ _ _; simp only [hs]; omega }
  · have e : step cfg s (.add k q t) = { s with
        r := { s.r with
          parked := upd s.r.parked k (some ⟨k, q, s.r.nextGen k⟩)
          queue := zinsert k q.when_ (s.r.queue.filter (fun e => e.1 ≠ k))
          runs := upd s.r.runs k (some (scheduledRun s.r k q))
          published := ⟨k, .scheduled⟩ :: s.r.published }
        log := .accepted ⟨k, q, s.r.nextGen k⟩ :: s.log } := by
      simp [step, ht, doAdd, doSchedule, luaSchedule, hx, hwh, schedulePlace_later, newMsg,
        Redis.genOf, scheduledRun]
    have hs : Docket.starts (Event.accepted ⟨k, q, s.r.nextGen k⟩ :: s.log) k = 0 :=
      (starts_cons_of rfl).trans h.starts
    refine ⟨⟨k, q, s.r.nextGen k⟩, rfl, ?_⟩
    rw [e]
    exact {
      key := rfl
      pos := by simp [Redis.nextGen]
      gen := by simp [Redis.genOf, scheduledRun]
      keep := by
        intro v hv
        simp only [upd_same, Option.some.injEq] at hv
        subst hv
        simp [scheduledRun, Redis.run, h.record]
      ttl := h.ttl
      jobs := h.jobs
      place := Or.inl ⟨⟨by simp, by rw [zinsert_mem]; left; rfl⟩, hst, hps⟩
      one := fun p hp _ _ hk => absurd hk (hps p hp)
      low := Nat.zero_le _
      lowRun := fun p hp hk => absurd hk (hps p hp)
      high := by simp only [hs]; omega
      handed := by intro _ _ _ _; simp only [hs]; omega
      parked := by intro _; simp only [hs]; omega
      undelivered := by intro _ _ _ _; simp only [hs]; omega }

/-- The operation ends a run of `k` exactly when the core step does. -/
theorem ending_spec {pol : Policy} {s : Sys} {op : HOp} {o : Op} {k : Key}
    (ho : toOp pol s op = some o) :
    (¬ EndsRun s k o → ∀ y, ending s op = some y → y.2.key ≠ k) := by
  intro hne y hy hk
  apply hne
  cases op with
  | other op => simp [ending] at hy
  | add k q t => simp [ending] at hy
  | replace k q t => simp [ending] at hy
  | finish pid st w =>
    simp only [ending] at hy
    obtain ⟨p, h1, h2⟩ := Option.bind_eq_some_iff.1 hy
    obtain ⟨h3, rfl⟩ := find_pid h1
    split at h2
    case isFalse => cases h2
    rename_i hr
    cases h2
    simp only [toOp, if_pos hr.2, Option.some.injEq] at ho
    subst ho
    exact ⟨p, h3, hk, hr.1, Or.inr ⟨st, none, w, rfl, by rcases hr.2 with rfl | rfl <;> rfl⟩⟩
  | fail pid d e w =>
    simp only [ending] at hy
    obtain ⟨p, h1, h2⟩ := Option.bind_eq_some_iff.1 hy
    obtain ⟨h3, rfl⟩ := find_pid h1
    split at h2
    case isFalse => cases h2
    rename_i hr
    cases h2
    simp only [toOp, h1, Option.map_some, Option.some.injEq] at ho
    refine ⟨p, h3, hk, hr, ?_⟩
    subst ho
    cases onFail (pol p.msg.req.fn) p.msg.req.attempt s.r.now d with
    | none => exact Or.inr ⟨_, _, _, rfl, rfl⟩
    | some x => exact Or.inl ⟨_, _, _, rfl, Nat.le_refl _⟩
  | blocked pid d =>
    simp only [ending] at hy
    obtain ⟨p, h1, h2⟩ := Option.bind_eq_some_iff.1 hy
    obtain ⟨h3, rfl⟩ := find_pid h1
    split at h2
    case isFalse => cases h2
    rename_i hr
    cases h2
    simp only [toOp, h1, Option.map_some, Option.some.injEq] at ho
    subst ho
    exact ⟨p, h3, hk, hr, Or.inl ⟨_, _, _, rfl, Nat.le_refl _⟩⟩

theorem onFail_sound {c : Settings} {f now : Nat} {after : Option Nat} (hs : Sound c)
    (hl : Left c.attempts f) :
    ∃ d, onFail c (f + 1) now after = handleFailure c.attempts (f + 1) now d := by
  obtain ⟨d, hd⟩ := Option.isSome_iff_exists.1 (hs f hl)
  exact ⟨after.getD d, by simp [onFail, hd]⟩

theorem RInv.step {cfg : Cfg} {pol : Policy} {h : Hist} {k : Key} {q : Request}
    (hi : RInv pol h k q) (hsound : Sound (pol q.fn)) (op : HOp)
    (hu : ∀ o, toOp pol h.s op = some o → Undisturbed k h.s o) :
    RInv pol (hstep cfg pol h op) k q := by
  obtain ⟨hw, hi⟩ := hi
  simp only [hstep]
  cases ho : toOp pol h.s op with
  | none => exact ⟨hw, hi⟩
  | some o =>
    have hu := hu o ho
    refine ⟨hw.step o, ?_⟩
    simp only
    rcases hi with ⟨m, hs, hcall, hat, hleft, he0⟩ | ⟨hov, hout⟩
    · rcases hs.step (cfg := cfg) hw o hu with ⟨h1, h2⟩ | ⟨p, t, a, d, m', rfl, hp, hpm, hr, hreq, h1⟩ |
        ⟨p, st, e, w, rfl, hp, hpm, hr, h1⟩
      · have hno := ending_spec ho h2
        left
        rw [count_other hno, count_other hno, count_other hno]
        exact ⟨m, h1, hcall, hat, hleft, he0⟩
      · have hpp := proc?_of_mem hw hp
        have hk : p.msg.key = k := hpm ▸ hs.key
        cases op with
        | other op => cases op <;> simp [toOp] at ho
        | add k' q' t' => simp [toOp] at ho
        | replace k' q' t' => simp [toOp] at ho
        | finish pid st w => simp only [toOp] at ho; split at ho <;> simp at ho
        | fail pid dl e w =>
          obtain ⟨p', hp', ho⟩ := Option.map_eq_some_iff.1 ho
          have hx : onFail (pol p'.msg.req.fn) p'.msg.req.attempt h.s.r.now dl = some (t, a) ∧
              pid = p.pid := by
            cases hf : onFail (pol p'.msg.req.fn) p'.msg.req.attempt h.s.r.now dl with
            | none => simp [hf] at ho
            | some x => simp [hf] at ho; exact ⟨by rw [← ho.2.1, ← ho.2.2.1], ho.1⟩
          obtain ⟨hf, rfl⟩ := hx
          rw [hpp, Option.some.injEq] at hp'
          subst hp'
          left
          have hend : ending h.s (.fail p.pid dl e w) = some (.failed, p.msg) := by
            simp [ending, hpp, hr]
          rw [hend]
          simp only [Option.toList_some, List.singleton_append, count_cons (x := .failed) (y := (Ending.failed, p.msg)) hk, count_cons (x := .ended) (y := (Ending.failed, p.msg)) hk, count_cons (x := .blocked) (y := (Ending.failed, p.msg)) hk, if_true, reduceCtorEq, if_false, Nat.add_zero]
          rw [hpm, hcall.1, hat] at hf
          obtain ⟨d', hd'⟩ := onFail_sound (now := h.s.r.now) (after := dl) hsound hleft
          rw [hd'] at hf
          refine ⟨m', ?_, ?_, ?_, ?_, he0⟩
          · rw [show count .failed h.ends k + 1 + count .ended h.ends k + count .blocked h.ends k =
              count .failed h.ends k + count .ended h.ends k + count .blocked h.ends k + 1 by omega]
            exact h1
          · rw [hreq]; exact hcall
          · rw [hreq]
            simp only
            cases hpol : (pol q.fn).attempts with
            | none => rw [hpol] at hf; simp [handleFailure] at hf; omega
            | some n =>
              rw [hpol] at hf
              simp only [handleFailure] at hf
              split at hf
              · cases hf
              · simp at hf; omega
          · intro n hn
            rw [hn] at hf
            simp only [handleFailure] at hf
            split at hf
            · cases hf
            · omega
        | blocked pid dl =>
          obtain ⟨p', hp', ho⟩ := Option.map_eq_some_iff.1 ho
          simp only [Op.reschedule.injEq] at ho
          obtain ⟨rfl, rfl, rfl, rfl⟩ := ho
          rw [hpp, Option.some.injEq] at hp'
          subst hp'
          left
          have hend : ending h.s (.blocked p.pid dl) = some (.blocked, p.msg) := by
            simp [ending, hpp, hr]
          rw [hend]
          simp only [Option.toList_some, List.singleton_append, count_cons (x := .failed) (y := (Ending.blocked, p.msg)) hk, count_cons (x := .ended) (y := (Ending.blocked, p.msg)) hk, count_cons (x := .blocked) (y := (Ending.blocked, p.msg)) hk, if_true, reduceCtorEq, if_false, Nat.add_zero]
          refine ⟨m', h1, by rw [hreq]; exact hcall, ?_, hleft, he0⟩
          rw [hreq, hpm]; exact hat
      · have hpp := proc?_of_mem hw hp
        have hk : p.msg.key = k := hpm ▸ hs.key
        right
        cases op with
        | other op => cases op <;> simp [toOp] at ho
        | add k' q' t' => simp [toOp] at ho
        | replace k' q' t' => simp [toOp] at ho
        | finish pid st' w' =>
          simp only [toOp] at ho
          split at ho
          case isFalse => cases ho
          rename_i hst
          simp only [Option.some.injEq, Op.finish.injEq] at ho
          obtain ⟨rfl, rfl, rfl, rfl⟩ := ho
          have hend : ending h.s (.finish p.pid st' w') = some (.ended, p.msg) := by
            simp [ending, hpp, hr, hst]
          rw [hend]
          simp only [Option.toList_some, List.singleton_append, count_cons (x := .failed) (y := (Ending.ended, p.msg)) hk, count_cons (x := .ended) (y := (Ending.ended, p.msg)) hk, count_cons (x := .blocked) (y := (Ending.ended, p.msg)) hk, if_true, reduceCtorEq, if_false, Nat.add_zero]
          refine ⟨?_, Or.inl ⟨by omega, hleft⟩⟩
          rw [show count .failed h.ends k + (count .ended h.ends k + 1) + count .blocked h.ends k =
              count .failed h.ends k + count .ended h.ends k + count .blocked h.ends k + 1 by omega]
          exact h1
        | fail pid dl e' w' =>
          obtain ⟨p', hp', ho⟩ := Option.map_eq_some_iff.1 ho
          have hx : onFail (pol p'.msg.req.fn) p'.msg.req.attempt h.s.r.now dl = none ∧
              pid = p.pid := by
            cases hf : onFail (pol p'.msg.req.fn) p'.msg.req.attempt h.s.r.now dl with
            | none => simp [hf] at ho; exact ⟨rfl, ho.1⟩
            | some x => simp [hf] at ho
          obtain ⟨hf, rfl⟩ := hx
          rw [hpp, Option.some.injEq] at hp'
          subst hp'
          have hend : ending h.s (.fail p.pid dl e' w') = some (.failed, p.msg) := by
            simp [ending, hpp, hr]
          rw [hend]
          simp only [Option.toList_some, List.singleton_append, count_cons (x := .failed) (y := (Ending.failed, p.msg)) hk, count_cons (x := .ended) (y := (Ending.failed, p.msg)) hk, count_cons (x := .blocked) (y := (Ending.failed, p.msg)) hk, if_true, reduceCtorEq, if_false, Nat.add_zero]
          rw [hpm, hcall.1, hat] at hf
          obtain ⟨d', hd'⟩ := onFail_sound (now := h.s.r.now) (after := dl) hsound hleft
          rw [hd'] at hf
          refine ⟨?_, Or.inr ⟨he0, ?_⟩⟩
          · rw [show count .failed h.ends k + 1 + count .ended h.ends k + count .blocked h.ends k =
              count .failed h.ends k + count .ended h.ends k + count .blocked h.ends k + 1 by omega]
            exact h1
          · cases hpol : (pol q.fn).attempts with
            | none => rw [hpol] at hf; simp [handleFailure] at hf
            | some n =>
              rw [hpol] at hf
              simp only [handleFailure] at hf
              split at hf
              · have := hleft n hpol
                exact ⟨n, rfl, by omega⟩
              · cases hf
        | blocked pid dl =>
          obtain ⟨p', hp', ho⟩ := Option.map_eq_some_iff.1 ho
          cases ho
    · right
      have hno : ∀ y, ending h.s op = some y → y.2.key ≠ k := fun y hy =>
        ending_none_of_no_proc (fun p hp hk => hov.none (Or.inr (Or.inr ⟨p, hp, hk⟩))) hy
      rw [count_other hno, count_other hno, count_other hno]
      exact ⟨Over.step hw hov o hu, hout⟩

theorem RInv.hrun {cfg : Cfg} {pol : Policy} {k : Key} {q : Request}
    (hsound : Sound (pol q.fn)) (ops : List HOp) :
    ∀ {h : Hist}, RInv pol h k q → Alone cfg pol k h ops → RInv pol (hrun cfg pol h ops) k q := by
  induction ops with
  | nil => intro h hi _; exact hi
  | cons o ops ih =>
    intro h hi ha
    rw [hrun_cons]
    refine ih (hi.step hsound o ?_) ha.2
    intro o' ho'
    have := ha.1
    rw [ho'] at this
    exact this

theorem RInv.init {cfg : Cfg} {pol : Policy} {s : Sys} {k : Key} {q : Request} {t : Time} (hw : WF s)
    (h : Unused s k) (ht : t ≤ s.r.now) :
    RInv pol (hstep cfg pol ⟨s, []⟩ (.add k q t)) k q := by
  obtain ⟨m, h1, h2⟩ := Unused.add (cfg := cfg) (q := { q with attempt := 1 }) h ht
  refine ⟨hw.step (cfg := cfg) (.add k { q with attempt := 1 } t), Or.inl ⟨m, h2, ?_, ?_, ?_, rfl⟩⟩
  · rw [h1]; exact ⟨rfl, rfl, rfl⟩
  · rw [h1]; rfl
  · intro n _
    show 0 < max 1 n
    omega

end Docket.Retrying
