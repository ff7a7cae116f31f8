import Verif.Props.C19_C23
import Verif.Props.C31_C32
/-
C109: what a running task reports as its progress is kept and counted, also when it runs under a
concurrency limit.  Violated when an older task of the same key was cancelled while it waited.
-/
namespace Docket
open Redis

/-- The steps of the docket itself among those of a docket with a limit. -/
def docketSteps (ops : List COp) : List Op :=
  ops.filterMap (fun o => match o with | .core op => some op | _ => none)

/-- Along the steps, nothing happens that ends the progress of the run of `k` with generation `g`:
no run of `k` starts, `k` is not cancelled, and of the runs of `k` only superseded older ones
end. -/
def KeepsRunning (cfg : CCfg) (k : Key) (g : Gen) : CSys → List COp → Prop
  | _, [] => True
  | c, op :: ops =>
    (∀ e ∈ newEvents c.s (cstep cfg c op).s, ¬ EndsProgress k g e) ∧
    KeepsRunning cfg k g (cstep cfg c op) ops

instance keepsDecidable (cfg : CCfg) (k : Key) (g : Gen) : ∀ c ops, Decidable (KeepsRunning cfg k g c ops)
  | _, [] => isTrue trivial
  | c, op :: ops =>
    have := keepsDecidable cfg k g (cstep cfg c op) ops
    inferInstanceAs (Decidable (_ ∧ _))

/-- **C109**, in full: from the moment a run starts, and as long as it is not over, its progress is
the sum of the increments reported for it since, whatever else happens. -/
def C109_statement : Prop := ∀ (cfg : CCfg) (ops cont : List COp) (p : Proc),
  p ∈ (crun cfg ops).s.procs → p.phase = .handed → NothingNewer (crun cfg ops).s p.msg →
  let c := cstep cfg (crun cfg ops) (.core (.claim p.pid))
  KeepsRunning cfg p.msg.key p.msg.gen c cont →
  ((crunFrom cfg c cont).s.r.progress p.msg.key).bind (·.current) =
    some (increments p.msg.key (docketSteps cont))

theorem hsetRun_progress (r : Redis) (k : Key) (f : Run → Run) : (r.hsetRun k f).progress = r.progress := rfl

theorem hmodRun_progress (r : Redis) (k : Key) (f : Run → Run) : (r.hmodRun k f).progress = r.progress := rfl

theorem dropSafeguard_progress (r : Redis) (k : Key) : (dropSafeguard r k).progress = r.progress := rfl

theorem park_progress (c : CSys) (p : Proc) : (luaPark c p).s.r.progress = c.s.r.progress := rfl

theorem wakeOne_progress (c : CSys) (e : MsgId × Msg) : (wakeOne c e).s.r.progress = c.s.r.progress := by
  simp only [wakeOne]
  split <;> rfl

theorem wakeAll_progress (l : List (MsgId × Msg)) (c : CSys) :
    (l.foldl wakeOne c).s.r.progress = c.s.r.progress := by
  induction l generalizing c with
  | nil => rfl
  | cons e l ih => rw [List.foldl_cons, ih, wakeOne_progress]

/-- Of the steps of a limit only the clean-up after a cancellation touches any progress. -/
theorem limit_progress (cfg : CCfg) (c : CSys) (op : COp) (k : Key) (hcore : ∀ o, op ≠ .core o)
    (hclean : ∀ e, op = .cleanupWrite k e → (k, e) ∉ c.cleanups) :
    (cstep cfg c op).s.r.progress k = c.s.r.progress k := by
  cases op with
  | core o => exact absurd rfl (hcore o)
  | acquire pid t =>
    simp only [cstep]
    cases c.s.proc? pid with
    | none => rfl
    | some p =>
      simp only
      split
      · rcases acquire_cases cfg c p t with ⟨c1, h1, h2, _⟩ | h1
        · rw [h1]; simp only [if_true]; rw [h2]
        · rw [h1]; rfl
      · rfl
  | renewSlot pid t =>
    simp only [cstep]
    cases c.holders.find? (fun h => h.pid = pid) with
    | none => rfl
    | some x => simp only; split <;> rfl
  | release pid t =>
    simp only [cstep]
    cases c.holders.find? (fun h => h.pid = pid) with
    | none => rfl
    | some x =>
      simp only
      split
      · obtain ⟨c1, h1, h2, _⟩ := release_s cfg c x.key t
        rw [h1]
        simp only [wake, wakeAll_progress, h2]
      · rfl
  | scavenge t =>
    simp only [cstep]
    split
    · simp only [luaScavenge]
      split
      · rfl
      · simp only [wake, wakeAll_progress]; rfl
    · rfl
  | cleanupRead k' =>
    simp only [cstep]
    split
    · cases (c.s.r.runs k').bind (·.waiter) <;> rfl
    · rfl
  | cleanupWrite k' e =>
    simp only [cstep]
    split
    · rename_i h
      by_cases hk : k' = k
      · subst hk; exact absurd h (hclean e rfl)
      · exact upd_other _ _ _ _ (Ne.symm hk)
    · rfl

/-- Whoever cleans up after a cancellation was told of one. -/
structure Told (c : CSys) (k : Key) : Prop where
  none : k ∉ c.signals
  clean : ∀ e, (k, e) ∉ c.cleanups

theorem wakeOne_told (c : CSys) (e : MsgId × Msg) :
    (wakeOne c e).signals = c.signals ∧ (wakeOne c e).cleanups = c.cleanups := by
  simp only [wakeOne]
  split <;> exact ⟨rfl, rfl⟩

theorem wakeAll_told (l : List (MsgId × Msg)) (c : CSys) :
    (l.foldl wakeOne c).signals = c.signals ∧ (l.foldl wakeOne c).cleanups = c.cleanups := by
  induction l generalizing c with
  | nil => exact ⟨rfl, rfl⟩
  | cons e l ih => rw [List.foldl_cons, (ih _).1, (ih _).2]; exact wakeOne_told c e

theorem acquire_told (cfg : CCfg) (c : CSys) (p : Proc) (t : Time) :
    (luaAcquire cfg c p t).1.signals = c.signals ∧ (luaAcquire cfg c p t).1.cleanups = c.cleanups := by
  unfold luaAcquire
  repeat' split
  all_goals exact ⟨rfl, rfl⟩

theorem expireSlots_told (c : CSys) :
    (expireSlots c).signals = c.signals ∧ (expireSlots c).cleanups = c.cleanups := by
  unfold expireSlots
  repeat' split
  all_goals exact ⟨rfl, rfl⟩

theorem Told.step {cfg : CCfg} {c : CSys} {k : Key} (h : Told c k) (op : COp) (hop : op ≠ .core (.cancel k)) :
    Told (cstep cfg c op) k := by
  have same : ∀ c' : CSys, c'.signals = c.signals → c'.cleanups = c.cleanups → Told c' k :=
    fun c' h1 h2 => ⟨by rw [h1]; exact h.none, by rw [h2]; exact h.clean⟩
  cases op with
  | core op =>
    simp only [cstep]
    refine ⟨?_, ?_⟩
    · rw [(expireSlots_told _).1]
      cases op with
      | cancel k' =>
        simp only [signalled, List.mem_cons, not_or]
        exact ⟨fun hk => hop (by rw [hk]), h.none⟩
      | _ => exact h.none
    · rw [(expireSlots_told _).2]; exact h.clean
  | acquire pid t =>
    simp only [cstep]
    cases c.s.proc? pid with
    | none => exact h
    | some p =>
      simp only
      split
      · split
        · exact same _ (acquire_told cfg c p t).1 (acquire_told cfg c p t).2
        · exact same _ (acquire_told cfg c p t).1 (acquire_told cfg c p t).2
      · exact h
  | renewSlot pid t =>
    simp only [cstep]
    cases c.holders.find? (fun h => h.pid = pid) with
    | none => exact h
    | some x => simp only; split <;> exact same _ rfl rfl
  | release pid t =>
    simp only [cstep]
    cases c.holders.find? (fun h => h.pid = pid) with
    | none => exact h
    | some x =>
      simp only
      split
      · refine same _ ?_ ?_
        · simp only [luaRelease, wake]
          rw [(wakeAll_told _ _).1]
          split <;> rfl
        · simp only [luaRelease, wake]
          rw [(wakeAll_told _ _).2]
          split <;> rfl
      · exact h
  | scavenge t =>
    simp only [cstep]
    split
    · simp only [luaScavenge]
      split
      · exact h
      · exact same _ (wakeAll_told _ _).1 (wakeAll_told _ _).2
    · exact h
  | cleanupRead k' =>
    simp only [cstep]
    split
    · rename_i hk
      cases (c.s.r.runs k').bind (·.waiter) with
      | none => exact h
      | some e =>
        refine ⟨h.none, ?_⟩
        intro e' he
        rcases List.mem_cons.1 he with he | he
        · cases he; exact h.none hk
        · exact h.clean e' he
    · exact h
  | cleanupWrite k' e =>
    simp only [cstep]
    split
    · exact same _ rfl rfl
    · exact h

theorem Told.runFrom {cfg : CCfg} {k : Key} (ops : List COp) : ∀ {c : CSys}, Told c k →
    .core (.cancel k) ∉ ops → Told (crunFrom cfg c ops) k := by
  induction ops with
  | nil => intro c h _; exact h
  | cons o ops ih =>
    intro c h hn
    simp only [List.mem_cons, not_or] at hn
    exact ih (h.step o (fun e => hn.1 e.symm)) hn.2

theorem docketSteps_cons (o : COp) (ops : List COp) (k : Key) :
    increments k (docketSteps (o :: ops)) =
      (match o with | .core op => increments k [op] | _ => 0) + increments k (docketSteps ops) := by
  cases o with
  | core op =>
    rw [show docketSteps (.core op :: ops) = [op] ++ docketSteps ops from rfl, increments_append]
  | _ => exact (Nat.zero_add _).symm

/-- **C109** (partial): under a key that was never cancelled, a run starts with the progress 0 of
100, and as long as it is not over its progress is the sum of the increments reported for it,
through everything the docket and the limit do: other runs that wait, are woken, take and lose
slots, and the clean-up after other tasks' cancellations.  Missing, and false: the same under a key
of which an older task was cancelled. -/
theorem C109_counted_partial (cfg : CCfg) (ops cont : List COp) (p : Proc)
    (hp : p ∈ (crun cfg ops).s.procs) (hph : p.phase = .handed) (hnew : NothingNewer (crun cfg ops).s p.msg)
    (hnever : .core (.cancel p.msg.key) ∉ ops ++ cont) :
    let c := cstep cfg (crun cfg ops) (.core (.claim p.pid))
    (c.s.r.progress p.msg.key).map (fun q => (q.current, q.total)) = some (some 0, some 100) ∧
    (KeepsRunning cfg p.msg.key p.msg.gen c cont →
      ((crunFrom cfg c cont).s.r.progress p.msg.key).bind (·.current) =
        some (increments p.msg.key (docketSteps cont))) := by
  intro c
  rw [List.mem_append, not_or] at hnever
  have hw := CSys.wf_run cfg ops
  have hs := hnew.notSuperseded
  have h0 : c.s.r.progress p.msg.key =
      some { current := some 0, total := some 100, gen := some p.msg.gen } := by
    simp only [c, cstep, expireSlots_s, Docket.step, doClaim, proc?_of_mem hw hp, hph]
    rw [luaClaim_ok _ _ _ _ _ hs]
    simp
  refine ⟨by rw [h0]; rfl, ?_⟩
  have main : ∀ (cont : List COp) (c1 : CSys) (q : Prog) (n : Nat), WF c1.s → Told c1 p.msg.key →
      .core (.cancel p.msg.key) ∉ cont →
      c1.s.r.progress p.msg.key = some q → q.gen = some p.msg.gen → q.current = some n →
      KeepsRunning cfg p.msg.key p.msg.gen c1 cont →
      ((crunFrom cfg c1 cont).s.r.progress p.msg.key).bind (·.current) =
        some (n + increments p.msg.key (docketSteps cont)) := by
    intro cont
    induction cont with
    | nil => intro c1 q n _ _ _ h1 _ h3 _; simp [h1, h3, increments, docketSteps]
    | cons o cont ih =>
      intro c1 q n hw1 ht hn h1 h2 h3 h4
      simp only [List.mem_cons, not_or] at hn
      obtain ⟨h4, h5⟩ := h4
      have hw2 := CSys.wf_step cfg hw1 o
      have ht2 := ht.step (cfg := cfg) o (fun e => hn.1 e.symm)
      rw [crunFrom_cons, docketSteps_cons, ← Nat.add_assoc]
      cases o with
      | core op =>
        have hstep : (cstep cfg c1 (.core op)).s = Docket.step cfg.toCfg c1.s op := by
          simp only [cstep, expireSlots_s]
        obtain ⟨q', h6, h7, h8⟩ := progress_step cfg.toCfg hw1 op h1 h2 h3
          (fun e he => h4 e (by rw [hstep]; exact he))
        exact ih _ q' _ hw2 ht2 hn.2 (by rw [hstep]; exact h6) h7 h8 h5
      | _ =>
        rw [Nat.add_zero]
        refine ih _ q n hw2 ht2 hn.2 ?_ h2 h3 h5
        exact (limit_progress cfg c1 _ _ (by intro _ h; cases h) (fun e _ => ht.clean e)).trans h1
  intro hk
  have htold : Told c p.msg.key := by
    refine Told.step ?_ _ (fun h => nomatch h)
    exact Told.runFrom ops ⟨List.not_mem_nil, fun _ => List.not_mem_nil⟩ hnever.1
  have := main cont c _ 0 (CSys.wf_step cfg hw _) htold hnever.2 h0 rfl rfl hk
  rw [this, Nat.zero_add]

/-- A request for now. -/
def rqNow : Request := ⟨"f", "", "", 0, 1⟩

/-- A run that reports progress while another one waits for its slot, is woken and a third is
cancelled in the line. -/
example : let cfg : CCfg := ⟨⟨10, 100⟩, 1⟩
    let ops : List COp := [.core (.add "a" rqNow 0), .core (.add "b" rqNow 0), .core (.add "c" rqNow 0),
      .core (.poll "w" 3), .core (.claim 0), .core (.claim 1), .acquire 0 0, .acquire 1 0]
    let cont : List COp := [.core (.increment "c" 2), .acquire 2 0, .core (.cancel "b"), .cleanupRead "b",
      .core (.increment "c" 3), .cleanupWrite "b" 1, .release 0 0, .core (.increment "b" 3)]
    ((crun cfg ops).s.proc? 2).map (fun p => (p.phase, p.msg.key, p.msg.gen)) = some (.handed, "c", 1) ∧
    (crun cfg ops).s.r.genOf "c" = some 1 ∧ .core (.cancel "c") ∉ ops ++ cont ∧
    KeepsRunning cfg "c" 1 (cstep cfg (crun cfg ops) (.core (.claim 2))) cont ∧
    increments "c" (docketSteps cont) = 5 := by decide +kernel

/-- The code violates it.  "b" waits for a slot and is cancelled; before a worker has cleaned up
after that cancellation, "b" is added anew and runs; then the clean-up deletes the progress of the
key (_concurrency.py:401-404) without looking whose it is, and what the new run has reported is
gone. -/
theorem C109_violated_late_cleanup : ¬ C109_statement := by
  intro h
  have := h ⟨⟨10, 100⟩, 2⟩ [.core (.add "a" rqNow 0), .core (.add "d" rqNow 0), .core (.add "b" rqNow 0), .core (.poll "w" 3),
    .core (.claim 0), .core (.claim 1), .core (.claim 2), .acquire 0 0, .acquire 1 0, .acquire 2 0,
    .core (.cancel "b"), .cleanupRead "b", .release 1 0, .core (.add "b" rqNow 0), .core (.poll "w" 1)]
    [.acquire 3 0, .core (.increment "b" 7), .cleanupWrite "b" 1]
    ⟨3, "w", 4, ⟨"b", rqNow, 3⟩, false, .handed⟩ (by decide +kernel) rfl ⟨3, by decide +kernel, by decide⟩
    (by decide +kernel)
  revert this
  decide +kernel

end Docket
