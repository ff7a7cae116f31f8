import Verif.Core.Retention
import Verif.Core.Origin
/-
C66: nothing of a finished task is left when its execution ttl is over.
C67: due tasks are handed out in the order in which they were queued.
-/
namespace Docket
open Redis

/-! ### C66 -/

/-- Something about the key is left in Redis, in the result store or in a worker: a
record, a stored result, progress, an entry in the schedule, a message in the stream,
parked, or held by a worker. -/
def Trace (s : Sys) (k : Key) : Prop :=
  (s.r.runs k).isSome ∨ (s.results k).isSome ∨ (s.r.progress k).isSome ∨
  (∃ t, (k, t) ∈ s.r.queue) ∨ SomeMessage s k

theorem Fading.over {k : Key} {T : Time} {s : Sys} (hw : WF s) (h : Fading k T s)
    (ht : T ≤ s.r.now) : ¬ Trace s k := by
  rintro (h1 | h1 | h1 | ⟨t, h1⟩ | h1)
  · obtain ⟨v, hv⟩ := Option.isSome_iff_exists.1 h1
    obtain ⟨e, _, h2, h3⟩ := h.record v hv
    omega
  · obtain ⟨v, hv⟩ := Option.isSome_iff_exists.1 h1
    have := h.result v hv
    omega
  · simp [h.progress] at h1
  · exact h.notQueued hw t h1
  · exact h.message h1

/-- C66, for a task that ran.  In every reachable state, let the current execution `p` of
a key end, in whatever way, as the last message of the key.  Then in every continuation
that does nothing under this key (but may do anything under other keys, run schedulers,
clear the docket, crash workers), as soon as `execution_ttl` has passed nothing of the
key is left anywhere.  Partial: progress reported after the end stays
(`C66_violated_progress`). -/
theorem C66_gone_after_end_partial (cfg : Cfg) (ops cont : List Op) (p : Proc) (st : RunState)
    (e : Option String) (w : Bool) (hp : p ∈ (run cfg ops).procs) (hph : p.phase = .running)
    (hcur : (run cfg ops).r.genOf p.msg.key = some p.msg.gen) (hst : st.terminal = true)
    (hjobs : ∀ j ∈ (run cfg ops).clearJobs, p.msg.key ∉ j.scheduledKeys ∧ p.msg.key ∉ j.streamKeys) :
    let s := step cfg (run cfg ops) (.finish p.pid st e w)
    let s' := runFrom cfg s cont
    ¬ SomeMessage s p.msg.key →
    EachStep cfg (fun s op => keyOf s op ≠ some p.msg.key) s cont →
    s.r.now + cfg.ttl ≤ s'.r.now → ¬ Trace s' p.msg.key := by
  intro s s' hmsg hcont htime
  have hw : WF (run cfg ops) := WF.run cfg ops
  have hws : WF s := hw.step _
  have hres := ResultsOK.run cfg ops
  have hsup : isSuperseded (run cfg ops).r p.msg.key p.msg.gen = false := by
    simp [isSuperseded, hcur]
  have heq : s = { (run cfg ops).dropProc p.pid with
      r := (luaTerminal cfg.ttl (run cfg ops).r p.msg.key p.msg.gen p.id st e
        (if w then some p.msg.key else none)).1
      log := .finished p.pid p.id p.msg st true :: (run cfg ops).log } := by
    simp only [s, step, doFinish, proc?_of_mem hw hp, hph, hst]
    rw [luaTerminal_ok _ _ _ _ _ _ _ _ hsup]
    simp
  rw [luaTerminal_ok _ _ _ _ _ _ _ _ hsup] at heq
  have hfade : Fading p.msg.key (s.r.now + cfg.ttl) s := by
    have hnow : s.r.now = (run cfg ops).r.now := by rw [heq]
    refine ⟨?_, ?_, by rw [heq]; simp, hmsg, ?_⟩
    · intro v hv
      rw [hnow]
      rw [heq] at hv
      simp only [upd_same] at hv
      split at hv
      · rename_i ht
        simp only [Option.some.injEq] at hv
        subst hv
        exact ⟨_, rfl, by omega, Nat.le_refl _⟩
      · simp at hv
    · intro v hv
      rw [hnow]
      rw [heq] at hv
      exact hres _ v hv
    · rw [heq]; exact hjobs
  exact (hfade.runFrom cont hws hcont).over (hws.runFrom cont) htime

/-- C66, for a cancelled task: the same from the end of `cancel(k)` on, if no message of
the key is left then (when that is so says C13).  Partial: a `cancel` that dies between
its two round trips leaves the record for ever (`C66_violated_cancel`). -/
theorem C66_gone_after_cancel_partial (cfg : Cfg) (ops cont : List Op) (k : Key)
    (hjobs : ∀ j ∈ (run cfg ops).clearJobs, k ∉ j.scheduledKeys ∧ k ∉ j.streamKeys) :
    let s := runFrom cfg (run cfg ops) [.cancel k, .cancelTtl k]
    let s' := runFrom cfg s cont
    ¬ SomeMessage s k → EachStep cfg (fun s op => keyOf s op ≠ some k) s cont →
    s.r.now + cfg.ttl ≤ s'.r.now → ¬ Trace s' k := by
  intro s s' hmsg hcont htime
  have hw : WF (run cfg ops) := WF.run cfg ops
  have hws : WF s := hw.runFrom _
  have hres := ResultsOK.run cfg ops
  have heq : s = { run cfg ops with
      r := expireRun cfg.ttl (luaCancel (run cfg ops).r k) k
      ttlJobs := (k :: (run cfg ops).ttlJobs).erase k
      log := .cancelled k :: (run cfg ops).log } := by
    simp only [s, runFrom_cons, runFrom_nil, step, doCancel, doCancelTtl]
    rw [if_pos (by simp)]
  rw [expireRun_eq, luaCancel_eq] at heq
  have hfade : Fading k (s.r.now + cfg.ttl) s := by
    have hnow : s.r.now = (run cfg ops).r.now := by rw [heq]
    refine ⟨?_, ?_, by rw [heq]; simp, hmsg, by rw [heq]; exact hjobs⟩
    · intro v hv
      rw [hnow]
      rw [heq] at hv
      simp only [upd_same, expiredRun] at hv
      split at hv
      · rename_i ht
        simp only [Option.map_some, Option.some.injEq] at hv
        subst hv
        exact ⟨_, rfl, by omega, Nat.le_refl _⟩
      · simp at hv
    · intro v hv
      rw [hnow]
      rw [heq] at hv
      exact hres _ v hv
  exact (hfade.runFrom cont hws hcont).over (hws.runFrom cont) htime

/-- A task that stored a result ends while another one is added, cleared and moved about;
the trace is there until the ttl is over. -/
example : let ops : List Op := [.add "k" ⟨"f", "a", "", 0, 1⟩ 0, .poll "w" 1, .claim 0,
      .increment "k" 3, .store 0 "42"]
    let p : Proc := ⟨0, "w", 1, ⟨"k", ⟨"f", "a", "", 0, 1⟩, 1⟩, false, .running⟩
    let s := step ⟨10, 3⟩ (run ⟨10, 3⟩ ops) (.finish 0 .completed none true)
    let cont : List Op := [.add "j" ⟨"g", "", "", 4, 1⟩ 0, .tick 5, .schedule 5, .crash "w", .clear]
    p ∈ (run ⟨10, 3⟩ ops).procs ∧ (run ⟨10, 3⟩ ops).r.genOf "k" = some 1 ∧
    ¬ SomeMessage s "k" ∧ EachStep ⟨10, 3⟩ (fun s op => keyOf s op ≠ some "k") s (cont ++ [.tick 5]) ∧
    s.r.now + 10 ≤ (runFrom ⟨10, 3⟩ s (cont ++ [.tick 5])).r.now ∧
    ((runFrom ⟨10, 3⟩ s cont).r.runs "k").isSome ∧ ((runFrom ⟨10, 3⟩ s cont).results "k").isSome := by
  decide

/-- A scheduled task is cancelled and forgotten. -/
example : let s := runFrom ⟨10, 3⟩ (run ⟨10, 3⟩ [.add "k" ⟨"f", "a", "", 9, 1⟩ 0]) [.cancel "k", .cancelTtl "k"]
    ¬ SomeMessage s "k" ∧ (s.r.runs "k").isSome ∧ (runFrom ⟨10, 3⟩ s [.tick 10]).r.runs "k" = none := by
  decide

/-- The full statement of C66: once no message of `k` is left and nobody schedules `k`
again, everything of it goes away in some fixed time. -/
def C66_statement : Prop := ∀ (cfg : Cfg) (ops cont : List Op) (k : Key),
  ¬ SomeMessage (run cfg ops) k →
  (∀ op ∈ cont, ¬ Schedules k op) →
  (run cfg ops).r.now + cfg.ttl ≤ (runFrom cfg (run cfg ops) cont).r.now →
  ¬ Trace (runFrom cfg (run cfg ops) cont) k

/-- The code violates it: progress reported after the end of the task (by a helper task
or thread it left behind, or through `Docket.get_execution`) creates the progress hash
anew (_execution_progress.py:154-174), and nothing ever removes it. -/
theorem C66_violated_progress : ¬ C66_statement := by
  intro h
  refine h ⟨10, 3⟩ [.add "k" ⟨"f", "a", "", 0, 1⟩ 0, .poll "w" 1, .claim 0, .finish 0 .completed none false]
    [.increment "k" 1, .tick 10] "k" (by decide) (by decide) (by decide) ?_
  exact Or.inr (Or.inr (Or.inl (by decide)))

/-- The code violates it: a client that dies between the two round trips of `cancel`
(docket.py:753-777) leaves a record without expiry. -/
theorem C66_violated_cancel : ¬ C66_statement := by
  intro h
  refine h ⟨10, 3⟩ [.add "k" ⟨"f", "a", "", 5, 1⟩ 0, .cancel "k"] [.tick 10] "k"
    (by decide) (by decide) (by decide) ?_
  exact Or.inl (by decide)

/-- The code violates it: when the record of a scheduled task has expired (see C16), the
scheduler makes a new one that holds nothing but the state `queued` (worker.py:209-212);
the worker then drops the message as superseded, and the record stays, saying queued,
for ever. -/
theorem C66_violated_ghost : ¬ C66_statement ∧ ∃ (cfg : Cfg) (ops : List Op), ∀ n : Nat,
    ¬ SomeMessage (run cfg ops) "k" ∧
    (step cfg (run cfg ops) (.tick n)).r.stateOf "k" = some .queued := by
  refine ⟨?_, ?_⟩
  · intro h
    refine h ⟨10, 3⟩ [.add "k" ⟨"f", "a", "", 0, 1⟩ 0, .poll "w" 1, .claim 0,
      .finish 0 .completed none false, .add "k" ⟨"f", "a", "", 20, 1⟩ 0, .tick 20, .schedule 20,
      .poll "w" 1, .claim 1] [.tick 10] "k" (by decide) (by decide) (by decide) ?_
    exact Or.inl (by decide)
  · refine ⟨⟨10, 3⟩, [.add "k" ⟨"f", "a", "", 0, 1⟩ 0, .poll "w" 1, .claim 0,
      .finish 0 .completed none false, .add "k" ⟨"f", "a", "", 20, 1⟩ 0, .tick 20, .schedule 20,
      .poll "w" 1, .claim 1], fun n => ⟨by decide, rfl⟩⟩

/-! ### C67 -/

/-- The message id if the event is a first hand-out (not a redelivery). -/
def firstId : Event → Option MsgId
  | .handed _ id _ false _ _ => some id
  | _ => none

/-- The message ids of the first hand-outs in a history, newest first. -/
def firstHanded (l : List Event) : List MsgId := l.filterMap firstId

theorem mem_firstHanded {l : List Event} {id : MsgId} (h : id ∈ firstHanded l) :
    ∃ pid w t m, Event.handed pid id w false t m ∈ l := by
  obtain ⟨ev, hev, hid⟩ := List.mem_filterMap.1 h
  cases ev with
  | handed pid id' w b t m =>
    cases b with
    | false => simp only [firstId, Option.some.injEq] at hid; subst hid; exact ⟨_, _, _, _, hev⟩
    | true => simp [firstId] at hid
  | _ => simp [firstId] at hid

theorem firstHanded_new (pid : Nat) (w : WorkerName) (t : Time) (ms : List (MsgId × Msg)) :
    firstHanded (newHanded pid w false t ms) = ms.map (·.1) := by
  induction ms generalizing pid with
  | nil => rfl
  | cons e es ih =>
    have := ih (pid + 1)
    simp only [firstHanded] at this
    simp [newHanded, firstHanded, firstId, this]

/-- What the order of hand-outs rests on. -/
structure OrderInv (s : Sys) : Prop where
  sorted : (firstHanded s.log).Pairwise (fun a b => b < a)
  last : ∀ id ∈ firstHanded s.log, id ≤ s.r.lastDelivered
  all : ∀ e ∈ s.r.stream, e.1 ≤ s.r.lastDelivered → e.1 ∈ firstHanded s.log
  msg : ∀ pid id w b t m, Event.handed pid id w b t m ∈ s.log →
    id < s.r.nextId ∧ ∀ e ∈ s.r.stream, e.1 = id → e.2 = m

/-- How the stream and the hand-outs have moved on since `s0`. -/
structure SinceInv (s0 s : Sys) : Prop where
  next : s0.r.nextId ≤ s.r.nextId
  stream : ∀ e ∈ s.r.stream, e ∈ s0.r.stream ∨ s0.r.nextId ≤ e.1
  handed : ∀ id ∈ firstHanded s.log, id ∈ firstHanded s0.log ∨ (∃ e ∈ s0.r.stream, e.1 = id) ∨
    s0.r.nextId ≤ id

/-- A step either delivers new messages or adds no first hand-out. -/
theorem order_step (cfg : Cfg) {s : Sys} (hw : WF s) (op : Op) :
    (∃ (new : List (MsgId × Msg)) (l : List Event), (∀ e ∈ new, e ∈ s.r.stream ∧ s.r.lastDelivered < e.1) ∧
      new.Pairwise (fun a b => a.1 < b.1) ∧
      (∀ e ∈ s.r.stream, e.1 ≤ (step cfg s op).r.lastDelivered → s.r.lastDelivered < e.1 → e ∈ new) ∧
      (∀ e ∈ new, e.1 ≤ (step cfg s op).r.lastDelivered) ∧
      s.r.lastDelivered ≤ (step cfg s op).r.lastDelivered ∧
      (step cfg s op).r.stream = s.r.stream ∧ (step cfg s op).r.nextId = s.r.nextId ∧
      (step cfg s op).log = l ++ s.log ∧ firstHanded l = (new.map (·.1)).reverse ∧
      (∀ pid id w b t m, Event.handed pid id w b t m ∈ l → (id, m) ∈ new)) ∨
    ((step cfg s op).r.lastDelivered = s.r.lastDelivered ∧ s.r.nextId ≤ (step cfg s op).r.nextId ∧
      (∀ e ∈ (step cfg s op).r.stream, e ∈ s.r.stream ∨ s.r.nextId ≤ e.1) ∧
      ∃ l, (step cfg s op).log = l ++ s.log ∧ firstHanded l = [] ∧
        (∀ pid id w b t m, Event.handed pid id w b t m ∈ l → (id, m) ∈ s.r.stream ∧
          (step cfg s op).r.stream = s.r.stream)) := by
  have he := step_eff cfg s hw.queue op
  generalize Docket.step cfg s op = s' at he
  cases he with
  | poll w n new hnew =>
    left
    obtain ⟨h1, h2, h3⟩ := take_filter_last (n := n) (ld := s.r.lastDelivered) hw.stream.sorted
    rw [← hnew] at h1 h2 h3
    refine ⟨new, (newHanded s.nextPid w false s.r.now new).reverse, fun e he => ⟨(h2 e he).2.2, (h2 e he).1⟩, ?_,
      fun e he hl hlt => h3 e he hlt hl, fun e he => (h2 e he).2.1, h1, rfl, rfl, rfl, ?_, ?_⟩
    · rw [hnew]; exact (hw.stream.sorted.filter _).sublist (List.take_sublist _ _)
    · simp only [firstHanded, List.filterMap_reverse]
      rw [← firstHanded, firstHanded_new]
    · intro pid id w' b t m hm
      obtain ⟨x, y, h4, h5, h6⟩ := mem_newHanded (List.mem_reverse.1 hm)
      simp_all
  | redeliver w p e hp he hid =>
    right
    refine ⟨rfl, Nat.le_refl _, fun _ h => Or.inl h, [_], rfl, rfl, ?_⟩
    intro pid id w b t m hm
    simp only [List.mem_singleton, Event.handed.injEq] at hm
    obtain ⟨_, rfl, _, _, _, rfl⟩ := hm
    exact ⟨he, rfl⟩
  | schedule t ht =>
    right
    refine ⟨rfl, by simp only; omega, ?_, [], rfl, rfl, by simp⟩
    intro e he
    simp only [List.mem_append] at he
    rcases he with he | he
    · exact Or.inl he
    · exact Or.inr (mem_numbered he).1
  | clear op j js =>
    right
    refine ⟨rfl, Nat.le_refl _, ?_, [_], rfl, rfl, by simp⟩
    intro e he
    simp only at he
    split at he
    · simp at he
    · exact Or.inl he
  | addNow =>
    right
    refine ⟨rfl, by simp only; omega, ?_, [_], rfl, rfl, by simp⟩
    intro e he
    simp only [List.mem_append, List.mem_singleton] at he
    rcases he with he | rfl
    · exact Or.inl he
    · exact Or.inr (Nat.le_refl _)
  | replaceNow =>
    right
    refine ⟨rfl, by simp only; omega, ?_, [_], rfl, rfl, by simp⟩
    intro e he
    simp only [List.mem_append, List.mem_singleton] at he
    rcases he with he | rfl
    · exact Or.inl (mem_dropOwn he)
    · exact Or.inr (Nat.le_refl _)
  | rescheduleNow =>
    right
    refine ⟨rfl, by simp only; omega, ?_, [_], rfl, rfl, by simp⟩
    intro e he
    simp only [List.mem_append, List.mem_singleton] at he
    rcases he with he | rfl
    · exact Or.inl (List.mem_filter.1 he).1
    · exact Or.inr (Nat.le_refl _)
  | replaceLater => exact Or.inr ⟨rfl, Nat.le_refl _, fun e he => Or.inl (mem_dropOwn he), [_], rfl, rfl, by simp⟩
  | cancel => exact Or.inr ⟨rfl, Nat.le_refl _, fun e he => Or.inl (mem_dropOwn he), [_], rfl, rfl, by simp⟩
  | claimSuperseded =>
    exact Or.inr ⟨rfl, Nat.le_refl _, fun e he => Or.inl (List.mem_filter.1 he).1, [], rfl, rfl, by simp⟩
  | _ =>
    right
    first
    | exact ⟨rfl, Nat.le_refl _, fun e he => Or.inl he, [], rfl, rfl, by simp⟩
    | exact ⟨rfl, Nat.le_refl _, fun e he => Or.inl he, [_], rfl, rfl, by simp⟩
    | exact ⟨rfl, Nat.le_refl _, fun e he => Or.inl (List.mem_filter.1 he).1, [_], rfl, rfl, by simp⟩

theorem OrderInv.step {cfg : Cfg} {s : Sys} (hw : WF s) (h : OrderInv s) (op : Op) :
    OrderInv (Docket.step cfg s op) := by
  rcases order_step cfg hw op with ⟨new, l, h1, h2, h3, h4, h5, h6, h7, h8, h9, h10⟩ |
    ⟨h1, h2, h3, l, h4, h5, h6⟩
  · have hf : firstHanded (Docket.step cfg s op).log = (new.map (·.1)).reverse ++ firstHanded s.log := by
      rw [h8, firstHanded, List.filterMap_append, ← firstHanded, ← firstHanded, h9]
    refine ⟨?_, ?_, ?_, ?_⟩
    · rw [hf, List.pairwise_append]
      refine ⟨?_, h.sorted, ?_⟩
      · rw [List.pairwise_reverse, List.pairwise_map]; exact h2
      · intro a ha b hb
        simp only [List.mem_reverse, List.mem_map] at ha
        obtain ⟨e, he, rfl⟩ := ha
        have := h.last b hb
        have := (h1 e he).2
        omega
    · intro id hid
      rw [hf, List.mem_append] at hid
      rcases hid with hid | hid
      · simp only [List.mem_reverse, List.mem_map] at hid
        obtain ⟨e, he, rfl⟩ := hid
        exact h4 e he
      · have := h.last id hid; omega
    · intro e he hl
      rw [hf, List.mem_append]
      rw [h6] at he
      by_cases hc : s.r.lastDelivered < e.1
      · left
        simp only [List.mem_reverse, List.mem_map]
        exact ⟨e, h3 e he hl hc, rfl⟩
      · exact Or.inr (h.all e he (by omega))
    · intro pid id w b t m hm
      rw [h8, List.mem_append] at hm
      rw [h6, h7]
      rcases hm with hm | hm
      · have := h1 _ (h10 _ _ _ _ _ _ hm)
        refine ⟨hw.stream.lt _ this.1, ?_⟩
        intro e he hid
        have := hw.stream.unique he this.1 hid
        rw [this]
      · exact h.msg _ _ _ _ _ _ hm
  · have hf : firstHanded (Docket.step cfg s op).log = firstHanded s.log := by
      rw [h4, firstHanded, List.filterMap_append, ← firstHanded, ← firstHanded, h5, List.nil_append]
    refine ⟨by rw [hf]; exact h.sorted, by rw [hf, h1]; exact h.last, ?_, ?_⟩
    · intro e he hl
      rw [hf]
      rw [h1] at hl
      rcases h3 e he with he | he
      · exact h.all e he hl
      · have := hw.stream.ldlt; omega
    · intro pid id w b t m hm
      rw [h4, List.mem_append] at hm
      rcases hm with hm | hm
      · obtain ⟨h7, h8⟩ := h6 _ _ _ _ _ _ hm
        refine ⟨by have := hw.stream.lt _ h7; simp only at this; omega, ?_⟩
        intro e he hid
        rw [h8] at he
        have := hw.stream.unique he h7 hid
        rw [this]
      · obtain ⟨h7, h8⟩ := h.msg _ _ _ _ _ _ hm
        refine ⟨by omega, ?_⟩
        intro e he hid
        rcases h3 e he with he | he
        · exact h8 e he hid
        · omega

theorem OrderInv.run (cfg : Cfg) (ops : List Op) : OrderInv (run cfg ops) := by
  have : ∀ (ops : List Op) (s : Sys), WF s → OrderInv s → OrderInv (runFrom cfg s ops) := by
    intro ops
    induction ops with
    | nil => intro s _ h; exact h
    | cons o ops ih => intro s hw h; exact ih _ (hw.step o) (h.step hw o)
  exact this _ _ WF.init ⟨by simp [firstHanded], by simp [firstHanded], by simp, by simp⟩

theorem SinceInv.runFrom (cfg : Cfg) {s0 : Sys} (ops : List Op) : ∀ {s : Sys}, WF s → SinceInv s0 s →
    SinceInv s0 (runFrom cfg s ops) := by
  induction ops with
  | nil => intro s _ h; exact h
  | cons o ops ih =>
    intro s hw h
    refine ih (hw.step (cfg := cfg) o) ?_
    rcases order_step cfg hw o with ⟨new, l, h1, h2, h3, h4, h5, h6, h7, h8, h9, h10⟩ |
      ⟨h1, h2, h3, l, h4, h5, h6⟩
    · refine ⟨by rw [h7]; exact h.next, by rw [h6]; exact h.stream, ?_⟩
      intro id hid
      rw [h8, firstHanded, List.filterMap_append, ← firstHanded, ← firstHanded, h9, List.mem_append] at hid
      rcases hid with hid | hid
      · simp only [List.mem_reverse, List.mem_map] at hid
        obtain ⟨e, he, rfl⟩ := hid
        rcases h.stream e (h1 e he).1 with hs | hs
        · exact Or.inr (Or.inl ⟨e, hs, rfl⟩)
        · exact Or.inr (Or.inr hs)
      · exact h.handed id hid
    · refine ⟨Nat.le_trans h.next h2, ?_, ?_⟩
      · intro e he
        rcases h3 e he with he | he
        · exact h.stream e he
        · right; have := h.next; omega
      · intro id hid
        rw [h4, firstHanded, List.filterMap_append, ← firstHanded, ← firstHanded, h5, List.nil_append] at hid
        exact h.handed id hid

/-- C67, order.  In every history, first hand-outs, over all workers together, happen in
strictly increasing order of the messages' places in the queue. -/
theorem C67_handed_in_order (cfg : Cfg) (ops : List Op) :
    (firstHanded (run cfg ops).log).Pairwise (fun newer older => older < newer) :=
  (OrderInv.run cfg ops).sorted

/-- C67, no overtaking.  Let message `e` be in the stream after `pre`, and let another
message, that is not in the stream then and was not handed out before, be handed to a
worker for the first time later on.  If `e` is still in the stream then, it was handed
out before. -/
theorem C67_no_overtaking (cfg : Cfg) (pre cont : List Op) (e : MsgId × Msg)
    (later earlier : List Event) (pid : Nat) (id : MsgId) (w : WorkerName) (t : Time) (m : Msg)
    (he : e ∈ (run cfg pre).r.stream) (hnew : ∀ x ∈ (run cfg pre).r.stream, x.1 ≠ id)
    (hnot : ∀ pid w b t m, Event.handed pid id w b t m ∉ (run cfg pre).log)
    (hlog : (run cfg (pre ++ cont)).log = later ++ .handed pid id w false t m :: earlier)
    (hstill : e ∈ (run cfg (pre ++ cont)).r.stream) :
    ∃ pid' w' t', Event.handed pid' e.1 w' false t' e.2 ∈ earlier := by
  have hs : run cfg (pre ++ cont) = runFrom cfg (run cfg pre) cont := by simp [run, runFrom_append]
  have ho := OrderInv.run cfg (pre ++ cont)
  have hsi : SinceInv (run cfg pre) (run cfg (pre ++ cont)) := by
    rw [hs]
    exact SinceInv.runFrom cfg cont (WF.run cfg pre)
      ⟨Nat.le_refl _, fun _ h => Or.inl h, fun _ h => Or.inl h⟩
  have hf : firstHanded (run cfg (pre ++ cont)).log =
      firstHanded later ++ id :: firstHanded earlier := by
    rw [hlog]; simp [firstHanded, firstId]
  have hmem : id ∈ firstHanded (run cfg (pre ++ cont)).log := by rw [hf]; simp
  have hlt : e.1 < id := by
    have h1 := (WF.run cfg pre).stream.lt e he
    rcases hsi.handed id hmem with h | ⟨x, hx, hid⟩ | h
    · obtain ⟨_, _, _, _, h⟩ := mem_firstHanded h
      exact absurd h (hnot _ _ _ _ _)
    · exact absurd hid (hnew x hx)
    · omega
  have hmem2 : e.1 ∈ firstHanded (run cfg (pre ++ cont)).log :=
    ho.all e hstill (by have := ho.last id hmem; omega)
  have hsort := ho.sorted
  rw [hf] at hmem2 hsort
  rw [List.pairwise_append] at hsort
  simp only [List.mem_append, List.mem_cons] at hmem2
  have hin : e.1 ∈ firstHanded earlier := by
    rcases hmem2 with h | h | h
    · have := hsort.2.2 e.1 h id (by simp); omega
    · omega
    · exact h
  obtain ⟨pid', w', t', m', hev⟩ := mem_firstHanded hin
  have := (ho.msg pid' e.1 w' false t' m' (by rw [hlog]; simp [hev])).2 e hstill rfl
  exact ⟨pid', w', t', by rw [this]; exact hev⟩

/-- Two tasks, one of them moved to the queue by the scheduler, taken by two workers. -/
example : let pre : List Op := [.add "a" ⟨"f", "", "", 3, 1⟩ 0, .tick 5, .schedule 5]
    let cont : List Op := [.add "b" ⟨"f", "", "", 2, 1⟩ 5, .poll "w" 1, .poll "v" 1]
    (1, ⟨"a", ⟨"f", "", "", 3, 1⟩, 1⟩) ∈ (run ⟨10, 3⟩ pre).r.stream ∧
    (∀ x ∈ (run ⟨10, 3⟩ pre).r.stream, x.1 ≠ 2) ∧
    (run ⟨10, 3⟩ pre).log = [.accepted ⟨"a", ⟨"f", "", "", 3, 1⟩, 1⟩] ∧
    (1, ⟨"a", ⟨"f", "", "", 3, 1⟩, 1⟩) ∈ (run ⟨10, 3⟩ (pre ++ cont)).r.stream ∧
    (run ⟨10, 3⟩ (pre ++ cont)).log.head? =
      some (.handed 1 2 "v" false 5 ⟨"b", ⟨"f", "", "", 2, 1⟩, 1⟩) := by decide

end Docket
