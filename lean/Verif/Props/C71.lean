import Verif.Props.C66_C67
/-
C71: every accepted task is handed to a worker when its turn comes.
-/
namespace Docket
open Redis

/-! ## Specification -/

/-- The operation may end or change what is scheduled under `k`: somebody schedules `k`
(anew), cancels it or clears the docket, or an execution of `k` reschedules itself. -/
def Disturbs (k : Key) (s : Sys) : Op → Prop
  | .add k' _ _ | .replace k' _ _ | .cancel k' => k' = k
  | .clear | .clearWrite => True
  | .reschedule pid _ _ _ => ∃ p ∈ s.procs, p.pid = pid ∧ p.msg.key = k
  | _ => False

instance (k : Key) (s : Sys) (op : Op) : Decidable (Disturbs k s op) := by
  cases op <;> unfold Disturbs <;> infer_instance

/-- The message with this stream id was handed to a worker. -/
def WasHanded (s : Sys) (id : MsgId) (m : Msg) : Prop :=
  ∃ pid w t, Event.handed pid id w false t m ∈ s.log

/-- This step hands the message to a worker. -/
def HandsOut (cfg : Cfg) (s : Sys) (op : Op) (m : Msg) : Prop :=
  ∃ l, (step cfg s op).log = l ++ s.log ∧ ∃ pid id w t, Event.handed pid id w false t m ∈ l

/-- The messages in front of `id` in the stream that no worker was given yet. -/
def inFront (s : Sys) (id : MsgId) : List (MsgId × Msg) :=
  s.r.stream.filter (fun e => decide (e.1 < id ∧ e.1 ∉ firstHanded s.log))

/-- How many times a worker asks for (at least one) new message. -/
def asks : List Op → Nat
  | [] => 0
  | .poll _ (_ + 1) :: ops => asks ops + 1
  | _ :: ops => asks ops

/-- The states of an endless history. -/
def at_ (cfg : Cfg) (f : Nat → Op) : Nat → Sys
  | 0 => {}
  | n + 1 => step cfg (at_ cfg f n) (f n)

/-- Again and again some worker asks for new messages. -/
def WorkersPoll (f : Nat → Op) : Prop := ∀ n, ∃ k, n ≤ k ∧ ∃ w c, f k = .poll w (c + 1)

/-- Time goes on, and again and again some worker runs the scheduler. -/
def SchedulerRuns (cfg : Cfg) (f : Nat → Op) : Prop :=
  ∀ n T, ∃ k, n ≤ k ∧ ∃ t, T ≤ t ∧ t ≤ (at_ cfg f k).r.now ∧ f k = .schedule t

/-- This step starts the message. -/
def Starts (cfg : Cfg) (s : Sys) (op : Op) (m : Msg) : Prop :=
  ∃ l, (step cfg s op).log = l ++ s.log ∧ ∃ pid id t, Event.started pid id m t ∈ l

/-- No worker dies with an execution it was handed before it has tried to start it. -/
def WorkersStart (cfg : Cfg) (f : Nat → Op) : Prop :=
  ∀ n, ∀ p ∈ (at_ cfg f n).procs, p.phase = .handed →
    ∃ k, n ≤ k ∧ p ∈ (at_ cfg f k).procs ∧ f k = .claim p.pid

/-! ## Proof -/

theorem length_le_of_subset {α : Type} [DecidableEq α] : ∀ {l l' : List α}, l.Nodup → (∀ x ∈ l, x ∈ l') →
    l.length ≤ l'.length := by
  intro l
  induction l with
  | nil => intro l' _ _; simp
  | cons a l ih =>
    intro l' hn hs
    rw [List.nodup_cons] at hn
    have ha := hs a (List.mem_cons_self ..)
    have := ih (l' := l'.erase a) hn.2 (fun x hx => by
      rw [List.mem_erase_of_ne (by rintro rfl; exact hn.1 hx)]
      exact hs x (List.mem_cons_of_mem _ hx))
    rw [List.length_erase_of_mem ha] at this
    have := List.length_pos_of_mem ha
    simp only [List.length_cons]
    omega

/-- In the stream, not handed out. -/
def Queued (s : Sys) (id : MsgId) (m : Msg) : Prop := (id, m) ∈ s.r.stream ∧ s.r.lastDelivered < id

theorem queued_step (cfg : Cfg) {s : Sys} (hw : WF s) {id : MsgId} {m : Msg} (h : Queued s id m) (op : Op)
    (hd : ¬ Disturbs m.key s op) :
    (id, m) ∈ (step cfg s op).r.stream := by
  obtain ⟨hm, hl⟩ := h
  have hproc : ∀ p ∈ s.procs, p.id ≠ id := by
    intro p hp hc
    have := (hw.procs.1 p hp).1
    omega
  have hfil : ∀ p ∈ s.procs, (id, m) ∈ s.r.stream.filter (fun e => decide (e.1 ≠ p.id)) := by
    intro p hp
    simp only [List.mem_filter, decide_eq_true_eq]
    exact ⟨hm, fun hc => hproc p hp hc.symm⟩
  have he := step_eff cfg s hw.queue op
  generalize Docket.step cfg s op = s' at he
  cases he with
  | replaceNow k q t ht hwh =>
    exact List.mem_append_left _ (mem_dropOwn_of_key hw hm (fun hc => hd hc.symm))
  | replaceLater k q t ht hwh => exact mem_dropOwn_of_key hw hm (fun hc => hd hc.symm)
  | cancel k => exact mem_dropOwn_of_key hw hm (fun hc => hd hc.symm)
  | clear op j js hop =>
    rcases hop with ⟨rfl, _⟩ | ⟨rfl, _⟩ <;> exact absurd trivial hd
  | addNow => exact List.mem_append_left _ hm
  | schedule => exact List.mem_append_left _ hm
  | claimSuperseded p hp => exact hfil p hp
  | finish p _ _ _ hp => exact hfil p hp
  | finishSuperseded p _ _ _ hp => exact hfil p hp
  | rescheduleNow p _ _ _ _ hp => exact List.mem_append_left _ (hfil p hp)
  | rescheduleLater p _ _ _ _ hp => exact hfil p hp
  | _ => exact hm

/-- The messages in front, by position. -/
def front (s : Sys) (id : MsgId) : List (MsgId × Msg) :=
  s.r.stream.filter (fun e => decide (s.r.lastDelivered < e.1 ∧ e.1 < id))

theorem pairwise_nodup {l : List (MsgId × Msg)} (h : l.Pairwise (fun a b => a.1 < b.1)) : l.Nodup :=
  h.imp (fun hab hc => by subst hc; omega)

theorem front_eq {s : Sys} (ho : OrderInv s) (id : MsgId) : front s id = inFront s id := by
  unfold front inFront
  apply List.filter_congr
  intro e he
  have h1 := ho.all e he
  have h2 := ho.last e.1
  rw [decide_eq_decide]
  constructor
  · rintro ⟨h3, h4⟩
    exact ⟨h4, fun hc => by have := h2 hc; omega⟩
  · rintro ⟨h3, h4⟩
    refine ⟨?_, h3⟩
    by_cases hc : e.1 ≤ s.r.lastDelivered
    · exact absurd (h1 hc) h4
    · omega

theorem newHanded_of_mem {w : WorkerName} {red : Bool} {t : Time} {e : MsgId × Msg}
    {ms : List (MsgId × Msg)} (h : e ∈ ms) : ∀ {pid : Nat},
    ∃ i, Event.handed i e.1 w red t e.2 ∈ newHanded pid w red t ms := by
  induction ms with
  | nil => cases h
  | cons a ms ih =>
    intro pid
    rcases List.mem_cons.1 h with rfl | h
    · exact ⟨pid, List.mem_cons_self ..⟩
    · obtain ⟨i, hi⟩ := ih h (pid := pid + 1)
      exact ⟨i, List.mem_cons_of_mem _ hi⟩

theorem poll_handed (cfg : Cfg) {s : Sys} (hw : WF s) {id : MsgId} {m : Msg} (h : Queued s id m) (op : Op)
    (hd : ¬ Disturbs m.key s op) :
    (WasHanded (step cfg s op) id m ∧ HandsOut cfg s op m ∧
      ∃ p ∈ (step cfg s op).procs, p.phase = .handed ∧ p.msg = m) ∨
    (Queued (step cfg s op) id m ∧ (front (step cfg s op) id).length ≤ (front s id).length ∧
      ∀ w c, op = .poll w (c + 1) → (front (step cfg s op) id).length < (front s id).length) := by
  have hin := queued_step cfg hw h op hd
  obtain ⟨hm, hl⟩ := h
  have hws : WF (step cfg s op) := hw.step op
  by_cases hp : ∃ w c, op = .poll w c
  · obtain ⟨w, c, rfl⟩ := hp
    obtain ⟨h1, h2, h3⟩ := take_filter_last (n := c) (ld := s.r.lastDelivered) hw.stream.sorted
    have hstep : step cfg s (.poll w c) = { s with
        r := { s.r with
          pending := s.r.pending ++ ((s.r.stream.filter (fun e => decide (s.r.lastDelivered < e.1))).take c).map (fun e => ⟨e.1, w, s.r.now⟩)
          lastDelivered := (((s.r.stream.filter (fun e => decide (s.r.lastDelivered < e.1))).take c).getLast?.map (·.1)).getD s.r.lastDelivered }
        procs := s.procs ++ newProcs s.nextPid w false ((s.r.stream.filter (fun e => decide (s.r.lastDelivered < e.1))).take c)
        nextPid := s.nextPid + ((s.r.stream.filter (fun e => decide (s.r.lastDelivered < e.1))).take c).length
        log := (newHanded s.nextPid w false s.r.now ((s.r.stream.filter (fun e => decide (s.r.lastDelivered < e.1))).take c)).reverse ++ s.log } := by
      simp only [step, doPoll, xreadgroup, handOut_eq]
    generalize hnew : (s.r.stream.filter (fun e => decide (s.r.lastDelivered < e.1))).take c = new at h1 h2 h3 hstep
    have hld : (step cfg s (.poll w c)).r.lastDelivered = (new.getLast?.map (·.1)).getD s.r.lastDelivered := by rw [hstep]
    have hst : (step cfg s (.poll w c)).r.stream = s.r.stream := by rw [hstep]
    rw [← hld] at h1 h2 h3
    by_cases hc : id ≤ (step cfg s (.poll w c)).r.lastDelivered
    · left
      have hmem := h3 (id, m) hm hl hc
      obtain ⟨pid, hpid⟩ := newHanded_of_mem (pid := s.nextPid) (w := w) (red := false) (t := s.r.now) hmem
      refine ⟨⟨pid, w, s.r.now, ?_⟩, ⟨_, by rw [hstep], pid, id, w, s.r.now, List.mem_reverse.2 hpid⟩, ?_⟩
      · rw [hstep]
        exact List.mem_append_left _ (List.mem_reverse.2 hpid)
      · obtain ⟨p, hp1, hp2⟩ := newProcs_of_mem (pid := s.nextPid) (w := w) (red := false) hmem
        exact ⟨p, by rw [hstep]; exact List.mem_append_right _ hp1, hp2.2.2.1, hp2.2.1⟩
    · right
      refine ⟨⟨hin, by omega⟩, ?_⟩
      have hnd : new.Nodup := by
        rw [← hnew]
        exact pairwise_nodup ((hw.stream.sorted.filter _).sublist (List.take_sublist _ _))
      have hcount : new.length + (front (step cfg s (.poll w c)) id).length ≤ (front s id).length := by
        rw [← List.length_append]
        apply length_le_of_subset
        · rw [List.nodup_append]
          refine ⟨hnd, pairwise_nodup (hws.stream.sorted.filter _), ?_⟩
          intro a ha b hb
          simp only [front, List.mem_filter, decide_eq_true_eq] at hb
          have := (h2 a ha).2.1
          rintro rfl
          omega
        · intro e he
          rw [List.mem_append] at he
          simp only [front, List.mem_filter, decide_eq_true_eq, hst] at he ⊢
          rcases he with he | he
          · have := h2 e he
            exact ⟨this.2.2, this.1, by omega⟩
          · exact ⟨he.1, by omega, he.2.2⟩
      refine ⟨by omega, ?_⟩
      intro w' c' heq
      simp only [Op.poll.injEq] at heq
      have hpos : 0 < new.length := by
        rw [← hnew, List.length_take]
        have : 0 < (s.r.stream.filter (fun e => decide (s.r.lastDelivered < e.1))).length :=
          List.length_pos_of_mem (a := (id, m)) (by simp [List.mem_filter, hm, hl])
        omega
      omega
  · right
    have hld : (step cfg s op).r.lastDelivered = s.r.lastDelivered := by
      have he := step_eff cfg s hw.queue op
      generalize Docket.step cfg s op = s' at he
      cases he with
      | poll w n => exact absurd ⟨_, _, rfl⟩ hp
      | _ => rfl
    refine ⟨⟨hin, by omega⟩, ?_, fun w c h => absurd ⟨w, _, h⟩ hp⟩
    apply length_le_of_subset (pairwise_nodup (hws.stream.sorted.filter _))
    intro e he
    simp only [front, List.mem_filter, decide_eq_true_eq, hld] at he ⊢
    refine ⟨?_, he.2⟩
    have hlt := hw.stream.lt _ hm
    rcases order_step cfg hw op with ⟨_, _, _, _, _, _, _, h6, _⟩ | ⟨_, _, h3, _⟩
    · rw [h6] at he; exact he.1
    · rcases h3 e he.1 with h | h
      · exact h
      · simp only at hlt; omega

theorem WasHanded.step {cfg : Cfg} {s : Sys} {id : MsgId} {m : Msg} (hw : WF s) (h : WasHanded s id m) (op : Op) :
    WasHanded (Docket.step cfg s op) id m := by
  obtain ⟨pid, w, t, h⟩ := h
  rcases order_step cfg hw op with ⟨_, l, _, _, _, _, _, _, _, h8, _⟩ | ⟨_, _, _, l, h4, _⟩
  · exact ⟨pid, w, t, by rw [h8]; exact List.mem_append_right _ h⟩
  · exact ⟨pid, w, t, by rw [h4]; exact List.mem_append_right _ h⟩

theorem WasHanded.runFrom {cfg : Cfg} {id : MsgId} {m : Msg} (ops : List Op) : ∀ {s : Sys}, WF s → WasHanded s id m →
    WasHanded (Docket.runFrom cfg s ops) id m := by
  induction ops with
  | nil => intro s _ h; exact h
  | cons o ops ih => intro s hw h; exact ih (hw.step o) (h.step hw o)

/-- A task in the schedule stays there until the scheduler moves it to the stream. -/
theorem waits_step (cfg : Cfg) {s : Sys} (hw : WF s) {m : Msg} (h : InSchedule s m) (op : Op)
    (hd : ¬ Disturbs m.key s op) :
    (InSchedule (step cfg s op) m ∧ ∀ t, m.req.when_ ≤ t → t ≤ s.r.now → op ≠ .schedule t) ∨
    ∃ id, Queued (step cfg s op) id m := by
  obtain ⟨hp, hq⟩ := h
  have hother : ∀ {k : Key}, k ≠ m.key → ∀ {v}, upd s.r.parked k v m.key = some m := by
    intro k hk v; rw [upd_other _ _ _ _ (fun hc => hk hc.symm)]; exact hp
  have hfil : ∀ {k : Key}, k ≠ m.key → (m.key, m.req.when_) ∈ s.r.queue.filter (fun e => decide (e.1 ≠ k)) := by
    intro k hk
    simp only [List.mem_filter, decide_eq_true_eq]
    exact ⟨hq, fun hc => hk hc.symm⟩
  have hnone : ∀ (op : Op), (∀ t, op ≠ .schedule t) → ∀ t, m.req.when_ ≤ t → t ≤ s.r.now → op ≠ .schedule t :=
    fun op h t _ _ => h t
  by_cases hs : ∃ t, op = .schedule t
  · obtain ⟨t, rfl⟩ := hs
    by_cases ht : t ≤ s.r.now
    · by_cases hdue : m.req.when_ ≤ t
      · right
        have hk : m.key ∈ dueKeys s.r t := by
          simp only [dueKeys, List.mem_map, List.mem_filter, decide_eq_true_eq]
          exact ⟨_, ⟨hq, hdue⟩, rfl⟩
        have hmem : m ∈ (dueKeys s.r t).filterMap s.r.parked := List.mem_filterMap.2 ⟨_, hk, hp⟩
        obtain ⟨id, hid⟩ := numbered_of_mem (i := s.r.nextId) hmem
        have hstep : (step cfg s (.schedule t)).r.stream =
            s.r.stream ++ numbered s.r.nextId ((dueKeys s.r t).filterMap s.r.parked) ∧
            (step cfg s (.schedule t)).r.lastDelivered = s.r.lastDelivered := by
          simp only [step, ht, if_true]
          rw [luaStreamDue_eq _ _ hw.queue.nodup hw.queue.key]
          exact ⟨rfl, rfl⟩
        refine ⟨id, ?_, ?_⟩
        · rw [hstep.1]; exact List.mem_append_right _ hid
        · rw [hstep.2]
          have := (mem_numbered hid).1
          have := hw.stream.ldlt
          simp only at *
          omega
      · left
        refine ⟨?_, ?_⟩
        · have he := step_eff cfg s hw.queue (.schedule t)
          generalize hs' : Docket.step cfg s (.schedule t) = s' at he
          cases he with
          | nop => exact ⟨hp, hq⟩
          | schedule t ht =>
            have hk : m.key ∉ dueKeys s.r t := by
              intro hk
              obtain ⟨m', hm', hle, _⟩ := dueKeys_parked hw.queue hk
              rw [hp] at hm'
              injection hm' with hm'
              subst hm'
              exact hdue hle
            refine ⟨?_, ?_⟩
            · simp only [hk, if_false]; exact hp
            · simp only [List.mem_filter, decide_eq_true_eq]
              exact ⟨hq, hdue⟩
          | clear op j js hop => rcases hop with ⟨h, _⟩ | ⟨h, _⟩ <;> cases h
          | prog op k f hop => exact ⟨hp, hq⟩
        · intro t' h1 h2 h3
          injection h3 with h3
          subst h3
          exact hdue h1
    · left
      refine ⟨?_, ?_⟩
      · simp only [step, ht, if_false]; exact ⟨hp, hq⟩
      · intro t' h1 h2 h3
        injection h3 with h3
        subst h3
        exact ht h2
  · left
    refine ⟨?_, fun t _ _ h => hs ⟨t, h⟩⟩
    have he := step_eff cfg s hw.queue op
    generalize Docket.step cfg s op = s' at he
    cases he with
    | addLater k q t ht hwh hx =>
      have hk : k ≠ m.key := hd
      exact ⟨hother hk, zinsert_mem.2 (Or.inr (hfil hk))⟩
    | replaceNow k q t ht hwh =>
      have hk : k ≠ m.key := hd
      exact ⟨hother hk, hfil hk⟩
    | replaceLater k q t ht hwh =>
      have hk : k ≠ m.key := hd
      exact ⟨hother hk, zinsert_mem.2 (Or.inr (hfil hk))⟩
    | cancel k =>
      have hk : k ≠ m.key := hd
      exact ⟨hother hk, hfil hk⟩
    | clear op j js hop => rcases hop with ⟨rfl, _⟩ | ⟨rfl, _⟩ <;> exact absurd trivial hd
    | schedule t => exact absurd ⟨_, rfl⟩ hs
    | rescheduleLater p t a d q hpm =>
      have hk : p.msg.key ≠ m.key := fun hc => hd ⟨p, hpm, rfl, hc⟩
      exact ⟨hother hk, zinsert_mem.2 (Or.inr (hfil hk))⟩
    | _ => exact ⟨hp, hq⟩

/-- **C71**, in numbers.  A message that is in the stream and was not given to a worker yet
is given to one as soon as workers have asked for messages more often than there were
messages in front of it that nobody had been given: no later task, retry or redelivery gets
in between, whatever else happens to other tasks and workers.  (Unless its key is scheduled
again, cancelled or cleared, in which case it may be withdrawn.) -/
theorem C71_served_in_turn (cfg : Cfg) (ops cont : List Op) (id : MsgId) (m : Msg)
    (hm : (id, m) ∈ (run cfg ops).r.stream)
    (hcont : EachStep cfg (fun s op => ¬ Disturbs m.key s op) (run cfg ops) cont)
    (hasks : (inFront (run cfg ops) id).length < asks cont) :
    WasHanded (runFrom cfg (run cfg ops) cont) id m := by
  have ho := OrderInv.run cfg ops
  have hw := WF.run cfg ops
  by_cases hl : id ≤ (run cfg ops).r.lastDelivered
  · have h1 := ho.all (id, m) hm hl
    obtain ⟨pid, w, t, m', h2⟩ := mem_firstHanded h1
    have h3 := (ho.msg _ _ _ _ _ _ h2).2 (id, m) hm rfl
    simp only at h3
    subst h3
    exact WasHanded.runFrom cont hw ⟨pid, w, t, h2⟩
  · rw [← front_eq ho] at hasks
    have : ∀ (cont : List Op) (s : Sys), WF s → Queued s id m →
        EachStep cfg (fun s op => ¬ Disturbs m.key s op) s cont → (front s id).length < asks cont →
        WasHanded (runFrom cfg s cont) id m := by
      intro cont
      induction cont with
      | nil => intro s _ _ _ h; simp [asks] at h
      | cons o cont ih =>
        intro s hw hq hc ha
        rcases poll_handed cfg hw hq o hc.1 with ⟨h, _⟩ | ⟨h1, h2, h3⟩
        · exact WasHanded.runFrom cont (hw.step o) h
        · refine ih _ (hw.step o) h1 hc.2 ?_
          by_cases hp : ∃ w c, o = .poll w (c + 1)
          · obtain ⟨w, c, rfl⟩ := hp
            have := h3 w c rfl
            simp only [asks] at ha
            omega
          · have : asks (o :: cont) = asks cont := by
              cases o with
              | poll w c =>
                cases c with
                | zero => rfl
                | succ c => exact absurd ⟨w, c, rfl⟩ hp
              | _ => rfl
            omega
    exact this cont _ hw ⟨hm, by omega⟩ hcont hasks

theorem at_wf (cfg : Cfg) (f : Nat → Op) (n : Nat) : WF (at_ cfg f n) := by
  induction n with
  | zero => exact WF.init
  | succ n ih => exact ih.step _

theorem eventually_handed (cfg : Cfg) (f : Nat → Op) (n : Nat) (m : Msg)
    (hpoll : WorkersPoll f) (hsched : SchedulerRuns cfg f)
    (hnew : (at_ cfg f (n + 1)).log = .accepted m :: (at_ cfg f n).log)
    (hcont : ∀ k, n < k → ¬ Disturbs m.key (at_ cfg f k) (f k)) :
    ∃ k, n < k ∧ HandsOut cfg (at_ cfg f k) (f k) m ∧
      ∃ p ∈ (at_ cfg f (k + 1)).procs, p.phase = .handed ∧ p.msg = m := by
  have hplace : InSchedule (at_ cfg f (n + 1)) m ∨ ∃ id, Queued (at_ cfg f (n + 1)) id m := by
    have hw := at_wf cfg f n
    have hlt := hw.stream.ldlt
    have he := step_eff cfg (at_ cfg f n) hw.queue (f n)
    rw [at_] at hnew ⊢
    generalize hop : f n = op at he hnew
    generalize Docket.step cfg (at_ cfg f n) op = s' at he hnew
    cases he with
    | addNow k q t ht hwh hx =>
      simp only [List.cons.injEq, Event.accepted.injEq, and_true] at hnew
      subst hnew
      exact Or.inr ⟨_, List.mem_append_right _ (List.mem_singleton.2 rfl), hlt⟩
    | addLater k q t ht hwh hx =>
      simp only [List.cons.injEq, Event.accepted.injEq, and_true] at hnew
      subst hnew
      exact Or.inl ⟨upd_same _ _ _, zinsert_mem.2 (Or.inl rfl)⟩
    | replaceNow k q t ht hwh =>
      simp only [List.cons.injEq, Event.accepted.injEq, and_true] at hnew
      subst hnew
      exact Or.inr ⟨_, List.mem_append_right _ (List.mem_singleton.2 rfl), hlt⟩
    | replaceLater k q t ht hwh =>
      simp only [List.cons.injEq, Event.accepted.injEq, and_true] at hnew
      subst hnew
      exact Or.inl ⟨upd_same _ _ _, zinsert_mem.2 (Or.inl rfl)⟩
    | rescheduleNow p t a d q =>
      simp only [List.cons.injEq, Event.accepted.injEq, and_true] at hnew
      subst hnew
      exact Or.inr ⟨_, List.mem_append_right _ (List.mem_singleton.2 rfl), hlt⟩
    | rescheduleLater p t a d q =>
      simp only [List.cons.injEq, Event.accepted.injEq, and_true] at hnew
      subst hnew
      exact Or.inl ⟨upd_same _ _ _, zinsert_mem.2 (Or.inl rfl)⟩
    | poll w c new hnew' =>
      simp only at hnew
      have h1 := congrArg List.length hnew
      simp only [List.length_append, List.length_reverse, List.length_cons] at h1
      cases hr : (newHanded (at_ cfg f n).nextPid w false (at_ cfg f n).r.now new).reverse with
      | nil => rw [hr] at hnew; have := congrArg List.length hnew; simp at this
      | cons e es =>
        rw [hr, List.cons_append, List.cons.injEq] at hnew
        have hmem : e ∈ newHanded (at_ cfg f n).nextPid w false (at_ cfg f n).r.now new := by
          rw [← List.mem_reverse, hr]; exact List.mem_cons_self ..
        rw [hnew.1] at hmem
        have : ∀ (ms : List (MsgId × Msg)) (pid : Nat), Event.accepted m ∉ newHanded pid w false (at_ cfg f n).r.now ms := by
          intro ms
          induction ms with
          | nil => intro pid h; cases h
          | cons a ms ih => intro pid h; simp only [newHanded, List.mem_cons] at h; rcases h with h | h; cases h; exact ih _ h
        exact absurd hmem (this _ _)
    | _ => simp at hnew
  have stream : ∀ (c : Nat) (k : Nat) (id : MsgId), n < k → Queued (at_ cfg f k) id m →
      (front (at_ cfg f k) id).length ≤ c → ∃ k, n < k ∧ HandsOut cfg (at_ cfg f k) (f k) m ∧
      ∃ p ∈ (at_ cfg f (k + 1)).procs, p.phase = .handed ∧ p.msg = m := by
    intro c
    induction c with
    | zero =>
      intro k id hk hq hc
      obtain ⟨j, hj, w, c, hop⟩ := hpoll k
      have : ∀ d, k + d ≤ j → (∃ k, n < k ∧ HandsOut cfg (at_ cfg f k) (f k) m ∧
      ∃ p ∈ (at_ cfg f (k + 1)).procs, p.phase = .handed ∧ p.msg = m) ∨
          (Queued (at_ cfg f (k + d)) id m ∧ (front (at_ cfg f (k + d)) id).length ≤ 0) := by
        intro d
        induction d with
        | zero => intro _; exact Or.inr ⟨hq, hc⟩
        | succ d ih =>
          intro hd
          rcases ih (by omega) with h | ⟨h1, h2⟩
          · exact Or.inl h
          · rcases poll_handed cfg (at_wf cfg f _) h1 (f (k + d)) (hcont _ (by omega)) with ⟨_, h⟩ | ⟨h3, h4, _⟩
            · exact Or.inl ⟨k + d, by omega, h⟩
            · exact Or.inr ⟨h3, Nat.le_trans h4 h2⟩
      rcases this (j - k) (by omega) with h | ⟨h1, h2⟩
      · exact h
      · rw [show k + (j - k) = j by omega] at h1 h2
        rcases poll_handed cfg (at_wf cfg f j) h1 (f j) (hcont _ (by omega)) with ⟨_, h⟩ | ⟨_, _, h5⟩
        · exact ⟨j, by omega, h⟩
        · have := h5 w c hop; omega
    | succ c ihc =>
      intro k id hk hq hc
      obtain ⟨j, hj, w, c', hop⟩ := hpoll k
      have : ∀ d, k + d ≤ j → (∃ k, n < k ∧ HandsOut cfg (at_ cfg f k) (f k) m ∧
      ∃ p ∈ (at_ cfg f (k + 1)).procs, p.phase = .handed ∧ p.msg = m) ∨
          (Queued (at_ cfg f (k + d)) id m ∧ (front (at_ cfg f (k + d)) id).length ≤ c + 1) := by
        intro d
        induction d with
        | zero => intro _; exact Or.inr ⟨hq, hc⟩
        | succ d ih =>
          intro hd
          rcases ih (by omega) with h | ⟨h1, h2⟩
          · exact Or.inl h
          · rcases poll_handed cfg (at_wf cfg f _) h1 (f (k + d)) (hcont _ (by omega)) with ⟨_, h⟩ | ⟨h3, h4, _⟩
            · exact Or.inl ⟨k + d, by omega, h⟩
            · exact Or.inr ⟨h3, Nat.le_trans h4 h2⟩
      rcases this (j - k) (by omega) with h | ⟨h1, h2⟩
      · exact h
      · rw [show k + (j - k) = j by omega] at h1 h2
        rcases poll_handed cfg (at_wf cfg f j) h1 (f j) (hcont _ (by omega)) with ⟨_, h⟩ | ⟨h3, _, h5⟩
        · exact ⟨j, by omega, h⟩
        · have := h5 w c' hop
          exact ihc (j + 1) id (by omega) h3 (by rw [at_]; omega)
  rcases hplace with h | ⟨id, h⟩
  · obtain ⟨j, hj, t, h1, h2, h3⟩ := hsched (n + 1) m.req.when_
    have : ∀ d, n + 1 + d ≤ j → (∃ k, n < k ∧ HandsOut cfg (at_ cfg f k) (f k) m ∧
      ∃ p ∈ (at_ cfg f (k + 1)).procs, p.phase = .handed ∧ p.msg = m) ∨ InSchedule (at_ cfg f (n + 1 + d)) m := by
      intro d
      induction d with
      | zero => intro _; exact Or.inr h
      | succ d ih =>
        intro hd
        rcases ih (by omega) with h | h
        · exact Or.inl h
        · rcases waits_step cfg (at_wf cfg f _) h (f (n + 1 + d)) (hcont _ (by omega)) with ⟨h, _⟩ | ⟨id, h⟩
          · exact Or.inr h
          · exact Or.inl (stream _ (n + 1 + d + 1) id (by omega) h (Nat.le_refl _))
    rcases this (j - (n + 1)) (by omega) with h | h
    · exact h
    · rw [show n + 1 + (j - (n + 1)) = j by omega] at h
      rcases waits_step cfg (at_wf cfg f j) h (f j) (hcont _ (by omega)) with ⟨_, h⟩ | ⟨id, h⟩
      · exact absurd h3 (h t h1 h2)
      · exact stream _ (j + 1) id (by omega) h (Nat.le_refl _)
  · exact stream _ (n + 1) id (by omega) h (Nat.le_refl _)

/-- **C71**, for endless histories.  Let a task be accepted at some point, and its key not be
scheduled again, cancelled or cleared after that.  If workers go on asking for messages and
running the scheduler, however many of them come and go, then the task, as it was accepted,
is handed to a worker sooner or later. -/
theorem C71_eventually_handed (cfg : Cfg) (f : Nat → Op) (n : Nat) (m : Msg)
    (hpoll : WorkersPoll f) (hsched : SchedulerRuns cfg f)
    (hnew : (at_ cfg f (n + 1)).log = .accepted m :: (at_ cfg f n).log)
    (hcont : ∀ k, n < k → ¬ Disturbs m.key (at_ cfg f k) (f k)) :
    ∃ k, n < k ∧ HandsOut cfg (at_ cfg f k) (f k) m := by
  obtain ⟨k, h1, h2, _⟩ := eventually_handed cfg f n m hpoll hsched hnew hcont
  exact ⟨k, h1, h2⟩

theorem accepted_disturbs (cfg : Cfg) {s : Sys} (hw : WF s) (op : Op) {m : Msg}
    (hl : (step cfg s op).log = .accepted m :: s.log) : Disturbs m.key s op := by
  have he := step_eff cfg s hw.queue op
  generalize Docket.step cfg s op = s' at he hl
  cases he with
  | poll w n new hnew =>
    have h1 : (newHanded s.nextPid w false s.r.now new).reverse = [Event.accepted m] :=
      List.append_cancel_right (bs := s.log) hl
    have h2 : Event.accepted m ∈ newHanded s.nextPid w false s.r.now new := by
      rw [← List.mem_reverse, h1]; simp
    obtain ⟨_, _, h3, _⟩ := mem_newHanded h2
    simp at h3
  | addNow k q t | addLater k q t | replaceNow k q t | replaceLater k q t =>
    simp only [List.cons.injEq, Event.accepted.injEq, and_true] at hl
    subst hl
    rfl
  | rescheduleNow p t a d q hp | rescheduleLater p t a d q hp =>
    simp only [List.cons.injEq, Event.accepted.injEq, and_true] at hl
    subst hl
    exact ⟨p, hp, rfl, rfl⟩
  | _ => simp at hl

/-- **C71**, to the start.  If moreover the key's record is kept, as it is until
`execution_ttl` after the end of an execution, and the workers are not killed between
receiving a message and trying to start it, the task is started sooner or later. -/
theorem C71_eventually_started (cfg : Cfg) (f : Nat → Op) (n : Nat) (m : Msg)
    (hpoll : WorkersPoll f) (hsched : SchedulerRuns cfg f) (hstart : WorkersStart cfg f)
    (hnew : (at_ cfg f (n + 1)).log = .accepted m :: (at_ cfg f n).log)
    (hcont : ∀ k, n < k → ¬ Disturbs m.key (at_ cfg f k) (f k))
    (hrec : ∀ k, n < k → HasRecord (at_ cfg f k) m.key) :
    ∃ k, n < k ∧ Starts cfg (at_ cfg f k) (f k) m := by
  obtain ⟨k, h1, _, p, hp, hph, rfl⟩ := eventually_handed cfg f n m hpoll hsched hnew hcont
  obtain ⟨j, hj, hpj, hop⟩ := hstart (k + 1) p hp hph
  have hgen : ∀ d, (at_ cfg f (n + 1 + d)).r.genOf p.msg.key = some p.msg.gen := by
    intro d
    induction d with
    | zero => exact (accepted_gen cfg (at_wf cfg f n) (f n) hnew).1
    | succ d ih =>
      have hr := hrec (n + 1 + d + 1) (by omega)
      rcases gen_step cfg (at_wf cfg f (n + 1 + d)) (f (n + 1 + d)) p.msg.key with h | h | ⟨m', h, hk, _⟩
      · unfold HasRecord at hr
        rw [at_, h] at hr
        cases hr
      · show (step cfg (at_ cfg f (n + 1 + d)) (f (n + 1 + d))).r.genOf p.msg.key = _
        rw [h, ih]
      · have := accepted_disturbs cfg (at_wf cfg f (n + 1 + d)) _ h
        rw [hk] at this
        exact absurd this (hcont _ (by omega))
  have hg := hgen (j - (n + 1))
  rw [show n + 1 + (j - (n + 1)) = j by omega] at hg
  refine ⟨j, by omega, [.started p.pid p.id p.msg (at_ cfg f j).r.now], ?_, p.pid, p.id, _, List.mem_singleton.2 rfl⟩
  rw [hop]
  have hs : isSuperseded (at_ cfg f j).r p.msg.key p.msg.gen = false := by
    simp [isSuperseded, hg]
  simp only [step, doClaim, proc?_of_mem (at_wf cfg f j) hpj, hph, if_true, luaClaim, hs, List.cons_append, List.nil_append]
  rfl

/-- Three messages are in front of the last one; one of them is cancelled, one worker
crashes, others come and go: after four questions it is out. -/
example : let pre : List Op := [.add "a" ⟨"f", "", "", 3, 1⟩ 0, .add "b" ⟨"f", "", "", 0, 1⟩ 0,
      .add "c" ⟨"f", "", "", 0, 1⟩ 0, .tick 5, .schedule 5, .add "d" ⟨"f", "", "", 5, 1⟩ 5]
    let cont : List Op := [.poll "v" 1, .crash "v", .cancel "c", .tick 9, .redeliver "u" 1, .poll "w" 1,
      .add "e" ⟨"f", "", "", 0, 1⟩ 5, .poll "v" 1, .poll "v" 1]
    let m : Msg := ⟨"d", ⟨"f", "", "", 5, 1⟩, 1⟩
    (4, m) ∈ (run ⟨10, 3⟩ pre).r.stream ∧
    EachStep ⟨10, 3⟩ (fun s op => ¬ Disturbs m.key s op) (run ⟨10, 3⟩ pre) cont ∧
    (inFront (run ⟨10, 3⟩ pre) 4).length = 3 ∧ asks cont = 4 := by
  decide

/-- An endless history: a task for time 1 and another one for now, both are taken and
started, and then forever the clock ticks, the scheduler runs and a worker asks for a message. -/
def endless : Nat → Op
  | 0 => .add "k" ⟨"f", "", "", 1, 1⟩ 0
  | 1 => .add "j" ⟨"f", "", "", 0, 1⟩ 0
  | 2 => .tick 1
  | 3 => .schedule 1
  | 4 => .poll "w" 2
  | 5 => .claim 0
  | 6 => .claim 1
  | n + 7 => if n % 3 = 0 then .tick 1 else if n % 3 = 1 then .schedule (n / 3) else .poll "w" 1

theorem endless_tick (n : Nat) : endless (3 * n + 7) = .tick 1 := by
  show (if (3 * n) % 3 = 0 then Op.tick 1 else _) = _
  rw [if_pos (by omega)]

theorem endless_schedule (n : Nat) : endless (3 * n + 8) = .schedule n := by
  show (if (3 * n + 1) % 3 = 0 then Op.tick 1 else if (3 * n + 1) % 3 = 1 then
    Op.schedule ((3 * n + 1) / 3) else _) = _
  rw [if_neg (by omega), if_pos (by omega)]
  congr 1
  omega

theorem endless_poll (n : Nat) : endless (3 * n + 9) = .poll "w" 1 := by
  show (if (3 * n + 2) % 3 = 0 then Op.tick 1 else if (3 * n + 2) % 3 = 1 then _ else _) = _
  rw [if_neg (by omega), if_neg (by omega)]

theorem step_now_le (cfg : Cfg) (s : Sys) (hw : WF s) (op : Op) : s.r.now ≤ (step cfg s op).r.now := by
  have he := step_eff cfg s hw.queue op
  generalize Docket.step cfg s op = s' at he
  cases he <;> first | exact Nat.le_refl _ | exact Nat.le_add_right _ _

theorem endless_now (cfg : Cfg) (n : Nat) : n ≤ (at_ cfg endless (3 * n + 7)).r.now := by
  induction n with
  | zero => exact Nat.zero_le _
  | succ n ih =>
    have h1 : (at_ cfg endless (3 * n + 8)).r.now = (at_ cfg endless (3 * n + 7)).r.now + 1 := by
      rw [at_, endless_tick]
      rfl
    have h2 := step_now_le cfg _ (at_wf cfg endless (3 * n + 8)) (endless (3 * n + 8))
    have h3 := step_now_le cfg _ (at_wf cfg endless (3 * n + 9)) (endless (3 * n + 9))
    have h4 : 3 * (n + 1) + 7 = 3 * n + 10 := by omega
    rw [h4]
    show _ ≤ (step cfg (at_ cfg endless (3 * n + 9)) (endless (3 * n + 9))).r.now
    have h5 : (at_ cfg endless (3 * n + 9)).r.now =
        (step cfg (at_ cfg endless (3 * n + 8)) (endless (3 * n + 8))).r.now := rfl
    omega

/-- Nothing is left to do: both tasks are running. -/
structure AllTaken (s : Sys) : Prop where
  stream : s.r.stream.filter (fun e => decide (s.r.lastDelivered < e.1)) = []
  queue : s.r.queue = []
  procs : ∀ p ∈ s.procs, p.phase = .running
  record : ∃ h, s.r.runs "k" = some h ∧ h.gen = some 1 ∧ h.expireAt = none

theorem endless_taken (n : Nat) : AllTaken (at_ ⟨10, 3⟩ endless (n + 7)) := by
  induction n with
  | zero => exact ⟨by decide, by decide, by decide, ⟨_, rfl, by decide, by decide⟩⟩
  | succ n ih =>
    obtain ⟨h1, h2, h3, h, h4, h5, h6⟩ := ih
    show AllTaken (step ⟨10, 3⟩ (at_ ⟨10, 3⟩ endless (n + 7)) (endless (n + 7)))
    generalize at_ ⟨10, 3⟩ endless (n + 7) = s at *
    show AllTaken (step ⟨10, 3⟩ s (if n % 3 = 0 then .tick 1 else if n % 3 = 1 then .schedule (n / 3) else .poll "w" 1))
    split
    · exact ⟨h1, h2, h3, h, by simp [step, advance, h4, h6], h5, h6⟩
    · split
      · by_cases ht : n / 3 ≤ s.r.now
        · have : step ⟨10, 3⟩ s (.schedule (n / 3)) = s := by
            simp [step, ht, luaStreamDue, h2]
          rw [this]
          exact ⟨h1, h2, h3, h, h4, h5, h6⟩
        · simp only [step, ht, if_false]
          exact ⟨h1, h2, h3, h, h4, h5, h6⟩
      · have : step ⟨10, 3⟩ s (.poll "w" 1) = s := by
          simp [step, doPoll, xreadgroup, handOut_eq, h1, newProcs, newHanded]
        rw [this]
        exact ⟨h1, h2, h3, h, h4, h5, h6⟩

/-- Its first task. -/
def endlessMsg : Msg := ⟨"k", ⟨"f", "", "", 1, 1⟩, 1⟩

/-- `endless` meets the hypotheses of `C71_eventually_handed` and `C71_eventually_started` for
its first task. -/
theorem endless_fits :
    WorkersPoll endless ∧ SchedulerRuns ⟨10, 3⟩ endless ∧ WorkersStart ⟨10, 3⟩ endless ∧
    (at_ ⟨10, 3⟩ endless 1).log = .accepted endlessMsg :: (at_ ⟨10, 3⟩ endless 0).log ∧
    (∀ k, 0 < k → ¬ Disturbs endlessMsg.key (at_ ⟨10, 3⟩ endless k) (endless k)) ∧
    (∀ k, 0 < k → HasRecord (at_ ⟨10, 3⟩ endless k) endlessMsg.key) := by
  refine ⟨?_, ?_, ?_, by decide, ?_, ?_⟩
  · intro n
    exact ⟨3 * n + 9, by omega, "w", 0, endless_poll n⟩
  · intro n T
    refine ⟨3 * (n + T) + 8, by omega, n + T, by omega, ?_, endless_schedule _⟩
    exact Nat.le_trans (endless_now ⟨10, 3⟩ (n + T))
      (step_now_le ⟨10, 3⟩ _ (at_wf ⟨10, 3⟩ endless (3 * (n + T) + 7)) (endless (3 * (n + T) + 7)))
  · intro n p hp hph
    match n, hp with
    | 0, hp | 1, hp | 2, hp | 3, hp | 4, hp =>
      rw [show (at_ ⟨10, 3⟩ endless _).procs = [] by decide] at hp
      cases hp
    | 5, hp =>
      have : ∀ p ∈ (at_ ⟨10, 3⟩ endless 5).procs,
        (p ∈ (at_ ⟨10, 3⟩ endless 5).procs ∧ endless 5 = .claim p.pid) ∨
        (p ∈ (at_ ⟨10, 3⟩ endless 6).procs ∧ endless 6 = .claim p.pid) := by decide
      rcases this p hp with h | h
      · exact ⟨5, by omega, h⟩
      · exact ⟨6, by omega, h⟩
    | 6, hp =>
      have : ∀ p ∈ (at_ ⟨10, 3⟩ endless 6).procs, p.phase = .handed →
        (p ∈ (at_ ⟨10, 3⟩ endless 6).procs ∧ endless 6 = .claim p.pid) := by decide
      exact ⟨6, by omega, this p hp hph⟩
    | n + 7, hp =>
      rw [(endless_taken n).procs p hp] at hph
      cases hph
  · intro k hk
    match k, hk with
    | 1, _ | 2, _ | 3, _ | 4, _ | 5, _ | 6, _ => decide
    | n + 7, _ =>
      have : ∀ s, ¬ Disturbs "k" s (endless (n + 7)) := by
        intro s
        show ¬ Disturbs "k" s (if n % 3 = 0 then .tick 1 else if n % 3 = 1 then .schedule (n / 3) else .poll "w" 1)
        split
        · exact id
        · split <;> exact id
      exact this _
  · intro k hk
    match k, hk with
    | 1, _ | 2, _ | 3, _ | 4, _ | 5, _ | 6, _ => unfold HasRecord; decide
    | n + 7, _ =>
      obtain ⟨h, h1, h2, _⟩ := (endless_taken n).record
      simp [HasRecord, genOf, endlessMsg, h1, h2]

end Docket
