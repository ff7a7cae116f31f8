import Verif.Worker.Renewal
import Verif.Core.Log
import Verif.Core.WFStep
import Verif.Props.C19_C23
/-
C80 A task is not given to anybody else while the worker that runs it is alive.
-/
namespace Docket.Renewal
open Docket Redis

/-! ### Specification -/

/-- `P` holds at the beginning and after every event. -/
def Always (cfg : Cfg) (P : St → Prop) : St → List Ev → Prop
  | st, [] => P st
  | st, e :: es => P st ∧ Always cfg P (st.step cfg e) es

instance decAlways (cfg : Cfg) (P : St → Prop) [DecidablePred P] :
    ∀ st es, Decidable (Always cfg P st es)
  | st, [] => by unfold Always; infer_instance
  | st, e :: es => by
    unfold Always
    have := decAlways cfg P (st.step cfg e) es
    infer_instance

/-- The event loop of the worker is not blocked: the renewal loop wakes at most `delay` late. -/
def Prompt (delay : Nat) (st : St) : Prop :=
  st.loop.stopping = false → st.sys.r.now ≤ st.loop.due + delay

instance (delay : Nat) : DecidablePred (Prompt delay) := fun st => by unfold Prompt; infer_instance

/-- No more than `n` renewals in a row have failed. -/
def FailsAtMost (n : Nat) (st : St) : Prop := st.loop.fails ≤ n

instance (n : Nat) : DecidablePred (FailsAtMost n) := fun st => by
  unfold FailsAtMost; infer_instance

/-- The worker does not go on with tasks after its session has been told to stop. -/
def NotDraining (st : St) : Prop := st.loop.stopping = true → ∀ p ∈ st.sys.procs, p.worker ≠ st.loop.w

instance : DecidablePred NotDraining := fun st => by unfold NotDraining; infer_instance

/-- Nothing that can happen next hands message `id` to a worker. -/
def NobodyGets (cfg : Cfg) (s : Sys) (id : MsgId) : Prop :=
  ∀ o pid w b t m, Event.handed pid id w b t m ∉ newEvents s (step cfg s o)

/-! ### Lemmas -/

/-- Message `x` is in the stream and held by worker `w`. -/
def Mine (w : WorkerName) (s : Sys) (id : MsgId) : Prop :=
  (∃ e ∈ s.r.stream, e.1 = id) ∧ ∃ p ∈ s.procs, p.worker = w ∧ p.id = id

theorem stream_step (cfg : Cfg) {s : Sys} (hw : WF s) (op : Op) {e : MsgId × Msg}
    (he : e ∈ (step cfg s op).r.stream) : e ∈ s.r.stream ∨ s.r.nextId ≤ e.1 := by
  have heff := step_eff cfg s hw.queue op
  generalize step cfg s op = s' at heff he
  cases heff with
  | addNow =>
    rcases List.mem_append.1 he with h | h
    · exact Or.inl h
    · rw [List.mem_singleton] at h; subst h; exact Or.inr (Nat.le_refl _)
  | replaceNow =>
    rcases List.mem_append.1 he with h | h
    · exact Or.inl (mem_dropOwn h)
    · rw [List.mem_singleton] at h; subst h; exact Or.inr (Nat.le_refl _)
  | rescheduleNow =>
    rcases List.mem_append.1 he with h | h
    · exact Or.inl (List.mem_filter.1 h).1
    · rw [List.mem_singleton] at h; subst h; exact Or.inr (Nat.le_refl _)
  | replaceLater | cancel => exact Or.inl (mem_dropOwn he)
  | clear =>
    simp only at he
    split at he
    · cases he
    · exact Or.inl he
  | schedule =>
    rcases List.mem_append.1 he with h | h
    · exact Or.inl h
    · exact Or.inr (mem_numbered h).1
  | claimSuperseded | finish | finishSuperseded | rescheduleLater =>
    exact Or.inl (List.mem_filter.1 he).1
  | _ => exact Or.inl he

/-- A pending message that the worker holds after a step was touched by the step, or was
pending, and held by the worker, before, and touched no later than it is recorded now. -/
theorem pending_step (cfg : Cfg) {s : Sys} (hw : WF s) (op : Op) (w : WorkerName) {x : Pend}
    (hx : x ∈ (step cfg s op).r.pending) (hm : Mine w (step cfg s op) x.id) :
    s.r.now ≤ x.since ∨ ∃ y ∈ s.r.pending, y.id = x.id ∧ y.since ≤ x.since ∧ Mine w s x.id := by
  obtain ⟨⟨e, he, hex⟩, p, hp, hpw, hpx⟩ := hm
  have hstream : x.id ≤ s.r.lastDelivered → ∃ e ∈ s.r.stream, e.1 = x.id := by
    intro hle
    rcases stream_step cfg hw op he with h | h
    · exact ⟨e, h, hex⟩
    · have := hw.stream.ldlt; omega
  have hold : ∀ q ∈ s.procs, q.worker = p.worker → q.id = p.id → x ∈ s.r.pending →
      s.r.now ≤ x.since ∨ ∃ y ∈ s.r.pending, y.id = x.id ∧ y.since ≤ x.since ∧ Mine w s x.id := by
    intro q hq h1 h2 hx'
    exact Or.inr ⟨x, hx', rfl, Nat.le_refl _, hstream (hw.stream.pend x hx'),
      q, hq, h1.trans hpw, h2.trans hpx⟩
  have heff := step_eff cfg s hw.queue op
  clear he
  generalize step cfg s op = s' at heff hx hp
  cases heff with
  | poll v n new hnew =>
    rcases List.mem_append.1 hx with h | h
    · rcases List.mem_append.1 hp with h' | h'
      · exact hold p h' rfl rfl h
      · obtain ⟨h1, _⟩ := mem_newProcs h'
        rw [hnew] at h1
        have h2 := (List.mem_filter.1 (List.mem_of_mem_take h1)).2
        simp only [decide_eq_true_eq] at h2
        have := hw.stream.pend x h
        omega
    · obtain ⟨e, _, rfl⟩ := List.mem_map.1 h
      exact Or.inl (Nat.le_refl _)
  | redeliver v y e hy he hid hidle =>
    obtain ⟨z, hz, rfl⟩ := List.mem_map.1 hx
    by_cases hze : z.id = e.1
    · left; simp [hze]
    · simp only [if_neg hze] at *
      rcases List.mem_append.1 hp with h' | h'
      · exact hold p h' rfl rfl hz
      · rw [List.mem_singleton] at h'; subst h'
        exact absurd hpx.symm hze
  | renew v id he' hp' =>
    obtain ⟨z, hz, rfl⟩ := List.mem_map.1 hx
    by_cases hze : z.id = id
    · left; simp [hze]
    · simp only [if_neg hze] at *
      exact hold p hp rfl rfl hz
  | forget => exact hold p hp rfl rfl (List.mem_filter.1 hx).1
  | crash | abandon => exact hold p (List.mem_filter.1 hp).1 rfl rfl hx
  | claimSuperseded | finish | finishSuperseded | rescheduleNow | rescheduleLater =>
    exact hold p (List.mem_filter.1 hp).1 rfl rfl (List.mem_filter.1 hx).1
  | strikeOut q hq hph | claim q hq hph =>
    obtain ⟨q', hq', rfl⟩ := List.mem_map.1 hp
    refine hold q' hq' ?_ ?_ hx
    all_goals split <;> rfl
  | _ => exact hold p hp rfl rfl hx

theorem renew_fold (cfg : Cfg) (w : WorkerName) (ids : List MsgId) : ∀ (s : Sys),
    let s' := ids.foldl (fun s id => Docket.step cfg s (.renew w id)) s
    s'.r.stream = s.r.stream ∧ s'.procs = s.procs ∧ s'.r.now = s.r.now ∧
    ∀ x ∈ s'.r.pending, x.since = s.r.now ∨
      (x ∈ s.r.pending ∧ ¬ (x.id ∈ ids ∧ ∃ e ∈ s.r.stream, e.1 = x.id)) := by
  induction ids with
  | nil => intro s; exact ⟨rfl, rfl, rfl, fun x hx => Or.inr ⟨hx, by simp⟩⟩
  | cons id ids ih =>
    intro s
    obtain ⟨h1, h2, h3, h4⟩ := ih (Docket.step cfg s (.renew w id))
    have hs : (Docket.step cfg s (.renew w id)).r.stream = s.r.stream ∧
        (Docket.step cfg s (.renew w id)).procs = s.procs ∧
        (Docket.step cfg s (.renew w id)).r.now = s.r.now ∧
        ∀ x ∈ (Docket.step cfg s (.renew w id)).r.pending, x.since = s.r.now ∨
          (x ∈ s.r.pending ∧ ¬ (x.id = id ∧ ∃ e ∈ s.r.stream, e.1 = x.id)) := by
      simp only [Docket.step, doRenew]
      split
      · refine ⟨rfl, rfl, rfl, fun x hx => ?_⟩
        obtain ⟨z, hz, rfl⟩ := List.mem_map.1 hx
        by_cases hze : z.id = id
        · left; simp [hze]
        · right; simp [hze, hz]
      · rename_i hno
        refine ⟨rfl, rfl, rfl, fun x hx => Or.inr ⟨hx, ?_⟩⟩
        rintro ⟨rfl, e, he, hex⟩
        exact hno ⟨List.any_eq_true.2 ⟨e, he, by simpa using hex⟩,
          List.any_eq_true.2 ⟨x, hx, by simp⟩⟩
    obtain ⟨g1, g2, g3, g4⟩ := hs
    refine ⟨h1.trans g1, h2.trans g2, h3.trans g3, fun x hx => ?_⟩
    rcases h4 x hx with h | ⟨h, hn⟩
    · exact Or.inl (h.trans g3)
    · rcases g4 x h with h | ⟨h, hn'⟩
      · exact Or.inl h
      · refine Or.inr ⟨h, ?_⟩
        rintro ⟨hmem, he⟩
        rcases List.mem_cons.1 hmem with hid | hid
        · exact hn' ⟨hid, he⟩
        · exact hn ⟨hid, by rw [g1]; exact he⟩

theorem wf_fold (cfg : Cfg) (w : WorkerName) (ids : List MsgId) : ∀ (s : Sys), WF s →
    WF (ids.foldl (fun s id => Docket.step cfg s (.renew w id)) s) := by
  induction ids with
  | nil => intro s h; exact h
  | cons id ids ih => intro s h; exact ih _ (h.step _)

structure Inv (delay : Nat) (st : St) : Prop where
  wf : WF st.sys
  due : st.loop.stopping = false → st.loop.due ≤ st.sys.r.now + st.loop.interval
  kept : st.loop.stopping = false → ∀ x ∈ st.sys.r.pending, Mine st.loop.w st.sys x.id →
    st.loop.due ≤ x.since + st.loop.interval + st.loop.fails * (st.loop.interval + delay)

theorem Inv.step (cfg : Cfg) {delay : Nat} {st : St} (h : Inv delay st) (hp : Prompt delay st)
    (e : Ev) : Inv delay (st.step cfg e) := by
  cases e with
  | op o =>
    simp only [St.step]
    split
    · refine ⟨h.wf.step o, fun hs => ?_, fun hs x hx hm => ?_⟩
      · have := h.due hs
        have := now_mono cfg h.wf o
        simp only; omega
      · rcases pending_step cfg h.wf o _ hx hm with h1 | ⟨y, hy, h1, h2, h3⟩
        · have := h.due hs
          simp only; omega
        · have := h.kept hs y hy (by rw [h1]; exact h3)
          simp only; omega
    · exact h
  | wake ok =>
    simp only [St.step]
    split
    · rename_i hc
      have hprompt := hp hc.1
      cases ok with
      | true =>
        simp only [if_true, renewAll]
        obtain ⟨h1, h2, h3, h4⟩ := renew_fold cfg st.loop.w (held st.sys st.loop.w) st.sys
        refine ⟨wf_fold cfg _ _ _ h.wf, fun _ => by simp only [h3]; omega, fun _ x hx hm => ?_⟩
        simp only [Nat.zero_mul]
        rcases h4 x hx with h5 | ⟨h5, h6⟩
        · omega
        · obtain ⟨he, p, hp1, hp2, hp3⟩ := hm
          rw [h1] at he
          rw [h2] at hp1
          refine absurd ⟨?_, he⟩ h6
          exact List.mem_map.2 ⟨p, List.mem_filter.2 ⟨hp1, by simpa using hp2⟩, hp3⟩
      | false =>
        refine ⟨h.wf, fun _ => Nat.le_refl _, fun _ x hx hm => ?_⟩
        have := h.kept hc.1 x hx hm
        simp only [Bool.false_eq_true, if_false, Nat.add_mul, Nat.one_mul]
        omega
    · exact h
  | stop => exact ⟨h.wf, by simp [St.step], by simp [St.step]⟩
  | start =>
    simp only [St.step]
    split
    · rename_i hc
      refine ⟨h.wf, fun _ => Nat.le_refl _, fun _ x hx hm => ?_⟩
      obtain ⟨_, p, hp1, hp2, hp3⟩ := hm
      have : p.id ∈ held st.sys st.loop.w :=
        List.mem_map.2 ⟨p, List.mem_filter.2 ⟨hp1, by simpa using hp2⟩, rfl⟩
      rw [hc.2] at this
      cases this
    · exact h

theorem Always.last {cfg : Cfg} {P : St → Prop} (es : List Ev) : ∀ {st : St}, Always cfg P st es →
    P (st.run cfg es) := by
  induction es with
  | nil => intro st h; exact h
  | cons e es ih => intro st h; exact ih h.2

theorem Inv.run (cfg : Cfg) {delay : Nat} (es : List Ev) : ∀ {st : St}, Inv delay st →
    Always cfg (Prompt delay) st es → Inv delay (st.run cfg es) := by
  induction es with
  | nil => intro st h _; exact h
  | cons e es ih => intro st h ha; exact ih (h.step cfg ha.1 e) ha.2

theorem loop_const (cfg : Cfg) (es : List Ev) : ∀ (st : St),
    (st.run cfg es).loop.w = st.loop.w ∧ (st.run cfg es).loop.interval = st.loop.interval := by
  induction es with
  | nil => intro st; exact ⟨rfl, rfl⟩
  | cons e es ih =>
    intro st
    obtain ⟨h1, h2⟩ := ih (st.step cfg e)
    simp only [St.run]
    rw [h1, h2]
    cases e <;> simp only [St.step] <;> first | exact ⟨rfl, rfl⟩ | exact ⟨trivial, trivial⟩ | (split <;> exact ⟨rfl, rfl⟩)

/-- A message in the hands of a worker is handed to somebody only by a redelivery. -/
theorem nobodyGets {cfg : Cfg} {s : Sys} (hw : WF s) {p : Proc} (hp : p ∈ s.procs)
    (hfresh : ∀ x ∈ s.r.pending, (∃ e ∈ s.r.stream, e.1 = x.id) → x.id = p.id →
      s.r.now < x.since + cfg.redelivery) : NobodyGets cfg s p.id := by
  intro o pid w b t m hm
  have heff := step_eff cfg s hw.queue o
  have hspec := newEvents_spec cfg hw [o]
  simp only [runFrom_cons, runFrom_nil] at hspec
  generalize Docket.step cfg s o = s' at heff hspec hm
  have hl1 : ∀ ev : Event, ev :: s.log = newEvents s s' ++ s.log → newEvents s s' = [ev] := by
    intro ev hev
    exact (List.append_cancel_right (as := [ev]) (bs := s.log) (by simpa using hev)).symm
  have hl0 : s.log = newEvents s s' ++ s.log → newEvents s s' = [] := by
    intro hev
    exact (List.append_cancel_right (as := []) (bs := s.log) (by simpa using hev)).symm
  cases heff with
  | poll w' n new hnew =>
    have h1 := List.append_cancel_right (bs := s.log) hspec
    rw [← h1, List.mem_reverse] at hm
    obtain ⟨p', e', heq, he', _⟩ := mem_newHanded hm
    simp only [Event.handed.injEq] at heq
    rw [hnew] at he'
    have h2 := (List.mem_filter.1 (List.mem_of_mem_take he')).2
    simp only [decide_eq_true_eq] at h2
    have := (hw.procs.1 p hp).1
    omega
  | redeliver w' y e' hy he hid hidle =>
    rw [hl1 _ hspec, List.mem_singleton] at hm
    simp only [Event.handed.injEq] at hm
    have := hfresh y hy ⟨e', he, hid.symm⟩ (by omega)
    omega
  | _ =>
    first
    | (rw [hl0 hspec] at hm; simp at hm; done)
    | (rw [hl1 _ hspec, List.mem_singleton] at hm; simp at hm; done)

/-! ### C80 -/

/-- C80 in full, for workers that all have the same `redelivery_timeout` (four times the renewal
interval), an event loop that is at most a quarter of an interval late, and renewals that never
fail: whatever else happens, a message that a worker holds is not handed to anybody. -/
def C80_statement : Prop :=
  ∀ (cfg : Cfg) (ops : List Op) (w : WorkerName) (interval delay : Nat) (es : List Ev) (p : Proc),
    cfg.redelivery = 4 * interval → 4 * delay ≤ interval → 0 < interval →
    (∀ q ∈ (Docket.run cfg ops).procs, q.worker ≠ w) →
    Always cfg (Prompt delay) (opened (Docket.run cfg ops) w interval) es →
    Always cfg (FailsAtMost 0) (opened (Docket.run cfg ops) w interval) es →
    p ∈ ((opened (Docket.run cfg ops) w interval).run cfg es).sys.procs → p.worker = w →
    NobodyGets cfg ((opened (Docket.run cfg ops) w interval).run cfg es).sys p.id

/-- C80.  After any earlier history a worker opens a session, and from then on anything happens on
the docket.  If its renewal loop wakes at most `delay` late, at most `n` renewals in a row fail,
`n + 1` intervals and delays are less than the time after which workers take over messages, and
the worker is not told to stop while it has tasks, then no message it holds is ever handed to
anybody, itself included.  Partial: see `C80_violated_draining`. -/
theorem C80_kept_partial (cfg : Cfg) (ops : List Op) (w : WorkerName) (interval delay n : Nat)
    (es : List Ev) (p : Proc)
    (htime : (n + 1) * (interval + delay) < cfg.redelivery)
    (hnone : ∀ q ∈ (Docket.run cfg ops).procs, q.worker ≠ w)
    (hprompt : Always cfg (Prompt delay) (opened (Docket.run cfg ops) w interval) es)
    (hfails : Always cfg (FailsAtMost n) (opened (Docket.run cfg ops) w interval) es)
    (hdrain : Always cfg NotDraining (opened (Docket.run cfg ops) w interval) es)
    (hp : p ∈ ((opened (Docket.run cfg ops) w interval).run cfg es).sys.procs)
    (hpw : p.worker = w) :
    NobodyGets cfg ((opened (Docket.run cfg ops) w interval).run cfg es).sys p.id := by
  have h0 : Inv delay (opened (Docket.run cfg ops) w interval) := by
    refine ⟨WF.run cfg ops, fun _ => Nat.le_refl _, fun _ x _ hm => ?_⟩
    obtain ⟨_, q, hq1, hq2, _⟩ := hm
    exact absurd hq2 (hnone q hq1)
  have hi := h0.run cfg es hprompt
  have h1 := hprompt.last es
  have h2 := hfails.last es
  have h3 := hdrain.last es
  obtain ⟨hw, hint⟩ := loop_const cfg es (opened (Docket.run cfg ops) w interval)
  have hint : ((opened (Docket.run cfg ops) w interval).run cfg es).loop.interval = interval := hint
  have hw : ((opened (Docket.run cfg ops) w interval).run cfg es).loop.w = w := hw
  generalize (opened (Docket.run cfg ops) w interval).run cfg es = st at *
  have hs : st.loop.stopping = false := by
    cases hs : st.loop.stopping with
    | false => rfl
    | true => exact absurd (hpw.trans hw.symm) (h3 hs p hp)
  refine nobodyGets hi.wf hp (fun x hx he hid => ?_)
  have h4 := hi.kept hs x hx ⟨he, p, hp, hpw.trans hw.symm, hid.symm⟩
  have h5 := h1 hs
  have h6 : st.loop.fails * (interval + delay) ≤ n * (interval + delay) :=
    Nat.mul_le_mul_right _ h2
  rw [hint] at h4
  rw [Nat.add_mul, Nat.one_mul] at htime
  omega

/-- The conditions hold of a worker that runs a task for 100 units, ten times the time after
which other workers look for lost messages, while another worker keeps trying to take it over,
one renewal fails, the clock is late, the worker loses its connection once it is idle, connects
again and takes another task. -/
example :
    let cfg : Cfg := ⟨1000, 8⟩
    let st := opened (Docket.run cfg [.add "k" ⟨"f", "a", "b", 0, 1⟩ 0]) "w" 2
    let round : List Ev := [.op (.tick 2), .op (.redeliver "v" 1), .op (.tick 1), .wake true]
    let es : List Ev := [.op (.poll "w" 1), .op (.claim 0)] ++ round ++ round ++
      [.op (.tick 3), .wake false, .op (.tick 3), .op (.redeliver "v" 1), .wake true] ++ round ++
      [.op (.finish 0 .completed none false), .stop, .op (.tick 50),
       .op (.add "k" ⟨"f", "a", "b", 0, 1⟩ 0), .start, .op (.poll "w" 1), .op (.claim 1)] ++ round
    (1 + 1) * (2 + 1) < cfg.redelivery ∧
    Always cfg (Prompt 1) st es ∧ Always cfg (FailsAtMost 1) st es ∧ Always cfg NotDraining st es ∧
    (st.run cfg es).sys.procs.map (fun p => (p.worker, p.id, p.phase)) = [("w", 2, .running)] := by
  decide +kernel

/-- C80 for equal timeouts: with a renewal every quarter of the timeout, two lost renewals in a
row are harmless as long as the event loop is late by less than a third of the interval. -/
theorem C80_two_failures_partial (cfg : Cfg) (ops : List Op) (w : WorkerName)
    (interval delay : Nat) (es : List Ev) (p : Proc)
    (hred : cfg.redelivery = 4 * interval) (hdelay : 3 * delay < interval)
    (hnone : ∀ q ∈ (Docket.run cfg ops).procs, q.worker ≠ w)
    (hprompt : Always cfg (Prompt delay) (opened (Docket.run cfg ops) w interval) es)
    (hfails : Always cfg (FailsAtMost 2) (opened (Docket.run cfg ops) w interval) es)
    (hdrain : Always cfg NotDraining (opened (Docket.run cfg ops) w interval) es)
    (hp : p ∈ ((opened (Docket.run cfg ops) w interval).run cfg es).sys.procs)
    (hpw : p.worker = w) :
    NobodyGets cfg ((opened (Docket.run cfg ops) w interval).run cfg es).sys p.id :=
  C80_kept_partial cfg ops w interval delay 2 es p (by omega) hnone hprompt hfails hdrain hp hpw

/-- Two lost renewals do happen within these conditions. -/
example :
    let cfg : Cfg := ⟨1000, 16⟩
    let st := opened (Docket.run cfg [.add "k" ⟨"f", "a", "b", 0, 1⟩ 0]) "w" 4
    let es : List Ev := [.op (.poll "w" 1), .op (.claim 0), .op (.tick 5), .wake false,
      .op (.tick 5), .wake false, .op (.tick 5), .op (.redeliver "v" 1), .wake true]
    Always cfg (Prompt 1) st es ∧ Always cfg (FailsAtMost 2) st es ∧ Always cfg NotDraining st es ∧
    (st.run cfg es).sys.procs.map (fun p => (p.worker, p.id, p.phase)) = [("w", 1, .running)] := by
  decide +kernel

/-- The code violates C80: a worker that is told to stop (or whose polling connection is lost)
finishes its tasks without renewing their leases any more (worker.py:822, 837, 842-844, 905-907);
a task that then takes longer than `redelivery_timeout` is handed to another worker. -/
theorem C80_violated_draining : ¬ C80_statement := by
  intro h
  refine h ⟨1000, 8⟩ [.add "k" ⟨"f", "a", "b", 0, 1⟩ 0] "w" 2 0
    [.op (.poll "w" 1), .op (.claim 0), .stop, .op (.tick 8)]
    ⟨0, "w", 1, ⟨"k", ⟨"f", "a", "b", 0, 1⟩, 1⟩, false, .running⟩
    rfl (by decide) (by decide) (by decide +kernel) (by decide +kernel) (by decide +kernel)
    (by decide +kernel) rfl (.redeliver "v" 1) 1 "v" true 8 ⟨"k", ⟨"f", "a", "b", 0, 1⟩, 1⟩ ?_
  decide +kernel

/-- What comes of it: the two workers run the task at the same time, and both complete it. -/
example :
    let cfg : Cfg := ⟨1000, 8⟩
    let st := opened (Docket.run cfg [.add "k" ⟨"f", "a", "b", 0, 1⟩ 0]) "w" 2
    let st' := st.run cfg [.op (.poll "w" 1), .op (.claim 0), .stop, .op (.tick 8),
      .op (.redeliver "v" 1), .op (.claim 1)]
    st'.sys.procs.map (fun p => (p.worker, p.id, p.phase)) =
      [("w", 1, .running), ("v", 1, .running)] := by
  decide +kernel

/-- C80 in full for workers whose timeouts may differ: `interval` is a quarter of the worker's
own `redelivery_timeout`, `cfg.redelivery` that of the workers around it. -/
def C80_any_timeouts_statement : Prop :=
  ∀ (cfg : Cfg) (ops : List Op) (w : WorkerName) (interval delay : Nat) (es : List Ev) (p : Proc),
    0 < cfg.redelivery → 4 * delay ≤ interval → 0 < interval →
    (∀ q ∈ (Docket.run cfg ops).procs, q.worker ≠ w) →
    Always cfg (Prompt delay) (opened (Docket.run cfg ops) w interval) es →
    Always cfg (FailsAtMost 0) (opened (Docket.run cfg ops) w interval) es →
    Always cfg NotDraining (opened (Docket.run cfg ops) w interval) es →
    p ∈ ((opened (Docket.run cfg ops) w interval).run cfg es).sys.procs → p.worker = w →
    NobodyGets cfg ((opened (Docket.run cfg ops) w interval).run cfg es).sys p.id

/-- The code violates it: who takes a message over decides by its own timeout (worker.py:638-640),
its holder renews by its own (903); a worker with a timeout of at most a quarter of its
neighbour's takes that neighbour's running tasks away. -/
theorem C80_violated_timeouts : ¬ C80_any_timeouts_statement := by
  intro h
  refine h ⟨1000, 2⟩ [.add "k" ⟨"f", "a", "b", 0, 1⟩ 0] "w" 2 0
    [.op (.poll "w" 1), .op (.claim 0), .op (.tick 2)]
    ⟨0, "w", 1, ⟨"k", ⟨"f", "a", "b", 0, 1⟩, 1⟩, false, .running⟩
    (by decide) (by decide) (by decide) (by decide +kernel) (by decide +kernel) (by decide +kernel)
    (by decide +kernel) (by decide +kernel) rfl (.redeliver "v" 1) 1 "v" true 2
    ⟨"k", ⟨"f", "a", "b", 0, 1⟩, 1⟩ ?_
  decide +kernel

end Docket.Renewal
