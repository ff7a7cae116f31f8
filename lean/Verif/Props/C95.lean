import Verif.Views.Depth
import Verif.Core.Known
import Verif.Props.C01_C04
import Verif.Props.C71

/-! # C95: the depth gauges count the tasks that are due and the tasks that are not -/

namespace Docket
open Redis

/-! ## Specification -/

/-- The keys under which something was ever accepted. -/
def acceptedKeys : List Event → List Key
  | [] => []
  | .accepted m :: l => m.key :: acceptedKeys l
  | _ :: l => acceptedKeys l

/-- `ks` lists, without repetition, exactly the keys whose outstanding task satisfies `P`. -/
def Lists (log : List Event) (P : Msg → Prop) (ks : List Key) : Prop :=
  ks.Nodup ∧ ∀ k, k ∈ ks ↔ ∃ m, outstanding log k = some m ∧ P m

/-- No task is replaced or cancelled, and the docket is not cleared in two halves with
something in between. -/
def Unrevised : Op → Prop
  | .replace _ _ _ => False
  | .cancel _ => False
  | .clearWrite => False
  | _ => True

instance : ∀ op, Decidable (Unrevised op) := by
  intro op; cases op <;> unfold Unrevised <;> infer_instance

/-- The full property: whatever happened, a heartbeat's queue depth is the number of
outstanding tasks that are due and no worker is running, and its schedule depth is the number of
outstanding tasks that are not due. -/
def C95_statement : Prop :=
  ∀ (cfg : Cfg) (ops : List Op) (ready later : List Key),
    Lists (run cfg ops).log (fun m => m.req.when_ ≤ (run cfg ops).r.now ∧
      ∀ p ∈ (run cfg ops).procs, p.msg = m → p.phase ≠ .running) ready →
    Lists (run cfg ops).log (fun m => (run cfg ops).r.now < m.req.when_) later →
    depths (run cfg ops).r (run cfg ops).r.now = ⟨ready.length, later.length⟩

/-! ## Proof -/

theorem mem_acceptedKeys {log : List Event} {m : Msg} (h : Event.accepted m ∈ log) :
    m.key ∈ acceptedKeys log := by
  induction log with
  | nil => simp at h
  | cons e l ih =>
    rcases List.mem_cons.1 h with rfl | h'
    · simp [acceptedKeys]
    · cases e <;> simp [acceptedKeys, ih h']

theorem queueCount (q : List (Key × Time)) (t : Time) :
    zcount q 0 (some t) = (q.filter (fun e => decide (e.2 ≤ t))).length := by
  simp [zcount]

theorem scheduleCount (q : List (Key × Time)) (t : Time) :
    zcount q t none = (q.filter (fun e => decide (t ≤ e.2))).length := by
  simp [zcount]

theorem run_now_eq (cfg : Cfg) (ops : List Op) {k : Key} {m : Msg}
    (ho : outstanding (run cfg ops).log k = some m) (hr : HasRecord (run cfg ops) k) :
    m.key = k ∧ (InStream (run cfg ops) m ∨ InSchedule (run cfg ops) m) := by
  obtain ⟨h1, h2⟩ := CarriedInv.run cfg ops k m ho
  exact ⟨h1, (h2 hr).place⟩

/-- The keys a queue depth is made of. -/
theorem queue_keys (r : Redis) (t : Time) : (depths r t).queue =
    (r.stream.map (·.2.key) ++ (r.queue.filter (fun e => decide (e.2 ≤ t))).map (·.1)).length := by
  simp [depths, queueCount]

theorem schedule_keys (r : Redis) (t : Time) : (depths r t).schedule =
    ((r.queue.filter (fun e => decide (t ≤ e.2))).map (·.1)).length := by
  simp [depths, scheduleCount]

/-- **Nothing due is missed.**  After any history, a heartbeat that read its clock at `t` counts
every outstanding task that was due at `t` in the queue depth. -/
theorem C95_due_counted_partial (cfg : Cfg) (ops : List Op) (t : Time) (ks : List Key)
    (hn : ks.Nodup)
    (h : ∀ k ∈ ks, HasRecord (run cfg ops) k ∧
      ∃ m, outstanding (run cfg ops).log k = some m ∧ m.req.when_ ≤ t) :
    ks.length ≤ (depths (run cfg ops).r t).queue := by
  rw [queue_keys]
  refine length_le_of_subset hn (fun k hk => ?_)
  obtain ⟨hr, m, ho, hw⟩ := h k hk
  obtain ⟨rfl, ⟨id, hm⟩ | ⟨_, hm⟩⟩ := run_now_eq cfg ops ho hr
  · exact List.mem_append_left _ (List.mem_map.2 ⟨_, hm, rfl⟩)
  · exact List.mem_append_right _ (List.mem_map.2 ⟨_, List.mem_filter.2 ⟨hm, by simpa using hw⟩, rfl⟩)

/-- **Nothing in the future is missed.**  It counts every outstanding task that is still not due
when the numbers are taken in the schedule depth. -/
theorem C95_future_counted_partial (cfg : Cfg) (ops : List Op) (t : Time)
    (ht : t ≤ (run cfg ops).r.now) (ks : List Key) (hn : ks.Nodup)
    (h : ∀ k ∈ ks, HasRecord (run cfg ops) k ∧
      ∃ m, outstanding (run cfg ops).log k = some m ∧ (run cfg ops).r.now < m.req.when_) :
    ks.length ≤ (depths (run cfg ops).r t).schedule := by
  rw [schedule_keys]
  refine length_le_of_subset hn (fun k hk => ?_)
  obtain ⟨hr, m, ho, hw⟩ := h k hk
  obtain ⟨rfl, hm | ⟨_, hm⟩⟩ := run_now_eq cfg ops ho hr
  · have := (C03_never_early cfg ops).1 m hm; omega
  · exact List.mem_map.2 ⟨_, List.mem_filter.2 ⟨hm, by simp; omega⟩, rfl⟩

/-- **Nothing is missed altogether**, whenever the clock was read: every outstanding task is
counted in one of the two gauges. -/
theorem C95_all_counted_partial (cfg : Cfg) (ops : List Op) (t : Time) (ks : List Key)
    (hn : ks.Nodup)
    (h : ∀ k ∈ ks, HasRecord (run cfg ops) k ∧ (outstanding (run cfg ops).log k).isSome) :
    ks.length ≤ (depths (run cfg ops).r t).queue + (depths (run cfg ops).r t).schedule := by
  rw [queue_keys, schedule_keys, ← List.length_append]
  refine length_le_of_subset hn (fun k hk => ?_)
  obtain ⟨hr, ho⟩ := h k hk
  obtain ⟨m, ho⟩ := Option.isSome_iff_exists.1 ho
  obtain ⟨rfl, ⟨id, hm⟩ | ⟨_, hm⟩⟩ := run_now_eq cfg ops ho hr
  · exact List.mem_append_left _ (List.mem_append_left _ (List.mem_map.2 ⟨_, hm, rfl⟩))
  · by_cases hc : m.req.when_ ≤ t
    · exact List.mem_append_left _ (List.mem_append_right _
        (List.mem_map.2 ⟨_, List.mem_filter.2 ⟨hm, by simpa using hc⟩, rfl⟩))
    · exact List.mem_append_right _
        (List.mem_map.2 ⟨_, List.mem_filter.2 ⟨hm, by simp; omega⟩, rfl⟩)

/-- Everything in the stream is outstanding. -/
def CurrentInv (s : Sys) (k : Key) : Prop :=
  ∀ e ∈ s.r.stream, e.2.key = k → outstanding s.log k = some e.2

theorem CurrentInv.alone {s : Sys} {k : Key} (h : CurrentInv s k) (hc : CarriedInv s)
    (hgen : GenInv s k) {p : Proc} (hp : p ∈ s.procs) (hk : p.msg.key = k)
    (hg : s.r.genOf k = some p.msg.gen) {e : MsgId × Msg} (he : e ∈ s.r.stream)
    (hek : e.2.key = k) : e.1 = p.id := by
  have ho := h e he hek
  have hr : HasRecord s k := by simp [HasRecord, hg]
  have := ((hc k _ ho).2 hr).gen
  rw [hek, hg] at this
  exact (hgen.procs_stream p hp e he hk hek (by simpa using this)).symm

theorem CurrentInv.step {cfg : Cfg} {s : Sys} {k : Key} (hw : WF s) (hc : CarriedInv s)
    (hor : OriginInv s) (hgen : GenInv s k) (hkn : KnownInv s k) (h : CurrentInv s k) (op : Op)
    (hord : OrderlyStep k s op) (hu : Unrevised op) : CurrentInv (Docket.step cfg s op) k := by
  have hno := hord.notOrphaned
  have he := step_eff cfg s hw.queue op
  -- an accepted `add` finds nothing of its key in the stream
  have hadd : scheduleExists s.r k = false → ∀ e ∈ s.r.stream, e.2.key ≠ k := by
    intro hx e he hk
    have ho := h e he hk
    have hr : HasRecord s k := by
      false_or_by_contra
      exact hno ⟨by assumption, Or.inl ⟨e, he, hk⟩⟩
    rcases hkn.busy _ ho hr with hb | hb
    · simp [scheduleExists, hb] at hx
    · simp [scheduleExists, hb] at hx
  generalize Docket.step cfg s op = s' at he
  intro e hm hk
  cases he with
  | nop => exact h e hm hk
  | tick d => exact h e hm hk
  | addNow k' q t ht hwh hx =>
    simp only [List.mem_append, List.mem_singleton] at hm
    simp only [outstanding]
    by_cases hkk : k' = k
    · subst hkk
      rcases hm with hm | rfl
      · exact absurd hk (hadd hx e hm)
      · simp
    · rcases hm with hm | rfl
      · simp only [hkk, if_false]; exact h e hm hk
      · exact absurd hk hkk
  | addLater k' q t ht hwh hx =>
    simp only [outstanding]
    by_cases hkk : k' = k
    · subst hkk
      exact absurd hk (hadd hx e hm)
    · simp only [hkk, if_false]; exact h e hm hk
  | replaceNow => exact hu.elim
  | replaceLater => exact hu.elim
  | cancel => exact hu.elim
  | cancelTtl => exact h e hm hk
  | clear op j js hop =>
    rcases hop with ⟨rfl, rfl, rfl⟩ | ⟨rfl, _⟩
    · exfalso
      by_cases hl : (Docket.clearRead s.r).streamCount > 0
      · rw [if_pos hl] at hm; simp at hm
      · rw [if_neg hl] at hm
        have : s.r.stream.length = 0 := by simp only [Docket.clearRead] at hl; omega
        rw [List.eq_nil_of_length_eq_zero this] at hm; simp at hm
    · exact hu.elim
  | clearRead => exact h e hm hk
  | schedule t ht =>
    simp only [List.mem_append] at hm
    rcases hm with hm | hm
    · exact h e hm hk
    · have := (mem_numbered hm).2.2
      simp only [List.mem_filterMap] at this
      obtain ⟨k', hk', hp⟩ := this
      have hkk := hw.queue.key _ _ hp
      rw [hk] at hkk; subst hkk
      simp only [dueKeys, List.mem_map, List.mem_filter] at hk'
      obtain ⟨⟨k'', t'⟩, ⟨hq, _⟩, rfl⟩ := hk'
      obtain ⟨m, h1, h2⟩ := hkn.queue t' hq
      simp only at hp h2 ⊢
      rw [hp] at h1
      simp only [Option.some.injEq] at h1
      rw [h2, h1]
  | poll w n new hnew => rw [newHanded_outstanding]; exact h e hm hk
  | redeliver => simp only [outstanding]; exact h e hm hk
  | forget => exact h e hm hk
  | renew => simp only [outstanding]; exact h e hm hk
  | crash => exact h e hm hk
  | abandon => exact h e hm hk
  | strikeOut => simp only [outstanding]; exact h e hm hk
  | claimSuperseded => exact h e (List.mem_filter.1 hm).1 hk
  | claim => simp only [outstanding]; exact h e hm hk
  | store => exact h e hm hk
  | finish p st er w hp hph hs =>
    obtain ⟨hm, hid⟩ := List.mem_filter.1 hm
    simp only [outstanding]
    split
    · rename_i hkk
      have hg := current_of_not_superseded hgen hp hkk (hor.pos _ (hor.procs p hp)) hs
      have := h.alone hc hgen hp hkk hg hm hk
      simp [this] at hid
    · exact h e hm hk
  | finishSuperseded => simp only [outstanding]; exact h e (List.mem_filter.1 hm).1 hk
  | rescheduleNow p t a d q hp hph hq hd hwh =>
    simp only [List.mem_append, List.mem_singleton] at hm
    simp only [outstanding]
    rcases hm with hm | rfl
    · obtain ⟨hm, hid⟩ := List.mem_filter.1 hm
      split
      · rename_i hkk
        have := h.alone hc hgen hp hkk (hord.2 p hp rfl hkk) hm hk
        simp [this] at hid
      · exact h e hm hk
    · simp only at hk; simp [hk]
  | rescheduleLater p t a d q hp hph hq hd hwh =>
    obtain ⟨hm, hid⟩ := List.mem_filter.1 hm
    simp only [outstanding]
    split
    · rename_i hkk
      have := h.alone hc hgen hp hkk (hord.2 p hp rfl hkk) hm hk
      simp [this] at hid
    · exact h e hm hk
  | prog => exact h e hm hk

theorem CurrentInv.runFrom {cfg : Cfg} {s : Sys} {k : Key} {ops : List Op} (hw : WF s)
    (hc : CarriedInv s) (hor : OriginInv s) (hgen : GenInv s k) (hkn : KnownInv s k)
    (h : CurrentInv s k) (ho : EachStep cfg (OrderlyStep k) s ops) (hu : ∀ op ∈ ops, Unrevised op) :
    CurrentInv (runFrom cfg s ops) k ∧ GenInv (runFrom cfg s ops) k := by
  induction ops generalizing s with
  | nil => exact ⟨h, hgen⟩
  | cons o ops ih =>
    exact ih (hw.step o) (hc.step hw o) (hor.step hw o)
      (hgen.step hw ho.1.notOrphaned o) (hkn.step hw hc hor hgen o ho.1)
      (h.step hw hc hor hgen hkn o ho.1 (hu o (by simp))) ho.2 (fun x hx => hu x (by simp [hx]))

theorem KnownInv.run {cfg : Cfg} {ops : List Op} {k : Key}
    (ho : EachStep cfg (OrderlyStep k) {} ops) : KnownInv (Docket.run cfg ops) k :=
  KnownInv.runFrom WF.init CarriedInv.init (OriginInv.run cfg []) (GenInv.init k) (KnownInv.init k) ho

/-- **The schedule depth is exact.**  After an orderly history (nothing is struck, no execution
reschedules a task it no longer owns, no record is missing) in which tasks may also be replaced
and cancelled, and if no task becomes due between the reading of the clock and the counting, the
schedule depth is the number of outstanding tasks that are not due. -/
theorem C95_schedule_exact_partial (cfg : Cfg) (ops : List Op) (t : Time)
    (ht : t ≤ (run cfg ops).r.now)
    (ho : ∀ k ∈ acceptedKeys (run cfg ops).log, EachStep cfg (OrderlyStep k) {} ops)
    (hrec : ∀ k m, outstanding (run cfg ops).log k = some m → HasRecord (run cfg ops) k)
    (hgap : ∀ k m, outstanding (run cfg ops).log k = some m →
      ¬ (t ≤ m.req.when_ ∧ m.req.when_ ≤ (run cfg ops).r.now))
    (later : List Key)
    (hl : Lists (run cfg ops).log (fun m => (run cfg ops).r.now < m.req.when_) later) :
    (depths (run cfg ops).r t).schedule = later.length := by
  apply Nat.le_antisymm
  · rw [schedule_keys]
    have hw := WF.run cfg ops
    refine length_le_of_subset (List.Sublist.nodup (List.Sublist.map _ List.filter_sublist) hw.queue.nodup)
      (fun k hk => ?_)
    simp only [List.mem_map, List.mem_filter, decide_eq_true_eq] at hk
    obtain ⟨⟨k', t'⟩, ⟨hq, hle⟩, rfl⟩ := hk
    obtain ⟨m, hm, hwh⟩ := hw.queue.parked _ _ hq
    have hacc := mem_acceptedKeys ((OriginInv.run cfg ops).parked _ _ hm)
    rw [hw.queue.key _ _ hm] at hacc
    obtain ⟨m', hm', hout⟩ := (KnownInv.run (ho _ hacc)).queue _ hq
    rw [hm] at hm'
    simp only [Option.some.injEq] at hm'
    subst hm'
    have := hgap _ _ hout
    exact (hl.2 _).2 ⟨m, hout, by simp only at hle; omega⟩
  · refine C95_future_counted_partial cfg ops t ht later hl.1 (fun k hk => ?_)
    obtain ⟨m, h1, h2⟩ := (hl.2 k).1 hk
    exact ⟨hrec k m h1, m, h1, h2⟩

/-- **The queue depth is exact** for tasks that are due and not finished: if besides no task was
replaced or cancelled, the queue depth is their number.  (It includes those being run.) -/
theorem C95_queue_exact_partial (cfg : Cfg) (ops : List Op) (t : Time)
    (ho : ∀ k ∈ acceptedKeys (run cfg ops).log, EachStep cfg (OrderlyStep k) {} ops)
    (hu : ∀ op ∈ ops, Unrevised op)
    (hrec : ∀ k m, outstanding (run cfg ops).log k = some m → HasRecord (run cfg ops) k)
    (hgap : ∀ k m, outstanding (run cfg ops).log k = some m →
      ¬ (t < m.req.when_ ∧ m.req.when_ ≤ (run cfg ops).r.now))
    (due : List Key)
    (hl : Lists (run cfg ops).log (fun m => m.req.when_ ≤ t) due) :
    (depths (run cfg ops).r t).queue = due.length := by
  have hw := WF.run cfg ops
  have hor := OriginInv.run cfg ops
  have hf : ∀ k ∈ acceptedKeys (run cfg ops).log,
      CurrentInv (run cfg ops) k ∧ GenInv (run cfg ops) k := fun k hk =>
    CurrentInv.runFrom WF.init CarriedInv.init (OriginInv.run cfg []) (GenInv.init k)
      (KnownInv.init k) (by intro e he; simp at he) (ho k hk) hu
  apply Nat.le_antisymm
  · rw [queue_keys]
    refine length_le_of_subset ?_ (fun k hk => ?_)
    · rw [List.nodup_append]
      refine ⟨?_, List.Sublist.nodup (List.Sublist.map _ List.filter_sublist) hw.queue.nodup, ?_⟩
      · unfold List.Nodup
        rw [List.pairwise_map]
        refine hw.stream.sorted.imp_of_mem (fun {a b} ha hb hab hkk => ?_)
        obtain ⟨h1, h2⟩ := hf a.2.key (mem_acceptedKeys (hor.stream a ha))
        have e1 := h1 a ha rfl
        have e2 := h1 b hb hkk.symm
        rw [e1] at e2
        simp only [Option.some.injEq] at e2
        have := h2.stream_unique a ha b hb rfl hkk.symm (by rw [e2])
        omega
      · intro a ha b hb hab
        subst hab
        simp only [List.mem_map, List.mem_filter] at ha hb
        obtain ⟨e, he, rfl⟩ := ha
        obtain ⟨⟨k', t'⟩, ⟨hq, _⟩, hk'⟩ := hb
        simp only at hk'; subst hk'
        have hacc := mem_acceptedKeys (hor.stream e he)
        obtain ⟨h1, h2⟩ := hf _ hacc
        obtain ⟨m, hm, hout⟩ := (KnownInv.run (ho _ hacc)).queue _ hq
        have e1 := h1 e he rfl
        rw [e1] at hout
        simp only [Option.some.injEq] at hout
        exact h2.parked_stream m hm e he rfl (by rw [hout])
    · rcases List.mem_append.1 hk with hk | hk
      · obtain ⟨e, he, rfl⟩ := List.mem_map.1 hk
        have e1 := (hf _ (mem_acceptedKeys (hor.stream e he))).1 e he rfl
        have := (C03_never_early cfg ops).1 e.2 ⟨e.1, he⟩
        have := hgap _ _ e1
        exact (hl.2 _).2 ⟨e.2, e1, by omega⟩
      · simp only [List.mem_map, List.mem_filter, decide_eq_true_eq] at hk
        obtain ⟨⟨k', t'⟩, ⟨hq, hle⟩, rfl⟩ := hk
        obtain ⟨m, hm, hwh⟩ := hw.queue.parked _ _ hq
        have hacc := mem_acceptedKeys (hor.parked _ _ hm)
        rw [hw.queue.key _ _ hm] at hacc
        obtain ⟨m', hm', hout⟩ := (KnownInv.run (ho _ hacc)).queue _ hq
        rw [hm] at hm'
        simp only [Option.some.injEq] at hm'
        subst hm'
        exact (hl.2 _).2 ⟨m, hout, by simp only at hle; omega⟩
  · refine C95_due_counted_partial cfg ops t due hl.1 (fun k hk => ?_)
    obtain ⟨m, h1, h2⟩ := (hl.2 k).1 hk
    exact ⟨hrec k m h1, m, h1, h2⟩

/-! ## Concrete histories -/

theorem outstanding_accepted {log : List Event} {k : Key} {m : Msg}
    (h : outstanding log k = some m) : k ∈ acceptedKeys log := by
  induction log with
  | nil => simp [outstanding] at h
  | cons e l ih =>
    cases e with
    | accepted m' =>
      simp only [outstanding] at h
      simp only [acceptedKeys, List.mem_cons]
      split at h
      · exact Or.inl (by simp_all)
      · exact Or.inr (ih h)
    | cancelled k' => simp only [outstanding] at h; split at h <;> simp_all [acceptedKeys]
    | cleared => simp [outstanding] at h
    | finished pid id m' st c =>
      cases c
      · simp only [outstanding] at h; exact ih h
      · simp only [outstanding] at h; split at h <;> simp_all [acceptedKeys]
    | _ => simp only [outstanding] at h; exact ih h

/-- `Lists` is decided by going through the accepted keys. -/
theorem Lists.of {log : List Event} {P : Msg → Prop} [DecidablePred P] {ks : List Key}
    (h : (∀ k ∈ acceptedKeys log ++ ks, decide (k ∈ ks) = (match outstanding log k with
      | some m => decide (P m)
      | none => false)))
    (hn : ks.Pairwise (· ≠ ·)) : Lists log P ks := by
  refine ⟨hn, fun k => ?_⟩
  constructor
  · intro hk
    have := h k (List.mem_append_right _ hk)
    cases ho : outstanding log k with
    | none => rw [ho] at this; simp [hk] at this
    | some m => rw [ho] at this; simp [hk] at this; exact ⟨m, rfl, this⟩
  · rintro ⟨m, ho, hp⟩
    have := h k (List.mem_append_left _ (outstanding_accepted ho))
    rw [ho] at this
    simpa [hp] using this

theorem forall_outstanding {log : List Event} {P : Key → Msg → Prop}
    (h : ∀ k ∈ acceptedKeys log, ∀ m, outstanding log k = some m → P k m) :
    ∀ k m, outstanding log k = some m → P k m :=
  fun k m ho => h k (outstanding_accepted ho) m ho

/-- A request for the given time. -/
private def at' (t : Time) : Request := ⟨"f", "", "", t, 1⟩

/-- One task is done, one is running, one waits, one is overdue in the schedule, and two are for
later. -/
private def busy : List Op :=
  [.add "done" (at' 0) 0, .add "running" (at' 0) 0, .poll "w" 2, .claim 0, .claim 1,
   .finish 0 .completed none false, .add "waiting" (at' 0) 0, .add "overdue" (at' 4) 0,
   .add "soon" (at' 6) 0, .add "late" (at' 9) 0, .tick 5]

instance hasRecordDecidable (s : Sys) (k : Key) : Decidable (HasRecord s k) := by unfold HasRecord; infer_instance

/-- The theorems apply to it, and the numbers are three and two. -/
example : (depths (run ⟨100, 3⟩ busy).r 5).queue = 3 ∧
    (depths (run ⟨100, 3⟩ busy).r 5).schedule = 2 := by
  have ho : ∀ k ∈ acceptedKeys (run ⟨100, 3⟩ busy).log, EachStep ⟨100, 3⟩ (OrderlyStep k) {} busy := by
    decide +kernel
  have hrec : ∀ k m, outstanding (run ⟨100, 3⟩ busy).log k = some m → HasRecord (run ⟨100, 3⟩ busy) k :=
    forall_outstanding (P := fun k _ => HasRecord (run ⟨100, 3⟩ busy) k) (fun k hk m ho => by
      have : ∀ k ∈ acceptedKeys (run ⟨100, 3⟩ busy).log, (outstanding (run ⟨100, 3⟩ busy).log k).isSome →
        HasRecord (run ⟨100, 3⟩ busy) k := by decide +kernel
      exact this k hk (by simp [ho]))
  have hgap : ∀ k m, outstanding (run ⟨100, 3⟩ busy).log k = some m →
      ¬ (5 ≤ m.req.when_ ∧ m.req.when_ ≤ (run ⟨100, 3⟩ busy).r.now) :=
    forall_outstanding (P := fun _ m => ¬ (5 ≤ m.req.when_ ∧ m.req.when_ ≤ (run ⟨100, 3⟩ busy).r.now))
      (fun k hk m ho => by
        have : ∀ k ∈ acceptedKeys (run ⟨100, 3⟩ busy).log,
            ∀ m ∈ (outstanding (run ⟨100, 3⟩ busy).log k).toList,
            ¬ (5 ≤ m.req.when_ ∧ m.req.when_ ≤ (run ⟨100, 3⟩ busy).r.now) := by decide +kernel
        exact this k hk m (by simp [ho]))
  refine ⟨C95_queue_exact_partial _ _ 5 ho (by decide) hrec
    (fun k m h1 h2 => hgap k m h1 ⟨by omega, h2.2⟩) ["running", "waiting", "overdue"]
    (Lists.of (by decide +kernel) (by decide)), ?_⟩
  exact C95_schedule_exact_partial _ _ 5 (by decide +kernel) ho hrec hgap ["soon", "late"]
    (Lists.of (by decide +kernel) (by decide))

/-- The lower bounds apply to it as well. -/
example : 3 ≤ (depths (run ⟨100, 3⟩ busy).r 5).queue :=
  C95_due_counted_partial _ _ 5 ["running", "waiting", "overdue"] (by simp) (by
    intro k hk
    have : ∀ k ∈ ["running", "waiting", "overdue"], HasRecord (run ⟨100, 3⟩ busy) k ∧
      (outstanding (run ⟨100, 3⟩ busy).log k).any (fun m => decide (m.req.when_ ≤ 5)) = true := by
      decide +kernel
    obtain ⟨h1, h2⟩ := this k hk
    rw [Option.any_eq_true] at h2
    obtain ⟨m, h2, h3⟩ := h2
    exact ⟨h1, m, h2, by simpa using h3⟩)

/-- **Disagreement.**  A task that a worker is running is counted as ready for execution: its
entry stays in the stream until it is finished, and XLEN counts it (worker.py:1304). -/
theorem C95_violated_running : ¬ C95_statement := by
  intro h
  have := h ⟨100, 3⟩ [.add "a" (at' 0) 0, .poll "w" 1, .claim 0] [] []
    (Lists.of (by decide +kernel) (by decide)) (Lists.of (by decide +kernel) (by decide))
  revert this
  decide +kernel

/-- **Disagreement.**  A task that the scheduler has moved to the stream and that is then replaced
leaves its old entry behind, which is counted although nothing is due: the scheduler does not
record the entry it makes (worker.py:196-220), so the replacement cannot remove it. -/
theorem C95_violated_replaced : ¬ C95_statement := by
  intro h
  have := h ⟨100, 3⟩ [.add "a" (at' 1) 0, .tick 1, .schedule 1, .replace "a" (at' 9) 1] [] ["a"]
    (Lists.of (by decide +kernel) (by decide)) (Lists.of (by decide +kernel) (by decide))
  revert this
  decide +kernel

/-- **Disagreement.**  A task in the schedule that is due exactly at the moment of the heartbeat
is counted in both gauges: both ranges include their bound (worker.py:1305-1306). -/
theorem C95_violated_both : ¬ C95_statement := by
  intro h
  have := h ⟨100, 3⟩ [.add "a" (at' 1) 0, .tick 1] ["a"] []
    (Lists.of (by decide +kernel) (by decide)) (Lists.of (by decide +kernel) (by decide))
  revert this
  decide +kernel

end Docket
