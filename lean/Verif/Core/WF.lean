import Verif.Core.Forms2
/-
Well-formedness of reachable states: message ids, the pending list, worker
memory, recorded stream ids, and the correspondence of schedule and parked hashes.
-/
namespace Docket
open Redis

/-- Facts about the stream and the consumer group. -/
structure StreamOK (next : MsgId) (st : List (MsgId × Msg)) (ld : MsgId) (pe : List Pend) : Prop where
  lt : ∀ e ∈ st, e.1 < next
  sorted : st.Pairwise (fun a b => a.1 < b.1)
  ldlt : ld < next
  deliv : ∀ e ∈ st, e.1 ≤ ld → ∃ p ∈ pe, p.id = e.1
  pend : ∀ p ∈ pe, p.id ≤ ld
  nodup : (pe.map (·.id)).Nodup

namespace StreamOK
variable {next : MsgId} {st : List (MsgId × Msg)} {ld : MsgId} {pe : List Pend}

theorem add (h : StreamOK next st ld pe) (m : Msg) :
    StreamOK (next + 1) (st ++ [(next, m)]) ld pe where
  lt := by
    intro e he
    simp only [List.mem_append, List.mem_singleton] at he
    rcases he with he | rfl
    · have := h.lt e he; omega
    · simp
  sorted := by
    rw [List.pairwise_append]
    refine ⟨h.sorted, by simp, ?_⟩
    intro a ha b hb
    simp only [List.mem_singleton] at hb
    subst hb
    exact h.lt a ha
  ldlt := by have := h.ldlt; omega
  deliv := by
    intro e he hl
    simp only [List.mem_append, List.mem_singleton] at he
    rcases he with he | rfl
    · exact h.deliv e he hl
    · have := h.ldlt; simp at hl; omega
  pend := h.pend
  nodup := h.nodup

theorem addMany (h : StreamOK next st ld pe) (ms : List Msg) :
    StreamOK (next + ms.length) (st ++ numbered next ms) ld pe := by
  induction ms generalizing next st with
  | nil => simpa [numbered] using h
  | cons m ms ih =>
    have := ih (h.add m)
    simp only [numbered, List.length_cons]
    rw [show next + (ms.length + 1) = next + 1 + ms.length by omega]
    rw [show st ++ (next, m) :: numbered (next + 1) ms = st ++ [(next, m)] ++ numbered (next + 1) ms
      by simp]
    exact this

theorem del (h : StreamOK next st ld pe) (f : MsgId × Msg → Bool) :
    StreamOK next (st.filter f) ld pe where
  lt := fun e he => h.lt e (List.mem_filter.1 he).1
  sorted := h.sorted.filter _
  ldlt := h.ldlt
  deliv := fun e he => h.deliv e (List.mem_filter.1 he).1
  pend := h.pend
  nodup := h.nodup

theorem ackdel (h : StreamOK next st ld pe) (id : MsgId) :
    StreamOK next (st.filter (fun e => e.1 ≠ id)) ld (pe.filter (fun p => p.id ≠ id)) where
  lt := fun e he => h.lt e (List.mem_filter.1 he).1
  sorted := h.sorted.filter _
  ldlt := h.ldlt
  deliv := by
    intro e he hl
    simp only [List.mem_filter, decide_eq_true_eq] at he
    obtain ⟨p, hp, hpe⟩ := h.deliv e he.1 hl
    exact ⟨p, by simp [List.mem_filter, hp, hpe, he.2], hpe⟩
  pend := fun p hp => h.pend p (List.mem_filter.1 hp).1
  nodup := List.Sublist.nodup (List.Sublist.map _ List.filter_sublist) h.nodup

theorem ack_missing (h : StreamOK next st ld pe) (id : MsgId) (hm : ∀ e ∈ st, e.1 ≠ id) :
    StreamOK next st ld (pe.filter (fun p => p.id ≠ id)) := by
  have := h.ackdel id
  rwa [List.filter_eq_self.2 (by intro e he; simp [hm e he])] at this

theorem trim (h : StreamOK next st ld pe) : StreamOK next [] ld pe :=
  ⟨by simp, by simp, h.ldlt, by simp, h.pend, h.nodup⟩

theorem ids_map (id : MsgId) (w : WorkerName) (t : Time) :
    (pe.map (fun p => if p.id = id then (⟨id, w, t⟩ : Pend) else p)).map (·.id) = pe.map (·.id) := by
  rw [List.map_map]
  apply List.map_congr_left
  intro p _
  simp only [Function.comp]
  split <;> simp_all

theorem reassign (h : StreamOK next st ld pe) (id : MsgId) (w : WorkerName) (t : Time) :
    StreamOK next st ld (pe.map (fun p => if p.id = id then ⟨id, w, t⟩ else p)) where
  lt := h.lt
  sorted := h.sorted
  ldlt := h.ldlt
  deliv := by
    intro e he hl
    obtain ⟨p, hp, hpe⟩ := h.deliv e he hl
    refine ⟨if p.id = id then ⟨id, w, t⟩ else p, List.mem_map.2 ⟨p, hp, rfl⟩, ?_⟩
    split <;> simp_all
  pend := by
    intro p hp
    obtain ⟨p', hp', rfl⟩ := List.mem_map.1 hp
    have := h.pend p' hp'
    split <;> simp_all
  nodup := by rw [ids_map]; exact h.nodup

end StreamOK

/-- In a list sorted by id, the last of the first `n` entries above `ld` bounds
exactly those entries. -/
theorem take_filter_last {st : List (MsgId × Msg)} {ld n : Nat}
    (hs : st.Pairwise (fun a b => a.1 < b.1)) :
    let new := (st.filter (fun e => ld < e.1)).take n
    let ld' := (new.getLast?.map (·.1)).getD ld
    ld ≤ ld' ∧ (∀ e ∈ new, ld < e.1 ∧ e.1 ≤ ld' ∧ e ∈ st) ∧
      (∀ e ∈ st, ld < e.1 → e.1 ≤ ld' → e ∈ new) := by
  intro new ld'
  have hall : ∀ e ∈ new, ld < e.1 ∧ e ∈ st := by
    intro e he
    have h1 := List.mem_of_mem_take he
    simp only [List.mem_filter, decide_eq_true_eq] at h1
    exact ⟨h1.2, h1.1⟩
  have hsn : new.Pairwise (fun a b => a.1 < b.1) := (hs.filter _).sublist (List.take_sublist _ _)
  cases hl : new.getLast? with
  | none =>
    have hnil : new = [] := by simpa using hl
    have hld : ld' = ld := by simp [ld', hnil]
    refine ⟨by omega, by simp [hnil], ?_⟩
    intro e _ h1 h2; omega
  | some z =>
    have hz : z ∈ new := List.mem_of_getLast? hl
    have hld : ld' = z.1 := by simp [ld', hl]
    have hle : ∀ e ∈ new, e.1 ≤ z.1 := by
      obtain ⟨ys, hys⟩ := List.getLast?_eq_some_iff.1 hl
      rw [hys, List.pairwise_append] at hsn
      intro e he
      rw [hys] at he
      simp only [List.mem_append, List.mem_singleton] at he
      rcases he with he | rfl
      · exact Nat.le_of_lt (hsn.2.2 e he z (by simp))
      · exact Nat.le_refl _
    refine ⟨by rw [hld]; exact Nat.le_of_lt (hall z hz).1, ?_, ?_⟩
    · intro e he
      exact ⟨(hall e he).1, by rw [hld]; exact hle e he, (hall e he).2⟩
    · intro e he h1 h2
      have hef : e ∈ st.filter (fun e => ld < e.1) := by simp [List.mem_filter, he, h1]
      rw [← List.take_append_drop n (st.filter (fun e => ld < e.1))] at hef
      simp only [List.mem_append] at hef
      rcases hef with hef | hef
      · exact hef
      · exfalso
        have hp := hs.filter (fun e => decide (ld < e.1))
        rw [← List.take_append_drop n (st.filter (fun e => ld < e.1)), List.pairwise_append] at hp
        have := hp.2.2 z hz e hef
        omega

theorem StreamOK.read {next : MsgId} {st : List (MsgId × Msg)} {ld : MsgId} {pe : List Pend}
    (h : StreamOK next st ld pe) (w : WorkerName) (t : Time) (n : Nat) :
    let new := (st.filter (fun e => ld < e.1)).take n
    StreamOK next st ((new.getLast?.map (·.1)).getD ld)
      (pe ++ new.map (fun e => ⟨e.1, w, t⟩)) := by
  intro new
  obtain ⟨h1, h2, h3⟩ := take_filter_last (n := n) (ld := ld) h.sorted
  refine ⟨h.lt, h.sorted, ?_, ?_, ?_, ?_⟩
  · cases hl : new.getLast? with
    | none => simpa using h.ldlt
    | some z =>
      have hz : z ∈ new := List.mem_of_getLast? hl
      simpa using h.lt z (h2 z hz).2.2
  · intro e he hl
    by_cases hc : e.1 ≤ ld
    · obtain ⟨p, hp, hpe⟩ := h.deliv e he hc
      exact ⟨p, by simp [hp], hpe⟩
    · have := h3 e he (by omega) hl
      exact ⟨⟨e.1, w, t⟩, by
        simp only [List.mem_append, List.mem_map]
        exact Or.inr ⟨e, this, rfl⟩, rfl⟩
  · intro p hp
    simp only [List.mem_append, List.mem_map] at hp
    rcases hp with hp | ⟨e, he, rfl⟩
    · exact Nat.le_trans (h.pend p hp) h1
    · exact (h2 e he).2.1
  · rw [List.map_append, List.map_map]
    rw [List.nodup_append]
    refine ⟨h.nodup, ?_, ?_⟩
    · have : new.map ((fun x => x.id) ∘ fun e => ({ id := e.1, worker := w, since := t } : Pend))
          = new.map (·.1) := by
        apply List.map_congr_left; intro e _; rfl
      rw [this]
      have hsn : new.Pairwise (fun a b => a.1 < b.1) :=
        (h.sorted.filter _).sublist (List.take_sublist _ _)
      rw [List.nodup_iff_pairwise_ne, List.pairwise_map]
      exact hsn.imp (fun h => Nat.ne_of_lt h)
    · intro a ha b hb
      simp only [List.mem_map, Function.comp] at ha hb
      obtain ⟨p, hp, rfl⟩ := ha
      obtain ⟨e, he, rfl⟩ := hb
      have := h.pend p hp
      have := (h2 e he).1
      simp only [ne_eq]
      omega

/-- Worker memory: a held execution was delivered, and if its message is still in
the stream it is the one held. -/
def ProcsOK (st : List (MsgId × Msg)) (ld : MsgId) (ps : List Proc) (np : Nat) : Prop :=
  (∀ p ∈ ps, p.id ≤ ld ∧ p.pid < np ∧ ∀ e ∈ st, e.1 = p.id → e.2 = p.msg) ∧
  (ps.map (·.pid)).Nodup

/-- A recorded stream id never points to another key's message. -/
def SidOK (next : MsgId) (st : List (MsgId × Msg)) (runs : Key → Option Run) : Prop :=
  ∀ k h id, runs k = some h → h.streamId = some id →
    id < next ∧ ∀ e ∈ st, e.1 = id → e.2.key = k

/-- Schedule and parked hashes. -/
structure QueueOK (q : List (Key × Time)) (parked : Key → Option Msg) : Prop where
  key : ∀ k m, parked k = some m → m.key = k
  nodup : (q.map (·.1)).Nodup
  sorted : q.Pairwise (fun a b => a.2 ≤ b.2)
  parked : ∀ k t, (k, t) ∈ q → ∃ m, parked k = some m ∧ m.req.when_ = t

/-- All of the above for a system state. -/
structure WF (s : Sys) : Prop where
  stream : StreamOK s.r.nextId s.r.stream s.r.lastDelivered s.r.pending
  procs : ProcsOK s.r.stream s.r.lastDelivered s.procs s.nextPid
  sid : SidOK s.r.nextId s.r.stream s.r.runs
  queue : QueueOK s.r.queue s.r.parked

theorem ProcsOK.mono {st st' : List (MsgId × Msg)} {ld : MsgId} {ps ps' : List Proc} {np : Nat}
    (h : ProcsOK st ld ps np) (hst : ∀ e ∈ st', e ∈ st ∨ ld < e.1)
    (hps : ps'.Sublist ps) : ProcsOK st' ld ps' np := by
  refine ⟨fun p hp => ?_, List.Sublist.nodup (List.Sublist.map _ hps) h.2⟩
  obtain ⟨h1, h2, h3⟩ := h.1 p (hps.subset hp)
  refine ⟨h1, h2, fun e he hid => ?_⟩
  rcases hst e he with he' | hlt
  · exact h3 e he' hid
  · omega

theorem ProcsOK.phase {st : List (MsgId × Msg)} {ld : MsgId} {ps : List Proc} {np : Nat}
    (h : ProcsOK st ld ps np) (pid : Nat) (ph : Phase) :
    ProcsOK st ld (ps.map (fun p => if p.pid = pid then { p with phase := ph } else p)) np := by
  refine ⟨?_, ?_⟩
  · intro p hp
    obtain ⟨p', hp', rfl⟩ := List.mem_map.1 hp
    have := h.1 p' hp'
    split <;> simpa using this
  · rw [List.map_map]
    have : (List.map ((fun x => x.pid) ∘ fun p => if p.pid = pid then { p with phase := ph } else p) ps)
        = ps.map (·.pid) := by
      apply List.map_congr_left
      intro p _
      simp only [Function.comp]
      split <;> simp_all
    rw [this]; exact h.2

theorem SidOK.mono {n n' : MsgId} {st st' : List (MsgId × Msg)} {runs runs' : Key → Option Run}
    (h : SidOK n st runs) (hn : n ≤ n') (hst : ∀ e ∈ st', e ∈ st ∨ n ≤ e.1)
    (hr : ∀ k h' id, runs' k = some h' → h'.streamId = some id →
      ∃ h0, runs k = some h0 ∧ h0.streamId = some id) : SidOK n' st' runs' := by
  intro k h' id hk hid
  obtain ⟨h0, h1, h2⟩ := hr k h' id hk hid
  obtain ⟨h3, h4⟩ := h k h0 id h1 h2
  refine ⟨by omega, fun e he heq => ?_⟩
  rcases hst e he with he' | hlt
  · exact h4 e he' heq
  · omega

theorem zinsert_mem {k : Key} {t : Time} {q : List (Key × Time)} {e : Key × Time} :
    e ∈ zinsert k t q ↔ e = (k, t) ∨ e ∈ q := by
  induction q with
  | nil => simp [zinsert]
  | cons a q ih =>
    simp only [zinsert]
    split
    · simp
    · simp only [List.mem_cons, ih]
      constructor <;> rintro (h | h | h) <;> simp [h]

theorem zinsert_perm (k : Key) (t : Time) (q : List (Key × Time)) :
    (zinsert k t q).Perm ((k, t) :: q) := by
  induction q with
  | nil => simp [zinsert]
  | cons a q ih =>
    simp only [zinsert]
    split
    · exact List.Perm.refl _
    · exact ((List.Perm.cons a ih).trans (List.Perm.swap _ _ _))

theorem zinsert_sorted {k : Key} {t : Time} {q : List (Key × Time)}
    (h : q.Pairwise (fun a b => a.2 ≤ b.2)) :
    (zinsert k t q).Pairwise (fun a b => a.2 ≤ b.2) := by
  induction q with
  | nil => simp [zinsert]
  | cons a q ih =>
    simp only [zinsert]
    rw [List.pairwise_cons] at h
    split
    · rename_i hc
      rw [List.pairwise_cons, List.pairwise_cons]
      refine ⟨?_, h⟩
      intro b hb
      simp only [List.mem_cons] at hb
      rcases hb with rfl | hb
      · simp only; rcases hc with hc | hc <;> omega
      · have := h.1 b hb
        simp only; rcases hc with hc | hc <;> omega
    · rename_i hc
      rw [List.pairwise_cons]
      refine ⟨?_, ih h.2⟩
      intro b hb
      rw [zinsert_mem] at hb
      rcases hb with rfl | hb
      · simp only; omega
      · exact h.1 b hb

theorem QueueOK.del {q : List (Key × Time)} {parked : Key → Option Msg} (h : QueueOK q parked)
    (k : Key) : QueueOK (q.filter (fun e => e.1 ≠ k)) (upd parked k none) where
  key := by
    intro k' m hm
    simp only [upd] at hm
    split at hm
    · simp at hm
    · exact h.key _ _ hm
  nodup := List.Sublist.nodup (List.Sublist.map _ List.filter_sublist) h.nodup
  sorted := h.sorted.filter _
  parked := by
    intro k' t hm
    simp only [List.mem_filter, decide_eq_true_eq] at hm
    obtain ⟨m, h1, h2⟩ := h.parked k' t hm.1
    exact ⟨m, by simp [upd, hm.2, h1], h2⟩

theorem QueueOK.put {q : List (Key × Time)} {parked : Key → Option Msg} (h : QueueOK q parked)
    (k : Key) (rq : Request) (g : Gen) :
    QueueOK (zinsert k rq.when_ (q.filter (fun e => e.1 ≠ k))) (upd parked k (some ⟨k, rq, g⟩)) where
  key := by
    intro k' m hm
    simp only [upd] at hm
    split at hm
    · simp only [Option.some.injEq] at hm; subst hm; simp_all
    · exact h.key _ _ hm
  nodup := by
    have hp := (zinsert_perm k rq.when_ (q.filter (fun e => e.1 ≠ k))).map (·.1)
    rw [hp.nodup_iff]
    simp only [List.map_cons, List.nodup_cons]
    refine ⟨?_, (h.del k).nodup⟩
    simp
  sorted := zinsert_sorted (h.del k).sorted
  parked := by
    intro k' t hm
    rw [zinsert_mem] at hm
    rcases hm with hm | hm
    · simp only [Prod.mk.injEq] at hm
      obtain ⟨rfl, rfl⟩ := hm
      exact ⟨⟨k', rq, g⟩, by simp [upd], rfl⟩
    · simp only [List.mem_filter, decide_eq_true_eq] at hm
      obtain ⟨m, h1, h2⟩ := h.parked k' t hm.1
      exact ⟨m, by simp [upd, hm.2, h1], h2⟩

theorem QueueOK.clear {q : List (Key × Time)} {parked : Key → Option Msg} (h : QueueOK q parked)
    (f : Key → Prop) [DecidablePred f] : QueueOK [] (fun k => if f k then none else parked k) where
  key := by
    intro k' m hm
    split at hm
    · simp at hm
    · exact h.key _ _ hm
  nodup := by simp
  sorted := by simp
  parked := by simp

end Docket
