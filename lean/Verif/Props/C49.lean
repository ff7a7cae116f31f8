import Verif.Views.Snapshot
import Verif.Core.WFStep
import Verif.Core.Forms
/-
C49 A snapshot accounts for every task exactly once.
-/
namespace Docket.Snap
open Docket Redis

/-- The worker a stream entry is pending with. -/
def PendingWith (r : Redis) (id : MsgId) (w : WorkerName) : Prop := ∃ p ∈ r.pending, p.id = id ∧ p.worker = w

/-- What a faithful snapshot of the contents `r` is: the total is the number of stream entries
plus the number of scheduled tasks; `running` lists exactly the stream entries that are
pending, each with its worker, and `future` the other stream entries and then the parked
messages of all scheduled tasks; each entry and each scheduled task gives exactly one element. -/
structure Faithful (r : Redis) (s : Snapshot) : Prop where
  total : s.total = r.stream.length + r.queue.length
  counted : s.running.length + s.future.length = s.total
  once : (s.running.map (·.1) ++ s.future).Perm (r.stream.map (·.2) ++ r.queue.filterMap (fun e => r.parked e.1))
  parked : ∀ k t, (k, t) ∈ r.queue → ∃ m, r.parked k = some m
  running : ∀ m w, (m, w) ∈ s.running ↔ ∃ id, (id, m) ∈ r.stream ∧ PendingWith r id w
  future : ∀ m, m ∈ s.future ↔ (∃ id, (id, m) ∈ r.stream ∧ ∀ w, ¬ PendingWith r id w) ∨ ∃ k t, (k, t) ∈ r.queue ∧ r.parked k = some m

theorem find_id {l : List Pend} {p : Pend} (hn : (l.map (·.id)).Nodup) (hm : p ∈ l) :
    l.find? (fun x => x.id = p.id) = some p := by
  induction l with
  | nil => cases hm
  | cons x l ih =>
    simp only [List.map_cons, List.nodup_cons] at hn
    rw [List.find?_cons]
    rcases List.mem_cons.1 hm with rfl | hm
    · simp
    · have : x.id ≠ p.id := fun hc => hn.1 (by rw [hc]; exact List.mem_map_of_mem (f := (·.id)) hm)
      simp only [this, decide_false]
      exact ih hn.2 hm

theorem holder_spec {r : Redis} (hn : (r.pending.map (·.id)).Nodup) (hp : r.pending.length ≤ 1000) (id : MsgId)
    (w : WorkerName) : holder (firstRead r) id = some w ↔ PendingWith r id w := by
  have hperm : (xpending r 1000).Perm r.pending := by
    have h1 := List.mergeSort_perm r.pending (fun a b => decide (a.id ≤ b.id))
    have h2 : (r.pending.mergeSort (fun a b => decide (a.id ≤ b.id))).length ≤ 1000 := by rw [h1.length_eq]; exact hp
    rw [xpending, List.take_of_length_le h2]
    exact h1
  simp only [holder, firstRead, Option.map_eq_some_iff]
  constructor
  · rintro ⟨p, hf, rfl⟩
    have := List.find?_some hf
    exact ⟨p, hperm.mem_iff.1 (List.mem_of_find?_eq_some hf), by simpa using this, rfl⟩
  · rintro ⟨p, hpm, rfl, rfl⟩
    have hn' : ((xpending r 1000).map (·.id)).Nodup := (hperm.map (·.id)).nodup_iff.2 hn
    have hpm' := hperm.mem_iff.2 hpm
    exact ⟨p, find_id hn' hpm', rfl⟩

theorem split_perm {α β γ : Type} (l : List α) (f : α → Option β) (g : α → γ) :
    ((l.filterMap (fun e => (f e).map (fun w => (g e, w)))).map (·.1) ++
      l.filterMap (fun e => unheld (f e) (g e))).Perm (l.map g) := by
  induction l with
  | nil => simp
  | cons x l ih =>
    cases hx : f x with
    | none =>
      simp only [List.filterMap_cons, hx, unheld, Option.map_none, List.map_cons]
      exact (List.perm_middle).trans (ih.cons _)
    | some w =>
      simp only [List.filterMap_cons, hx, unheld, Option.map_some, List.map_cons, List.cons_append]
      exact ih.cons _

/-- **C49**, partial: in every reachable state whose stream and pending list have at most 1000
entries and whose functions this process knows, a snapshot whose two reads see the same
contents is faithful.  Missing: more than 1000 messages (`C49_violated_cap`), changes between
the two reads (`C49_violated_moved`) and unknown functions (`C49_violated_unregistered`). -/
theorem C49_faithful_partial (cfg : Cfg) (ops : List Op) (knows : String → Bool)
    (hlen : (run cfg ops).r.stream.length ≤ 1000) (hpend : (run cfg ops).r.pending.length ≤ 1000)
    (hk1 : ∀ e ∈ (run cfg ops).r.stream, knows e.2.req.fn = true)
    (hk2 : ∀ k m, (run cfg ops).r.parked k = some m → knows m.req.fn = true) :
    ∃ s, snapshot knows (run cfg ops).r (run cfg ops).r = some s ∧ Faithful (run cfg ops).r s := by
  have hw := WF.run cfg ops
  have hq := hw.queue
  have hs := hw.stream
  generalize run cfg ops = st at *
  have hhold := holder_spec hs.nodup hpend
  have hnone : ∀ id, holder (firstRead st.r) id = none ↔ ∀ w, ¬ PendingWith st.r id w := by
    intro id
    constructor
    · intro h w hc
      rw [(hhold id w).2 hc] at h
      cases h
    · intro h
      cases hx : holder (firstRead st.r) id with
      | none => rfl
      | some w => exact absurd ((hhold id w).1 hx) (h w)
  have hmsgs : (firstRead st.r).messages = st.r.stream := List.take_of_length_le hlen
  have hsec : secondRead (firstRead st.r) st.r = st.r.queue.filterMap (fun e => st.r.parked e.1) := by
    simp only [secondRead, firstRead, List.filterMap_map]
    rfl
  have hall : ((firstRead st.r).messages.map (·.2) ++ secondRead (firstRead st.r) st.r).all
      (fun m => knows m.req.fn) = true := by
    rw [List.all_eq_true]
    intro m hm
    rw [hmsgs, hsec] at hm
    rcases List.mem_append.1 hm with hm | hm
    · obtain ⟨e, he, rfl⟩ := List.mem_map.1 hm
      exact hk1 e he
    · obtain ⟨e, _, he⟩ := List.mem_filterMap.1 hm
      exact hk2 _ _ he
  have hqlen : (st.r.queue.filterMap (fun e => st.r.parked e.1)).length = st.r.queue.length := by
    have hp := hq.parked
    generalize st.r.queue = l at *
    clear hq hsec hall
    induction l with
    | nil => rfl
    | cons e l ih =>
      obtain ⟨m, hm, _⟩ := hp e.1 e.2 (by simp)
      simp only [List.filterMap_cons, hm, List.length_cons]
      rw [ih (fun k t h => hp k t (by simp [h]))]
  have hperm : ((st.r.stream.filterMap (fun e => (holder (firstRead st.r) e.1).map (fun w => (e.2, w)))).map (·.1) ++
      (st.r.stream.filterMap (fun e => unheld (holder (firstRead st.r) e.1) e.2) ++
        st.r.queue.filterMap (fun e => st.r.parked e.1))).Perm
      (st.r.stream.map (·.2) ++ st.r.queue.filterMap (fun e => st.r.parked e.1)) := by
    rw [← List.append_assoc]
    exact (split_perm st.r.stream (fun e => holder (firstRead st.r) e.1) (·.2)).append_right _
  refine ⟨_, if_pos hall, ?_⟩
  rw [hmsgs, hsec]
  refine ⟨rfl, ?_, hperm, ?_, ?_, ?_⟩
  · have := hperm.length_eq
    simp only [List.length_append, List.length_map, hqlen] at this
    simp only [List.length_append, firstRead, hqlen]
    simp only [firstRead] at this
    exact this
  · intro k t hk
    obtain ⟨m, hm, _⟩ := hq.parked k t hk
    exact ⟨m, hm⟩
  · intro m w
    simp only [List.mem_filterMap, Option.map_eq_some_iff, Prod.mk.injEq]
    constructor
    · rintro ⟨e, he, w', hw', rfl, rfl⟩
      exact ⟨e.1, he, (hhold _ _).1 hw'⟩
    · rintro ⟨id, he, hp⟩
      exact ⟨(id, m), he, w, (hhold id w).2 hp, rfl, rfl⟩
  · intro m
    simp only [List.mem_append, List.mem_filterMap]
    constructor
    · rintro (⟨e, he, h⟩ | ⟨e, he, h⟩)
      · left
        refine ⟨e.1, ?_⟩
        cases hx : holder (firstRead st.r) e.1 with
        | some w => rw [hx] at h; cases h
        | none =>
          rw [hx] at h
          cases h
          exact ⟨he, (hnone _).1 hx⟩
      · exact Or.inr ⟨e.1, e.2, he, h⟩
    · rintro (⟨id, he, h⟩ | ⟨k, t, he, h⟩)
      · left
        refine ⟨(id, m), he, ?_⟩
        simp only [(hnone id).2 h, unheld]
      · exact Or.inr ⟨(k, t), he, h⟩

/-- **C49**, partial, with anything happening between the two reads: nothing is invented and
nothing is counted twice: every running message was in the stream and pending at the first
read, every future one was in the stream at the first read or parked at the second, and there
are no more of them than the total. -/
theorem C49_sound_partial (cfg : Cfg) (ops between : List Op) (knows : String → Bool) (s : Snapshot)
    (hs : snapshot knows (run cfg ops).r (run cfg (ops ++ between)).r = some s) :
    (∀ m w, (m, w) ∈ s.running → ∃ id, (id, m) ∈ (run cfg ops).r.stream ∧ PendingWith (run cfg ops).r id w) ∧
    (∀ m ∈ s.future, (∃ id, (id, m) ∈ (run cfg ops).r.stream) ∨
      ∃ k t, (k, t) ∈ (run cfg ops).r.queue ∧ (run cfg (ops ++ between)).r.parked k = some m) ∧
    s.running.length + s.future.length ≤ s.total ∧
    s.total = (run cfg ops).r.stream.length + (run cfg ops).r.queue.length := by
  generalize (run cfg (ops ++ between)).r = r2 at *
  generalize (run cfg ops).r = r at *
  simp only [snapshot, assemble] at hs
  split at hs
  · cases hs
    refine ⟨?_, ?_, ?_, rfl⟩
    · intro m w hm
      simp only [List.mem_filterMap, Option.map_eq_some_iff, Prod.mk.injEq] at hm
      obtain ⟨e, he, w', hw', rfl, rfl⟩ := hm
      refine ⟨e.1, List.mem_of_mem_take he, ?_⟩
      simp only [holder, Option.map_eq_some_iff] at hw'
      obtain ⟨p, hp, rfl⟩ := hw'
      have h1 := List.mem_of_mem_take (List.mem_of_find?_eq_some hp)
      rw [List.mem_mergeSort] at h1
      exact ⟨p, h1, by simpa using List.find?_some hp, rfl⟩
    · intro m hm
      simp only [List.mem_append, List.mem_filterMap] at hm
      rcases hm with ⟨e, he, h⟩ | hm
      · left
        refine ⟨e.1, ?_⟩
        unfold unheld at h
        split at h
        · cases h
        · cases h; exact List.mem_of_mem_take he
      · right
        simp only [secondRead, firstRead, List.mem_filterMap, List.mem_map] at hm
        obtain ⟨k, ⟨e, he, rfl⟩, hk⟩ := hm
        exact ⟨e.1, e.2, he, hk⟩
    · have h1 := (split_perm (firstRead r).messages (fun e => holder (firstRead r) e.1) (·.2)).length_eq
      simp only [List.length_append, List.length_map] at h1
      have h2 : (secondRead (firstRead r) r2).length ≤ r.queue.length := by
        have := List.length_filterMap_le r2.parked (firstRead r).keys
        simp only [firstRead, List.length_map] at this
        exact this
      have h3 : (firstRead r).messages.length ≤ r.stream.length := by
        simp only [firstRead, List.length_take]; omega
      simp only [List.length_append]
      have h4 : (firstRead r).streamCount = r.stream.length := rfl
      have h5 : (firstRead r).scheduleCount = r.queue.length := rfl
      omega
  · cases hs

/-- A delivered, a queued and a scheduled task. -/
def sampleOps : List Op :=
  [.add "a" ⟨"f", "", "", 0, 1⟩ 0, .poll "w" 1, .add "b" ⟨"f", "", "", 0, 1⟩ 0, .add "c" ⟨"f", "", "", 7, 1⟩ 0]

example : (run ⟨10, 3⟩ sampleOps).r.stream.length ≤ 1000 ∧ (run ⟨10, 3⟩ sampleOps).r.pending.length ≤ 1000 := by decide
example : ((snapshot (fun _ => true) (run ⟨10, 3⟩ sampleOps).r (run ⟨10, 3⟩ sampleOps).r).map
    (fun s => (s.total, s.running.map (fun e => (e.1.key, e.2)), s.future.map (·.key)))) =
    some (3, [("a", "w")], ["b", "c"]) := by decide +kernel

/-- The full statement: a snapshot of a reachable state, taken while other processes go on, is
faithful to the contents at some point during it. -/
def C49_faithful : Prop :=
  ∀ (cfg : Cfg) (ops between : List Op) (knows : String → Bool),
    ∃ s, snapshot knows (run cfg ops).r (run cfg (ops ++ between)).r = some s ∧
      ∃ n, Faithful (run cfg (ops ++ between.take n)).r s

/-- **C49, violated**: a task that the scheduler moves to the stream between the two reads is
in neither list, although it is counted in the total. -/
theorem C49_violated_moved : ¬ C49_faithful := by
  intro h
  obtain ⟨s, hs, n, hf⟩ := h ⟨10, 3⟩ [.add "c" ⟨"f", "", "", 7, 1⟩ 0, .tick 7] [.schedule 7] (fun _ => true)
  have : s = ⟨1, [], []⟩ := by
    have h0 : snapshot (fun _ => true) (run ⟨10, 3⟩ [.add "c" ⟨"f", "", "", 7, 1⟩ 0, .tick 7]).r
      (run ⟨10, 3⟩ ([.add "c" ⟨"f", "", "", 7, 1⟩ 0, .tick 7] ++ [.schedule 7])).r = some ⟨1, [], []⟩ := by
      decide +kernel
    rw [h0] at hs
    exact (Option.some.inj hs).symm
  subst this
  have := hf.counted
  revert this
  decide

/-- **C49, violated**: one message of a function that this process has not registered makes the
whole snapshot fail. -/
theorem C49_violated_unregistered : ¬ C49_faithful := by
  intro h
  obtain ⟨s, hs, _⟩ := h ⟨10, 3⟩ [.add "c" ⟨"f", "", "", 7, 1⟩ 0] [] (fun _ => false)
  revert hs
  simp only [List.append_nil]
  have h0 : snapshot (fun _ => false) (run ⟨10, 3⟩ [.add "c" ⟨"f", "", "", 7, 1⟩ 0]).r
      (run ⟨10, 3⟩ [.add "c" ⟨"f", "", "", 7, 1⟩ 0]).r = none := by decide +kernel
  rw [h0]
  simp

/-- The `i`-th of a sequence of different keys. -/
def key (i : Nat) : Key := String.ofList (List.replicate i 'a')

theorem key_inj {i j : Nat} (h : key i = key j) : i = j := by
  have := congrArg (fun s => s.toList.length) h
  simpa [key] using this

def manyAdds (n : Nat) : List Op := (List.range n).map (fun i => .add (key i) ⟨"f", "", "", 0, 1⟩ 0)

theorem manyAdds_spec (cfg : Cfg) (n : Nat) :
    (run cfg (manyAdds n)).r.stream.length = n ∧ (run cfg (manyAdds n)).r.queue = [] ∧
    ∀ i, n ≤ i → (run cfg (manyAdds n)).r.runs (key i) = none := by
  induction n with
  | zero => exact ⟨rfl, rfl, fun _ _ => rfl⟩
  | succ n ih =>
    obtain ⟨h1, h2, h3⟩ := ih
    have he : manyAdds (n + 1) = manyAdds n ++ [.add (key n) ⟨"f", "", "", 0, 1⟩ 0] := by
      simp [manyAdds, List.range_succ]
    rw [he, run, runFrom_append]
    change (runFrom cfg (run cfg (manyAdds n)) _).r.stream.length = n + 1 ∧ (runFrom cfg (run cfg (manyAdds n)) _).r.queue = [] ∧
      ∀ i, n + 1 ≤ i → (runFrom cfg (run cfg (manyAdds n)) _).r.runs (key i) = none
    generalize run cfg (manyAdds n) = s at *
    have hx : scheduleExists s.r (key n) = false := by
      simp [scheduleExists, Redis.knownOf, Redis.stateOf, h3 n (Nat.le_refl n)]
    have hs : (runFrom cfg s [.add (key n) ⟨"f", "", "", 0, 1⟩ 0]).r = schedulePlace s.r (key n) ⟨"f", "", "", 0, 1⟩ true := by
      simp [runFrom, step, doAdd, doSchedule, luaSchedule, hx]
    rw [hs, schedulePlace_now]
    refine ⟨by simp [h1], h2, ?_⟩
    intro i hi
    simp only
    rw [upd_other _ _ _ _ (fun hc => by have := key_inj hc; omega)]
    exact h3 i (by omega)

/-- **C49, violated**: with more than 1000 messages in the stream, the lists hold 1000 of
them, although the total counts all. -/
theorem C49_violated_cap : ¬ C49_faithful := by
  intro h
  obtain ⟨N, hN⟩ : ∃ N : Nat, 1000 < N := ⟨1001, by decide⟩
  obtain ⟨s, hs, n, hf⟩ := h ⟨10, 3⟩ (manyAdds N) [] (fun _ => true)
  rw [List.append_nil] at hs
  obtain ⟨h1, h2, _⟩ := manyAdds_spec ⟨10, 3⟩ N
  have hcount := hf.counted
  have htot := hf.total
  simp only [List.take_nil, List.append_nil, h1, h2, List.length_nil] at htot
  generalize (run ⟨10, 3⟩ (manyAdds N)).r = r at *
  simp only [snapshot, assemble] at hs
  split at hs
  · cases hs
    have hp := (split_perm (firstRead r).messages (fun e => holder (firstRead r) e.1) (·.2)).length_eq
    simp only [List.length_append, List.length_map] at hp
    have hm : (firstRead r).messages.length ≤ 1000 := by simp only [firstRead, List.length_take]; omega
    have hk : (secondRead (firstRead r) r).length = 0 := by simp [secondRead, firstRead, h2]
    have h4 : (firstRead r).streamCount = N := h1
    simp only [List.length_append] at hcount
    omega
  · cases hs

end Docket.Snap
