import Verif.Views.Testing
import Verif.Props.C49

/-! # C57: test assertions mean what they say -/

namespace Docket.Testing
open Docket Snap

variable {V : Type} [DecidableEq V]

/-! ## Specification -/

/-- What this process has registered: a function for some names. -/
abbrev Registry := String → Option Fn

/-- The tasks that nobody is running: stream entries that no worker has, and parked tasks. -/
def futureTasks (r : Redis) : List Msg :=
  (r.stream.filter (fun e => r.pending.all (fun p => p.id ≠ e.1))).map (·.2) ++ r.queue.filterMap (fun e => r.parked e.1)

/-- The task is one of the function asked for: by the name it was scheduled under, or by the
function that will run. -/
def IsOf (reg : Registry) (m : Msg) : Which → Prop
  | .named n => m.req.fn = n
  | .function f => reg m.req.fn = some f

instance (reg : Registry) (m : Msg) (w : Which) : Decidable (IsOf reg m w) := by
  cases w <;> unfold IsOf <;> infer_instance

/-- The task matches every criterion given. -/
structure Matches (reg : Registry) (decode : Msg → Call V) (m : Msg) (c : Criteria V) : Prop where
  function : IsOf reg m c.function
  key : ∀ k, c.key = some k → m.key = k
  args : ∀ a, c.args = some a → (decode m).args = a
  kwargs : ∀ kw, c.kwargs = some kw → ∀ k v, (k, v) ∈ kw → (decode m).kwargs.lookup k = some v

/-- What the process knows. -/
def knows (reg : Registry) (n : String) : Bool := (reg n).isSome

/-- Every function is registered under its own name only. -/
def OwnNames (reg : Registry) : Prop := ∀ n f, reg n = some f → f.name = n

/-- The function asked for is one of this process's. -/
def Registered (reg : Registry) : Which → Prop
  | .named _ => True
  | .function f => reg f.name = some f

/-- The contents a snapshot can read in full. -/
structure Readable (reg : Registry) (r : Redis) : Prop where
  stream : r.stream.length ≤ 1000
  pending : r.pending.length ≤ 1000
  knownStream : ∀ e ∈ r.stream, knows reg e.2.req.fn = true
  knownParked : ∀ k m, r.parked k = some m → knows reg m.req.fn = true

/-! ## Proof -/

theorem snapshot_future (cfg : Cfg) (ops : List Op) (reg : Registry) (h : Readable reg (run cfg ops).r) :
    ∃ s, snapshot (knows reg) (run cfg ops).r (run cfg ops).r = some s ∧ s.future = futureTasks (run cfg ops).r := by
  have hw := WF.run cfg ops
  obtain ⟨s, hs, _⟩ := C49_faithful_partial cfg ops (knows reg) h.stream h.pending h.knownStream h.knownParked
  refine ⟨s, hs, ?_⟩
  have hn := hw.stream.nodup
  generalize run cfg ops = st at *
  have hhold := holder_spec hn h.pending
  simp only [snapshot, assemble] at hs
  split at hs
  · cases hs
    simp only [futureTasks, firstRead, List.take_of_length_le h.stream, secondRead, List.filterMap_map]
    congr 1
    have : ∀ l : List (MsgId × Msg), l.filterMap (fun e => unheld (holder (firstRead st.r) e.1) e.2) =
        (l.filter (fun e => st.r.pending.all (fun p => p.id ≠ e.1))).map (·.2) := by
      intro l
      induction l with
      | nil => rfl
      | cons e l ih =>
        rw [List.filterMap_cons, List.filter_cons]
        by_cases hp : st.r.pending.all (fun p => p.id ≠ e.1) = true
        · have : holder (firstRead st.r) e.1 = none := by
            cases hh : holder (firstRead st.r) e.1 with
            | none => rfl
            | some w =>
              obtain ⟨p, hpm, hpi, _⟩ := (hhold e.1 w).1 hh
              have := List.all_eq_true.1 hp p hpm
              simp [hpi] at this
          rw [if_pos hp, this, List.map_cons]
          show e.2 :: _ = _
          rw [ih]
        · have : ∃ w, holder (firstRead st.r) e.1 = some w := by
            simp only [List.all_eq_true, decide_eq_true_eq, Classical.not_forall] at hp
            obtain ⟨p, hpm, hpi⟩ := hp
            exact ⟨p.worker, (hhold e.1 p.worker).2 ⟨p, hpm, by simpa using hpi, rfl⟩⟩
          obtain ⟨w, hw⟩ := this
          rw [if_neg hp, hw]
          exact ih
    have := this st.r.stream
    simp only [firstRead, List.take_of_length_le h.stream] at this
    exact this
  · cases hs

theorem matches_iff (reg : Registry) (decode : Msg → Call V) (m : Msg) (c : Criteria V) (hown : OwnNames reg)
    (hreg : Registered reg c.function) : matchesCriteria decode m c = true ↔ Matches reg decode m c := by
  have hf : m.req.fn = c.function.name ↔ IsOf reg m c.function := by
    cases hc : c.function with
    | named n => exact Iff.rfl
    | function f =>
      rw [hc] at hreg
      simp only [Which.name, IsOf]
      exact ⟨fun h => by rw [h]; exact hreg, fun h => (hown _ _ h).symm⟩
  have hkey : c.key.any (fun k => decide (m.key ≠ k)) = false ↔ ∀ k, c.key = some k → m.key = k := by
    cases c.key <;> simp
  have hargs : c.args.any (fun a => decide ((decode m).args ≠ a)) = false ↔ ∀ a, c.args = some a → (decode m).args = a := by
    cases c.args <;> simp
  have hkw : c.kwargs.any (fun kw => kw.any (fun e => !hasItem (decode m).kwargs e.1 e.2)) = false ↔
      ∀ kw, c.kwargs = some kw → ∀ k v, (k, v) ∈ kw → (decode m).kwargs.lookup k = some v := by
    cases c.kwargs with
    | none => simp
    | some kw =>
      simp only [Option.any_some, List.any_eq_false, Option.some.injEq]
      constructor
      · rintro h kw' rfl k v hm
        have := h (k, v) hm
        simp only [hasItem] at this
        split at this
        · simp at this
        · next x hx => simp at this; rw [hx, this]
      · intro h e he
        have := h kw rfl e.1 e.2 he
        simp [hasItem, this]
  unfold matchesCriteria
  constructor
  · intro h
    split at h
    · cases h
    next h1 =>
    split at h
    · cases h
    next h2 =>
    split at h
    · cases h
    next h3 =>
    split at h
    · cases h
    next h4 =>
    exact ⟨hf.1 (Classical.not_not.1 h1), hkey.1 (by simpa using h2), hargs.1 (by simpa using h3), hkw.1 (by simpa using h4)⟩
  · intro h
    rw [if_neg (Classical.not_not.2 (hf.2 h.function)), if_neg (by rw [hkey.2 h.key]; simp), if_neg (by rw [hargs.2 h.args]; simp),
      if_neg (by rw [hkw.2 h.kwargs]; simp)]

/-- **C57**, partial: in every reachable state with at most 1000 messages in the stream, all of
registered functions, `assert_task_scheduled` passes exactly when some future task matches every
criterion given, and otherwise it fails.  Missing: more messages, unregistered functions,
functions registered under other names, and changes between the snapshot's two reads; the full
statement is false (`C57_violated_…`). -/
theorem C57_scheduled_partial (cfg : Cfg) (ops : List Op) (reg : Registry) (decode : Msg → Call V) (c : Criteria V)
    (h : Readable reg (run cfg ops).r) (hown : OwnNames reg) (hreg : Registered reg c.function) :
    let r := (run cfg ops).r
    let outcome := assertScheduled decode (snapshot (knows reg) r r) c
    (outcome = .passes ↔ ∃ m ∈ futureTasks r, Matches reg decode m c) ∧ (outcome = .passes ∨ outcome = .fails) := by
  obtain ⟨s, hs, hf⟩ := snapshot_future cfg ops reg h
  simp only [hs, assertScheduled, judge, hf]
  refine ⟨?_, by split <;> simp⟩
  constructor
  · intro hh
    split at hh
    · next ha =>
      obtain ⟨m, hm, hmm⟩ := List.any_eq_true.1 ha
      exact ⟨m, hm, (matches_iff reg decode m c hown hreg).1 hmm⟩
    · cases hh
  · rintro ⟨m, hm, hmm⟩
    rw [if_pos (List.any_eq_true.2 ⟨m, hm, (matches_iff reg decode m c hown hreg).2 hmm⟩)]

/-- **C57**, partial: and `assert_task_not_scheduled` passes exactly when no future task matches,
and otherwise it fails.  Missing: as for `C57_scheduled_partial`. -/
theorem C57_not_scheduled_partial (cfg : Cfg) (ops : List Op) (reg : Registry) (decode : Msg → Call V) (c : Criteria V)
    (h : Readable reg (run cfg ops).r) (hown : OwnNames reg) (hreg : Registered reg c.function) :
    let r := (run cfg ops).r
    let outcome := assertNotScheduled decode (snapshot (knows reg) r r) c
    (outcome = .passes ↔ ¬ ∃ m ∈ futureTasks r, Matches reg decode m c) ∧ (outcome = .passes ∨ outcome = .fails) := by
  obtain ⟨s, hs, hf⟩ := snapshot_future cfg ops reg h
  simp only [hs, assertNotScheduled, judge, hf]
  refine ⟨?_, by split <;> simp⟩
  have hany : (futureTasks (run cfg ops).r).any (fun m => matchesCriteria decode m c) = true ↔
      ∃ m ∈ futureTasks (run cfg ops).r, Matches reg decode m c := by
    rw [List.any_eq_true]
    constructor
    · rintro ⟨m, hm, hmm⟩; exact ⟨m, hm, (matches_iff reg decode m c hown hreg).1 hmm⟩
    · rintro ⟨m, hm, hmm⟩; exact ⟨m, hm, (matches_iff reg decode m c hown hreg).2 hmm⟩
  rw [← hany]
  cases (futureTasks (run cfg ops).r).any (fun m => matchesCriteria decode m c) <;> simp

/-- **C57**, partial: `assert_task_count` and `assert_no_tasks` likewise judge the number of
future tasks. -/
theorem C57_count_partial (cfg : Cfg) (ops : List Op) (reg : Registry) (h : Readable reg (run cfg ops).r) (hown : OwnNames reg) :
    let r := (run cfg ops).r
    let snap := snapshot (knows reg) r r
    (∀ n, assertCount snap none n = .passes ↔ (futureTasks r).length = n) ∧
    (∀ w n, Registered reg w →
      (assertCount snap (some w) n = .passes ↔ ((futureTasks r).filter (fun m => decide (IsOf reg m w))).length = n)) ∧
    (assertNoTasks snap = .passes ↔ futureTasks r = []) := by
  obtain ⟨s, hs, hf⟩ := snapshot_future cfg ops reg h
  simp only [hs, assertCount, assertNoTasks, judge, hf]
  refine ⟨?_, ?_, ?_⟩
  · intro n
    simp
  · intro w n hw
    have : (fun m : Msg => decide (m.req.fn = w.name)) = fun m => decide (IsOf reg m w) := by
      funext m
      cases w with
      | named x => rfl
      | function f =>
        apply decide_eq_decide.2
        exact ⟨fun hh => by unfold IsOf; rw [hh]; exact hw, fun hh => (hown _ _ hh).symm⟩
    rw [this]
    simp
  · cases futureTasks (run cfg ops).r <;> simp

/-! ## Examples and violations -/

def sampleReg : Registry := fun n => if n = "f" then some ⟨1, "f"⟩ else if n = "g" then some ⟨2, "g"⟩ else none
def sampleDecode (m : Msg) : Call String := ⟨[m.req.args], [("x", m.req.kwargs)]⟩
def sampleOps : List Op := [.add "a" ⟨"f", "1", "2", 0, 1⟩ 0, .add "b" ⟨"g", "3", "4", 7, 1⟩ 0]

example : OwnNames sampleReg := by
  intro n f h
  unfold sampleReg at h
  split at h
  · next hn => cases h; exact hn.symm
  · split at h
    · next hn => cases h; exact hn.symm
    · cases h

example : Readable sampleReg (run ⟨10, 3⟩ sampleOps).r := by
  refine ⟨by decide +kernel, by decide +kernel, by decide +kernel, ?_⟩
  intro k m h
  have : ∀ k, (run ⟨10, 3⟩ sampleOps).r.parked k = some m → m = ⟨"b", ⟨"g", "3", "4", 7, 1⟩, 1⟩ := by
    intro k hk
    by_cases hkb : k = "b"
    · subst hkb
      have h0 : (run ⟨10, 3⟩ sampleOps).r.parked "b" = some ⟨"b", ⟨"g", "3", "4", 7, 1⟩, 1⟩ := by decide +kernel
      rw [h0] at hk; exact (Option.some.inj hk).symm
    · have h0 : (run ⟨10, 3⟩ sampleOps).r.parked k = none := by
        have h1 : run ⟨10, 3⟩ sampleOps = step ⟨10, 3⟩ (run ⟨10, 3⟩ [.add "a" ⟨"f", "1", "2", 0, 1⟩ 0]) (.add "b" ⟨"g", "3", "4", 7, 1⟩ 0) := rfl
        have h2 : scheduleExists (run ⟨10, 3⟩ [.add "a" ⟨"f", "1", "2", 0, 1⟩ 0]).r "b" = false := by decide +kernel
        have h3 : (run ⟨10, 3⟩ [.add "a" ⟨"f", "1", "2", 0, 1⟩ 0]).r.parked = fun _ => none := rfl
        rw [h1]
        generalize run ⟨10, 3⟩ [.add "a" ⟨"f", "1", "2", 0, 1⟩ 0] = s at h2 h3
        have hs : (step ⟨10, 3⟩ s (.add "b" ⟨"g", "3", "4", 7, 1⟩ 0)).r = schedulePlace s.r "b" ⟨"g", "3", "4", 7, 1⟩ false := by
          simp [step, doAdd, doSchedule, luaSchedule, h2]
        rw [hs, schedulePlace_later]
        simp only
        rw [upd_other _ _ _ _ hkb, h3]
      rw [h0] at hk; cases hk
  rw [this k h]; rfl

/-- The full statement. -/
def C57_full : Prop :=
  ∀ (cfg : Cfg) (ops : List Op) (reg : Registry) (decode : Msg → Call String) (c : Criteria String), Registered reg c.function →
    (assertScheduled decode (snapshot (knows reg) (run cfg ops).r (run cfg ops).r) c = .passes ↔
      ∃ m ∈ futureTasks (run cfg ops).r, Matches reg decode m c) ∧
    (assertNotScheduled decode (snapshot (knows reg) (run cfg ops).r (run cfg ops).r) c = .passes ↔
      ¬ ∃ m ∈ futureTasks (run cfg ops).r, Matches reg decode m c)

/-- **C57, violated**: a task scheduled under a second name of a function is not found when the
function is asked for. -/
theorem C57_violated_alias : ¬ C57_full := by
  intro h
  have := (h ⟨10, 3⟩ [.add "a" ⟨"alias", "1", "2", 0, 1⟩ 0] (fun n => if n = "f" ∨ n = "alias" then some ⟨1, "f"⟩ else none)
    sampleDecode ⟨.function ⟨1, "f"⟩, none, none, none⟩ (by simp [Registered])).1.2
    ⟨⟨"a", ⟨"alias", "1", "2", 0, 1⟩, 1⟩, by decide +kernel, by simp [IsOf], by simp, by simp, by simp⟩
  revert this
  decide +kernel

/-- **C57, violated**: one task of a function that the process has not registered makes every
assertion raise. -/
theorem C57_violated_unregistered : ¬ C57_full := by
  intro h
  have := (h ⟨10, 3⟩ [.add "a" ⟨"other", "1", "2", 0, 1⟩ 0] sampleReg sampleDecode ⟨.named "f", none, none, none⟩ trivial).2.2 (by
    rintro ⟨m, hm, hmm⟩
    have h0 : futureTasks (run ⟨10, 3⟩ [.add "a" ⟨"other", "1", "2", 0, 1⟩ 0]).r = [⟨"a", ⟨"other", "1", "2", 0, 1⟩, 1⟩] := by
      decide +kernel
    rw [h0, List.mem_singleton] at hm
    subst hm
    have := hmm.function
    simp [IsOf] at this)
  revert this
  decide +kernel

theorem manyAdds_all (cfg : Cfg) (n : Nat) :
    (run cfg (manyAdds n)).r.pending = [] ∧ ∀ e ∈ (run cfg (manyAdds n)).r.stream, e.2.req.fn = "f" := by
  induction n with
  | zero => exact ⟨rfl, by simp [manyAdds, run, runFrom]⟩
  | succ n ih =>
    obtain ⟨h1, h2⟩ := ih
    have he : manyAdds (n + 1) = manyAdds n ++ [.add (key n) ⟨"f", "", "", 0, 1⟩ 0] := by
      simp [manyAdds, List.range_succ]
    have h3 := (manyAdds_spec cfg n).2.2
    rw [he, run, runFrom_append]
    change (runFrom cfg (run cfg (manyAdds n)) _).r.pending = [] ∧ ∀ e ∈ (runFrom cfg (run cfg (manyAdds n)) _).r.stream, e.2.req.fn = "f"
    generalize run cfg (manyAdds n) = s at *
    have hx : scheduleExists s.r (key n) = false := by
      simp [scheduleExists, Redis.knownOf, Redis.stateOf, h3 n (Nat.le_refl n)]
    have hs : (runFrom cfg s [.add (key n) ⟨"f", "", "", 0, 1⟩ 0]).r = schedulePlace s.r (key n) ⟨"f", "", "", 0, 1⟩ true := by
      simp [runFrom, step, doAdd, doSchedule, luaSchedule, hx]
    rw [hs, schedulePlace_now]
    refine ⟨h1, ?_⟩
    intro e hm
    rcases List.mem_append.1 hm with hm | hm
    · exact h2 e hm
    · rw [List.mem_singleton.1 hm]

/-- **C57, violated**: behind 1000 other messages a task is not found. -/
theorem C57_violated_cap : ¬ C57_full := by
  intro h
  obtain ⟨N, hN⟩ : ∃ N : Nat, 1000 < N := ⟨1001, by decide⟩
  obtain ⟨h1, h2, h3⟩ := manyAdds_spec ⟨10, 3⟩ N
  obtain ⟨h4, h5⟩ := manyAdds_all ⟨10, 3⟩ N
  have hh := (h ⟨10, 3⟩ (manyAdds N ++ [.add (key N) ⟨"g", "", "", 0, 1⟩ 0]) sampleReg sampleDecode ⟨.named "g", none, none, none⟩ trivial).1.2
  clear h
  rw [run, runFrom_append] at hh
  change (∃ m ∈ futureTasks (runFrom ⟨10, 3⟩ (run ⟨10, 3⟩ (manyAdds N)) _).r, _) → assertScheduled sampleDecode
    (snapshot (knows sampleReg) (runFrom ⟨10, 3⟩ (run ⟨10, 3⟩ (manyAdds N)) _).r (runFrom ⟨10, 3⟩ (run ⟨10, 3⟩ (manyAdds N)) _).r) _ = _ at hh
  generalize run ⟨10, 3⟩ (manyAdds N) = s at *
  have hx : scheduleExists s.r (key N) = false := by
    simp [scheduleExists, Redis.knownOf, Redis.stateOf, h3 N (Nat.le_refl N)]
  have hs : (runFrom ⟨10, 3⟩ s [.add (key N) ⟨"g", "", "", 0, 1⟩ 0]).r = schedulePlace s.r (key N) ⟨"g", "", "", 0, 1⟩ true := by
    simp [runFrom, step, doAdd, doSchedule, luaSchedule, hx]
  have hst : ∃ e : MsgId × Msg, (runFrom ⟨10, 3⟩ s [.add (key N) ⟨"g", "", "", 0, 1⟩ 0]).r.stream = s.r.stream ++ [e] ∧ e.2.req.fn = "g" := by
    rw [hs, schedulePlace_now]; exact ⟨_, rfl, rfl⟩
  have hpe : (runFrom ⟨10, 3⟩ s [.add (key N) ⟨"g", "", "", 0, 1⟩ 0]).r.pending = [] := by
    rw [hs, schedulePlace_now]; exact h4
  have hqe : (runFrom ⟨10, 3⟩ s [.add (key N) ⟨"g", "", "", 0, 1⟩ 0]).r.queue = [] := by
    rw [hs, schedulePlace_now]; exact h2
  clear hs
  generalize (runFrom ⟨10, 3⟩ s [.add (key N) ⟨"g", "", "", 0, 1⟩ 0]).r = r at *
  obtain ⟨e, hst, heg⟩ := hst
  have hpass := hh ⟨e.2, by simp [futureTasks, hst, hpe], by simp [IsOf, heg], by simp, by simp, by simp⟩
  clear hh
  have hmsg : (firstRead r).messages = s.r.stream.take 1000 := by
    simp only [firstRead, hst]
    exact List.take_append_of_le_length (by omega)
  have hq : secondRead (firstRead r) r = [] := by simp [secondRead, firstRead, hqe]
  simp only [snapshot, assemble, hmsg, hq, List.append_nil] at hpass
  split at hpass
  · simp only [assertScheduled, judge] at hpass
    split at hpass
    · next hany =>
      obtain ⟨m, hm, hmm⟩ := List.any_eq_true.1 hany
      obtain ⟨x, hx, hxm⟩ := List.mem_filterMap.1 hm
      have hfn := h5 x (List.mem_of_mem_take hx)
      have : x.2 = m := by
        cases hho : holder (firstRead r) x.1 with
        | none => rw [hho] at hxm; exact Option.some.inj hxm
        | some w => rw [hho] at hxm; cases hxm
      subst this
      simp [matchesCriteria, Which.name, hfn] at hmm
    · cases hpass
  · cases hpass

end Docket.Testing
