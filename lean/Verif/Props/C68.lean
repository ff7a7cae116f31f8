import Verif.Worker.Poison
import Verif.Props.C46
/-
C68 One message cannot keep the others from being processed.
-/
namespace Docket.Poison

open Message

variable {A K F : Type}

/-! ## Specification -/

/-- A worker that takes the message decodes it, can show the call in its log, and the
execution ends without an error in the worker's loop. -/
def Harmless (env : Env A K F) (m : Msg) : Prop :=
  ∃ e, fromMessage env.pa env.pk env.tasks env.fallback m = .ok e ∧
    (CallRepr.callRepr (env.sig e.function) (env.call e)).isSome ∧
    (Execute.settle (env.world e)).2 = false

/-- The full property: whatever else is in the queue, some number of workers, started one
after the other, deal with every message that is harmless in itself. -/
def C68_statement : Prop :=
  ∀ (A K F : Type) (env : Env A K F) (c : Nat) (q : List Msg), ∃ n, ∀ m ∈ q, Harmless env m →
    m ∈ (fleet env c n q).done

/-! ## Proof -/

theorem harmless_iff (env : Env A K F) (m : Msg) :
    Harmless env m ↔ starts env m = true ∧ raises env m = false := by
  unfold Harmless starts raises startTask
  cases h : fromMessage env.pa env.pk env.tasks env.fallback m with
  | error e => simp [Except.toOption]
  | ok e =>
    simp only [Except.toOption, Option.isSome_some, true_and, Except.ok.injEq, exists_eq_left', runTask]
    cases CallRepr.callRepr (env.sig e.function) (env.call e) <;> simp

theorem takeWhile_all {α : Type} {p : α → Bool} {l : List α} (h : ∀ x ∈ l, p x = true) :
    l.takeWhile p = l ∧ l.dropWhile p = [] := by
  induction l with
  | nil => exact ⟨rfl, rfl⟩
  | cons a l ih =>
    obtain ⟨h1, h2⟩ := ih (fun x hx => h x (List.mem_cons_of_mem _ hx))
    simp [h a (List.mem_cons_self ..), h1, h2]

/-- One round when everything it takes can be decoded. -/
theorem round_starts (env : Env A K F) (c : Nat) (q : List Msg) (h : ∀ m ∈ q.take c, starts env m = true) :
    round env c q = { done := (q.take c).filter (fun m => !raises env m)
                      left := (q.take c).filter (raises env) ++ q.drop c
                      died := (q.take c).any (raises env) } := by
  obtain ⟨h1, h2⟩ := takeWhile_all h
  simp [round, h1, h2]

theorem life_nil (env : Env A K F) (c : Nat) : life env c [] = {} := by rw [life]

theorem life_ne (env : Env A K F) (c : Nat) {q : List Msg} (h : q ≠ []) :
    life env c q = if (round env (c + 1) q).died then round env (c + 1) q
      else { life env c (q.drop (c + 1)) with done := (round env (c + 1) q).done ++ (life env c (q.drop (c + 1))).done } := by
  cases q with
  | nil => exact absurd rfl h
  | cons m ms => rw [life]

/-- **C68, partial**: if every message in the queue is harmless, one worker, of whatever
concurrency, deals with all of them, each once and in order, and no error ends it. -/
theorem C68_all_processed_partial (env : Env A K F) (c : Nat) (q : List Msg) (h : ∀ m ∈ q, Harmless env m) :
    (life env c q).done = q ∧ (life env c q).left = [] ∧ (life env c q).died = false := by
  induction hn : q.length using Nat.strongRecOn generalizing q with
  | ind n ih =>
    by_cases hq : q = []
    · subst hq; rw [life_nil]; exact ⟨rfl, rfl, rfl⟩
    · have hr := round_starts env (c + 1) q (fun m hm => ((harmless_iff env m).1 (h m (List.mem_of_mem_take hm))).1)
      have hno : ∀ m ∈ q.take (c + 1), raises env m = false :=
        fun m hm => ((harmless_iff env m).1 (h m (List.mem_of_mem_take hm))).2
      have hd : (round env (c + 1) q).died = false := by
        rw [hr]; simp only [List.any_eq_false]; intro m hm; simp [hno m hm]
      have hdone : (round env (c + 1) q).done = q.take (c + 1) := by
        rw [hr]; simp only [List.filter_eq_self]; intro m hm; simp [hno m hm]
      have hlen : (q.drop (c + 1)).length < n := by
        have : 0 < q.length := List.length_pos_iff.2 hq
        simp only [List.length_drop]; omega
      obtain ⟨h1, h2, h3⟩ := ih _ hlen (q.drop (c + 1)) (fun m hm => h m (List.mem_of_mem_drop hm)) rfl
      rw [life_ne env c hq, hd]
      simp only [Bool.false_eq_true, if_false, hdone, h1, h2, h3, List.take_append_drop, and_self]

/-- What one worker leaves when everything can be decoded. -/
theorem life_spec (env : Env A K F) (c : Nat) (q : List Msg) (h : ∀ m ∈ q, starts env m = true) :
    ((life env c q).done ++ (life env c q).left.filter (fun m => !raises env m)).Perm
        (q.filter (fun m => !raises env m)) ∧
      (life env c q).left.filter (raises env) = q.filter (raises env) ∧
      (∀ m ∈ (life env c q).left, m ∈ q) := by
  induction hn : q.length using Nat.strongRecOn generalizing q with
  | ind n ih =>
    by_cases hq : q = []
    · subst hq; rw [life_nil]; simp
    · have hr := round_starts env (c + 1) q (fun m hm => h m (List.mem_of_mem_take hm))
      have hsplit : ∀ p : Msg → Bool, q.filter p = (q.take (c + 1)).filter p ++ (q.drop (c + 1)).filter p := by
        intro p; rw [← List.filter_append, List.take_append_drop]
      rw [life_ne env c hq]
      cases hd : (round env (c + 1) q).died with
      | true =>
        simp only [if_true]
        rw [hr]
        have hn1 : ((q.take (c + 1)).filter (raises env)).filter (fun m => !raises env m) = [] := by
          simp only [List.filter_filter, List.filter_eq_nil_iff]; intro m _; simp
        have hn2 : ((q.take (c + 1)).filter (raises env)).filter (raises env) = (q.take (c + 1)).filter (raises env) := by
          simp [List.filter_filter]
        refine ⟨?_, ?_, ?_⟩
        · rw [List.filter_append, hn1, List.nil_append, hsplit]
        · rw [List.filter_append, hn2, ← hsplit]
        · intro m hm
          rcases List.mem_append.1 hm with hm | hm
          · exact List.mem_of_mem_take (List.mem_filter.1 hm).1
          · exact List.mem_of_mem_drop hm
      | false =>
        have hlen : (q.drop (c + 1)).length < n := by
          have : 0 < q.length := List.length_pos_iff.2 hq
          simp only [List.length_drop]; omega
        obtain ⟨h1, h2, h3⟩ := ih _ hlen (q.drop (c + 1)) (fun m hm => h m (List.mem_of_mem_drop hm)) rfl
        simp only [Bool.false_eq_true, if_false]
        have hno : (q.take (c + 1)).filter (raises env) = [] := by
          rw [hr] at hd
          simp only [List.any_eq_false] at hd
          simp only [List.filter_eq_nil_iff]
          exact hd
        refine ⟨?_, ?_, fun m hm => List.mem_of_mem_drop (h3 m hm)⟩
        · rw [hsplit, hr, List.append_assoc]
          exact h1.append_left _
        · rw [h2, hsplit, hno, List.nil_append]

/-- One worker deals with at least one harmless message, if there is one, as long as the
others fit into its concurrency. -/
theorem life_progress (env : Env A K F) (c : Nat) (q : List Msg) (h : ∀ m ∈ q, starts env m = true)
    (hc : (q.filter (raises env)).length ≤ c) (hex : q.filter (fun m => !raises env m) ≠ []) :
    (life env c q).done ≠ [] := by
  have hq : q ≠ [] := by rintro rfl; exact hex rfl
  have hr := round_starts env (c + 1) q (fun m hm => h m (List.mem_of_mem_take hm))
  have hne : (round env (c + 1) q).done ≠ [] := by
    rw [hr]
    intro hnil
    simp only [List.filter_eq_nil_iff, Bool.not_eq_true, Bool.not_eq_false'] at hnil
    by_cases hl : q.length ≤ c + 1
    · apply hex
      rw [List.take_of_length_le hl] at hnil
      simp only [List.filter_eq_nil_iff, Bool.not_eq_true, Bool.not_eq_false']
      exact hnil
    · have h1 : (q.take (c + 1)).filter (raises env) = q.take (c + 1) := by
        simp only [List.filter_eq_self]; exact hnil
      have h2 : (q.take (c + 1)).length ≤ (q.filter (raises env)).length := by
        rw [← h1]
        exact ((List.take_sublist _ _).filter _).length_le
      rw [List.length_take] at h2
      omega
  rw [life_ne env c hq]
  cases (round env (c + 1) q).died with
  | true => exact hne
  | false => simp only [Bool.false_eq_true, if_false]; simp [hne]

/-- **C68, partial**: if every message can be decoded and fewer messages raise into the loop
than a worker takes at a time (`concurrency`), then as many workers as there are messages
deal with every harmless message exactly once, and exactly the others are left. -/
theorem C68_others_processed_partial (env : Env A K F) (concurrency : Nat) (q good poison : List Msg)
    (hq : q.Perm (good ++ poison))
    (hdec : ∀ m ∈ q, ∃ e, fromMessage env.pa env.pk env.tasks env.fallback m = .ok e)
    (hgood : ∀ m ∈ good, Harmless env m) (hbad : ∀ m ∈ poison, ¬ Harmless env m)
    (hc : poison.length < concurrency) (n : Nat) (hn : q.length ≤ n) :
    (fleet env (concurrency - 1) n q).done.Perm good ∧ (fleet env (concurrency - 1) n q).left.Perm poison := by
  obtain ⟨c, rfl⟩ : ∃ c, concurrency = c + 1 := ⟨concurrency - 1, by omega⟩
  rw [Nat.add_sub_cancel]
  have hst : ∀ m ∈ q, starts env m = true := by
    intro m hm
    obtain ⟨e, he⟩ := hdec m hm
    simp [starts, startTask, he, Except.toOption]
  have hg : ∀ m ∈ good, raises env m = false := fun m hm => ((harmless_iff env m).1 (hgood m hm)).2
  have hb : ∀ m ∈ poison, raises env m = true := by
    intro m hm
    cases hr : raises env m with
    | true => rfl
    | false =>
      exact absurd ((harmless_iff env m).2 ⟨hst m (hq.mem_iff.2 (List.mem_append_right _ hm)), hr⟩) (hbad m hm)
  have key : ∀ (n : Nat) (q : List Msg), (∀ m ∈ q, starts env m = true) → (q.filter (raises env)).length ≤ c →
      (q.filter (fun m => !raises env m)).length ≤ n →
      (fleet env c n q).left.filter (raises env) = q.filter (raises env) ∧
      (fleet env c n q).left.filter (fun m => !raises env m) = [] ∧
      (fleet env c n q).done.Perm (q.filter (fun m => !raises env m)) := by
    intro n
    induction n with
    | zero =>
      intro q _ _ h3
      have : q.filter (fun m => !raises env m) = [] := List.length_eq_zero_iff.1 (by omega)
      exact ⟨rfl, this, by rw [this]; exact .nil⟩
    | succ n ih =>
      intro q h1 h2 h3
      obtain ⟨a, b, d⟩ := life_spec env c q h1
      have hlen := a.length_eq
      rw [List.length_append] at hlen
      have hle : ((life env c q).left.filter (fun m => !raises env m)).length ≤ n := by
        by_cases hex : q.filter (fun m => !raises env m) = []
        · rw [hex] at hlen; simp only [List.length_nil] at hlen; omega
        · have := List.length_pos_iff.2 (life_progress env c q h1 h2 hex)
          omega
      obtain ⟨e1, e2, e3⟩ := ih (life env c q).left (fun m hm => h1 m (d m hm)) (by rw [b]; exact h2) hle
      refine ⟨by rw [fleet]; exact e1.trans b, by rw [fleet]; exact e2, ?_⟩
      rw [fleet]
      exact (e3.append_left _).trans a
  have p1 : (q.filter (raises env)).Perm poison := by
    have := hq.filter (raises env)
    have h1 : good.filter (raises env) = [] := List.filter_eq_nil_iff.2 (by intro m hm; simp [hg m hm])
    rw [List.filter_append, h1, List.filter_eq_self.2 hb, List.nil_append] at this
    exact this
  have p2 : (q.filter (fun m => !raises env m)).Perm good := by
    have := hq.filter (fun m => !raises env m)
    have h1 : good.filter (fun m => !raises env m) = good := List.filter_eq_self.2 (by intro m hm; simp [hg m hm])
    have h2 : poison.filter (fun m => !raises env m) = [] := List.filter_eq_nil_iff.2 (by intro m hm; simp [hb m hm])
    rw [List.filter_append, h1, h2, List.append_nil] at this
    exact this
  obtain ⟨k1, k2, k3⟩ := key n q hst (by rw [p1.length_eq]; omega)
    (Nat.le_trans (List.length_filter_le ..) hn)
  refine ⟨k3.trans p2, ?_⟩
  have hself : (fleet env c n q).left.filter (raises env) = (fleet env c n q).left := by
    rw [List.filter_eq_self]
    intro m hm
    have := List.filter_eq_nil_iff.1 k2 m hm
    simpa using this
  rw [hself] at k1
  rw [k1]
  exact p1

/-- An execution whose handlers do not raise, and whose exception can be stored or need not
be, does not raise into the loop, whatever its dependencies and its body do. -/
theorem settle_contained (w : Execute.World) (h1 : ∀ v x, w.onFailure v ≠ .raised x)
    (h2 : ∀ v e x, w.handleFailure v e ≠ .raised x) (h3 : w.ttl = true → w.storeErrorFails = none) :
    (Execute.settle w).2 = false := by
  have hrec : ∀ e, (Execute.recordFailure w).2 ≠ .propagated e := by
    intro e
    unfold Execute.recordFailure
    cases ht : w.ttl with
    | false => simp
    | true => simp [h3 ht]
  have hnot : ∀ args e, (Execute.notRetried w args).2 ≠ .propagated e := by
    intro args e
    unfold Execute.notRetried
    split
    · exact hrec e
    · rename_i v _
      split
      · rename_i x hx; exact absurd hx (h1 v x)
      · exact hrec e
  have hon : ∀ args e x, (Execute.onError w args e).2 ≠ .propagated x := by
    intro args e x
    unfold Execute.onError
    split
    · exact hnot args x
    · rename_i v _
      split
      · simp
      · rename_i y hy; exact absurd hy (h2 v e y)
      · exact hnot args x
  have hout : ∀ args o x, (Execute.outer w args o).2 ≠ .propagated x := by
    intro args o x
    cases o with
    | done => simp [Execute.outer]
    | cancelled => simp [Execute.outer]
    | raised e =>
      cases e with
      | blocked a b => simp [Execute.outer]
      | other y => exact hon _ _ _
  have hex : ∀ x, (Execute.execute w).2 ≠ .propagated x := by
    intro x
    unfold Execute.execute
    split
    · simp
    · split
      · simp
      · exact hout _ _ x
  unfold Execute.settle
  split <;> first | rfl | (rename_i x hx; exact absurd hx (hex x))

theorem allSome_of {α : Type} {l : List (Option α)} (h : ∀ x ∈ l, x.isSome) : (CallRepr.allSome l).isSome := by
  induction l with
  | nil => rfl
  | cons a l ih =>
    have ha := h a (List.mem_cons_self ..)
    cases a with
    | none => cases ha
    | some a =>
      simp only [CallRepr.allSome, Option.isSome_map]
      exact ih (fun x hx => h x (List.mem_cons_of_mem _ hx))

theorem format_isSome {b : Bool} {v : CallRepr.Val} (h : v.repr.isSome) : (CallRepr.format b v).isSome := by
  unfold CallRepr.format
  split
  · split <;> first | rfl | exact h
  · exact h

/-- **C68**: what makes a message harmless, in terms of the task: its arguments can be
unpickled, the name is registered (or there is a fallback), its parameters' defaults can be
hashed and its arguments' `repr` does not raise, and its failure handlers do not raise and
its exception can be stored or results are not kept.  Nothing is asked of the task's body,
its dependencies or their exits. -/
theorem C68_when_harmless (env : Env A K F) (e : Execution A K F) (f : F) (extra : Msg)
    (ha : env.pa.Loads e.args) (hk : env.pk.Loads e.kwargs) (hw : e.when.Valid)
    (hf : env.tasks e.functionName = some f ∨ env.tasks e.functionName = none ∧ env.fallback = some f)
    (hhash : ∀ p ∈ (env.sig f).params, p.hashable = true)
    (hargs : ∀ v ∈ (env.call { e with function := f }).args, v.repr.isSome)
    (hkwargs : ∀ x ∈ (env.call { e with function := f }).kwargs, x.2.repr.isSome)
    (hcomplete : ∀ v x, (env.world { e with function := f }).onFailure v ≠ .raised x)
    (hretry : ∀ v y x, (env.world { e with function := f }).handleFailure v y ≠ .raised x)
    (hstore : (env.world { e with function := f }).ttl = true →
      (env.world { e with function := f }).storeErrorFails = none) :
    Harmless env (asMessage env.pa env.pk e ++ extra) := by
  have hres : resolve env.tasks env.fallback e.functionName = some f := by
    rcases hf with h | ⟨h, h'⟩
    · simp only [resolve, h]
    · simp only [resolve, h, h']
  refine ⟨{ e with function := f }, ?_, ?_, settle_contained _ hcomplete hretry hstore⟩
  · exact fromMessage_of_fields ha hk hw e.generation hres (field_append rfl) (field_append rfl) (field_append rfl)
      (field_append rfl) (field_append rfl) (field_append rfl) (field_append rfl)
  · have hall : (env.sig f).params.all (·.hashable) = true := List.all_eq_true.2 hhash
    simp only [CallRepr.callRepr, hall, if_true, Option.isSome_map]
    apply allSome_of
    intro x hx
    rcases List.mem_append.1 hx with hx | hx
    · obtain ⟨⟨p, v⟩, hpv, rfl⟩ := List.mem_map.1 hx
      have := hargs v (List.of_mem_zip hpv).2
      unfold CallRepr.posPart
      split
      · exact format_isSome this
      · rfl
    · obtain ⟨⟨k, v⟩, hkv, rfl⟩ := List.mem_map.1 hx
      unfold CallRepr.kwPart
      split
      · rw [Option.isSome_map]; exact format_isSome (hkwargs _ hkv)
      · rfl

/-! ## Where the code disagrees -/

theorem fleet_stuck (env : Env A K F) (c : Nat) (q : List Msg)
    (h : (life env c q).done = [] ∧ (life env c q).left = q) (n : Nat) :
    (fleet env c n q).done = [] ∧ (fleet env c n q).left = q := by
  induction n with
  | zero => exact ⟨rfl, rfl⟩
  | succ n ih => rw [fleet, h.1, h.2]; exact ih

/-- **C68 is violated** by a message that cannot be decoded (say its arguments are of a class
that has been renamed): `from_message` raises in the worker's loop (worker.py:669-680), which
ends the worker; the message stays pending, and the next worker takes it first.  However
many workers follow, of whatever concurrency, none of the messages behind it is ever
dealt with. -/
theorem C68_violated_undecodable (env : Env A K F) (m : Msg) (q : List Msg) (err : Error)
    (h : fromMessage env.pa env.pk env.tasks env.fallback m = .error err) (concurrency workers : Nat) :
    (fleet env concurrency workers (m :: q)).done = [] ∧ (fleet env concurrency workers (m :: q)).left = m :: q := by
  have hs : starts env m = false := by simp [starts, startTask, h, Except.toOption]
  apply fleet_stuck
  rw [life_ne _ _ (by simp)]
  simp [round, hs]

/-- **C68 is violated** by executions that raise into the loop, as soon as there are as many
of them at the front as a worker takes at a time: they are redelivered and taken first by
every later worker. -/
theorem C68_violated_raising (env : Env A K F) (poison q : List Msg)
    (hdec : ∀ m ∈ poison, ∃ e, fromMessage env.pa env.pk env.tasks env.fallback m = .ok e)
    (hbad : ∀ m ∈ poison, ¬ Harmless env m) (concurrency : Nat) (h0 : 0 < concurrency)
    (hc : concurrency ≤ poison.length) (workers : Nat) :
    (fleet env (concurrency - 1) workers (poison ++ q)).done = [] ∧
    (fleet env (concurrency - 1) workers (poison ++ q)).left = poison ++ q := by
  obtain ⟨c, rfl⟩ : ∃ c, concurrency = c + 1 := ⟨concurrency - 1, by omega⟩
  rw [Nat.add_sub_cancel]
  have hst : ∀ m ∈ poison, starts env m = true := by
    intro m hm
    obtain ⟨e, he⟩ := hdec m hm
    simp [starts, startTask, he, Except.toOption]
  have hb : ∀ m ∈ poison, raises env m = true := by
    intro m hm
    cases hr : raises env m with
    | true => rfl
    | false => exact absurd ((harmless_iff env m).2 ⟨hst m hm, hr⟩) (hbad m hm)
  have hne : poison ++ q ≠ [] := by
    intro he
    rw [List.append_eq_nil_iff] at he
    rw [he.1] at hc
    simp only [List.length_nil] at hc
    omega
  have htake : (poison ++ q).take (c + 1) = poison.take (c + 1) := List.take_append_of_le_length hc
  have hr := round_starts env (c + 1) (poison ++ q)
    (by rw [htake]; exact fun m hm => hst m (List.mem_of_mem_take hm))
  have hall : ∀ m ∈ poison.take (c + 1), raises env m = true := fun m hm => hb m (List.mem_of_mem_take hm)
  have hd : (round env (c + 1) (poison ++ q)).died = true := by
    rw [hr, htake]
    simp only [List.any_eq_true]
    cases hp : poison with
    | nil => rw [hp] at hc; simp only [List.length_nil] at hc; omega
    | cons m ms => exact ⟨m, by simp, hb m (by rw [hp]; simp)⟩
  apply fleet_stuck
  rw [life_ne _ _ hne, hd, if_pos rfl, hr]
  simp only
  constructor
  · rw [htake, List.filter_eq_nil_iff]; intro m hm; simp [hall m hm]
  · have : ((poison ++ q).take (c + 1)).filter (raises env) = (poison ++ q).take (c + 1) := by
      rw [htake, List.filter_eq_self]; exact hall
    rw [this, List.take_append_drop]

/-! ## A queue -/

/-- Loading `Missing()` fails: its class is not there any more. -/
def lossyPickle : Pickle Text := ⟨encode, fun b => (decode b).filter (fun t => t ≠ t!"Missing()")⟩

/-- A worker that knows the tasks `run`, `hooked` (whose failure handler raises) and `listed`
(a default that cannot be hashed). -/
def sampleEnv : Env Text Text Text where
  pa := lossyPickle
  pk := lossyPickle
  tasks := fun n => if n = t!"run" ∨ n = t!"hooked" ∨ n = t!"listed" then some n else none
  fallback := none
  sig := fun f => { pos := [{ name := t!"x", hashable := decide (f ≠ t!"listed") }] }
  call := fun e => { fn := e.functionName, key := e.key, args := [{ size := .unsized, repr := some t!"1" }], kwargs := [] }
  world := fun e => {
    func := { positional := ["x"], params := [("retry", .dep { opens := [], entered := .value { name := "retry", failure := true } })], annotations := [] }
    body := fun _ => .raised (.other "ValueError")
    handleFailure := fun _ _ => if e.function = t!"hooked" then .raised (.other "TypeError") else .notHandled }

def sampleMessage (key name args : Text) : Msg :=
  asMessage lossyPickle lossyPickle
    { key := key, when := sampleTime, function := name, functionName := name, args := args, kwargs := t!"{}", attempt := 1, generation := 1 }

theorem lossy_loads {t : Text} (h : t ≠ t!"Missing()") : lossyPickle.Loads t := by
  constructor
  show Option.filter _ (decode (encode t)) = some t
  rw [decode_encode]
  simp [h]

theorem sample_decodes (key name args : Text) (hn : sampleEnv.tasks name = some name) (ha : args ≠ t!"Missing()") :
    fromMessage sampleEnv.pa sampleEnv.pk sampleEnv.tasks sampleEnv.fallback (sampleMessage key name args) =
      .ok { key := key, when := sampleTime, function := name, functionName := name, args := args, kwargs := t!"{}", attempt := 1, generation := 1 } := by
  have := C46_round_trip sampleEnv.pa sampleEnv.pk sampleEnv.tasks sampleEnv.fallback
    { key := key, when := sampleTime, function := name, functionName := name, args := args, kwargs := t!"{}", attempt := 1, generation := 1 }
    (lossy_loads ha) (lossy_loads (show t!"{}" ≠ t!"Missing()" by decide)) (show sampleTime.Valid by decide) hn []
  rw [List.append_nil] at this
  exact this

/-- The task that just fails is harmless. -/
theorem sample_harmless : Harmless sampleEnv (sampleMessage t!"c" t!"run" t!"(1,)") :=
  ⟨_, sample_decodes t!"c" t!"run" t!"(1,)" (by decide) (by decide), by decide +kernel, by decide +kernel⟩

/-- The one whose failure handler raises, and the one with a default that cannot be hashed,
are not. -/
theorem sample_hooked : ¬ Harmless sampleEnv (sampleMessage t!"a" t!"hooked" t!"(1,)") := by
  rintro ⟨e, he, _, h⟩
  rw [sample_decodes t!"a" t!"hooked" t!"(1,)" (by decide) (by decide)] at he
  injection he with he
  subst he
  revert h
  decide +kernel

theorem sample_listed : ¬ Harmless sampleEnv (sampleMessage t!"b" t!"listed" t!"(1,)") := by
  rintro ⟨e, he, h, _⟩
  rw [sample_decodes t!"b" t!"listed" t!"(1,)" (by decide) (by decide)] at he
  injection he with he
  subst he
  revert h
  decide +kernel

theorem sample_missing (key : Text) :
    fromMessage sampleEnv.pa sampleEnv.pk sampleEnv.tasks sampleEnv.fallback (sampleMessage key t!"run" t!"Missing()") =
      .error .malformed := by
  have m3 : Msg.field (sampleMessage key t!"run" t!"Missing()") t!"function" = some (encode t!"run") := rfl
  have m4 : Msg.field (sampleMessage key t!"run" t!"Missing()") t!"args" = some (encode t!"Missing()") := rfl
  have hl : sampleEnv.pa.loads (encode t!"Missing()") = none := by
    show (decode (encode t!"Missing()")).filter (fun t => t ≠ t!"Missing()") = none
    rw [decode_encode]
    decide
  have hr : resolve sampleEnv.tasks sampleEnv.fallback t!"run" = some t!"run" := by decide
  simp only [fromMessage, m3, m4, Option.bind_some, decode_encode, hr, hl]

/-- **C68 is violated**: a task waits behind one whose arguments cannot be loaded. -/
theorem C68_violated : ¬ C68_statement := by
  intro h
  obtain ⟨n, hn⟩ := h Text Text Text sampleEnv 9
    [sampleMessage t!"a" t!"run" t!"Missing()", sampleMessage t!"c" t!"run" t!"(1,)"]
  have := hn (sampleMessage t!"c" t!"run" t!"(1,)") (by simp) sample_harmless
  rw [(C68_violated_undecodable sampleEnv _ _ _ (sample_missing t!"a") 9 n).1] at this
  cases this

/-- The conditions of the theorems, in a queue of three tasks with two that raise into the
loop, for workers with concurrency 3. -/
example : (fleet sampleEnv 2 3 [sampleMessage t!"a" t!"hooked" t!"(1,)", sampleMessage t!"b" t!"listed" t!"(1,)",
      sampleMessage t!"c" t!"run" t!"(1,)"]).done.Perm [sampleMessage t!"c" t!"run" t!"(1,)"] := by
  refine (C68_others_processed_partial sampleEnv 3 _ [sampleMessage t!"c" t!"run" t!"(1,)"]
    [sampleMessage t!"a" t!"hooked" t!"(1,)", sampleMessage t!"b" t!"listed" t!"(1,)"] ?_ ?_ ?_ ?_ (by decide) 3 (by decide)).1
  · exact (List.perm_append_comm (l₁ := [sampleMessage t!"a" t!"hooked" t!"(1,)", sampleMessage t!"b" t!"listed" t!"(1,)"]))
  · intro m hm
    simp only [List.mem_cons, List.not_mem_nil, or_false] at hm
    rcases hm with rfl | rfl | rfl
    · exact ⟨_, sample_decodes _ _ _ (by decide) (by decide)⟩
    · exact ⟨_, sample_decodes _ _ _ (by decide) (by decide)⟩
    · exact ⟨_, sample_decodes _ _ _ (by decide) (by decide)⟩
  · intro m hm
    simp only [List.mem_cons, List.not_mem_nil, or_false] at hm
    subst hm
    exact sample_harmless
  · intro m hm
    simp only [List.mem_cons, List.not_mem_nil, or_false] at hm
    rcases hm with rfl | rfl
    · exact sample_hooked
    · exact sample_listed

end Docket.Poison

namespace Docket.CallRepr

theorem allSome_none {α : Type} {l : List (Option α)} (h : none ∈ l) : allSome l = none := by
  induction l with
  | nil => cases h
  | cons a l ih =>
    cases a with
    | none => rfl
    | some a =>
      rcases List.mem_cons.1 h with h | h
      · cases h
      · simp [allSome, ih h]

/-- **C68**: conversely a logged argument whose `repr` raises makes the description of the call
raise, and with it the execution. -/
theorem C68_when_raising (s : Sig) (c : Call) :
    (∀ (i : Nat) (p : Param) (v : Val), s.params[i]? = some p → c.args[i]? = some v → s.loggedGet p.name = some false →
      v.repr = none → callRepr s c = none) ∧
    ∀ n v, (n, v) ∈ c.kwargs → s.loggedGet n = some false → v.repr = none → callRepr s c = none := by
  constructor
  · intro i p v hp hv hl hr
    unfold callRepr
    split
    · rw [allSome_none]
      · rfl
      · refine List.mem_append_left _ (List.mem_map.2 ⟨(p, v), List.mem_of_getElem? (i := i) ?_, ?_⟩)
        · rw [List.getElem?_zip_eq_some]; exact ⟨hp, hv⟩
        · simp [posPart, hl, format, hr]
    · rfl
  · intro n v hm hl hr
    unfold callRepr
    split
    · rw [allSome_none]
      · rfl
      · refine List.mem_append_right _ (List.mem_map.2 ⟨(n, v), hm, ?_⟩)
        simp [kwPart, hl, format, hr]
    · rfl

example : callRepr ⟨[⟨t!"x", false, [.logged false], true⟩], none, [], none⟩ ⟨t!"f", t!"k", [⟨.unsized, none⟩], []⟩ = none :=
  (C68_when_raising _ _).1 0 _ _ rfl rfl rfl rfl

end Docket.CallRepr
