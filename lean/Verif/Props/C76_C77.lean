import Verif.Strikes.Monitor
import Verif.Props.C26_C30
/-
C76: which strikes a process obeys from its first task on.
C77: the number of strikes in effect.
-/
namespace Docket.Strikes.Monitor
open Docket.Strikes

/-! ### The monitor, one reply at a time -/

/-- The effect of applying instructions. -/
def Node.applyAll (n : Node) (is : List Instr) : Node :=
  { n with
    st := replay n.st is
    gauge := n.gauge + (is.map (fun i => if i.restore then (-1 : Int) else 1)).sum
    applied := n.applied ++ is }

theorem process_spec (b : List (Option Instr)) : ∀ n : Node, ∃ is, (process n b).1 = n.applyAll is ∧
    (((process n b).2 = true ∧ b = is.map some) ∨
     ((process n b).2 = false ∧ ∃ rest, b = is.map some ++ none :: rest)) := by
  induction b with
  | nil =>
    intro n
    exact ⟨[], by simp [process, Node.applyAll, replay], Or.inl ⟨rfl, rfl⟩⟩
  | cons m b ih =>
    intro n
    cases m with
    | none => exact ⟨[], by simp [process, Node.applyAll, replay], Or.inr ⟨rfl, b, rfl⟩⟩
    | some i =>
      obtain ⟨is, h1, h2⟩ := ih { n with
        st := update n.st i
        gauge := n.gauge + (if i.restore then -1 else 1)
        applied := n.applied ++ [i] }
      refine ⟨i :: is, ?_, ?_⟩
      · simp only [process]
        rw [h1]
        simp [Node.applyAll, replay, Int.add_assoc]
      · simp only [process]
        rcases h2 with ⟨h2, rfl⟩ | ⟨h2, rest, rfl⟩
        · exact Or.inl ⟨h2, rfl⟩
        · exact Or.inr ⟨h2, rest, rfl⟩

/-- The four things an answered XREAD can do. -/
inductive Reads (n : Node) : Node → Prop
  | loads (h : n.stream.drop n.pos = []) (hi : n.initial = false) :
      Reads n { n with initial := true, loaded := true }
  | idle (h : n.stream.drop n.pos = []) (hi : n.initial = true) : Reads n n
  | batch (is : List Instr) (h : (n.stream.drop n.pos).take 100 = is.map some) (hne : is ≠ []) :
      Reads n { n.applyAll is with pos := n.pos + is.length }
  | stuck (is : List Instr) (rest : List (Option Instr))
      (h : (n.stream.drop n.pos).take 100 = is.map some ++ none :: rest) : Reads n (n.applyAll is)

theorem take_hundred_nil {α : Type} {l : List α} (h : l.take 100 = []) : l = [] := by
  cases l with
  | nil => rfl
  | cons a l => simp at h

theorem readStrikes_reads (n : Node) : Reads n (readStrikes n) := by
  unfold readStrikes
  generalize hb : (n.stream.drop n.pos).take 100 = b
  cases b with
  | nil =>
    have h := take_hundred_nil hb
    cases hi : n.initial with
    | false => exact .loads h hi
    | true => exact .idle h hi
  | cons m ms =>
    obtain ⟨is, h1, h2⟩ := process_spec (m :: ms) n
    simp only
    rcases h2 with ⟨h2, h3⟩ | ⟨h2, rest, h3⟩
    · rw [h2, h1]
      rw [h3] at hb ⊢
      simp only [if_true, List.length_map]
      exact .batch is hb (by rintro rfl; cases h3)
    · rw [h2, h1]
      rw [h3] at hb
      exact .stuck is rest hb

theorem run_append (a : Bool) (n : Node) (x y : List Ev) :
    n.run a (x ++ y) = (n.run a x).run a y := by simp [Node.run]

theorem run_concat (a : Bool) (n : Node) (x : List Ev) (e : Ev) :
    n.run a (x ++ [e]) = (n.run a x).step a e := by simp [Node.run]

/-- The stream only grows. -/
theorem step_stream (a : Bool) (n : Node) (e : Ev) : n.stream <+: (n.step a e).stream := by
  cases e with
  | other m => exact List.prefix_append _ _
  | send i => exact List.prefix_append _ _
  | sent => simp only [Node.step]; split <;> exact List.prefix_refl _
  | read =>
    simp only [Node.step]
    have h := readStrikes_reads n
    generalize readStrikes n = n' at h
    cases h <;> exact List.prefix_refl _
  | readFails => exact List.prefix_refl _
  | start => simp only [Node.step]; split <;> exact List.prefix_refl _
  | add c => exact List.prefix_refl _
  | execute c => simp only [Node.step]; split <;> exact List.prefix_refl _

theorem run_stream (a : Bool) (n : Node) (evs : List Ev) : n.stream <+: (n.run a evs).stream := by
  refine list_snoc (P := fun evs => n.stream <+: (n.run a evs).stream) (List.prefix_refl _) ?_ evs
  intro l e ih
  rw [run_concat]
  exact ih.trans (step_stream a _ e)

/-- Where the monitor is. -/
structure MonInv (stream0 : List (Option Instr)) (n : Node) : Prop where
  /-- the stream has grown -/
  grown : stream0 <+: n.stream
  bound : n.pos ≤ n.stream.length
  /-- the event and the flag agree -/
  flag : n.loaded = n.initial
  /-- whatever is undecodable lies ahead, else everything was applied once and in order -/
  order : (n.applied.map some = n.stream.take n.pos) ∨ none ∈ n.stream.drop n.pos
  /-- everything up to the position was decoded and applied -/
  done : ∀ m ∈ n.stream.take n.pos, ∃ i ∈ n.applied, m = some i
  /-- after the initial load everything from before the connection is behind, in order -/
  load : n.loaded = true → stream0.length ≤ n.pos ∧ stream0 <+: n.applied.map some

theorem MonInv.init (stream0 : List (Option Instr)) : MonInv stream0 (connect stream0) :=
  ⟨List.prefix_refl _, Nat.zero_le _, rfl, Or.inl rfl, by simp [connect], by simp [connect]⟩

theorem drop_prefix {α : Type} {a b : List α} (h : a <+: b) (p : Nat) {x : α} (hx : x ∈ a.drop p) :
    x ∈ b.drop p := by
  obtain ⟨c, rfl⟩ := h
  rw [List.drop_append]
  exact List.mem_append_left _ hx

theorem take_prefix {α : Type} {a b : List α} (h : a <+: b) {p : Nat} (hp : p ≤ a.length) :
    b.take p = a.take p := by
  obtain ⟨c, rfl⟩ := h
  exact List.take_append_of_le_length hp

/-- An event that leaves the monitor alone. -/
theorem MonInv.keep {stream0 : List (Option Instr)} {n n' : Node} (h : MonInv stream0 n)
    (hs : n.stream <+: n'.stream) (hp : n'.pos = n.pos) (hi : n'.initial = n.initial)
    (hl : n'.loaded = n.loaded) (ha : n'.applied = n.applied) : MonInv stream0 n' := by
  refine ⟨h.grown.trans hs, ?_, by rw [hl, hi, h.flag], ?_, ?_, ?_⟩
  · rw [hp]; exact Nat.le_trans h.bound hs.length_le
  · rw [ha, hp, take_prefix hs h.bound]
    rcases h.order with ho | ho
    · exact Or.inl ho
    · exact Or.inr (drop_prefix hs _ ho)
  · rw [ha, hp, take_prefix hs h.bound]; exact h.done
  · rw [hl, hp, ha]; exact h.load

theorem MonInv.step {stream0 : List (Option Instr)} {n : Node} (h : MonInv stream0 n) (a : Bool) (e : Ev) :
    MonInv stream0 (n.step a e) := by
  have hs := step_stream a n e
  cases e with
  | other m => exact h.keep hs rfl rfl rfl rfl
  | send i => exact h.keep hs rfl rfl rfl rfl
  | sent => simp only [Node.step] at *; split <;> exact h.keep (by simp) rfl rfl rfl rfl
  | readFails => exact h.keep hs rfl rfl rfl rfl
  | start => simp only [Node.step] at *; split <;> exact h.keep (by simp) rfl rfl rfl rfl
  | add c => exact h.keep hs rfl rfl rfl rfl
  | execute c => simp only [Node.step] at *; split <;> exact h.keep (by simp) rfl rfl rfl rfl
  | read =>
    simp only [Node.step]
    have hr := readStrikes_reads n
    generalize readStrikes n = n' at hr
    cases hr with
    | idle => exact h
    | loads hd hi =>
      refine ⟨h.grown, h.bound, rfl, h.order, h.done, fun _ => ?_⟩
      have hlen : n.stream.length ≤ n.pos := List.drop_eq_nil_iff.1 hd
      refine ⟨Nat.le_trans h.grown.length_le hlen, ?_⟩
      rcases h.order with ho | ho
      · show stream0 <+: n.applied.map some
        rw [ho, List.take_of_length_le hlen]; exact h.grown
      · rw [hd] at ho; cases ho
    | batch is hb hne =>
      have hlen : is.length = ((n.stream.drop n.pos).take 100).length := by rw [hb, List.length_map]
      have htake : n.stream.take (n.pos + is.length) = n.stream.take n.pos ++ is.map some := by
        rw [hlen, ← take_drop_add, hb]
      refine ⟨h.grown, ?_, h.flag, ?_, ?_, ?_⟩
      · show n.pos + is.length ≤ n.stream.length
        rw [hlen, List.length_take, List.length_drop]
        have := h.bound
        omega
      · show (n.applied ++ is).map some = n.stream.take (n.pos + is.length) ∨ none ∈ n.stream.drop (n.pos + is.length)
        rcases h.order with ho | ho
        · left; rw [htake, List.map_append, ho]
        · right
          have hsplit : n.stream.drop n.pos = is.map some ++ n.stream.drop (n.pos + is.length) := by
            rw [← hb, ← List.drop_drop, hlen, List.length_take]
            conv => lhs; rw [← List.take_append_drop 100 (n.stream.drop n.pos)]
            congr 1
            by_cases hc : 100 ≤ (n.stream.drop n.pos).length
            · rw [Nat.min_eq_left hc]
            · rw [Nat.min_eq_right (by omega), List.drop_length, List.drop_of_length_le (by omega)]
          rw [hsplit] at ho
          rcases List.mem_append.1 ho with ho | ho
          · simp at ho
          · exact ho
      · show ∀ m ∈ n.stream.take (n.pos + is.length), ∃ i ∈ n.applied ++ is, m = some i
        rw [htake]
        intro m hm
        rcases List.mem_append.1 hm with hm | hm
        · obtain ⟨i, hi, rfl⟩ := h.done m hm
          exact ⟨i, by simp [hi], rfl⟩
        · obtain ⟨i, hi, rfl⟩ := List.mem_map.1 hm
          exact ⟨i, by simp [hi], rfl⟩
      · intro hl
        obtain ⟨h1, h2⟩ := h.load hl
        refine ⟨Nat.le_trans h1 (Nat.le_add_right _ _), ?_⟩
        show stream0 <+: (n.applied ++ is).map some
        rw [List.map_append]
        exact h2.trans (List.prefix_append _ _)
    | stuck is rest hb =>
      have hn : none ∈ n.stream.drop n.pos := by
        apply List.mem_of_mem_take (i := 100)
        rw [hb]; simp
      refine ⟨h.grown, h.bound, h.flag, Or.inr hn, ?_, ?_⟩
      · intro m hm
        obtain ⟨i, hi, rfl⟩ := h.done m hm
        exact ⟨i, by simp [Node.applyAll, hi], rfl⟩
      · intro hl
        obtain ⟨h1, h2⟩ := h.load hl
        refine ⟨h1, ?_⟩
        show stream0 <+: (n.applied ++ is).map some
        rw [List.map_append]
        exact h2.trans (List.prefix_append _ _)

theorem MonInv.run {stream0 : List (Option Instr)} (a : Bool) (evs : List Ev) :
    MonInv stream0 ((connect stream0).run a evs) := by
  refine list_snoc (P := fun evs => MonInv stream0 ((connect stream0).run a evs)) (MonInv.init _) ?_ evs
  intro l e ih
  rw [run_concat]
  exact ih.step a e

/-! ### C76 -/

/-- C76, what `wait_for_strikes_loaded` promises.  For every stream at the time the process
opens the docket and every later history: once the wait is over, every instruction that was
in the stream when the process opened the docket has been applied, and these were the first
to be applied, in the order of the stream. -/
theorem C76_loaded (automatic : Bool) (stream0 : List (Option Instr)) (evs : List Ev)
    (h : ((connect stream0).run automatic evs).loaded = true) :
    stream0 <+: ((connect stream0).run automatic evs).applied.map some :=
  ((MonInv.run automatic evs).load h).2

/-- C76, nothing is skipped or repeated.  If every entry of the stream can be decoded, what
the monitor has applied is at every moment exactly the beginning of the stream, whatever
the connection errors and however the entries came in. -/
theorem C76_in_order_partial (automatic : Bool) (stream0 : List (Option Instr)) (evs : List Ev)
    (hd : none ∉ ((connect stream0).run automatic evs).stream) :
    ((connect stream0).run automatic evs).applied.map some <+: ((connect stream0).run automatic evs).stream := by
  rcases (MonInv.run (stream0 := stream0) automatic evs).order with h | h
  · rw [h]; exact List.take_prefix _ _
  · exact absurd (List.mem_of_mem_drop h) hd

/-- How many XREADs of the history were answered. -/
def reads : List Ev → Nat
  | [] => 0
  | .read :: evs => reads evs + 1
  | _ :: evs => reads evs

/-- Nobody issues instructions in the history. -/
def NoNews (evs : List Ev) : Prop := ∀ e ∈ evs, (∀ m, e ≠ .other m) ∧ ∀ i, e ≠ .send i

theorem catches_up (a : Bool) (evs : List Ev) : ∀ n : Node, NoNews evs → none ∉ n.stream →
    n.pos ≤ n.stream.length → n.loaded = n.initial →
    n.stream.length + 100 ≤ n.pos + 100 * reads evs →
    (n.run a evs).loaded = true ∧ (n.run a evs).stream = n.stream ∧ (n.run a evs).pos = n.stream.length := by
  have settled : ∀ (evs : List Ev) (n : Node), NoNews evs → n.loaded = true → n.initial = true →
      n.pos = n.stream.length →
      (n.run a evs).loaded = true ∧ (n.run a evs).stream = n.stream ∧ (n.run a evs).pos = n.stream.length := by
    intro evs
    induction evs with
    | nil => intro n _ h1 _ h3; exact ⟨h1, rfl, h3⟩
    | cons e evs ih =>
      intro n hn h1 h2 h3
      have hn' : NoNews evs := fun e he => hn e (by simp [he])
      have same : ∀ n' : Node, n'.loaded = n.loaded → n'.initial = n.initial → n'.pos = n.pos →
          n'.stream = n.stream →
          (n'.run a evs).loaded = true ∧ (n'.run a evs).stream = n.stream ∧ (n'.run a evs).pos = n.stream.length := by
        intro n' e1 e2 e3 e4
        have := ih n' hn' (by rw [e1, h1]) (by rw [e2, h2]) (by rw [e3, e4, h3])
        rw [e4] at this
        exact this
      show ((n.step a e).run a evs).loaded = true ∧ ((n.step a e).run a evs).stream = n.stream ∧
        ((n.step a e).run a evs).pos = n.stream.length
      cases e with
      | other m => exact absurd rfl ((hn _ (by simp)).1 m)
      | send i => exact absurd rfl ((hn _ (by simp)).2 i)
      | sent => simp only [Node.step]; split <;> exact same _ rfl rfl rfl rfl
      | readFails => exact same _ rfl rfl rfl rfl
      | start => simp only [Node.step]; split <;> exact same _ rfl rfl rfl rfl
      | add c => exact same _ rfl rfl rfl rfl
      | execute c => simp only [Node.step]; split <;> exact same _ rfl rfl rfl rfl
      | read =>
        simp only [Node.step]
        have hr := readStrikes_reads n
        generalize readStrikes n = n' at hr
        cases hr with
        | loads h hi => rw [h2] at hi; cases hi
        | idle => exact same _ rfl rfl rfl rfl
        | batch is hb hne =>
          rw [h3, List.drop_length] at hb
          exact absurd (List.map_eq_nil_iff.1 hb.symm) hne
        | stuck is rest hb =>
          rw [h3, List.drop_length] at hb
          simp at hb
  induction evs with
  | nil => intro n _ _ hp _ hr; simp [reads] at hr; omega
  | cons e evs ih =>
    intro n hn hd hp hf hr
    have hn' : NoNews evs := fun e he => hn e (by simp [he])
    have same : ∀ n' : Node, n'.loaded = n.loaded → n'.initial = n.initial → n'.pos = n.pos →
        n'.stream = n.stream → reads (e :: evs) = reads evs →
        (n'.run a evs).loaded = true ∧ (n'.run a evs).stream = n.stream ∧ (n'.run a evs).pos = n.stream.length := by
      intro n' e1 e2 e3 e4 e5
      have := ih n' hn' (by rw [e4]; exact hd) (by rw [e3, e4]; exact hp) (by rw [e1, e2, hf])
        (by rw [e3, e4, ← e5]; exact hr)
      rw [e4] at this
      exact this
    show ((n.step a e).run a evs).loaded = true ∧ ((n.step a e).run a evs).stream = n.stream ∧
      ((n.step a e).run a evs).pos = n.stream.length
    cases e with
    | other m => exact absurd rfl ((hn _ (by simp)).1 m)
    | send i => exact absurd rfl ((hn _ (by simp)).2 i)
    | sent => simp only [Node.step]; split <;> exact same _ rfl rfl rfl rfl rfl
    | readFails => exact same _ rfl rfl rfl rfl rfl
    | start => simp only [Node.step]; split <;> exact same _ rfl rfl rfl rfl rfl
    | add c => exact same _ rfl rfl rfl rfl rfl
    | execute c => simp only [Node.step]; split <;> exact same _ rfl rfl rfl rfl rfl
    | read =>
      simp only [Node.step]
      have hr' := readStrikes_reads n
      generalize readStrikes n = n' at hr'
      simp only [reads] at hr
      cases hr' with
      | loads h hi =>
        exact settled evs _ hn' rfl rfl (Nat.le_antisymm hp (List.drop_eq_nil_iff.1 h))
      | idle h hi =>
        exact settled evs _ hn' (by rw [hf, hi]) hi (Nat.le_antisymm hp (List.drop_eq_nil_iff.1 h))
      | batch is hb hne =>
        have hlen : is.length = ((n.stream.drop n.pos).take 100).length := by rw [hb, List.length_map]
        rw [List.length_take, List.length_drop] at hlen
        have hpos : 0 < is.length := List.length_pos_iff.2 hne
        by_cases hfull : 100 ≤ n.stream.length - n.pos
        · exact ih { n.applyAll is with pos := n.pos + is.length } hn' hd
            (by show n.pos + is.length ≤ n.stream.length; omega) hf
            (by show n.stream.length + 100 ≤ n.pos + is.length + 100 * reads evs; omega)
        · exact ih { n.applyAll is with pos := n.pos + is.length } hn' hd
            (by show n.pos + is.length ≤ n.stream.length; omega) hf
            (by show n.stream.length + 100 ≤ n.pos + is.length + 100 * reads evs; omega)
      | stuck is rest hb =>
        refine absurd ?_ hd
        have hn : none ∈ (n.stream.drop n.pos).take 100 := by rw [hb]; simp
        exact List.mem_of_mem_drop (List.mem_of_mem_take hn)

/-- C76, `wait_for_strikes_loaded` returns.  From any point of any history, if every entry
of the stream can be decoded and nobody issues further instructions, one answered XREAD for
every hundred entries, and one more, end the wait, with the whole stream applied; failed
XREADs in between do no harm. -/
theorem C76_load_ends_partial (automatic : Bool) (stream0 : List (Option Instr)) (evs evs' : List Ev)
    (hd : none ∉ ((connect stream0).run automatic evs).stream) (hn : NoNews evs')
    (hr : ((connect stream0).run automatic evs).stream.length + 100 ≤ 100 * reads evs') :
    ((connect stream0).run automatic (evs ++ evs')).loaded = true ∧
    ((connect stream0).run automatic (evs ++ evs')).applied.map some =
      ((connect stream0).run automatic (evs ++ evs')).stream := by
  have hi := MonInv.run (stream0 := stream0) automatic evs
  have hi' := MonInv.run (stream0 := stream0) automatic (evs ++ evs')
  rw [run_append] at *
  obtain ⟨h1, h2, h3⟩ := catches_up automatic evs' _ hn hd hi.bound hi.flag (by omega)
  refine ⟨h1, ?_⟩
  rcases hi'.order with h | h
  · rw [h, h3, ← h2, List.take_length]
  · rw [h2] at h
    exact absurd (List.mem_of_mem_drop h) hd

/-- C76, workers start.  Under the same conditions a worker gets to its tasks: a message
handed to it afterwards is decided. -/
theorem C76_worker_starts_partial (automatic : Bool) (stream0 : List (Option Instr)) (evs evs' : List Ev)
    (hd : none ∉ ((connect stream0).run automatic evs).stream) (hn : NoNews evs')
    (hr : ((connect stream0).run automatic evs).stream.length + 100 ≤ 100 * reads evs') (c : Call) :
    ∃ b, ((connect stream0).run automatic (evs ++ evs' ++ [.start, .execute c])).decisions =
      ((connect stream0).run automatic (evs ++ evs')).decisions ++ [.execute c b] := by
  have hl := (C76_load_ends_partial automatic stream0 evs evs' hd hn hr).1
  rw [run_append]
  generalize (connect stream0).run automatic (evs ++ evs') = n at *
  exact ⟨isStricken n.st c, by simp [Node.run, Node.step, hl]⟩

/-- Every instruction in a list about the target is a strike, and there is one: it is
active. -/
theorem active_of_strike (l : List Instr) (t : Target)
    (hs : ∃ i ∈ l, i.value.hashable = true ∧ i.target = t)
    (hr : ∀ j ∈ l, j.restore = true → j.target ≠ t) : Active l t := by
  induction l with
  | nil => obtain ⟨i, hi, _⟩ := hs; cases hi
  | cons j l ih =>
    unfold Active
    split
    · rename_i hc
      cases hj : j.restore with
      | false => rfl
      | true => exact absurd hc.2 (hr j (by simp) hj)
    · rename_i hc
      refine ih ?_ (fun k hk => hr k (by simp [hk]))
      obtain ⟨i, hi, hh, ht⟩ := hs
      rcases List.mem_cons.1 hi with rfl | hi
      · exact absurd ⟨hh, ht⟩ hc
      · exact ⟨i, hi, hh, ht⟩

/-- A strike list is what some instructions of the stream make of an empty one, among them
all that the monitor has applied. -/
structure ListInv (n : Node) : Prop where
  unsent : ∀ i ∈ n.unsent, some i ∈ n.stream
  hist : ∃ l, n.st = replay {} l ∧ (∀ i ∈ l, some i ∈ n.stream) ∧ ∀ i ∈ n.applied, i ∈ l

theorem ListInv.keep {n n' : Node} (h : ListInv n) (hs : n.stream <+: n'.stream)
    (hu : n'.unsent = n.unsent) (ha : n'.applied = n.applied) (ht : n'.st = n.st) : ListInv n' := by
  obtain ⟨l, h1, h2, h3⟩ := h.hist
  exact ⟨by rw [hu]; exact fun i hi => hs.subset (h.unsent i hi),
    l, by rw [ht, h1], fun i hi => hs.subset (h2 i hi), by rw [ha]; exact h3⟩

theorem ListInv.apply {n n' : Node} (h : ListInv n) (is : List Instr) (hm : ∀ i ∈ is, some i ∈ n.stream)
    (hs : n'.stream = n.stream) (hu : n'.unsent = n.unsent) (ha : n'.applied = n.applied ++ is)
    (ht : n'.st = replay n.st is) : ListInv n' := by
  obtain ⟨l, h1, h2, h3⟩ := h.hist
  refine ⟨by rw [hu, hs]; exact h.unsent, l ++ is, ?_, ?_, ?_⟩
  · rw [ht, h1, replay_append]
  · intro i hi
    rw [hs]
    rcases List.mem_append.1 hi with hi | hi
    · exact h2 i hi
    · exact hm i hi
  · intro i hi
    rw [ha] at hi
    rcases List.mem_append.1 hi with hi | hi
    · simp [h3 i hi]
    · simp [hi]

theorem ListInv.step {n : Node} (h : ListInv n) (a : Bool) (e : Ev) : ListInv (n.step a e) := by
  have hs := step_stream a n e
  cases e with
  | other m => exact h.keep hs rfl rfl rfl
  | send i =>
    obtain ⟨l, h1, h2, h3⟩ := h.hist
    refine ⟨?_, l, h1, fun i hi => hs.subset (h2 i hi), h3⟩
    intro j hj
    rcases List.mem_append.1 hj with hj | hj
    · exact hs.subset (h.unsent j hj)
    · simp only [List.mem_singleton] at hj
      subst hj
      simp [Node.step]
  | sent =>
    simp only [Node.step]
    split
    · exact h
    · rename_i i rest hu
      obtain ⟨l, h1, h2, h3⟩ := h.hist
      have hi : some i ∈ n.stream := h.unsent i (by rw [hu]; simp)
      refine ⟨fun j hj => h.unsent j (by rw [hu]; simp [show j ∈ rest from hj]), l ++ [i], ?_, ?_, ?_⟩
      · rw [replay_append, ← h1]; rfl
      · intro j hj
        rcases List.mem_append.1 hj with hj | hj
        · exact h2 j hj
        · simp only [List.mem_singleton] at hj; subst hj; exact hi
      · intro j hj; simp [h3 j hj]
  | readFails => exact h.keep hs rfl rfl rfl
  | start => simp only [Node.step] at *; split <;> exact h.keep (by simp) rfl rfl rfl
  | add c => exact h.keep hs rfl rfl rfl
  | execute c => simp only [Node.step] at *; split <;> exact h.keep (by simp) rfl rfl rfl
  | read =>
    simp only [Node.step]
    have hr := readStrikes_reads n
    generalize readStrikes n = n' at hr
    cases hr with
    | idle => exact h
    | loads => exact h.keep (List.prefix_refl _) rfl rfl rfl
    | batch is hb hne =>
      refine h.apply is (fun i hi => ?_) rfl rfl rfl rfl
      have : some i ∈ (n.stream.drop n.pos).take 100 := by rw [hb]; simp [hi]
      exact List.mem_of_mem_drop (List.mem_of_mem_take this)
    | stuck is rest hb =>
      refine h.apply is (fun i hi => ?_) rfl rfl rfl rfl
      have : some i ∈ (n.stream.drop n.pos).take 100 := by rw [hb]; simp [hi]
      exact List.mem_of_mem_drop (List.mem_of_mem_take this)

theorem ListInv.run (stream0 : List (Option Instr)) (a : Bool) (evs : List Ev) :
    ListInv ((connect stream0).run a evs) := by
  refine list_snoc (P := fun evs => ListInv ((connect stream0).run a evs)) ?_ ?_ evs
  · exact ⟨by simp [Node.run, connect], [], rfl, by simp, by simp [Node.run, connect]⟩
  · intro l e ih
    rw [run_concat]
    exact ih.step a e

/-- A worker that waits for the strikes reads tasks only after they are loaded. -/
theorem polling_loaded (stream0 : List (Option Instr)) (evs : List Ev) :
    ((connect stream0).run true evs).polling = true → ((connect stream0).run true evs).loaded = true := by
  refine list_snoc (P := fun evs => ((connect stream0).run true evs).polling = true →
    ((connect stream0).run true evs).loaded = true) (by simp [Node.run, connect]) ?_ evs
  intro l e ih
  rw [run_concat]
  generalize (connect stream0).run true l = n at *
  cases e with
  | other m => exact ih
  | send i => exact ih
  | sent => simp only [Node.step]; split <;> exact ih
  | readFails => exact ih
  | start =>
    simp only [Node.step]
    split
    · exact ih
    · rename_i h; intro _; simpa using h
  | add c => exact ih
  | execute c => simp only [Node.step]; split <;> exact ih
  | read =>
    simp only [Node.step]
    have hr := readStrikes_reads n
    generalize readStrikes n = n' at hr
    cases hr with
    | idle => exact ih
    | loads => exact fun _ => rfl
    | batch is hb hne => exact ih
    | stuck is rest hb => exact ih

/-- The target was struck before the process opened the docket and nobody has restored it
since; if it is a whole task, nobody has struck a parameter of that task (see
`C26_violated` for what happens otherwise). -/
structure StandingStrike (stream0 stream : List (Option Instr)) (t : Target) : Prop where
  struck : ∃ i, some i ∈ stream0 ∧ i.restore = false ∧ i.value.hashable = true ∧ i.target = t
  kept : ∀ j, some j ∈ stream → j.restore = true → j.target ≠ t
  whole : ∀ f, t = .task f → ∀ j, some j ∈ stream → j.restore = false →
    ∀ p op v, j.target ≠ .taskParam f p op v

theorem StandingStrike.earlier {stream0 s s' : List (Option Instr)} {t : Target}
    (h : StandingStrike stream0 s' t) (hs : s <+: s') : StandingStrike stream0 s t :=
  ⟨h.struck, fun j hj => h.kept j (hs.subset hj), fun f hf j hj => h.whole f hf j (hs.subset hj)⟩

/-- C76, workers.  A worker that schedules automatic tasks (the default) never runs a call
that a strike covers which was issued before the worker's process opened the docket and
has not been restored: not even as its first task, whatever the interleaving of loading,
instructions (its own included) and deliveries. -/
theorem C76_worker_obeys_partial (stream0 : List (Option Instr)) (evs : List Ev) (t : Target) (c : Call)
    (hs : StandingStrike stream0 ((connect stream0).run true evs).stream t) (hc : Covers t c) :
    Decision.execute c false ∉ ((connect stream0).run true evs).decisions := by
  revert hs
  refine list_snoc (P := fun evs => StandingStrike stream0 ((connect stream0).run true evs).stream t →
    Decision.execute c false ∉ ((connect stream0).run true evs).decisions) ?_ ?_ evs
  · intro _; simp [Node.run, connect]
  · intro l e ih hs
    have hm := MonInv.run (stream0 := stream0) true l
    have hl := ListInv.run stream0 true l
    have hp := polling_loaded stream0 l
    rw [run_concat] at hs ⊢
    replace hs := hs.earlier (step_stream true ((connect stream0).run true l) e)
    replace ih := ih hs
    generalize (connect stream0).run true l = n at *
    cases e with
    | other m => exact ih
    | send i => exact ih
    | sent => simp only [Node.step]; split <;> exact ih
    | readFails => exact ih
    | start => simp only [Node.step]; split <;> exact ih
    | add c => simpa [Node.step] using ih
    | read =>
      simp only [Node.step]
      have hr := readStrikes_reads n
      generalize readStrikes n = n' at hr
      cases hr <;> exact ih
    | execute c' =>
      simp only [Node.step]
      split
      · rename_i hpoll
        simp only [List.mem_append, List.mem_singleton, not_or]
        refine ⟨ih, ?_⟩
        intro heq
        injection heq with hcc hst
        subst hcc
        replace hst := hst.symm
        have hpre := (hm.load (hp hpoll)).2
        obtain ⟨hist, h1, h2, h3⟩ := hl.hist
        obtain ⟨i, hi, hir, hih, hit⟩ := hs.struck
        have hia : i ∈ n.applied := by simpa using hpre.subset hi
        have hact : Active hist.reverse t := by
          refine active_of_strike _ _ ⟨i, by simpa using h3 i hia, hih, hit⟩ ?_
          intro j hj
          exact hs.kept j (h2 j (by simpa using hj))
        have hblock := C26_blocked_iff_struck_partial hist c
        rw [← h1] at hblock
        have : isStricken n.st c = true := by
          cases t with
          | task f =>
            have hf : c.fn = f := hc
            subst hf
            refine (hblock.2.2 ?_).2 ⟨_, hact, hc⟩
            intro j hj hjr
            exact hs.whole _ rfl j (h2 j hj) hjr
          | taskParam f p op v => exact hblock.2.1 _ hact hc (by simp)
          | param p op v => exact hblock.2.1 _ hact hc (by simp)
          | nothing => exact absurd hc id
        rw [this] at hst
        cases hst
      · exact ih

/-- C76, what a process goes by.  If every entry of the stream can be decoded, a process
that issues no instructions itself decides each call by a beginning of the stream as it
then is; a worker that schedules automatic tasks goes by one that includes everything
issued before it opened the docket. -/
theorem C76_decides_partial (automatic : Bool) (stream0 : List (Option Instr)) (evs : List Ev)
    (hown : ∀ i, Ev.send i ∉ evs) (hd : none ∉ ((connect stream0).run automatic evs).stream) :
    ∀ c b, (Decision.add c b ∈ ((connect stream0).run automatic evs).decisions →
        ∃ l : List Instr, l.map some <+: ((connect stream0).run automatic evs).stream ∧
          b = isStricken (replay {} l) c) ∧
      (Decision.execute c b ∈ ((connect stream0).run automatic evs).decisions →
        ∃ l : List Instr, l.map some <+: ((connect stream0).run automatic evs).stream ∧
          b = isStricken (replay {} l) c ∧ (automatic = true → stream0 <+: l.map some)) := by
  suffices h : ((connect stream0).run automatic evs).unsent = [] ∧
      ((connect stream0).run automatic evs).st = replay {} ((connect stream0).run automatic evs).applied ∧
      ∀ c b, (Decision.add c b ∈ ((connect stream0).run automatic evs).decisions →
        ∃ l : List Instr, l.map some <+: ((connect stream0).run automatic evs).stream ∧
          b = isStricken (replay {} l) c) ∧
      (Decision.execute c b ∈ ((connect stream0).run automatic evs).decisions →
        ∃ l : List Instr, l.map some <+: ((connect stream0).run automatic evs).stream ∧
          b = isStricken (replay {} l) c ∧ (automatic = true → stream0 <+: l.map some)) from h.2.2
  revert hown hd
  refine list_snoc (P := fun evs => (∀ i, Ev.send i ∉ evs) →
      none ∉ ((connect stream0).run automatic evs).stream →
      ((connect stream0).run automatic evs).unsent = [] ∧
      ((connect stream0).run automatic evs).st = replay {} ((connect stream0).run automatic evs).applied ∧
      ∀ c b, (Decision.add c b ∈ ((connect stream0).run automatic evs).decisions →
        ∃ l : List Instr, l.map some <+: ((connect stream0).run automatic evs).stream ∧
          b = isStricken (replay {} l) c) ∧
      (Decision.execute c b ∈ ((connect stream0).run automatic evs).decisions →
        ∃ l : List Instr, l.map some <+: ((connect stream0).run automatic evs).stream ∧
          b = isStricken (replay {} l) c ∧ (automatic = true → stream0 <+: l.map some))) ?_ ?_ evs
  · intro _ _
    exact ⟨rfl, rfl, fun c b => ⟨by simp [Node.run, connect], by simp [Node.run, connect]⟩⟩
  · intro l e ih hown hd
    have hm := MonInv.run (stream0 := stream0) automatic l
    have ho := C76_in_order_partial automatic stream0 l
    have hp : automatic = true → ((connect stream0).run automatic l).polling = true →
        ((connect stream0).run automatic l).loaded = true := by
      rintro rfl; exact polling_loaded stream0 l
    rw [run_concat] at hd ⊢
    have hss := step_stream automatic ((connect stream0).run automatic l) e
    have hd' : none ∉ ((connect stream0).run automatic l).stream := fun h => hd (hss.subset h)
    obtain ⟨ih1, ih2, ih3⟩ := ih (fun i hi => hown i (by simp [hi])) hd'
    replace ho := ho hd'
    have hsend : ∀ i, e ≠ .send i := by
      rintro i rfl; exact hown i (by simp)
    generalize (connect stream0).run automatic l = n at *
    have keep : ∀ n' : Node, n.stream <+: n'.stream → n'.decisions = n.decisions →
        ∀ c b, (Decision.add c b ∈ n'.decisions → ∃ l : List Instr, l.map some <+: n'.stream ∧
            b = isStricken (replay {} l) c) ∧
          (Decision.execute c b ∈ n'.decisions → ∃ l : List Instr, l.map some <+: n'.stream ∧
            b = isStricken (replay {} l) c ∧ (automatic = true → stream0 <+: l.map some)) := by
      intro n' hs hdec c b
      rw [hdec]
      refine ⟨fun h => ?_, fun h => ?_⟩
      · obtain ⟨l, h1, h2⟩ := (ih3 c b).1 h
        exact ⟨l, h1.trans hs, h2⟩
      · obtain ⟨l, h1, h2⟩ := (ih3 c b).2 h
        exact ⟨l, h1.trans hs, h2⟩
    cases e with
    | other m => exact ⟨ih1, ih2, keep _ hss rfl⟩
    | send i => exact absurd rfl (hsend i)
    | sent => simp only [Node.step, ih1]; exact ⟨trivial, ih2, ih3⟩
    | readFails => exact ⟨ih1, ih2, ih3⟩
    | start => simp only [Node.step]; split <;> exact ⟨ih1, ih2, ih3⟩
    | add c' =>
      refine ⟨ih1, ih2, fun c b => ⟨fun h => ?_, fun h => ?_⟩⟩
      · simp only [Node.step, List.mem_append, List.mem_singleton] at h
        rcases h with h | h
        · exact (ih3 c b).1 h
        · injection h with h1 h2
          subst h1
          exact ⟨n.applied, ho, by rw [h2, ih2]⟩
      · simp only [Node.step, List.mem_append, List.mem_singleton] at h
        rcases h with h | h
        · exact (ih3 c b).2 h
        · cases h
    | execute c' =>
      simp only [Node.step]
      split
      · rename_i hpoll
        refine ⟨ih1, ih2, fun c b => ⟨fun h => ?_, fun h => ?_⟩⟩
        · simp only [List.mem_append, List.mem_singleton] at h
          rcases h with h | h
          · exact (ih3 c b).1 h
          · cases h
        · simp only [List.mem_append, List.mem_singleton] at h
          rcases h with h | h
          · exact (ih3 c b).2 h
          · injection h with h1 h2
            subst h1
            exact ⟨n.applied, ho, by rw [h2, ih2], fun ha => (hm.load (hp ha hpoll)).2⟩
      · exact ⟨ih1, ih2, ih3⟩
    | read =>
      simp only [Node.step] at hss ⊢
      have hr := readStrikes_reads n
      generalize readStrikes n = n' at hr hss
      cases hr with
      | idle => exact ⟨ih1, ih2, ih3⟩
      | loads => exact ⟨ih1, ih2, keep _ hss rfl⟩
      | batch is hb hne =>
        refine ⟨ih1, ?_, keep _ hss rfl⟩
        show replay n.st is = replay {} (n.applied ++ is)
        rw [replay_append, ← ih2]
      | stuck is rest hb =>
        refine ⟨ih1, ?_, keep _ hss rfl⟩
        show replay n.st is = replay {} (n.applied ++ is)
        rw [replay_append, ← ih2]

/-- Later instructions come after earlier ones. -/
theorem hist_step {n : Node} (hi : ListInv n) (a : Bool) (e : Ev) (l : List Instr)
    (h1 : n.st = replay {} l) (h2 : ∀ j ∈ l, some j ∈ n.stream) :
    ∃ x, (n.step a e).st = replay {} (l ++ x) ∧ ∀ j ∈ l ++ x, some j ∈ (n.step a e).stream := by
  have hs := step_stream a n e
  have keep : (n.step a e).st = n.st →
      ∃ x, (n.step a e).st = replay {} (l ++ x) ∧ ∀ j ∈ l ++ x, some j ∈ (n.step a e).stream := by
    intro h
    exact ⟨[], by rw [h, h1, List.append_nil], fun j hj => hs.subset (h2 j (by simpa using hj))⟩
  cases e with
  | other m => exact keep rfl
  | send i => exact keep rfl
  | sent =>
    cases hu : n.unsent with
    | nil => exact keep (by simp [Node.step, hu])
    | cons i rest =>
      refine ⟨[i], ?_, ?_⟩
      · rw [replay_append, ← h1]; simp [Node.step, hu, replay]
      · intro j hj
        refine hs.subset ?_
        rcases List.mem_append.1 hj with hj | hj
        · exact h2 j hj
        · simp only [List.mem_singleton] at hj
          subst hj
          exact hi.unsent _ (by rw [hu]; simp)
  | readFails => exact keep rfl
  | start => exact keep (by simp only [Node.step]; split <;> rfl)
  | add c => exact keep rfl
  | execute c => exact keep (by simp only [Node.step]; split <;> rfl)
  | read =>
    simp only [Node.step] at hs keep ⊢
    have hr := readStrikes_reads n
    generalize readStrikes n = n' at hr hs keep
    have app : ∀ is : List Instr, (∀ i ∈ is, some i ∈ (n.stream.drop n.pos).take 100) →
        ∀ j ∈ l ++ is, some j ∈ n.stream := by
      intro is his j hj
      rcases List.mem_append.1 hj with hj | hj
      · exact h2 j hj
      · exact List.mem_of_mem_drop (List.mem_of_mem_take (his j hj))
    cases hr with
    | idle => exact keep rfl
    | loads => exact keep rfl
    | batch is hb hne =>
      exact ⟨is, by rw [replay_append, ← h1]; rfl, app is (fun i hi => by rw [hb]; simp [hi])⟩
    | stuck is rest hb =>
      exact ⟨is, by rw [replay_append, ← h1]; rfl, app is (fun i hi => by rw [hb]; simp [hi])⟩

/-- C76, the issuer.  From the moment `strike` returns, the process that issued it obeys it,
as a client and as a worker, as long as nobody restores it (and, if it strikes a whole task,
nobody strikes a parameter of that task). -/
theorem C76_issuer_obeys_partial (automatic : Bool) (stream0 : List (Option Instr)) (evs evs' : List Ev)
    (i : Instr) (c : Call) (hu : ((connect stream0).run automatic evs).unsent = [])
    (hs : StandingStrike [some i] ((connect stream0).run automatic (evs ++ [.send i, .sent] ++ evs')).stream i.target)
    (hc : Covers i.target c) :
    ∀ d ∈ ((connect stream0).run automatic (evs ++ [.send i, .sent] ++ evs')).decisions.drop
        ((connect stream0).run automatic evs).decisions.length,
      d ≠ .add c false ∧ d ≠ .execute c false := by
  suffices h : (∃ l, ((connect stream0).run automatic (evs ++ [.send i, .sent] ++ evs')).st = replay {} l ∧
        (∀ j ∈ l, some j ∈ ((connect stream0).run automatic (evs ++ [.send i, .sent] ++ evs')).stream) ∧ i ∈ l) ∧
      ∃ ds, ((connect stream0).run automatic (evs ++ [.send i, .sent] ++ evs')).decisions =
        ((connect stream0).run automatic evs).decisions ++ ds ∧
        ∀ d ∈ ds, d ≠ .add c false ∧ d ≠ .execute c false by
    obtain ⟨_, ds, hds, hd⟩ := h
    rw [hds, List.drop_left]
    exact hd
  revert hs
  refine list_snoc (P := fun evs' =>
      StandingStrike [some i] ((connect stream0).run automatic (evs ++ [.send i, .sent] ++ evs')).stream i.target →
      (∃ l, ((connect stream0).run automatic (evs ++ [.send i, .sent] ++ evs')).st = replay {} l ∧
        (∀ j ∈ l, some j ∈ ((connect stream0).run automatic (evs ++ [.send i, .sent] ++ evs')).stream) ∧ i ∈ l) ∧
      ∃ ds, ((connect stream0).run automatic (evs ++ [.send i, .sent] ++ evs')).decisions =
        ((connect stream0).run automatic evs).decisions ++ ds ∧
        ∀ d ∈ ds, d ≠ .add c false ∧ d ≠ .execute c false) ?_ ?_ evs'
  · intro _
    have hl := ListInv.run stream0 automatic evs
    rw [List.append_nil, run_append]
    generalize (connect stream0).run automatic evs = n at *
    obtain ⟨l, h1, h2, _⟩ := hl.hist
    refine ⟨⟨l ++ [i], ?_, ?_, by simp⟩, [], by simp [Node.run, Node.step, hu], by simp⟩
    · rw [replay_append, ← h1]; simp [Node.run, Node.step, hu, replay]
    · intro j hj
      rcases List.mem_append.1 hj with hj | hj
      · simp [Node.run, Node.step, hu, h2 j hj]
      · simp only [List.mem_singleton] at hj
        subst hj
        simp [Node.run, Node.step, hu]
  · intro l e ih hs
    rw [← List.append_assoc, run_concat] at hs ⊢
    replace hs := hs.earlier (step_stream _ _ _)
    have hl := ListInv.run stream0 automatic (evs ++ [.send i, .sent] ++ l)
    obtain ⟨⟨hist, h1, h2, h3⟩, ds, h4, h5⟩ := ih hs
    generalize (connect stream0).run automatic (evs ++ [.send i, .sent] ++ l) = n at *
    obtain ⟨x, g1, g2⟩ := hist_step hl automatic e hist h1 h2
    refine ⟨⟨hist ++ x, g1, g2, by simp [h3]⟩, ?_⟩
    have struck : isStricken n.st c = true := by
      obtain ⟨i', hi', hr', hh', ht'⟩ := hs.struck
      simp only [List.mem_singleton, Option.some.injEq] at hi'
      subst hi'
      have hact : Active hist.reverse i'.target := by
        refine active_of_strike _ _ ⟨i', by simpa using h3, hh', rfl⟩ ?_
        intro j hj
        exact hs.kept j (h2 j (by simpa using hj))
      have hblock := C26_blocked_iff_struck_partial hist c
      rw [← h1] at hblock
      generalize htt : i'.target = t at *
      cases t with
      | task f =>
        have hf : c.fn = f := hc
        subst hf
        refine (hblock.2.2 ?_).2 ⟨_, hact, hc⟩
        intro j hj hjr
        exact hs.whole _ rfl j (h2 j hj) hjr
      | taskParam f p op v => exact hblock.2.1 _ hact hc (by simp)
      | param p op v => exact hblock.2.1 _ hact hc (by simp)
      | nothing => exact absurd hc id
    cases e with
    | other m => exact ⟨ds, h4, h5⟩
    | send i => exact ⟨ds, h4, h5⟩
    | sent => simp only [Node.step]; split <;> exact ⟨ds, h4, h5⟩
    | readFails => exact ⟨ds, h4, h5⟩
    | start => simp only [Node.step]; split <;> exact ⟨ds, h4, h5⟩
    | add c' =>
      refine ⟨ds ++ [.add c' (isStricken n.st c')], by simp [Node.step, h4], ?_⟩
      intro d hd
      rcases List.mem_append.1 hd with hd | hd
      · exact h5 d hd
      · simp only [List.mem_singleton] at hd
        subst hd
        refine ⟨fun h => ?_, by simp⟩
        injection h with ha hb
        rw [ha, struck] at hb
        cases hb
    | execute c' =>
      simp only [Node.step]
      split
      · refine ⟨ds ++ [.execute c' (isStricken n.st c')], by simp [h4], ?_⟩
        intro d hd
        rcases List.mem_append.1 hd with hd | hd
        · exact h5 d hd
        · simp only [List.mem_singleton] at hd
          subst hd
          refine ⟨by simp, fun h => ?_⟩
          injection h with ha hb
          rw [ha, struck] at hb
          cases hb
      · exact ⟨ds, h4, h5⟩
    | read =>
      simp only [Node.step]
      have hr := readStrikes_reads n
      generalize readStrikes n = n' at hr
      cases hr <;> exact ⟨ds, h4, h5⟩

/-- The full statement: a process obeys every strike that stood when it opened the docket,
and `wait_for_strikes_loaded` returns once Redis has answered often enough. -/
def C76_statement : Prop :=
  ∀ (automatic : Bool) (stream0 : List (Option Instr)) (evs : List Ev) (t : Target) (c : Call),
    StandingStrike stream0 ((connect stream0).run automatic evs).stream t → Covers t c →
    Decision.execute c false ∉ ((connect stream0).run automatic evs).decisions ∧
    Decision.add c false ∉ ((connect stream0).run automatic evs).decisions

def C76_load_statement : Prop :=
  ∀ (automatic : Bool) (stream0 : List (Option Instr)), ∃ k, ∀ evs : List Ev, NoNews evs → k ≤ reads evs →
    ((connect stream0).run automatic evs).loaded = true

def strikeF : Instr := ⟨false, some "f", none, .eq, .null⟩
def restoreF : Instr := ⟨true, some "f", none, .eq, .null⟩
def callF : Call := ⟨"f", some []⟩

theorem standing_strikeF : StandingStrike [some strikeF] [some strikeF] (.task "f") := by
  refine ⟨⟨strikeF, by simp, rfl, rfl, rfl⟩, ?_, ?_⟩
  · intro j hj hr
    simp only [List.mem_singleton, Option.some.injEq] at hj
    subst hj
    cases hr
  · intro f hf j hj _ p op v
    simp only [List.mem_singleton, Option.some.injEq] at hj
    subst hj
    simp [strikeF, Instr.target, given]

/-- The code violates it for workers that do not schedule automatic tasks: only the seeding
of these tasks waits for the strikes, so such a worker can run a task that was struck long
before it was started. -/
theorem C76_violated_unseeded : ¬ ∀ (stream0 : List (Option Instr)) (evs : List Ev) (t : Target) (c : Call),
    StandingStrike stream0 ((connect stream0).run false evs).stream t → Covers t c →
    Decision.execute c false ∉ ((connect stream0).run false evs).decisions := by
  intro h
  refine h [some strikeF] [.start, .execute callF] (.task "f") callF standing_strikeF rfl ?_
  show Decision.execute callF false ∈ [Decision.execute callF (isStricken {} callF)]
  rw [show isStricken {} callF = false by decide]
  simp

/-- The code violates it for clients: `docket.add` right after the docket was opened does
not wait for the strikes, and accepts a task that is struck. -/
theorem C76_violated_add : ¬ ∀ (stream0 : List (Option Instr)) (evs : List Ev) (t : Target) (c : Call),
    StandingStrike stream0 ((connect stream0).run true evs).stream t → Covers t c →
    Decision.add c false ∉ ((connect stream0).run true evs).decisions := by
  intro h
  refine h [some strikeF] [.add callF] (.task "f") callF standing_strikeF rfl ?_
  show Decision.add callF false ∈ [Decision.add callF (isStricken {} callF)]
  rw [show isStricken {} callF = false by decide]
  simp

/-- Both contradict the full statement. -/
theorem C76_violated : ¬ C76_statement := fun h =>
  C76_violated_add (fun stream0 evs t c hs hc => (h true stream0 evs t c hs hc).2)

/-- The code violates it when the stream holds an entry that the process cannot decode, for
instance a strike on a value whose class it does not have.  Whatever happens then, the wait
for the strikes never ends, a worker that schedules automatic tasks never runs or skips a
single task, and no instruction behind the entry is ever read. -/
theorem C76_violated_undecodable (before after : List (Option Instr)) (evs : List Ev) :
    ((connect (before ++ none :: after)).run true evs).loaded = false ∧
    (∀ c b, Decision.execute c b ∉ ((connect (before ++ none :: after)).run true evs).decisions) ∧
    ∀ i ∈ ((connect (before ++ none :: after)).run true evs).applied, some i ∈ before := by
  have hlen : ∀ s : List (Option Instr), before ++ none :: after <+: s → ∀ p, p ≤ before.length →
      ∃ r, s.drop p = before.drop p ++ none :: r := by
    rintro s ⟨r, rfl⟩ p hp
    refine ⟨after ++ r, ?_⟩
    rw [List.append_assoc, List.drop_append_of_le_length hp]
    rfl
  suffices h : ((connect (before ++ none :: after)).run true evs).pos ≤ before.length ∧
      ((connect (before ++ none :: after)).run true evs).loaded = false ∧
      ((connect (before ++ none :: after)).run true evs).polling = false ∧
      (∀ c b, Decision.execute c b ∉ ((connect (before ++ none :: after)).run true evs).decisions) ∧
      ∀ i ∈ ((connect (before ++ none :: after)).run true evs).applied, some i ∈ before from
    ⟨h.2.1, h.2.2.2⟩
  refine list_snoc (P := fun evs => ((connect (before ++ none :: after)).run true evs).pos ≤ before.length ∧
      ((connect (before ++ none :: after)).run true evs).loaded = false ∧
      ((connect (before ++ none :: after)).run true evs).polling = false ∧
      (∀ c b, Decision.execute c b ∉ ((connect (before ++ none :: after)).run true evs).decisions) ∧
      ∀ i ∈ ((connect (before ++ none :: after)).run true evs).applied, some i ∈ before) ?_ ?_ evs
  · simp [Node.run, connect]
  · rintro l e ⟨h1, h2, h3, h4, h5⟩
    have hg := (MonInv.run (stream0 := before ++ none :: after) true l).grown
    rw [run_concat]
    generalize (connect (before ++ none :: after)).run true l = n at *
    obtain ⟨r, hr⟩ := hlen _ hg n.pos h1
    cases e with
    | other m => exact ⟨h1, h2, h3, h4, h5⟩
    | send i => exact ⟨h1, h2, h3, h4, h5⟩
    | sent => simp only [Node.step]; split <;> exact ⟨h1, h2, h3, h4, h5⟩
    | readFails => exact ⟨h1, h2, h3, h4, h5⟩
    | start => simp only [Node.step, h2]; exact ⟨h1, h2, h3, h4, h5⟩
    | add c => exact ⟨h1, h2, h3, by simpa [Node.step] using h4, h5⟩
    | execute c => simp only [Node.step, h3]; exact ⟨h1, h2, h3, h4, h5⟩
    | read =>
      simp only [Node.step]
      have hrd := readStrikes_reads n
      generalize readStrikes n = n' at hrd
      have hap : ∀ (is : List Instr) (x : List (Option Instr)), (n.stream.drop n.pos).take 100 = is.map some ++ x →
          is.length ≤ before.length - n.pos ∧ ∀ i ∈ is, some i ∈ before := by
        intro is x hx
        have hpre : is.map some <+: before.drop n.pos ++ none :: r := by
          rw [← hr]
          exact List.IsPrefix.trans ⟨x, hx.symm⟩ (List.take_prefix _ _)
        have : is.length ≤ (before.drop n.pos).length := by
          apply Nat.le_of_not_lt
          intro hlt
          obtain ⟨y, hy⟩ := hpre
          have hn : (is.map some)[(before.drop n.pos).length]? = some (none : Option Instr) := by
            have := congrArg (fun z => z[(before.drop n.pos).length]?) hy
            rw [List.getElem?_append_left (by simpa using hlt), List.getElem?_append_right (by simp)] at this
            rw [this]; simp
          rw [List.getElem?_map] at hn
          cases hq : is[(before.drop n.pos).length]? with
          | none => rw [hq] at hn; cases hn
          | some q => rw [hq] at hn; simp at hn
        refine ⟨by simpa using this, fun i hi => ?_⟩
        have hpre' : is.map some <+: before.drop n.pos :=
          List.prefix_of_prefix_length_le hpre (List.prefix_append _ _) (by simpa using this)
        exact List.mem_of_mem_drop (hpre'.subset (by simp [hi]))
      cases hrd with
      | loads h => rw [hr] at h; simp at h
      | idle => exact ⟨h1, h2, h3, h4, h5⟩
      | batch is hb' hne =>
        obtain ⟨ha, hb''⟩ := hap is [] (by simpa using hb')
        refine ⟨by show n.pos + is.length ≤ before.length; omega, h2, h3, h4, ?_⟩
        intro i hi
        rcases List.mem_append.1 hi with hi | hi
        · exact h5 i hi
        · exact hb'' i hi
      | stuck is rest hb' =>
        obtain ⟨ha, hb''⟩ := hap is _ hb'
        refine ⟨h1, h2, h3, h4, ?_⟩
        intro i hi
        rcases List.mem_append.1 hi with hi | hi
        · exact h5 i hi
        · exact hb'' i hi

/-- … so `wait_for_strikes_loaded` may never return. -/
theorem C76_violated_load : ¬ C76_load_statement := by
  intro h
  obtain ⟨k, hk⟩ := h true [none]
  have h1 : reads (List.replicate k Ev.read) = k := by
    clear hk
    induction k with
    | zero => rfl
    | succ k ih => simp [List.replicate_succ, reads, ih]
  have := hk (List.replicate k .read) (by
    intro e he
    rw [(List.mem_replicate.1 he).2]
    exact ⟨by simp, by simp⟩) (by rw [h1]; exact Nat.le_refl _)
  have hn : ((connect [none]).run true (List.replicate k .read)).loaded = false :=
    (C76_violated_undecodable [] [] _).1
  rw [hn] at this
  cases this

/-- The code violates it in a further way: an entry that cannot be decoded makes the
monitor apply the entries before it again and again, once a second.  A process that
restores a task itself sees the task struck again from the next second on, for ever,
although nobody has struck it since. -/
theorem C76_violated_undone (k : Nat) :
    (((connect [some strikeF, none]).run true [.read, .send restoreF, .sent]).unsent = [] ∧
      isStricken ((connect [some strikeF, none]).run true [.read, .send restoreF, .sent]).st callF = false) ∧
    isStricken ((connect [some strikeF, none]).run true
      ([.read, .send restoreF, .sent] ++ List.replicate (k + 1) .read)).st callF = true := by
  refine ⟨by decide +kernel, ?_⟩
  rw [run_append]
  have hstep : ∀ n : Node, n.stream = [some strikeF, none, some restoreF] → n.pos = 0 →
      (n.step true .read).stream = [some strikeF, none, some restoreF] ∧ (n.step true .read).pos = 0 ∧
      (n.step true .read).st = update n.st strikeF := by
    intro n h1 h2
    simp [Node.step, readStrikes, h1, h2, process]
  have hrun : ∀ (k : Nat) (n : Node), n.stream = [some strikeF, none, some restoreF] → n.pos = 0 →
      (n.st = {} ∨ n.st = update {} strikeF) →
      (n.run true (List.replicate (k + 1) .read)).st = update {} strikeF := by
    intro k
    induction k with
    | zero =>
      intro n h1 h2 h3
      obtain ⟨_, _, h⟩ := hstep n h1 h2
      show (n.step true .read).st = _
      rw [h]
      rcases h3 with h3 | h3 <;> rw [h3]
      decide +kernel
    | succ k ih =>
      intro n h1 h2 h3
      obtain ⟨g1, g2, g3⟩ := hstep n h1 h2
      rw [List.replicate_succ]
      show ((n.step true .read).run true (List.replicate (k + 1) .read)).st = _
      refine ih _ g1 g2 (Or.inr ?_)
      rw [g3]
      rcases h3 with h3 | h3 <;> rw [h3]
      decide +kernel
  rw [hrun k _ (by decide +kernel) (by decide +kernel) (Or.inl (by decide +kernel))]
  decide +kernel

/-- A client that strikes a task and goes on adding calls of it. -/
example : ((connect [none, some ⟨false, some "g", none, .eq, .null⟩]).run false [.read]).unsent = [] ∧
    StandingStrike [some strikeF] ((connect [none, some ⟨false, some "g", none, .eq, .null⟩]).run false
      ([.read] ++ [.send strikeF, .sent] ++ [.add callF, .start, .execute callF])).stream strikeF.target ∧
    Covers strikeF.target callF := by
  rw [show ((connect [none, some ⟨false, some "g", none, .eq, .null⟩]).run false
      ([.read] ++ [.send strikeF, .sent] ++ [.add callF, .start, .execute callF])).stream =
      [none, some ⟨false, some "g", none, .eq, .null⟩, some strikeF] by decide +kernel]
  refine ⟨by decide +kernel, ⟨⟨strikeF, by simp, rfl, rfl, rfl⟩, ?_, ?_⟩, rfl⟩
  · intro j hj hr
    simp only [List.mem_cons, Option.some.injEq, List.not_mem_nil, or_false, reduceCtorEq, false_or] at hj
    rcases hj with rfl | rfl <;> cases hr
  · intro f hf j hj _ p op v
    simp only [List.mem_cons, Option.some.injEq, List.not_mem_nil, or_false, reduceCtorEq, false_or] at hj
    rcases hj with rfl | rfl <;> simp [strikeF, Instr.target, given]

/-- A worker that is started while a strike stands, loads it, is handed a call it covers and
one it does not cover, and a strike of its own. -/
example : StandingStrike [some strikeF] ((connect [some strikeF]).run true
      [.read, .readFails, .read, .start, .send ⟨false, some "g", none, .eq, .null⟩, .sent, .read]).stream (.task "f") ∧
    Covers (.task "f") callF ∧
    ((connect [some strikeF]).run true [.read, .readFails, .read, .start]).loaded = true ∧
    ((connect [some strikeF]).run true [.read, .readFails, .read, .start]).polling = true ∧
    isStricken ((connect [some strikeF]).run true [.read, .readFails, .read, .start]).st callF = true ∧
    isStricken ((connect [some strikeF]).run true [.read, .readFails, .read, .start]).st ⟨"g", some []⟩ = false ∧
    NoNews [.read, .readFails, .read] ∧
    ([some strikeF] : List (Option Instr)).length + 100 ≤ 100 * reads [.read, .readFails, .read] := by
  refine ⟨⟨⟨strikeF, by simp, rfl, rfl, rfl⟩, ?_, ?_⟩, rfl, by decide +kernel, by decide +kernel,
    by decide +kernel, by decide +kernel, ?_, by decide⟩
  · have : ((connect [some strikeF]).run true
      [.read, .readFails, .read, .start, .send ⟨false, some "g", none, .eq, .null⟩, .sent, .read]).stream =
      [some strikeF, some ⟨false, some "g", none, .eq, .null⟩] := by decide +kernel
    rw [this]
    intro j hj hr
    simp only [List.mem_cons, Option.some.injEq, List.not_mem_nil, or_false] at hj
    rcases hj with rfl | rfl <;> cases hr
  · have : ((connect [some strikeF]).run true
      [.read, .readFails, .read, .start, .send ⟨false, some "g", none, .eq, .null⟩, .sent, .read]).stream =
      [some strikeF, some ⟨false, some "g", none, .eq, .null⟩] := by decide +kernel
    rw [this]
    intro f hf j hj _ p op v
    simp only [List.mem_cons, Option.some.injEq, List.not_mem_nil, or_false] at hj
    rcases hj with rfl | rfl <;> simp [strikeF, Instr.target, given]
  · intro e he
    simp only [List.mem_cons, List.not_mem_nil, or_false] at he
    rcases he with rfl | rfl | rfl <;> exact ⟨by simp, by simp⟩

/-! ### C77 -/

/-- The number of strikes in effect after the instructions. -/
def InEffect (l : List Instr) (k : Int) : Prop :=
  ∃ ts : List Target, ts.Nodup ∧ (∀ t, t ∈ ts ↔ Active l.reverse t) ∧ k = ts.length

/-- Every instruction changes what is struck: it can be used, and it strikes something that
is not struck or restores something that is. -/
def Changing (l : List Instr) : Prop :=
  ∀ a i b, l = a ++ i :: b → i.value.hashable = true ∧ (i.restore = false ↔ ¬ Active a.reverse i.target)

theorem inEffect_sum (l : List Instr) (h : Changing l) :
    InEffect l (l.map (fun i => if i.restore then (-1 : Int) else 1)).sum := by
  revert h
  refine list_snoc (P := fun l => Changing l →
    InEffect l (l.map (fun i => if i.restore then (-1 : Int) else 1)).sum) ?_ ?_ l
  · intro _; exact ⟨[], List.nodup_nil, by simp [Active], rfl⟩
  · intro l i ih h
    obtain ⟨ts, h1, h2, h3⟩ := ih (fun a j b hab => h a j (b ++ [i]) (by rw [hab]; simp))
    obtain ⟨hh, hc⟩ := h l i [] rfl
    have hact : ∀ t, Active (l ++ [i]).reverse t ↔ if i.target = t then i.restore = false else Active l.reverse t := by
      intro t
      simp only [List.reverse_append, List.reverse_cons, List.reverse_nil, List.nil_append, List.cons_append,
        Active, hh, true_and]
    rw [List.map_append, List.sum_append, h3]
    cases hr : i.restore with
    | false =>
      have hn := hc.1 hr
      refine ⟨i.target :: ts, List.nodup_cons.2 ⟨fun hm => hn ((h2 _).1 hm), h1⟩, ?_, ?_⟩
      · intro t
        rw [hact, List.mem_cons, h2]
        by_cases ht : i.target = t
        · simp [ht, hr]
        · simp [ht, Ne.symm ht]
      · simp [hr]
    | true =>
      have hn : Active l.reverse i.target := by
        apply Classical.byContradiction
        intro hx
        have := hc.2 hx
        rw [hr] at this; cases this
      have hm : i.target ∈ ts := (h2 _).2 hn
      refine ⟨ts.erase i.target, h1.erase _, ?_, ?_⟩
      · intro t
        rw [hact, h1.mem_erase_iff, h2]
        by_cases ht : i.target = t
        · simp [ht, hr]
        · simp [ht, Ne.symm ht]
      · have := List.length_erase_of_mem hm
        have hpos : 0 < ts.length := List.length_pos_of_mem hm
        simp [hr]
        omega

/-- The number that a process reports is what the instructions it has applied add up to. -/
theorem gauge_sum (a : Bool) (stream0 : List (Option Instr)) (evs : List Ev) :
    ((connect stream0).run a evs).gauge =
      (((connect stream0).run a evs).applied.map (fun i => if i.restore then (-1 : Int) else 1)).sum := by
  refine list_snoc (P := fun evs => ((connect stream0).run a evs).gauge =
      (((connect stream0).run a evs).applied.map (fun i => if i.restore then (-1 : Int) else 1)).sum) rfl ?_ evs
  intro l e ih
  rw [run_concat]
  generalize (connect stream0).run a l = n at *
  have happ : ∀ is, (n.applyAll is).gauge =
      ((n.applyAll is).applied.map (fun i => if i.restore then (-1 : Int) else 1)).sum := by
    intro is
    simp only [Node.applyAll, List.map_append, List.sum_append, ih]
  cases e with
  | other m => exact ih
  | send i => exact ih
  | sent => simp only [Node.step]; split <;> exact ih
  | readFails => exact ih
  | start => simp only [Node.step]; split <;> exact ih
  | add c => exact ih
  | execute c => simp only [Node.step]; split <;> exact ih
  | read =>
    simp only [Node.step]
    have hr := readStrikes_reads n
    generalize readStrikes n = n' at hr
    cases hr with
    | idle => exact ih
    | loads => exact ih
    | batch is hb hne => exact happ is
    | stuck is rest hb => exact happ is

/-- C77.  In every history in which every entry can be decoded and every instruction
changes what is struck, the number of strikes in effect that a process reports is, once the
process has read the stream, the number of strikes in effect.  Partial: see
`C77_violated_repeated` and the other violations. -/
theorem C77_counts_partial (automatic : Bool) (stream0 : List (Option Instr)) (evs : List Ev) (l : List Instr)
    (hd : ((connect stream0).run automatic evs).stream = l.map some) (hch : Changing l)
    (hread : ((connect stream0).run automatic evs).pos = ((connect stream0).run automatic evs).stream.length) :
    InEffect l ((connect stream0).run automatic evs).gauge := by
  have ha : ((connect stream0).run automatic evs).applied = l := by
    rcases (MonInv.run (stream0 := stream0) automatic evs).order with h | h
    · rw [hread, List.take_length, hd] at h
      exact (List.map_inj_right (fun _ _ => Option.some.inj)).1 h
    · rw [hread, List.drop_length] at h
      cases h
  rw [gauge_sum, ha]
  exact inEffect_sum l hch

/-- The full statement. -/
def C77_statement : Prop :=
  ∀ (automatic : Bool) (stream0 : List (Option Instr)) (evs : List Ev) (l : List Instr),
    ((connect stream0).run automatic evs).stream = l.map some →
    ((connect stream0).run automatic evs).pos = ((connect stream0).run automatic evs).stream.length →
    InEffect l ((connect stream0).run automatic evs).gauge

theorem InEffect.unique {l : List Instr} {k : Int} {ts : List Target} (hn : ts.Nodup)
    (ht : ∀ t, t ∈ ts ↔ Active l.reverse t) (h : InEffect l k) : k = ts.length := by
  obtain ⟨ts', h1, h2, h3⟩ := h
  have hp : ts'.Perm ts := (List.perm_ext_iff_of_nodup h1 hn).2 (fun t => by rw [h2, ht])
  rw [h3, hp.length_eq]

/-- The code violates it: issuing the same strike twice counts as two, although a single
restore lifts it; after the restore one strike is reported and none is in effect. -/
theorem C77_violated_repeated : ¬ C77_statement := by
  intro h
  have h := h true [some strikeF, some strikeF, some restoreF] [.read]
    [strikeF, strikeF, restoreF] (by decide +kernel) (by decide +kernel)
  have h := h.unique (ts := []) List.nodup_nil (by
    intro t
    simp only [List.not_mem_nil, false_iff]
    by_cases ht : t = .task "f"
    · subst ht; decide +kernel
    · simp [Active, strikeF, restoreF, Instr.target, given, Ne.symm ht])
  revert h
  decide +kernel

/-- The code violates it: restoring something that was never struck makes the number
negative. -/
theorem C77_violated_negative : ¬ ∀ (automatic : Bool) (stream0 : List (Option Instr)) (evs : List Ev),
    0 ≤ ((connect stream0).run automatic evs).gauge := by
  intro h
  have := h true [some restoreF] [.read]
  revert this
  decide +kernel

/-- The code violates it: a strike on a value that cannot be hashed has no effect and is
counted. -/
theorem C77_violated_unusable : ¬ C77_statement := by
  intro h
  have h := h true [some ⟨false, none, some "p", .eq, .seq false []⟩] [.read]
    [⟨false, none, some "p", .eq, .seq false []⟩] (by decide +kernel) (by decide +kernel)
  have h := h.unique (ts := []) List.nodup_nil (by
    intro t
    simp [Active, Val.hashable])
  revert h
  decide +kernel

/-- The code violates it without bound when the stream holds an entry that the process
cannot decode: the strikes before it are counted again every second. -/
theorem C77_violated_growing (k : Nat) :
    ((connect [some strikeF, none]).run true (List.replicate k .read)).gauge = k := by
  have hstep : ∀ n : Node, n.stream = [some strikeF, none] → n.pos = 0 →
      (n.step true .read).stream = [some strikeF, none] ∧ (n.step true .read).pos = 0 ∧
      (n.step true .read).gauge = n.gauge + 1 := by
    intro n h1 h2
    simp [Node.step, readStrikes, h1, h2, process, strikeF]
  have : ∀ (k : Nat) (n : Node), n.stream = [some strikeF, none] → n.pos = 0 →
      (n.run true (List.replicate k .read)).gauge = n.gauge + k := by
    intro k
    induction k with
    | zero => intro n _ _; simp [Node.run]
    | succ k ih =>
      intro n h1 h2
      obtain ⟨g1, g2, g3⟩ := hstep n h1 h2
      rw [List.replicate_succ]
      show ((n.step true .read).run true (List.replicate k .read)).gauge = _
      rw [ih _ g1 g2, g3]
      push_cast
      omega
  rw [this k _ rfl rfl]
  simp [connect]

/-- A history to which `C77_counts_partial` applies: two strikes and a restore. -/
example : let l : List Instr := [strikeF, ⟨false, none, some "p", .le, .str "m"⟩, restoreF]
    Changing l ∧ ((connect (l.map some)).run true [.read]).pos = 3 ∧
    ((connect (l.map some)).run true [.read]).gauge = 1 := by
  refine ⟨?_, by decide +kernel, by decide +kernel⟩
  intro a i b hab
  rcases a with _ | ⟨x, _ | ⟨y, _ | ⟨z, a⟩⟩⟩
  · simp only [List.nil_append, List.cons.injEq] at hab
    obtain ⟨rfl, _⟩ := hab; decide +kernel
  · simp only [List.cons_append, List.nil_append, List.cons.injEq] at hab
    obtain ⟨rfl, rfl, _⟩ := hab; decide +kernel
  · simp only [List.cons_append, List.nil_append, List.cons.injEq] at hab
    obtain ⟨rfl, rfl, rfl, _⟩ := hab; decide +kernel
  · have := congrArg List.length hab
    simp at this

end Docket.Strikes.Monitor
