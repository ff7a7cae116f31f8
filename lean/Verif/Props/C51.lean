import Verif.Worker.CallRepr

/-! # C51: arguments not marked as Logged never appear in log lines -/

namespace Docket.CallRepr

/-! ## Specification -/

/-- Python's rule: the parameter that takes the `i`-th positional argument. -/
def Sig.takesPos (s : Sig) (i : Nat) : Option Param :=
  match s.pos[i]? with
  | some p => some p
  | none => s.star

/-- Python's rule: the parameter that takes a keyword argument. -/
def Sig.takesKw (s : Sig) (n : Text) : Option Param :=
  match (s.pos.filter (fun p => ! p.posOnly) ++ s.kwOnly).find? (fun p => p.name = n) with
  | some p => some p
  | none => s.stars

/-- What the metadata of a parameter says about logging, read from the last item that says
anything: nothing, everything, or the length only. -/
inductive Marked : List Meta → Option Bool → Prop where
  | none {l} : (∀ m ∈ l, m = .other) → Marked l none
  | all {l r} : (∀ m ∈ r, m = .other) → Marked (l ++ .loggedClass :: r) (some false)
  | instance {l r b} : (∀ m ∈ r, m = .other) → Marked (l ++ .logged b :: r) (some b)

/-- Two values for a parameter that may not be told apart in the logs: anything if it is not
`Logged`, the same length (or the same text, for values without length) if it is
`Logged(length_only=True)`, the same text otherwise. -/
structure Alike (p : Param) (a b : Val) : Prop where
  shown : Marked p.metadata (some false) → a.repr = b.repr
  size : Marked p.metadata (some true) → a.size = b.size
  unsized : Marked p.metadata (some true) → a.size = .unsized → a.repr = b.repr

/-- Two calls of a function with the same key, number and names of arguments that differ only
in what may not be logged. -/
structure SameButSecrets (s : Sig) (c d : Call) : Prop where
  fn : c.fn = d.fn
  key : c.key = d.key
  count : c.args.length = d.args.length
  names : c.kwargs.map (·.1) = d.kwargs.map (·.1)
  args : ∀ (i : Nat) a b p, c.args[i]? = some a → d.args[i]? = some b → s.takesPos i = some p → Alike p a b
  kwargs : ∀ (i : Nat) (x y : Text × Val) p, c.kwargs[i]? = some x → d.kwargs[i]? = some y → s.takesKw x.1 = some p → Alike p x.2 y.2

/-- The call fits the signature: every argument is taken by a parameter. -/
structure Fits (s : Sig) (c : Call) : Prop where
  args : ∀ i, i < c.args.length → (s.takesPos i).isSome
  kwargs : ∀ x ∈ c.kwargs, (s.takesKw x.1).isSome

/-- Names of parameters are unique. -/
def Sig.OK (s : Sig) : Prop := (s.params.map (·.name)).Nodup

/-! ## Proof -/

theorem marked_iff (p : Param) (o : Option Bool) : Marked p.metadata o ↔ p.logged = o := by
  have hother : ∀ (l : List Meta) (acc : Option Bool), (∀ m ∈ l, m = .other) →
      l.foldl (fun acc m => match m with
        | .logged b => some b
        | .loggedClass => some false
        | .other => acc) acc = acc := by
    intro l
    induction l with
    | nil => intro acc _; rfl
    | cons m l ih =>
      intro acc h
      rw [List.foldl_cons, h m (by simp)]
      exact ih acc (fun m' hm => h m' (by simp [hm]))
  have hto : ∀ (l : List Meta) (o : Option Bool), Marked l o → l.foldl (fun acc m => match m with
        | .logged b => some b
        | .loggedClass => some false
        | .other => acc) none = o := by
    intro l o h
    cases h with
    | none h => exact hother _ _ h
    | all h => rw [List.foldl_append, List.foldl_cons]; exact hother _ _ h
    | @«instance» l r b h => rw [List.foldl_append, List.foldl_cons]; exact hother _ _ h
  have hex : ∀ l : List Meta, ∃ o, Marked l o := by
    intro l
    generalize hr : l.reverse = r
    have hl : l = r.reverse := by rw [← hr, List.reverse_reverse]
    clear hr
    subst hl
    induction r with
    | nil => exact ⟨none, .none (by simp)⟩
    | cons m r ih =>
      rw [List.reverse_cons]
      cases m with
      | logged b => exact ⟨some b, .instance (by simp)⟩
      | loggedClass => exact ⟨some false, .all (by simp)⟩
      | other =>
        obtain ⟨o, ho⟩ := ih
        generalize hx : r.reverse = x at ho
        cases ho with
        | none h =>
          refine ⟨none, .none ?_⟩
          intro m hm
          rcases List.mem_append.1 hm with hm | hm
          · exact h m hm
          · simpa using hm
        | @all l r h =>
          rw [List.append_assoc, List.cons_append]
          refine ⟨some false, .all ?_⟩
          intro m hm
          rcases List.mem_append.1 hm with hm | hm
          · exact h m hm
          · simpa using hm
        | @«instance» l r b h =>
          rw [List.append_assoc, List.cons_append]
          refine ⟨some b, .instance ?_⟩
          intro m hm
          rcases List.mem_append.1 hm with hm | hm
          · exact h m hm
          · simpa using hm
  constructor
  · exact hto _ _
  · intro h
    obtain ⟨o', ho'⟩ := hex p.metadata
    have h1 : p.logged = o' := hto _ _ ho'
    rw [← h, h1]
    exact ho'

theorem alike_of {p : Param} {a b : Val} (h : match p.logged with
    | none => True
    | some true => a.size = b.size ∧ (a.size = .unsized → a.repr = b.repr)
    | some false => a.repr = b.repr) : Alike p a b := by
  refine ⟨fun hm => ?_, fun hm => ?_, fun hm => ?_⟩ <;> rw [marked_iff] at hm <;> rw [hm] at h
  · exact h
  · exact h.1
  · exact h.2

theorem find_name {l : List Param} (hn : (l.map (·.name)).Nodup) {p : Param} (hp : p ∈ l) :
    l.find? (fun q => q.name = p.name) = some p := by
  induction l with
  | nil => cases hp
  | cons x l ih =>
    simp only [List.map_cons, List.nodup_cons] at hn
    rw [List.find?_cons]
    rcases List.mem_cons.1 hp with rfl | hp
    · simp
    · have : x.name ≠ p.name := fun hc => hn.1 (by rw [hc]; exact List.mem_map_of_mem (f := (·.name)) hp)
      simp only [this, decide_false]
      exact ih hn.2 hp

theorem loggedGet_of {s : Sig} (hs : s.OK) {p : Param} (hp : p ∈ s.params) : s.loggedGet p.name = p.logged := by
  rw [Sig.loggedGet, find_name hs hp]
  rfl

theorem format_alike {p : Param} {a b : Val} {lo : Bool} (h : Alike p a b) (hl : p.logged = some lo) :
    format lo a = format lo b := by
  cases lo with
  | false => simpa [format] using h.shown ((marked_iff p _).2 hl)
  | true =>
    simp only [format, if_true]
    have hm := (marked_iff p _).2 hl
    rw [← h.size hm]
    cases hsz : a.size with
    | unsized => exact h.unsized hm hsz
    | _ => rfl

theorem posPart_alike {s : Sig} (hs : s.OK) {p : Param} (hp : p ∈ s.params) {a b : Val} (h : Alike p a b) :
    posPart s p a = posPart s p b := by
  unfold posPart
  rw [loggedGet_of hs hp]
  cases hl : p.logged with
  | none => rfl
  | some lo => exact format_alike h hl

/-- **C51**, partial: two calls that differ only in what may not be logged are shown alike, if
at most one positional argument goes to `*args` and no keyword in `**kwargs` has the name of a
parameter.  Missing: the other calls, where it fails (`C51_violated_positional`,
`C51_violated_keyword`). -/
theorem C51_noninterference_partial (s : Sig) (hs : s.OK) (c d : Call) (hfit : Fits s c) (h : SameButSecrets s c d)
    (hpos : c.args.length ≤ s.pos.length + 1)
    (hkw : ∀ x ∈ c.kwargs, ∀ p ∈ s.params, p.name = x.1 → s.takesKw x.1 = some p) :
    callRepr s c = callRepr s d := by
  have h1 : (s.params.zip c.args).map (fun e => posPart s e.1 e.2) = (s.params.zip d.args).map (fun e => posPart s e.1 e.2) := by
    apply List.ext_getElem?
    intro i
    simp only [List.getElem?_map, List.zip, List.getElem?_zipWith]
    rcases Nat.lt_or_ge i c.args.length with hi | hi
    · have hd : i < d.args.length := by rw [← h.count]; exact hi
      rw [List.getElem?_eq_getElem hi, List.getElem?_eq_getElem hd]
      cases hp : s.params[i]? with
      | none => rfl
      | some p =>
        simp only [Option.map_some]
        congr 1
        refine posPart_alike hs (List.mem_of_getElem? hp) ?_
        refine h.args i _ _ p (List.getElem?_eq_getElem hi) (List.getElem?_eq_getElem hd) ?_
        have hf := hfit.args i hi
        unfold Sig.takesPos at hf ⊢
        rcases Nat.lt_or_ge i s.pos.length with hip | hip
        · rw [Sig.params, List.append_assoc, List.append_assoc, List.getElem?_append_left hip] at hp
          rw [hp]
        · have hnone : s.pos[i]? = none := List.getElem?_eq_none hip
          rw [hnone] at hf ⊢
          simp only at hf ⊢
          have hi0 : i = s.pos.length := by omega
          obtain ⟨q, hq⟩ := Option.isSome_iff_exists.1 hf
          rw [Sig.params, List.append_assoc, List.append_assoc, List.getElem?_append_right hip, hq, hi0] at hp
          simp at hp
          rw [hq, hp]
    · have hd : d.args.length ≤ i := by rw [← h.count]; exact hi
      rw [List.getElem?_eq_none hi, List.getElem?_eq_none hd]
  have h2 : c.kwargs.map (fun e => kwPart s e.1 e.2) = d.kwargs.map (fun e => kwPart s e.1 e.2) := by
    apply List.ext_getElem?
    intro i
    simp only [List.getElem?_map]
    have hlen : c.kwargs.length = d.kwargs.length := by simpa using congrArg List.length h.names
    rcases Nat.lt_or_ge i c.kwargs.length with hi | hi
    · have hd : i < d.kwargs.length := by omega
      have hn : (c.kwargs[i]).1 = (d.kwargs[i]).1 := by
        have := congrArg (fun l => l[i]?) h.names
        simpa [List.getElem?_eq_getElem hi, List.getElem?_eq_getElem hd] using this
      rw [List.getElem?_eq_getElem hi, List.getElem?_eq_getElem hd]
      simp only [Option.map_some]
      congr 1
      unfold kwPart
      rw [← hn]
      cases hl : s.loggedGet (c.kwargs[i]).1 with
      | none => rfl
      | some lo =>
        simp only
        congr 1
        unfold Sig.loggedGet at hl
        rw [Option.bind_eq_some_iff] at hl
        obtain ⟨p, hp, hlo⟩ := hl
        have hpm := List.mem_of_find?_eq_some hp
        have hpn : p.name = (c.kwargs[i]).1 := by simpa using List.find?_some hp
        have htk := hkw (c.kwargs[i]) (List.getElem_mem hi) p hpm hpn
        exact format_alike (h.kwargs i _ _ p (List.getElem?_eq_getElem hi) (List.getElem?_eq_getElem hd) htk) hlo
    · rw [List.getElem?_eq_none hi, List.getElem?_eq_none (by omega)]
  unfold callRepr
  rw [h1, h2, h.fn, h.key]

/-- **C51**: the other direction: a keyword argument for a parameter marked as Logged is shown by
its `repr`, or by its length alone if that is what the mark says; one for a parameter that is not
marked is shown as dots. -/
theorem C51_shown (s : Sig) (hs : s.OK) (p : Param) (hp : p ∈ s.params) (v : Val) :
    (Marked p.metadata (some false) → kwPart s p.name v = v.repr.map (fun t => p.name ++ t!"=" ++ t)) ∧
    (Marked p.metadata (some true) →
      (∀ n, v.size = .braces n → kwPart s p.name v = some (p.name ++ t!"={len " ++ Decimal.dec n ++ t!"}")) ∧
      (∀ n, v.size = .parens n → kwPart s p.name v = some (p.name ++ t!"=(len " ++ Decimal.dec n ++ t!")")) ∧
      (∀ n, v.size = .brackets n → kwPart s p.name v = some (p.name ++ t!"=[len " ++ Decimal.dec n ++ t!"]")) ∧
      (v.size = .unsized → kwPart s p.name v = v.repr.map (fun t => p.name ++ t!"=" ++ t))) ∧
    (Marked p.metadata none → kwPart s p.name v = some (p.name ++ t!"=...")) := by
  simp only [marked_iff, kwPart, loggedGet_of hs hp]
  refine ⟨fun h => by rw [h]; rfl, fun h => ?_, fun h => by rw [h]⟩
  rw [h]
  refine ⟨fun n hn => ?_, fun n hn => ?_, fun n hn => ?_, fun hn => ?_⟩ <;> simp [format, hn]

/-! The example of the documentation: customer_id is logged, the length of addresses is, the
password is not. -/

def customer : Sig :=
  { pos := [⟨t!"customer_id", false, [.loggedClass], true⟩, ⟨t!"addresses", false, [.logged true], true⟩, ⟨t!"password", false, [], true⟩] }

def one (pw : Text) (addr : Text) : Call :=
  ⟨t!"setup", t!"k", [⟨.unsized, some t!"123"⟩], [(t!"addresses", ⟨.brackets 2, some addr⟩), (t!"password", ⟨.brackets 6, some pw⟩)]⟩

example : callRepr customer (one t!"'secret'" t!"['a', 'b']") = some t!"setup(123, addresses=[len 2], password=...){k}" := by decide +kernel

example : customer.OK ∧ (one t!"'secret'" t!"['a', 'b']").args.length ≤ customer.pos.length + 1 ∧
    ∀ x ∈ (one t!"'secret'" t!"['a', 'b']").kwargs, ∀ p ∈ customer.params, p.name = x.1 → customer.takesKw x.1 = some p := by
  unfold Sig.OK
  decide +kernel

example (p q a b : Text) : Fits customer (one p a) ∧ SameButSecrets customer (one p a) (one q b) := by
  refine ⟨⟨?_, ?_⟩, rfl, rfl, rfl, rfl, ?_, ?_⟩
  · intro i hi
    simp [one] at hi
    subst hi
    decide
  · intro x hx
    simp [one] at hx
    rcases hx with rfl | rfl <;> rfl
  · intro i x y r hx hy hr
    match i with
    | 0 =>
      simp [one] at hx hy
      subst hx hy
      apply alike_of
      split <;> simp
    | i + 1 => simp [one] at hx
  · intro i x y r hx hy hr
    match i with
    | 0 =>
      simp [one] at hx hy
      subst hx hy
      have : r = ⟨t!"addresses", false, [.logged true], true⟩ := by
        have h0 : customer.takesKw t!"addresses" = some ⟨t!"addresses", false, [.logged true], true⟩ := by decide +kernel
        rw [h0] at hr
        exact (Option.some.inj hr).symm
      subst this
      apply alike_of; simp [Param.logged]
    | 1 =>
      simp [one] at hx hy
      subst hx hy
      have : r = ⟨t!"password", false, [], true⟩ := by
        have h0 : customer.takesKw t!"password" = some ⟨t!"password", false, [], true⟩ := by decide +kernel
        rw [h0] at hr
        exact (Option.some.inj hr).symm
      subst this
      apply alike_of; simp [Param.logged]
    | i + 2 => simp [one] at hx

/-! ## Where it fails -/

/-- C51 in full. -/
def C51_noninterference : Prop :=
  ∀ (s : Sig), s.OK → ∀ c d : Call, Fits s c → SameButSecrets s c d → callRepr s c = callRepr s d

/-- `def f(a, *secrets, tag: Annotated[str, Logged])` -/
def starSig : Sig := { pos := [⟨t!"a", false, [], true⟩], star := some ⟨t!"secrets", false, [], true⟩, kwOnly := [⟨t!"tag", false, [.loggedClass], true⟩] }

def starCall (x : Text) : Call := ⟨t!"f", t!"k", [⟨.unsized, some t!"1"⟩, ⟨.unsized, some t!"2"⟩, ⟨.unsized, some x⟩], [(t!"tag", ⟨.brackets 1, some t!"'t'"⟩)]⟩

/-- **C51, violated**: the second of the values for an unlogged `*args` is shown if the next
parameter, a keyword-only one, is `Logged`. -/
theorem C51_violated_positional : ¬ C51_noninterference := by
  intro h
  have := h starSig (by unfold Sig.OK; decide +kernel) (starCall t!"111") (starCall t!"222") ?_ ?_
  · revert this; decide +kernel
  · refine ⟨?_, ?_⟩
    · intro i hi
      simp only [starCall, List.length_cons, List.length_nil] at hi
      match i with
      | 0 | 1 | 2 => decide
      | i + 3 => omega
    · decide
  · refine ⟨rfl, rfl, rfl, rfl, ?_, ?_⟩
    · intro i a b p ha hb hp
      have hnl : p.logged = none := by
        match i with
        | 0 => simp [Sig.takesPos, starSig] at hp; subst hp; rfl
        | i + 1 => simp [Sig.takesPos, starSig] at hp; subst hp; rfl
      exact alike_of (by rw [hnl]; trivial)
    · intro i x y p hx hy _
      match i with
      | 0 =>
        simp [starCall] at hx hy
        subst hx hy
        apply alike_of
        split <;> simp
      | i + 1 => simp [starCall] at hx

/-- `def f(id: Annotated[int, Logged], /, **extra)` -/
def extraSig : Sig := { pos := [⟨t!"id", true, [.loggedClass], true⟩], stars := some ⟨t!"extra", false, [], true⟩ }

def extraCall (x : Text) : Call := ⟨t!"f", t!"k", [⟨.unsized, some t!"1"⟩], [(t!"id", ⟨.unsized, some x⟩)]⟩

/-- **C51, violated**: a value in an unlogged `**kwargs` is shown if its name is that of a
positional-only parameter that is `Logged`. -/
theorem C51_violated_keyword : ¬ C51_noninterference := by
  intro h
  have := h extraSig (by unfold Sig.OK; decide +kernel) (extraCall t!"111") (extraCall t!"222") ?_ ?_
  · revert this; decide +kernel
  · refine ⟨?_, by decide⟩
    intro i hi
    simp only [extraCall, List.length_cons, List.length_nil] at hi
    match i with
    | 0 => decide
    | i + 1 => omega
  · refine ⟨rfl, rfl, rfl, rfl, ?_, ?_⟩
    · intro i a b p ha hb _
      match i with
      | 0 =>
        simp [extraCall] at ha hb
        subst ha hb
        apply alike_of
        split <;> simp
      | i + 1 => simp [extraCall] at ha
    · intro i x y p hx hy hp
      match i with
      | 0 =>
        simp [extraCall] at hx hy
        subst hx hy
        have h0 : extraSig.takesKw t!"id" = some ⟨t!"extra", false, [], true⟩ := by decide +kernel
        rw [h0] at hp
        cases hp
        apply alike_of; simp [Param.logged]
      | i + 1 => simp [extraCall] at hx

end Docket.CallRepr
