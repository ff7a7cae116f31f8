import Verif.Codec.Lua
/-
C45 Script arguments reach the Lua code under the right names.
-/
namespace Docket.Lua

open Decimal

/-- The value a Lua local should have for a Python value: the same text, boolean or float;
an integer becomes the nearest double. -/
def asLua {F : Type} : Py F → LuaVal F
  | .str t => .str t
  | .int n => .num (toDouble n)
  | .float x => .dbl x
  | .bool b => .bool b
  | .none => .nil

/-- The value has the declared type. -/
def Py.is {F : Type} : Py F → Ty → Prop
  | .str _, .str => True
  | .int _, .int => True
  | .float _, .float => True
  | .bool _, .bool => True
  | _, _ => False

theorem classify_spec {seen : Bool} {sig : List (Text × Hint)} {r : Bool × Script}
    (h : classify seen sig = some r) :
    (∀ n, (n, Hint.key) ∈ sig → n ∈ r.2.keys) ∧
    (∀ n t, (n, Hint.arg t) ∈ sig → (n, some t) ∈ r.2.args) ∧
    (∀ n, (n, Hint.args) ∈ sig → (n, none) ∈ r.2.args) ∧
    (r.2.keys ++ r.2.args.map (·.1)).Sublist (r.2.keys ++ r.2.args.map (·.1)) ∧
    (∀ x ∈ r.2.keys ++ r.2.args.map (·.1), x ∈ sig.map (·.1)) ∧
    ((sig.map (·.1)).Nodup → (r.2.keys ++ r.2.args.map (·.1)).Nodup) ∧
    (∀ n, (n, none) ∈ r.2.args → (n, Hint.args) ∈ sig) := by
  induction sig generalizing seen r with
  | nil =>
    simp only [classify, Option.some.injEq] at h
    subst h
    simp
  | cons e sig ih =>
    obtain ⟨n0, h0⟩ := e
    cases h0 with
    | other => cases h
    | redis =>
      simp only [classify] at h
      cases seen with
      | true => simp at h
      | false =>
        simp only [Bool.false_eq_true, if_false] at h
        obtain ⟨i1, i2, i3, i4, i5, i6, i7⟩ := ih h
        refine ⟨fun n hm => i1 n (by simpa using hm), fun n t hm => i2 n t (by simpa using hm),
          fun n hm => i3 n (by simpa using hm), List.Sublist.refl _, fun x hx => ?_, fun hd => ?_, fun n hm => ?_⟩
        · simp only [List.map_cons, List.mem_cons]; exact Or.inr (i5 x hx)
        · simp only [List.map_cons, List.nodup_cons] at hd; exact i6 hd.2
        · exact List.mem_cons_of_mem _ (i7 n hm)
    | key =>
      simp only [classify, Option.map_eq_some_iff] at h
      obtain ⟨r', h, rfl⟩ := h
      obtain ⟨i1, i2, i3, i4, i5, i6, i7⟩ := ih h
      refine ⟨fun n hm => ?_, fun n t hm => i2 n t (by simpa using hm),
        fun n hm => i3 n (by simpa using hm), List.Sublist.refl _, fun x hx => ?_, fun hd => ?_, fun n hm => ?_⟩
      · simp only [List.mem_cons, Prod.mk.injEq] at hm ⊢
        rcases hm with ⟨rfl, _⟩ | hm
        · exact Or.inl rfl
        · exact Or.inr (i1 n hm)
      · simp only [List.cons_append, List.mem_cons, List.map_cons] at hx ⊢
        rcases hx with rfl | hx
        · exact Or.inl rfl
        · exact Or.inr (i5 x hx)
      · simp only [List.map_cons, List.nodup_cons] at hd
        simp only [List.cons_append, List.nodup_cons]
        exact ⟨fun hc => hd.1 (i5 _ hc), i6 hd.2⟩
      · exact List.mem_cons_of_mem _ (i7 n hm)
    | arg t0 =>
      simp only [classify, Option.map_eq_some_iff] at h
      obtain ⟨r', h, rfl⟩ := h
      obtain ⟨i1, i2, i3, i4, i5, i6, i7⟩ := ih h
      refine ⟨fun n hm => i1 n (by simpa using hm), fun n t hm => ?_,
        fun n hm => ?_, List.Sublist.refl _, fun x hx => ?_, fun hd => ?_, fun n hm => ?_⟩
      · simp only [List.mem_cons, Prod.mk.injEq, Hint.arg.injEq, Option.some.injEq] at hm ⊢
        rcases hm with hm | hm
        · exact Or.inl hm
        · exact Or.inr (i2 n t hm)
      · simp only [List.mem_cons, Prod.mk.injEq, reduceCtorEq, and_false, false_or] at hm ⊢
        exact i3 n hm
      · simp only [List.map_cons, List.mem_append, List.mem_cons] at hx ⊢
        rcases hx with hx | rfl | hx
        · exact Or.inr (i5 x (by simp [hx]))
        · exact Or.inl rfl
        · exact Or.inr (i5 x (List.mem_append.2 (Or.inr hx)))
      · simp only [List.map_cons, List.nodup_cons] at hd
        have := i6 hd.2
        simp only [List.map_cons]
        rw [List.nodup_append] at this ⊢
        refine ⟨this.1, ?_, ?_⟩
        · rw [List.nodup_cons]
          exact ⟨fun hc => hd.1 (i5 _ (List.mem_append.2 (Or.inr hc))), this.2.1⟩
        · intro a ha b hb
          rcases List.mem_cons.1 hb with rfl | hb
          · rintro rfl; exact hd.1 (i5 _ (List.mem_append.2 (Or.inl ha)))
          · exact this.2.2 a ha b hb
      · simp only [List.mem_cons, Prod.mk.injEq, reduceCtorEq, and_false, false_or] at hm
        exact List.mem_cons_of_mem _ (i7 n hm)
    | args =>
      simp only [classify, Option.map_eq_some_iff] at h
      obtain ⟨r', h, rfl⟩ := h
      obtain ⟨i1, i2, i3, i4, i5, i6, i7⟩ := ih h
      refine ⟨fun n hm => i1 n (by simpa using hm), fun n t hm => ?_,
        fun n hm => ?_, List.Sublist.refl _, fun x hx => ?_, fun hd => ?_, fun n hm => ?_⟩
      · simp only [List.mem_cons, Prod.mk.injEq, reduceCtorEq, and_false, false_or] at hm ⊢
        exact i2 n t hm
      · simp only [List.mem_cons, Prod.mk.injEq, and_true] at hm ⊢
        rcases hm with hm | hm
        · exact Or.inl hm
        · exact Or.inr (i3 n hm)
      · simp only [List.map_cons, List.mem_append, List.mem_cons] at hx ⊢
        rcases hx with hx | rfl | hx
        · exact Or.inr (i5 x (by simp [hx]))
        · exact Or.inl rfl
        · exact Or.inr (i5 x (List.mem_append.2 (Or.inr hx)))
      · simp only [List.map_cons, List.nodup_cons] at hd
        have := i6 hd.2
        simp only [List.map_cons]
        rw [List.nodup_append] at this ⊢
        refine ⟨this.1, ?_, ?_⟩
        · rw [List.nodup_cons]
          exact ⟨fun hc => hd.1 (i5 _ (List.mem_append.2 (Or.inr hc))), this.2.1⟩
        · intro a ha b hb
          rcases List.mem_cons.1 hb with rfl | hb
          · rintro rfl; exact hd.1 (i5 _ (List.mem_append.2 (Or.inl ha)))
          · exact this.2.2 a ha b hb
      · simp only [List.mem_cons, Prod.mk.injEq, and_true] at hm ⊢
        rcases hm with hm | hm
        · exact Or.inl hm
        · exact Or.inr (i7 n hm)

theorem local_of_mem {F : Type} (fl : Floats F) {lines : List (Text × Expr)} (hd : (lines.map (·.1)).Nodup)
    {n : Text} {e : Expr} (h : (n, e) ∈ lines) (keys argv : List Text) :
    local? fl lines keys argv n = some (eval fl keys argv e) := by
  have hd' : (lines.reverse.map (·.1)).Nodup := by
    rw [List.map_reverse]; exact List.pairwise_reverse.2 (hd.imp Ne.symm)
  have h' : (n, e) ∈ lines.reverse := List.mem_reverse.2 h
  simp only [local?]
  generalize lines.reverse = l at *
  induction l with
  | nil => cases h'
  | cons x l ih =>
    simp only [List.map_cons, List.nodup_cons] at hd'
    rw [List.find?_cons]
    rcases List.mem_cons.1 h' with h1 | h1
    · subst h1; simp
    · have : x.1 ≠ n := fun hc => hd'.1 (by rw [hc]; exact List.mem_map_of_mem (f := (·.1)) h1)
      simp only [this, decide_false]
      exact ih hd'.2 h1

theorem keyLines_spec {F : Type} {kw : Text → Option (Value F)} {ns keys : List Text} (h : keysOf kw ns = some keys)
    (pre : List Text) (n : Text) (hn : n ∈ ns) :
    ∃ i t, (n, Expr.key i) ∈ keyLines (pre.length + 1) ns ∧ kw n = some (.scalar (.str t)) ∧
      index (pre ++ keys) i = some t := by
  induction ns generalizing keys pre with
  | nil => cases hn
  | cons n0 ns ih =>
    simp only [keysOf] at h
    split at h
    · rename_i t ts hk hts
      cases h
      rcases List.mem_cons.1 hn with rfl | hn
      · exact ⟨pre.length + 1, t, by simp [keyLines], hk, by simp [index]⟩
      · obtain ⟨i, u, h1, h2, h3⟩ := ih hts (pre ++ [t]) hn
        refine ⟨i, u, ?_, h2, by simpa using h3⟩
        simp only [keyLines]
        exact List.mem_cons_of_mem _ (by simpa using h1)
    · cases h

theorem keyLines_names (i : Nat) (ns : List Text) : (keyLines i ns).map (·.1) = ns := by
  induction ns generalizing i with
  | nil => rfl
  | cons n ns ih => simp [keyLines, ih]

theorem argLines_names (i : Nat) (args : List (Text × Option Ty)) :
    (argLines i args).map (·.1) = args.map (fun a => match a.2 with | none => startName a.1 | some _ => a.1) := by
  induction args generalizing i with
  | nil => rfl
  | cons a args ih =>
    obtain ⟨n, t⟩ := a
    cases t <;> simp [argLines, ih]

theorem argLines_spec {F : Type} {fl : Floats F} {kw : Text → Option (Value F)} {args : List (Text × Option Ty)}
    {argv : List Text} (hv : variadicLast args = true) (h : argvOf fl kw args = some argv) (pre : List Text) :
    (∀ n ty, (n, some ty) ∈ args → ∃ i v t, (n, Expr.arg ty i) ∈ argLines (pre.length + 1) args ∧
      kw n = some (.scalar v) ∧ encodeScalar fl v = some t ∧ index (pre ++ argv) i = some t) ∧
    (∀ n, (n, none) ∈ args → ∃ i v ts, (startName n, Expr.num i) ∈ argLines (pre.length + 1) args ∧
      kw n = some v ∧ encodeAll fl (items v) = some ts ∧ 1 ≤ i ∧ (pre ++ argv).drop (i - 1) = ts) := by
  induction args generalizing argv pre with
  | nil => exact ⟨by simp, by simp⟩
  | cons a args ih =>
    obtain ⟨n0, t0⟩ := a
    cases t0 with
    | none =>
      simp only [variadicLast, List.isEmpty_iff] at hv
      subst hv
      simp only [argvOf] at h
      cases hk : kw n0 with
      | none => rw [hk] at h; cases h
      | some v =>
        rw [hk] at h
        dsimp only at h
        cases he : expandArgs fl v with
        | none => rw [he] at h; cases h
        | some ts =>
          rw [he] at h
          simp only [List.append_nil, Option.some.injEq] at h
          subst h
          refine ⟨by simp, ?_⟩
          intro n hn
          simp only [List.mem_singleton, Prod.mk.injEq, and_true] at hn
          subst hn
          exact ⟨pre.length + 1, v, ts, by simp [argLines], hk, he, by omega, by simp⟩
    | some ty0 =>
      simp only [variadicLast] at hv
      simp only [argvOf] at h
      split at h
      · rename_i v hk
        split at h
        · rename_i t r he hr
          cases h
          obtain ⟨i1, i2⟩ := ih hv hr (pre ++ [t])
          simp only [List.length_append, List.length_singleton, List.append_assoc, List.singleton_append] at i1 i2
          refine ⟨?_, ?_⟩
          · intro n ty hn
            rcases List.mem_cons.1 hn with hn | hn
            · cases hn
              exact ⟨pre.length + 1, v, t, by simp [argLines], hk, he, by simp [index]⟩
            · obtain ⟨i, v', t', h1, h2⟩ := i1 n ty hn
              exact ⟨i, v', t', List.mem_cons_of_mem _ h1, h2⟩
          · intro n hn
            rcases List.mem_cons.1 hn with hn | hn
            · cases hn
            · obtain ⟨i, v', ts', h1, h2⟩ := i2 n hn
              exact ⟨i, v', ts', List.mem_cons_of_mem _ h1, h2⟩
        · cases h
      · cases h

/-- **C45**: for every script signature the decorator accepts and every call that is made,
each key parameter is, under its own name, the key passed; each scalar parameter is the
value passed (if it has the declared type; integers as the nearest double, exact up to 2^53:
`C45_integers_exact`); and a variadic parameter's `<name>_start` is the position from which
`ARGV` holds exactly its elements in order.  The names of the Lua locals must be different:
parameter names are in Python; the one derived name must not be the name of another
parameter. -/
theorem C45_arguments_partial {F : Type} (fl : Floats F) (hf : fl.Faithful) (hasBody : Bool) (sig : List (Text × Hint))
    (sc : Script) (hs : decorate hasBody sig = some sc) (hd : (sig.map (·.1)).Nodup)
    (hstart : ∀ n, (n, Hint.args) ∈ sig → startName n ∉ sig.map (·.1))
    (kw : Text → Option (Value F)) (keys argv : List Text) (hc : call fl sc kw = some (keys, argv)) :
    (∀ n, (n, Hint.key) ∈ sig → ∃ t, kw n = some (.scalar (.str t)) ∧
      local? fl (preamble sc) keys argv n = some (.str t)) ∧
    (∀ n ty, (n, Hint.arg ty) ∈ sig → ∃ v, kw n = some (.scalar v) ∧
      (v.is ty → local? fl (preamble sc) keys argv n = some (asLua v))) ∧
    (∀ n, (n, Hint.args) ∈ sig → ∃ v ts i, kw n = some v ∧ encodeAll fl (items v) = some ts ∧
      local? fl (preamble sc) keys argv (startName n) = some (.num (Int.ofNat i)) ∧ 1 ≤ i ∧ argv.drop (i - 1) = ts) := by
  simp only [decorate] at hs
  split at hs
  · cases hs
  · split at hs
    · rename_i sc' hcl
      split at hs
      · cases hs
      · rename_i hcond
        cases hs
        simp only [Bool.or_eq_true, Bool.not_eq_true', not_or, Bool.not_eq_false] at hcond
        have hvl := hcond.2
        obtain ⟨c1, c2, c3, _, c5, c6, c7⟩ := classify_spec hcl
        simp only [call] at hc
        split at hc
        · rename_i k a hk ha
          cases hc
          have hnames : (preamble sc).map (·.1) = sc.keys ++ sc.args.map
              (fun a => match a.2 with | none => startName a.1 | some _ => a.1) := by
            simp [preamble, keyLines_names, argLines_names]
          have hnd : ((preamble sc).map (·.1)).Nodup := by
            rw [hnames]
            have h0 := c6 hd
            rw [List.nodup_append] at h0 ⊢
            have hin : ∀ b ∈ sc.args.map (fun a => match a.2 with | none => startName a.1 | some _ => a.1),
                (b ∈ sc.args.map (·.1) ∧ ∃ ty, (b, some ty) ∈ sc.args) ∨ ∃ n, (n, none) ∈ sc.args ∧ b = startName n := by
              intro b hb
              obtain ⟨⟨n, t⟩, hm, rfl⟩ := List.mem_map.1 hb
              cases t with
              | none => exact Or.inr ⟨n, hm, rfl⟩
              | some ty => exact Or.inl ⟨List.mem_map_of_mem (f := (·.1)) hm, ty, hm⟩
            refine ⟨h0.1, ?_, ?_⟩
            · have hgen : ∀ args : List (Text × Option Ty), variadicLast args = true →
                  (args.map (·.1)).Nodup → (∀ n, (n, none) ∈ args → startName n ∉ args.map (·.1)) →
                  (args.map (fun a => match a.2 with | none => startName a.1 | some _ => a.1)).Nodup := by
                intro args
                induction args with
                | nil => intros; simp
                | cons a args ih =>
                  intro hv hn hst
                  obtain ⟨n, t⟩ := a
                  cases t with
                  | none =>
                    simp only [variadicLast, List.isEmpty_iff] at hv
                    subst hv
                    simp
                  | some ty =>
                    simp only [variadicLast] at hv
                    simp only [List.map_cons, List.nodup_cons] at hn ⊢
                    refine ⟨?_, ih hv hn.2 (fun m hm hc => ?_)⟩
                    · intro hc
                      obtain ⟨⟨m, t⟩, hm, he⟩ := List.mem_map.1 hc
                      cases t with
                      | none =>
                        refine hst m (List.mem_cons_of_mem _ hm) ?_
                        simp only at he
                        rw [he]; simp
                      | some ty' =>
                        simp only at he
                        subst he
                        exact hn.1 (List.mem_map_of_mem (f := (·.1)) hm)
                    · exact hst m (List.mem_cons_of_mem _ hm) (by simp only [List.map_cons, List.mem_cons]; exact Or.inr hc)
              refine hgen sc.args hvl h0.2.1 ?_
              intro n hn hc
              exact hstart n (c7 n hn) (c5 _ (List.mem_append.2 (Or.inr hc)))
            · intro x hx b hb
              rcases hin b hb with ⟨hb', _⟩ | ⟨n, hn, rfl⟩
              · exact h0.2.2 x hx b hb'
              · rintro rfl
                exact hstart n (c7 n hn) (c5 _ (List.mem_append.2 (Or.inl hx)))
          refine ⟨?_, ?_, ?_⟩
          · intro n hn
            obtain ⟨i, t, h1, h2, h3⟩ := keyLines_spec hk [] n (c1 n hn)
            refine ⟨t, h2, ?_⟩
            rw [local_of_mem fl hnd (e := .key i) (List.mem_append.2 (Or.inl h1))]
            simp only [List.nil_append] at h3
            simp only [eval, h3]
          · intro n ty hn
            obtain ⟨i, v, t, h1, h2, h3, h4⟩ := (argLines_spec hvl ha []).1 n ty (c2 n ty hn)
            refine ⟨v, h2, ?_⟩
            intro hty
            rw [local_of_mem fl hnd (e := .arg ty i) (List.mem_append.2 (Or.inr h1))]
            simp only [List.nil_append] at h4
            simp only [eval, h4]
            cases v with
            | none => cases h3
            | str u =>
              cases ty <;> first | exact absurd hty id | skip
              simp only [encodeScalar, Option.some.injEq] at h3
              subst h3
              rfl
            | int n =>
              cases ty <;> first | exact absurd hty id | skip
              simp only [encodeScalar, Option.some.injEq] at h3
              subst h3
              simp only [tonumber, parseInt_decInt, asLua]
            | float x =>
              cases ty <;> first | exact absurd hty id | skip
              simp only [encodeScalar, Option.some.injEq] at h3
              subst h3
              obtain ⟨f1, f2⟩ := hf x
              simp only [tonumber, f1, f2, asLua]
            | bool b =>
              cases ty <;> first | exact absurd hty id | skip
              simp only [encodeScalar, Option.some.injEq] at h3
              subst h3
              cases b <;> rfl
          · intro n hn
            obtain ⟨i, v, ts, h1, h2, h3, h4, h5⟩ := (argLines_spec hvl ha []).2 n (c3 n hn)
            refine ⟨v, ts, i, h2, h3, ?_, h4, by simpa using h5⟩
            rw [local_of_mem fl hnd (e := .num i) (List.mem_append.2 (Or.inr h1))]
            rfl
        · cases hc
    · cases hs

/-- **C45**: the elements of a variadic argument: those of a list in order; for a dict, the keys
and values alternately, in its order. -/
theorem C45_variadic {F : Type} (fl : Floats F) (v : Value F) (ts : List Text) (h : encodeAll fl (items v) = some ts) :
    (∀ l, v = .list l → ts.length = l.length ∧ ∀ (i : Nat) x, l[i]? = some x → (encodeScalar fl x).isSome ∧ ts[i]? = encodeScalar fl x) ∧
    (∀ d, v = .dict d → ts.length = 2 * d.length ∧ ∀ (i : Nat) k x, d[i]? = some (k, x) →
      (encodeScalar fl k).isSome ∧ ts[2 * i]? = encodeScalar fl k ∧
      (encodeScalar fl x).isSome ∧ ts[2 * i + 1]? = encodeScalar fl x) := by
  have hall : ∀ (l : List (Py F)) (ts : List Text), encodeAll fl l = some ts →
      ts.length = l.length ∧ ∀ (i : Nat) x, l[i]? = some x → (encodeScalar fl x).isSome ∧ ts[i]? = encodeScalar fl x := by
    intro l
    induction l with
    | nil => intro ts h; simp only [encodeAll] at h; cases h; simp
    | cons y l ih =>
      intro ts h
      simp only [encodeAll] at h
      split at h
      · next u us hu hus =>
        cases h
        obtain ⟨h1, h2⟩ := ih us hus
        refine ⟨by simp [h1], ?_⟩
        intro i x hx
        cases i with
        | zero => simp at hx; subst hx; simp [hu]
        | succ i => simp only [List.getElem?_cons_succ] at hx ⊢; exact h2 i x hx
      · cases h
  constructor
  · rintro l rfl
    exact hall l ts h
  · rintro d rfl
    obtain ⟨h1, h2⟩ := hall _ ts h
    have hget : ∀ (d : List (Py F × Py F)), (d.flatMap (fun e => [e.1, e.2])).length = 2 * d.length ∧
        ∀ (i : Nat) k x, d[i]? = some (k, x) →
          (d.flatMap (fun e => [e.1, e.2]))[2 * i]? = some k ∧ (d.flatMap (fun e => [e.1, e.2]))[2 * i + 1]? = some x := by
      intro d
      induction d with
      | nil => simp
      | cons e d ih =>
        obtain ⟨ih1, ih2⟩ := ih
        refine ⟨by simp only [List.flatMap_cons, List.length_append, ih1, List.length_cons, List.length_nil]; omega, ?_⟩
        intro i k x hx
        cases i with
        | zero => simp at hx; subst hx; simp
        | succ i =>
          simp only [List.getElem?_cons_succ] at hx
          have := ih2 i k x hx
          rw [List.flatMap_cons, show 2 * (i + 1) = 2 * i + 1 + 1 by omega]
          simpa using this
    obtain ⟨g1, g2⟩ := hget d
    refine ⟨h1.trans g1, ?_⟩
    intro i k x hx
    obtain ⟨a, b⟩ := g2 i k x hx
    exact ⟨(h2 _ _ a).1, (h2 _ _ a).2, (h2 _ _ b).1, (h2 _ _ b).2⟩

/-- **C45**: integers up to 2^53 in size arrive exactly. -/
theorem C45_integers_exact (n : Int) (h : n.natAbs ≤ 2 ^ 53) : toDouble n = n := by
  have hr : ∀ m : Nat, m ≤ 2 ^ 53 → roundNat m = m := by
    intro m hm
    by_cases h : m < 2 ^ 53
    · simp [roundNat, h]
    · have : m = 2 ^ 53 := by omega
      subst this
      decide +kernel
  cases n with
  | ofNat m => simp only [toDouble, hr m (by simpa using h)]
  | negSucc m =>
    simp only [toDouble]
    rw [hr (m + 1) (by simpa using h)]
    rfl

/-- Beyond that they do not: Lua's numbers are doubles. -/
theorem C45_integers_not_exact : toDouble (2 ^ 53 + 1) = 2 ^ 53 := by decide +kernel

/-- **C45**: a call is refused, and no script runs, if a parameter is missing or holds a value
that is not a string, number or boolean. -/
theorem C45_refused {F : Type} (fl : Floats F) (sc : Script) (kw : Text → Option (Value F)) (n : Text)
    (h : (n ∈ sc.keys ∧ kw n = none) ∨ (∃ t, (n, some t) ∈ sc.args ∧ (kw n = none ∨ kw n = some (.scalar .none)))) :
    call fl sc kw = none := by
  simp only [call]
  split
  · rename_i k a hk ha
    exfalso
    rcases h with ⟨hm, hn⟩ | ⟨t, hm, hn⟩
    · generalize sc.keys = ks at *
      induction ks generalizing k with
      | nil => cases hm
      | cons x ks ih =>
        simp only [keysOf] at hk
        split at hk
        · rename_i u us h1 h2
          rcases List.mem_cons.1 hm with rfl | hm
          · rw [h1] at hn; cases hn
          · exact ih us h2 hm
        · cases hk
    · generalize sc.args = as at *
      induction as generalizing a with
      | nil => cases hm
      | cons x as ih =>
        obtain ⟨m, ty⟩ := x
        cases ty with
        | none =>
          simp only [argvOf] at ha
          split at ha
          · split at ha
            · rename_i r _ hr
              rcases List.mem_cons.1 hm with hm | hm
              · cases hm
              · exact ih r hr hm
            · cases ha
          · cases ha
        | some ty =>
          simp only [argvOf] at ha
          split at ha
          · rename_i v hv
            split at ha
            · rename_i tt r he hr
              rcases List.mem_cons.1 hm with hm | hm
              · cases hm
                rcases hn with hn | hn
                · rw [hv] at hn; cases hn
                · rw [hv] at hn; cases hn; cases he
              · exact ih r hr hm
            · cases ha
          · cases ha
  · rfl

/-- The signature of the claim script (with a variadic tail added) is accepted and called. -/
def claimSig : List (Text × Hint) :=
  [(t!"redis", .redis), (t!"runs_key", .key), (t!"progress_key", .key), (t!"worker", .arg .str),
   (t!"generation", .arg .int), (t!"replace", .arg .bool), (t!"message", .args)]

def claimKw : Text → Option (Value Empty) := fun n =>
  if n = t!"runs_key" then some (.scalar (.str t!"d:runs:k"))
  else if n = t!"progress_key" then some (.scalar (.str t!"d:progress:k"))
  else if n = t!"worker" then some (.scalar (.str t!"w1"))
  else if n = t!"generation" then some (.scalar (.int 12))
  else if n = t!"replace" then some (.scalar (.bool true))
  else if n = t!"message" then some (.dict [(.str t!"key", .str t!"k")])
  else none

def noFloats : Floats Empty := ⟨nofun, fun _ => none⟩

example : noFloats.Faithful := nofun
example : ∃ sc, decorate true claimSig = some sc ∧ (claimSig.map (·.1)).Nodup ∧
    startName t!"message" ∉ claimSig.map (·.1) ∧
    call noFloats sc claimKw = some ([t!"d:runs:k", t!"d:progress:k"], [t!"w1", t!"12", t!"1", t!"key", t!"k"]) ∧
    local? noFloats (preamble sc) [t!"d:runs:k", t!"d:progress:k"] [t!"w1", t!"12", t!"1", t!"key", t!"k"] t!"generation" =
      some (.num 12) ∧
    local? noFloats (preamble sc) [t!"d:runs:k", t!"d:progress:k"] [t!"w1", t!"12", t!"1", t!"key", t!"k"] t!"message_start" =
      some (.num 4) :=
  ⟨⟨[t!"runs_key", t!"progress_key"], [(t!"worker", some .str), (t!"generation", some .int), (t!"replace", some .bool), (t!"message", none)]⟩,
   by decide +kernel, by decide +kernel, by decide +kernel, by decide +kernel, by decide +kernel, by decide +kernel⟩

/-- The full statement of C45, without the hypothesis on derived names. -/
def C45_every_signature : Prop :=
  ∀ (sig : List (Text × Hint)) (sc : Script) (kw : Text → Option (Value Empty)) (keys argv : List Text)
    (n : Text) (t : Text),
    decorate true sig = some sc → (sig.map (·.1)).Nodup → call noFloats sc kw = some (keys, argv) →
    (n, Hint.arg .str) ∈ sig → kw n = some (.scalar (.str t)) →
    local? noFloats (preamble sc) keys argv n = some (.str t)

/-- **C45, violated**: the decorator accepts a signature with a parameter called
`<name>_start` next to a variadic `<name>`; the derived local hides the parameter. -/
theorem C45_violated_derived_name : ¬ C45_every_signature := by
  intro h
  have := h [(t!"redis", .redis), (t!"k", .key), (t!"a_start", .arg .str), (t!"a", .args)] _
    (fun n => if n = t!"k" then some (.scalar (.str t!"k")) else if n = t!"a_start" then some (.scalar (.str t!"now"))
      else some (.list [])) [t!"k"] [t!"now"] t!"a_start" t!"now" rfl (by decide +kernel) (by decide +kernel)
    (by decide +kernel) (by decide +kernel)
  revert this
  decide +kernel

end Docket.Lua
