import Verif.Codec.Uuid7
/-
C47 Generated keys are ordered and well-formed.
-/
namespace Docket.Uuid7

/-- The clock step of a time: units of 16 s / 2^28, about 60 ns. -/
def tick (ns : Nat) : Nat := ns * 2 ^ 28 / sixteen

theorem split_eq (ns : Nat) :
    split ns = (tick ns / 2 ^ 28, tick ns / 2 ^ 12 % 2 ^ 16, tick ns % 2 ^ 12 + 28672) := by
  have h3 : ((ns % sixteen) <<< 16 % sixteen) <<< 12 / sixteen < 2 ^ 12 := by
    simp only [sixteen, Nat.shiftLeft_eq]; omega
  have hor : (((ns % sixteen) <<< 16 % sixteen) <<< 12 / sixteen) ||| (7 <<< 12) =
      ((ns % sixteen) <<< 16 % sixteen) <<< 12 / sixteen + 28672 := by
    rw [Nat.or_comm, ← Nat.shiftLeft_add_eq_or_of_lt h3]
    simp only [Nat.shiftLeft_eq]; omega
  simp only [split, hor, Prod.mk.injEq]
  have ht : tick ns = ns / sixteen * 2 ^ 28 + ((ns % sixteen) <<< 16 / sixteen) * 2 ^ 12 +
      ((ns % sixteen) <<< 16 % sixteen) <<< 12 / sixteen := by
    have a1 := Nat.div_add_mod ns sixteen
    have a2 := Nat.div_add_mod ((ns % sixteen) <<< 16) sixteen
    have a3 := Nat.div_add_mod (((ns % sixteen) <<< 16 % sixteen) <<< 12) sixteen
    have a4 : (((ns % sixteen) <<< 16 % sixteen) <<< 12) % sixteen < sixteen := Nat.mod_lt _ (by decide)
    generalize ((ns % sixteen) <<< 16 % sixteen) <<< 12 % sixteen = z at *
    generalize ((ns % sixteen) <<< 16 % sixteen) <<< 12 / sixteen = e at *
    rw [Nat.shiftLeft_eq] at a3
    generalize (ns % sixteen) <<< 16 % sixteen = d at *
    generalize (ns % sixteen) <<< 16 / sixteen = c at *
    rw [Nat.shiftLeft_eq] at a2
    generalize ns % sixteen = b at *
    generalize ns / sixteen = a at *
    simp only [sixteen] at a1 a2 a3 a4
    apply Nat.div_eq_of_lt_le <;> simp only [sixteen] <;> omega
  have hc : (ns % sixteen) <<< 16 / sixteen < 2 ^ 16 := by
    simp only [sixteen, Nat.shiftLeft_eq]; omega
  rw [ht]
  generalize ((ns % sixteen) <<< 16 % sixteen) <<< 12 / sixteen = e at *
  generalize (ns % sixteen) <<< 16 / sixteen = c at *
  generalize ns / sixteen = a at *
  refine ⟨by omega, by omega, by omega⟩

theorem tick_mono {a b : Nat} (h : a ≤ b) : tick a ≤ tick b :=
  Nat.div_le_div_right (Nat.mul_le_mul_right _ h)

/-- The state of a counter at a clock step. -/
def At (l : Last) (k q : Nat) : Prop :=
  l.t1 = k / 2 ^ 28 ∧ l.t2 = k / 2 ^ 12 % 2 ^ 16 ∧ l.t3 = k % 2 ^ 12 + 28672 ∧ l.seq = q ∧ q ≤ 16383

theorem number_eq {l : Last} {k q : Nat} (h : At l k q) (r : Nat) :
    number l r = k / 2 ^ 28 * 2 ^ 96 + k / 2 ^ 12 % 2 ^ 16 * 2 ^ 80 + (k % 2 ^ 12 + 28672) * 2 ^ 64 +
      (32768 + q) * 2 ^ 48 + r := by
  obtain ⟨h1, h2, h3, h4, h5⟩ := h
  have hor : (2 <<< 14) ||| l.seq = 32768 + q := by
    rw [← Nat.shiftLeft_add_eq_or_of_lt (by omega : l.seq < 2 ^ 14), h4]
    simp [Nat.shiftLeft_eq]
  unfold number
  rw [hor, h1, h2, h3]
  simp only [Nat.shiftLeft_eq]

theorem number_lt {l l' : Last} {k q k' q' r r' : Nat} (h : At l k q) (h' : At l' k' q') (hr : r < 2 ^ 48)
    (hlt : k < k' ∨ (k = k' ∧ q < q')) : number l r < number l' r' := by
  have hq := h.2.2.2.2
  have hq' := h'.2.2.2.2
  rw [number_eq h, number_eq h']
  rcases hlt with hlt | ⟨rfl, hlt⟩
  · omega
  · omega

theorem number_range {l : Last} {k q r : Nat} (h : At l k q) (hr : r < 2 ^ 48) (hk : k < 2 ^ 60) :
    number l r < 2 ^ 128 := by
  have hq := h.2.2.2.2
  rw [number_eq h]
  omega

theorem bump_at {l : Last} {k q : Nat} (h : At l k q) (ns : Nat) :
    At (bump l ns) (tick ns) (if tick ns = k then (if q < 16383 then q + 1 else q) else 0) := by
  obtain ⟨h1, h2, h3, h4, h5⟩ := h
  simp only [bump, split_eq]
  by_cases he : tick ns = k
  · rw [if_pos ⟨by rw [h1, he], by rw [h2, he], by rw [h3, he]⟩, if_pos he]
    split
    · rename_i hs
      rw [if_pos (by omega)]
      exact ⟨by rw [he]; exact h1, by rw [he]; exact h2, by rw [he]; exact h3, by simp [h4], by omega⟩
    · rename_i hs
      rw [if_neg (by omega)]
      exact ⟨by rw [he]; exact h1, by rw [he]; exact h2, by rw [he]; exact h3, h4, h5⟩
  · rw [if_neg, if_neg he]
    · exact ⟨rfl, rfl, rfl, rfl, by omega⟩
    · rintro ⟨e1, e2, e3⟩
      omega

theorem bump_start (ns : Nat) : At (bump start ns) (tick ns) 0 := by
  simp only [bump, split_eq, start]
  rw [if_neg]
  · exact ⟨rfl, rfl, rfl, rfl, by omega⟩
  · rintro ⟨_, _, e3⟩
    omega

/-! ### Texts -/

theorem hexDigit_lt {a b : Nat} (hab : a < b) (hb : b < 16) : hexDigit a < hexDigit b := by
  have : ∀ b : Fin 16, ∀ a : Fin 16, a.val < b.val → hexDigit a.val < hexDigit b.val := by decide
  exact this ⟨b, hb⟩ ⟨a, by omega⟩ hab

theorem hex_length (w n : Nat) : (hex w n).length = w := by
  induction w generalizing n with
  | zero => rfl
  | succ w ih => simp [hex, ih]

theorem hex_lt {w n m : Nat} (h : n < m) (hm : m < 16 ^ w) : hex w n < hex w m := by
  induction w generalizing n m with
  | zero => simp at hm; omega
  | succ w ih =>
    have hp : 0 < 16 ^ w := Nat.pow_pos (by omega)
    simp only [hex]
    rw [List.cons_lt_cons_iff]
    have hdm : m / 16 ^ w < 16 := by
      rw [Nat.div_lt_iff_lt_mul hp]
      rw [Nat.pow_succ] at hm; omega
    rcases Nat.lt_or_ge (n / 16 ^ w) (m / 16 ^ w) with hd | hd
    · exact Or.inl (hexDigit_lt hd hdm)
    · have hle : n / 16 ^ w ≤ m / 16 ^ w := Nat.div_le_div_right (by omega)
      have he : n / 16 ^ w = m / 16 ^ w := by omega
      refine Or.inr ⟨by rw [he], ih ?_ (Nat.mod_lt _ hp)⟩
      have h1 := Nat.div_add_mod n (16 ^ w)
      have h2 := Nat.div_add_mod m (16 ^ w)
      rw [he] at h1
      omega

theorem hyphen_lt {i : Nat} {a b : Text} (hl : a.length = b.length) (h : a < b) : hyphen i a < hyphen i b := by
  induction i generalizing a b with
  | zero => simp [hyphen, h]
  | succ i ih =>
    cases a with
    | nil => cases b with
      | nil => exact absurd h (List.lt_irrefl _)
      | cons y b => simp at hl
    | cons x a => cases b with
      | nil => simp at hl
      | cons y b =>
        have hcons := List.cons_lt_cons_iff.1 h
        clear h
        simp only [hyphen, List.take_succ_cons, List.drop_succ_cons, List.cons_append]
        rw [List.cons_lt_cons_iff]
        rcases hcons with h | ⟨rfl, h⟩
        · exact Or.inl h
        · exact Or.inr ⟨rfl, ih (by simpa using hl) h⟩

theorem hyphen_length {i : Nat} {t : Text} (h : i ≤ t.length) : (hyphen i t).length = t.length + 1 := by
  simp [hyphen]; omega

/-- The texts sort like the numbers. -/
theorem text_lt {n m : Nat} (h : n < m) (hm : m < 2 ^ 128) : text n < text m := by
  have h0 : hex 32 n < hex 32 m := hex_lt h (by simpa using hm)
  have l0 : ∀ x, (hex 32 x).length = 32 := fun x => hex_length 32 x
  have l1 : ∀ x, (hyphen 8 (hex 32 x)).length = 33 := fun x => by rw [hyphen_length (by rw [l0]; omega), l0]
  have l2 : ∀ x, (hyphen 13 (hyphen 8 (hex 32 x))).length = 34 := fun x => by rw [hyphen_length (by rw [l1]; omega), l1]
  have l3 : ∀ x, (hyphen 18 (hyphen 13 (hyphen 8 (hex 32 x)))).length = 35 := fun x => by
    rw [hyphen_length (by rw [l2]; omega), l2]
  exact hyphen_lt (by rw [l3, l3]) (hyphen_lt (by rw [l2, l2]) (hyphen_lt (by rw [l1, l1]) (hyphen_lt (by rw [l0, l0]) h0)))

/-! ### Sequences of calls -/

/-- The states after each call. -/
def states (l : Last) : List (Nat × Nat) → List (Last × Nat)
  | [] => []
  | (ns, r) :: rest => (bump l ns, r) :: states (bump l ns) rest

theorem keys_eq (l : Last) (ins : List (Nat × Nat)) :
    keys l ins = (states l ins).map (fun s => if number s.1 s.2 < 2 ^ 128 then some (text (number s.1 s.2)) else none) := by
  induction ins generalizing l with
  | nil => rfl
  | cons e ins ih => simp [keys, states, ih]

theorem states_after {l : Last} {k q : Nat} (h : At l k q) (ins : List (Nat × Nat))
    (hmono : ∀ e ∈ ins, k ≤ tick e.1) (hp : ins.Pairwise (fun a b => a.1 ≤ b.1))
    (hr : ∀ e ∈ ins, e.2 < 2 ^ 48) (hcap : ∀ e ∈ ins, tick e.1 < 2 ^ 60)
    (hk : q + (ins.filter (fun e => tick e.1 = k)).length ≤ 16383)
    (ho : ∀ j, j ≠ k → (ins.filter (fun e => tick e.1 = j)).length ≤ 16384) :
    (∀ s ∈ states l ins, ∃ k' q', At s.1 k' q' ∧ s.2 < 2 ^ 48 ∧ k' < 2 ^ 60 ∧ (k < k' ∨ (k = k' ∧ q < q'))) ∧
    (states l ins).Pairwise (fun a b => number a.1 a.2 < number b.1 b.2) := by
  induction ins generalizing l k q with
  | nil => simp [states]
  | cons e ins ih =>
    obtain ⟨ns, r⟩ := e
    have hb := bump_at h ns
    rw [List.pairwise_cons] at hp
    have hge : k ≤ tick ns := hmono (ns, r) (by simp)
    have hrr : r < 2 ^ 48 := hr (ns, r) (by simp)
    have hcc : tick ns < 2 ^ 60 := hcap (ns, r) (by simp)
    simp only [states]
    have key : ∃ q', At (bump l ns) (tick ns) q' ∧ (k < tick ns ∨ (k = tick ns ∧ q < q')) ∧
        q' + (ins.filter (fun e => tick e.1 = tick ns)).length ≤ 16383 := by
      by_cases he : tick ns = k
      · rw [if_pos he] at hb
        have hc : (((ns, r) :: ins).filter (fun e => tick e.1 = k)).length =
            (ins.filter (fun e => tick e.1 = k)).length + 1 := by
          rw [List.filter_cons_of_pos (by simpa using he), List.length_cons]
        rw [hc] at hk
        have hq : q < 16383 := by omega
        rw [if_pos hq] at hb
        refine ⟨q + 1, hb, Or.inr ⟨he.symm, by omega⟩, ?_⟩
        rw [he]; omega
      · rw [if_neg he] at hb
        refine ⟨0, hb, Or.inl (by omega), ?_⟩
        have := ho (tick ns) he
        rw [List.filter_cons_of_pos (by simp)] at this
        simp only [List.length_cons] at this
        omega
    obtain ⟨q', hb', hlt, hcount⟩ := key
    have ih' := ih hb' (fun e he => tick_mono (hp.1 e he)) hp.2 (fun e he => hr e (by simp [he]))
      (fun e he => hcap e (by simp [he])) hcount (by
        intro j hj
        rcases Nat.decEq j k with hjk | hjk
        · have := ho j hjk
          rw [List.filter_cons_of_neg (by simpa using fun h => hj h.symm)] at this
          exact this
        · subst hjk
          rw [List.filter_cons_of_neg (by simpa using fun h => hj h.symm)] at hk
          omega)
    constructor
    · intro s hs
      rcases List.mem_cons.1 hs with rfl | hs
      · exact ⟨tick ns, q', hb', hrr, hcc, hlt⟩
      · obtain ⟨k2, q2, h1, h2, h3, h4⟩ := ih'.1 s hs
        exact ⟨k2, q2, h1, h2, h3, by omega⟩
    · rw [List.pairwise_cons]
      refine ⟨?_, ih'.2⟩
      intro s hs
      obtain ⟨k2, q2, h1, h2, h3, h4⟩ := ih'.1 s hs
      exact number_lt hb' h1 hrr h4

/-- **C47**: for every sequence of key generations by one process with a clock that does not
run backwards (and is before the year 4000), whatever the random bytes, if no more than 16384
fall into one clock step, then every key is generated and every later key sorts strictly
after every earlier one. -/
theorem C47_ordered (ins : List (Nat × Nat)) (hclock : ins.Pairwise (fun a b => a.1 ≤ b.1))
    (hrange : ∀ e ∈ ins, e.1 < 64000000000000000000) (hrand : ∀ e ∈ ins, e.2 < 2 ^ 48)
    (hstep : ∀ k, (ins.filter (fun e => tick e.1 = k)).length ≤ 16384) :
    ∃ ts : List Text, keys start ins = ts.map some ∧ ts.Pairwise (· < ·) := by
  have hcap : ∀ e ∈ ins, tick e.1 < 2 ^ 60 := by
    intro e he
    have := hrange e he
    simp only [tick, sixteen]
    omega
  have hmain : (∀ s ∈ states start ins, number s.1 s.2 < 2 ^ 128) ∧
      (states start ins).Pairwise (fun a b => number a.1 a.2 < number b.1 b.2) := by
    cases ins with
    | nil => simp [states]
    | cons e ins =>
      obtain ⟨ns, r⟩ := e
      rw [List.pairwise_cons] at hclock
      have hb := bump_start ns
      have := hstep (tick ns)
      rw [List.filter_cons_of_pos (by simp)] at this
      simp only [List.length_cons] at this
      have h0 := states_after hb ins (fun e he => tick_mono (hclock.1 e he)) hclock.2
        (fun e he => hrand e (by simp [he])) (fun e he => hcap e (by simp [he])) (by omega)
        (by
          intro j hj
          have := hstep j
          rw [List.filter_cons_of_neg (by simpa using fun h => hj h.symm)] at this
          exact this)
      have hr := hrand (ns, r) (by simp)
      simp only [states]
      constructor
      · intro s hs
        rcases List.mem_cons.1 hs with rfl | hs
        · exact number_range hb hr (hcap (ns, r) (by simp))
        · obtain ⟨k2, q2, h1, h2, h3, _⟩ := h0.1 s hs
          exact number_range h1 h2 h3
      · rw [List.pairwise_cons]
        refine ⟨?_, h0.2⟩
        intro s hs
        obtain ⟨k2, q2, h1, h2, h3, h4⟩ := h0.1 s hs
        exact number_lt hb h1 hr h4
  refine ⟨(states start ins).map (fun s => text (number s.1 s.2)), ?_, ?_⟩
  · rw [keys_eq, List.map_map]
    apply List.map_congr_left
    intro s hs
    rw [if_pos (hmain.1 s hs)]
    rfl
  · rw [List.pairwise_map]
    have hb := hmain.1
    have hp := hmain.2
    clear hmain
    generalize states start ins = l at *
    induction l with
    | nil => exact List.Pairwise.nil
    | cons x l ih =>
      rw [List.pairwise_cons] at hp ⊢
      exact ⟨fun s hs => text_lt (hp.1 s hs) (hb s (by simp [hs])), ih (fun s hs => hb s (by simp [hs])) hp.2⟩

/-- A lower-case hexadecimal digit. -/
def IsHex (c : Char) : Prop := c ∈ t!"0123456789abcdef"

theorem hexDigit_isHex {d : Nat} (h : d < 16) : IsHex (hexDigit d) := by
  have : ∀ d : Fin 16, IsHex (hexDigit d.val) := by unfold IsHex; decide
  exact this ⟨d, h⟩

theorem hex_isHex {w n : Nat} (h : n < 16 ^ w) : ∀ c ∈ hex w n, IsHex c := by
  induction w generalizing n with
  | zero => simp [hex]
  | succ w ih =>
    have hp : 0 < 16 ^ w := Nat.pow_pos (by omega)
    intro c hc
    simp only [hex, List.mem_cons] at hc
    rcases hc with rfl | hc
    · refine hexDigit_isHex ?_
      rw [Nat.div_lt_iff_lt_mul hp]
      rw [Nat.pow_succ] at h; omega
    · exact ih (Nat.mod_lt _ hp) c hc

theorem hex_get {w n i : Nat} (h : n < 16 ^ w) (hi : i < w) :
    (hex w n)[i]? = some (hexDigit (n / 16 ^ (w - 1 - i) % 16)) := by
  induction w generalizing n i with
  | zero => omega
  | succ w ih =>
    have hp : 0 < 16 ^ w := Nat.pow_pos (by omega)
    cases i with
    | zero =>
      have : n / 16 ^ w < 16 := by
        rw [Nat.div_lt_iff_lt_mul hp]
        rw [Nat.pow_succ] at h; omega
      simp only [hex, List.getElem?_cons_zero, Nat.sub_zero, Nat.add_sub_cancel]
      rw [Nat.mod_eq_of_lt this]
    | succ i =>
      simp only [hex, List.getElem?_cons_succ]
      rw [ih (Nat.mod_lt _ hp) (by omega)]
      have e : w + 1 - 1 - (i + 1) = w - 1 - i := by omega
      rw [e]
      have hw : 16 ^ w = 16 ^ (w - 1 - i) * 16 ^ (i + 1) := by rw [← Nat.pow_add]; congr 1; omega
      rw [hw, Nat.mod_mul_right_div_self, Nat.pow_succ, Nat.mul_comm (16 ^ i), Nat.mod_mul_right_mod]

theorem hyphen_at {i : Nat} {x y : Text} (h : x.length = i) : hyphen i (x ++ y) = x ++ '-' :: y := by
  simp [hyphen, List.take_append, List.drop_append, ← h]

theorem hyphens_eq {a b c d e : Text} (ha : a.length = 8) (hb : b.length = 4) (hc : c.length = 4) (hd : d.length = 4) :
    hyphen 23 (hyphen 18 (hyphen 13 (hyphen 8 (a ++ (b ++ (c ++ (d ++ e))))))) =
      a ++ '-' :: (b ++ '-' :: (c ++ '-' :: (d ++ '-' :: e))) := by
  rw [hyphen_at ha]
  rw [show a ++ '-' :: (b ++ (c ++ (d ++ e))) = (a ++ '-' :: b) ++ (c ++ (d ++ e)) by simp,
    hyphen_at (by simp [ha, hb])]
  rw [show (a ++ '-' :: b) ++ '-' :: (c ++ (d ++ e)) = (a ++ '-' :: (b ++ '-' :: c)) ++ (d ++ e) by simp,
    hyphen_at (by simp [ha, hb, hc])]
  rw [show (a ++ '-' :: (b ++ '-' :: c)) ++ '-' :: (d ++ e) = (a ++ '-' :: (b ++ '-' :: (c ++ '-' :: d))) ++ e by simp,
    hyphen_at (by simp [ha, hb, hc, hd])]
  simp

/-- The form of a version-7 UUID: hexadecimal digits in groups of 8, 4, 4, 4 and 12, the
third group starting with the version and the fourth with the variant. -/
def WellFormed (t : Text) : Prop :=
  ∃ a b c d e : Text, t = a ++ '-' :: (b ++ '-' :: (('7' :: c) ++ '-' :: (d ++ '-' :: e))) ∧
    a.length = 8 ∧ b.length = 4 ∧ c.length = 3 ∧ d.length = 4 ∧ e.length = 12 ∧
    (∃ x, d.head? = some x ∧ x ∈ t!"89ab") ∧ ∀ x ∈ a ++ b ++ c ++ d ++ e, IsHex x

theorem text_wellFormed {l : Last} {k q r : Nat} (h : At l k q) (hr : r < 2 ^ 48) (hk : k < 2 ^ 60) :
    WellFormed (text (number l r)) := by
  have hn := number_range h hr hk
  have h12 : number l r / 16 ^ (32 - 1 - 12) % 16 = 7 := by
    have hq := h.2.2.2.2
    rw [number_eq h]; omega
  have h16 : ∃ v, number l r / 16 ^ (32 - 1 - 16) % 16 = v ∧ 8 ≤ v ∧ v ≤ 11 := by
    have hq := h.2.2.2.2
    refine ⟨_, rfl, ?_, ?_⟩ <;> rw [number_eq h] <;> omega
  generalize number l r = n at *
  have hlen := hex_length 32 n
  have hall := hex_isHex (w := 32) (n := n) (by omega)
  have g12 := hex_get (w := 32) (n := n) (i := 12) (by omega) (by omega)
  have g16 := hex_get (w := 32) (n := n) (i := 16) (by omega) (by omega)
  rw [h12] at g12
  obtain ⟨v, hv, hv1, hv2⟩ := h16
  rw [hv] at g16
  unfold text
  generalize hex 32 n = s at *
  have e1 := List.take_append_drop 8 s
  have e2 := List.take_append_drop 4 (s.drop 8)
  have e3 := List.take_append_drop 4 (s.drop 12)
  have e4 := List.take_append_drop 4 (s.drop 16)
  rw [List.drop_drop] at e2 e3 e4
  rw [← e4] at e3
  rw [← e3] at e2
  rw [← e2] at e1
  have hc : ∃ c, (s.drop 12).take 4 = '7' :: c ∧ c.length = 3 := by
    have hl : ((s.drop 12).take 4).length = 4 := by simp [hlen]
    have h0 : ((s.drop 12).take 4)[0]? = some '7' := by
      rw [List.getElem?_take_of_lt (by omega), List.getElem?_drop]; exact g12
    cases hx : (s.drop 12).take 4 with
    | nil => rw [hx] at hl; simp at hl
    | cons x c =>
      rw [hx] at h0 hl
      simp only [List.getElem?_cons_zero, Option.some.injEq] at h0
      exact ⟨c, by rw [h0], by simpa using hl⟩
  obtain ⟨c, hc, hcl⟩ := hc
  refine ⟨s.take 8, (s.drop 8).take 4, c, (s.drop 16).take 4, s.drop 20, ?_, by simp [hlen], by simp [hlen], hcl,
    by simp [hlen], by simp [hlen], ?_, ?_⟩
  · rw [hc] at e1
    rw [← hyphens_eq (by simp [hlen]) (by simp [hlen]) (by simp [hcl]) (by simp [hlen]), e1]
  · refine ⟨hexDigit v, ?_, ?_⟩
    · rw [List.head?_eq_getElem?, List.getElem?_take_of_lt (by omega), List.getElem?_drop]; exact g16
    · have : ∀ v : Fin 16, 8 ≤ v.val → v.val ≤ 11 → hexDigit v.val ∈ t!"89ab" := by decide
      exact this ⟨v, by omega⟩ hv1 hv2
  · intro x hx
    refine hall x ?_
    simp only [List.append_assoc, List.mem_append] at hx
    rcases hx with hx | hx | hx | hx | hx
    · exact List.mem_of_mem_take hx
    · exact List.mem_of_mem_drop (List.mem_of_mem_take hx)
    · have : x ∈ (s.drop 12).take 4 := by rw [hc]; exact List.mem_cons_of_mem _ hx
      exact List.mem_of_mem_drop (List.mem_of_mem_take this)
    · exact List.mem_of_mem_drop (List.mem_of_mem_take hx)
    · exact List.mem_of_mem_drop hx

/-- Every state after a call is at the clock step of that call. -/
theorem states_at (l : Last) (hl : l = start ∨ ∃ k q, At l k q) (ins : List (Nat × Nat)) :
    ∀ s ∈ states l ins, ∃ e ∈ ins, ∃ q, At s.1 (tick e.1) q ∧ s.2 = e.2 := by
  induction ins generalizing l with
  | nil => simp [states]
  | cons e ins ih =>
    obtain ⟨ns, r⟩ := e
    have hb : ∃ q, At (bump l ns) (tick ns) q := by
      rcases hl with rfl | ⟨k, q, h⟩
      · exact ⟨0, bump_start ns⟩
      · exact ⟨_, bump_at h ns⟩
    intro s hs
    simp only [states, List.mem_cons] at hs
    rcases hs with rfl | hs
    · obtain ⟨q, hb⟩ := hb
      exact ⟨(ns, r), by simp, q, hb, rfl⟩
    · obtain ⟨e, he, h⟩ := ih _ (Or.inr ⟨tick ns, hb⟩) s hs
      exact ⟨e, by simp [he], h⟩

/-- **C47**: every key is a well-formed version-7 UUID, whatever the clock does (it may run
backwards, or stand still for any number of calls) and whatever the random bytes. -/
theorem C47_well_formed (ins : List (Nat × Nat)) (hrange : ∀ e ∈ ins, e.1 < 64000000000000000000)
    (hrand : ∀ e ∈ ins, e.2 < 2 ^ 48) (k : Option Text) (hk : k ∈ keys start ins) :
    ∃ t, k = some t ∧ WellFormed t := by
  rw [keys_eq] at hk
  obtain ⟨s, hs, rfl⟩ := List.mem_map.1 hk
  obtain ⟨e, he, q, ha, hr⟩ := states_at start (Or.inl rfl) ins s hs
  have hc : tick e.1 < 2 ^ 60 := by
    have := hrange e he
    simp only [tick, sixteen]; omega
  have hr' : s.2 < 2 ^ 48 := by rw [hr]; exact hrand e he
  exact ⟨_, if_pos (number_range ha hr' hc), text_wellFormed ha hr' hc⟩

/-- Three calls, two of them within one clock step, with random bytes that decrease. -/
def sampleCalls : List (Nat × Nat) := [(1700000000000000000, 5), (1700000000000000001, 3), (1700000000000000900, 0)]

example : sampleCalls.Pairwise (fun a b => a.1 ≤ b.1) := by decide
example : ∀ e ∈ sampleCalls, e.1 < 64000000000000000000 ∧ e.2 < 2 ^ 48 := by decide
example : ∀ k, (sampleCalls.filter (fun e => tick e.1 = k)).length ≤ 16384 := fun k =>
  Nat.le_trans (List.length_filter_le _ _) (by decide)
example : tick 1700000000000000000 = tick 1700000000000000001 ∧ tick 1700000000000000001 < tick 1700000000000000900 := by
  decide +kernel

end Docket.Uuid7
