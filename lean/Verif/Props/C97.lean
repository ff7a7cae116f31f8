import Verif.Props.C56
import Verif.Views.Connect

/-! # C97: every connection is told what the URL says -/

namespace Docket.Connect
open Docket Docket.Cli Docket.Sentinel

/-! ### Specification -/

/-- A character that stands for a byte. -/
def Byte (c : Char) : Prop := c.toNat < 256

/-- The unreserved characters of URLs (RFC 3986). -/
def Unreserved (c : Char) : Prop := c.isAlphanum = true ∨ c ∈ t!"-._~"

instance decUnreserved (c : Char) : Decidable (Unreserved c) := inferInstanceAs (Decidable (_ ∨ _))
instance decByte (c : Char) : Decidable (Byte c) := inferInstanceAs (Decidable (_ < _))

/-- A byte, percent-encoded. -/
def percent (c : Char) : Text :=
  ['%', t!"0123456789ABCDEF".getD (c.toNat / 16) '0', t!"0123456789ABCDEF".getD (c.toNat % 16) '0']

/-- Percent-encoding. -/
def encode (t : Text) : Text := t.flatMap fun c => if Unreserved c then [c] else percent c

/-- A URL somebody writes for a docket: the user name, password and options as they are meant. -/
structure Url where
  scheme : Text
  user : Text
  password : Text
  /-- the host or hosts, with their ports -/
  hosts : Text
  path : Text
  options : List (Text × Text)

/-- The part with the credentials. -/
def Url.credentials (u : Url) : Text :=
  if u.user = [] ∧ u.password = [] then [] else encode u.user ++ t!":" ++ encode u.password ++ t!"@"

/-- `name=value&…`. -/
def fields : List (Text × Text) → Text
  | [] => []
  | [o] => encode o.1 ++ t!"=" ++ encode o.2
  | o :: os => encode o.1 ++ t!"=" ++ encode o.2 ++ t!"&" ++ fields os

/-- The URL as it is written. -/
def Url.written (u : Url) : Text :=
  u.scheme ++ t!"://" ++ (u.credentials ++ u.hosts) ++ (u.path ++ (if u.options = [] then [] else t!"?" ++ fields u.options))

/-- A plain server, a master that Sentinel watches, a cluster; without and with TLS. -/
def urlSchemes : List Text :=
  [t!"redis", t!"rediss", t!"redis+sentinel", t!"rediss+sentinel", t!"redis+cluster", t!"rediss+cluster"]

/-- The URL is well-formed and each option is given once, with a value. -/
structure Url.Ok (u : Url) : Prop where
  scheme : u.scheme ∈ urlSchemes
  user : ∀ c ∈ u.user, Byte c
  password : ∀ c ∈ u.password, Byte c
  hosts : ∀ c ∈ u.hosts, c ∉ t!"/?#@"
  path : u.path = [] ∨ ∃ p, u.path = '/' :: p
  pathChars : ∀ c ∈ u.path, c ∉ t!"?#\t\r\n"
  names : ∀ o ∈ u.options, ∀ c ∈ o.1, Byte c
  values : ∀ o ∈ u.options, o.2 ≠ [] ∧ ∀ c ∈ o.2, Byte c
  once : (u.options.map (·.1)).Pairwise (· ≠ ·)

/-- With TLS. -/
def Url.Secure (u : Url) : Prop := u.scheme = t!"rediss" ∨ u.scheme = t!"rediss+sentinel" ∨ u.scheme = t!"rediss+cluster"

/-- For a master that Sentinel watches. -/
def Url.Watched (u : Url) : Prop := u.scheme = t!"redis+sentinel" ∨ u.scheme = t!"rediss+sentinel"

/-- The query string has no such option. -/
def Url.Without (u : Url) (n : Text) : Prop := ∀ o ∈ u.options, o.1 ≠ n

/-- What a connection signs in with; an empty user name or password is none. -/
def SignsIn (c : Conn) (user password : Text) : Prop :=
  (c.options.get? t!"username").getD [] = user ∧ (c.options.get? t!"password").getD [] = password

/-- The names of the arguments that have a source of their own in a URL. -/
def reserved : List Text :=
  [t!"username", t!"password", t!"db", t!"ssl", t!"sentinel_username", t!"sentinel_password"]

/-- **C97**, in full: whatever a docket uses a connection for, the connection signs in with the
user name and password that the URL spells, uses TLS if the scheme says so and only then, and has
every option of the query string. -/
def C97_statement : Prop :=
  ∀ (u : Url), u.Ok → (∀ o ∈ u.options, o.1 ∉ [t!"username", t!"password"] ∧ '%' ∉ o.2) →
    ∀ (db : Text) (use : Use) (c : Conn), connection u.written db use = some c →
      SignsIn c u.user u.password ∧ (c.tls = true ↔ u.Secure) ∧
        ∀ o ∈ u.options, o.1 ∉ reserved → c.options.get? o.1 = some o.2

/-! ### Dictionaries -/

@[simp] theorem get?_nil (k : Text) : Options.get? [] k = none := rfl

theorem get?_cons (n v : Text) (d : Options) (k : Text) : Options.get? ((n, v) :: d) k = if n = k then some v else Options.get? d k := rfl

theorem get?_pop (d : Options) (k n : Text) : (Options.pop d k).get? n = if n = k then none else d.get? n := by
  induction d with
  | nil => simp [Options.pop]
  | cons e d ih =>
    obtain ⟨m, v⟩ := e
    by_cases h : m = k
    · have : Options.pop ((m, v) :: d) k = Options.pop d k := by simp [Options.pop, h]
      rw [this, ih]
      by_cases hn : n = k
      · simp [hn]
      · have : m ≠ n := fun hh => hn (by rw [← hh, h])
        simp [hn, get?_cons, this]
    · have : Options.pop ((m, v) :: d) k = (m, v) :: Options.pop d k := by simp [Options.pop, h]
      rw [this, get?_cons, ih, get?_cons]
      by_cases hn : n = k
      · have : m ≠ n := fun hh => h (by rw [hh, hn])
        simp [hn, h]
      · simp [hn]

theorem get?_put (d : Options) (k v n : Text) : (Options.put d k v).get? n = if n = k then some v else d.get? n := by
  unfold Options.put
  rw [get?_cons, get?_pop]
  by_cases h : n = k
  · simp [h]
  · have : k ≠ n := fun hh => h hh.symm
    simp [h, this]

theorem get?_update (d e : Options) (n : Text) : (Options.update d e).get? n = (e.get? n).or (d.get? n) := by
  unfold Options.update
  induction e with
  | nil => simp
  | cons x e ih =>
    obtain ⟨m, v⟩ := x
    rw [List.foldr_cons, get?_put, ih, get?_cons]
    by_cases h : n = m
    · simp [h]
    · have : m ≠ n := fun hh => h hh.symm
      simp [h, this]

theorem get?_putIf (d : Options) (k : Text) (f : Text → Text) (x : Option Text) (n : Text) :
    (putIf d k f x).get? n = if n = k then (if x.getD [] = [] then d.get? n else some (f (x.getD []))) else d.get? n := by
  match x with
  | none => simp [putIf]
  | some [] => simp [putIf]
  | some (c :: cs) => simp [putIf, get?_put]

theorem get?_putSome (d : Options) (k : Text) (x : Option Text) (n : Text) :
    (putSome d k x).get? n = if n = k then x.or (d.get? n) else d.get? n := by
  cases x <;> simp [putSome, get?_put]

/-! ### Quoting -/

theorem char_byte {P : Char → Prop} (h : ∀ n : Fin 256, P (Char.ofNat n)) {c : Char} (hc : Byte c) : P c := by
  have := h ⟨c.toNat, hc⟩
  simpa using this

theorem unquote_cons {c : Char} (h : c ≠ '%') (t : Text) : unquote (c :: t) = c :: unquote t := by
  rw [unquote.eq_def]
  split
  · rename_i heq; exact absurd (List.cons.inj heq).1 h
  · rename_i heq; cases heq; rfl
  · rename_i heq; cases heq

theorem unquote_hex {a b c : Char} (h : hexByte? a b = some c) (t : Text) : unquote ('%' :: a :: b :: t) = c :: unquote t := by
  rw [unquote.eq_def]; simp only [h]

/-- Appending a text that quotes one byte. -/
def Quotes (f : Char → Text) : Prop := ∀ c, Byte c → ∀ t, unquote (f c ++ t) = c :: unquote t

theorem unquote_flatMap {f : Char → Text} (hf : Quotes f) : ∀ (t : Text), (∀ c ∈ t, Byte c) → unquote (t.flatMap f) = t
  | [], _ => rfl
  | c :: t, h => by
    rw [List.flatMap_cons, hf c (h c (by simp)), unquote_flatMap hf t (fun x hx => h x (by simp [hx]))]

theorem quotes_encode : Quotes (fun c => if Unreserved c then [c] else percent c) := by
  intro c hc t
  by_cases hu : Unreserved c
  · simp only [hu, if_true]
    refine unquote_cons ?_ t
    rintro rfl
    exact absurd hu (by decide)
  · simp only [hu, if_false]
    have : hexByte? (t!"0123456789ABCDEF".getD (c.toNat / 16) '0') (t!"0123456789ABCDEF".getD (c.toNat % 16) '0') = some c :=
      char_byte (P := fun c => hexByte? (t!"0123456789ABCDEF".getD (c.toNat / 16) '0') (t!"0123456789ABCDEF".getD (c.toNat % 16) '0') = some c)
        (by decide +kernel) hc
    exact unquote_hex this t

theorem unquote_encode {t : Text} (h : ∀ c ∈ t, Byte c) : unquote (encode t) = t := unquote_flatMap quotes_encode t h

def plus (c : Char) : Char := if c = '+' then ' ' else c

theorem unquotePlus_eq (t : Text) : unquotePlus t = unquote (t.map plus) := rfl

theorem unquotePlus_quotePlus {t : Text} (h : ∀ c ∈ t, Byte c) : unquotePlus (quotePlus t) = t := by
  rw [unquotePlus_eq, quotePlus, List.map_flatMap]
  refine unquote_flatMap ?_ t h
  intro c hc r
  have hcases : (quotePlusByte c).map plus = [c] ∧ c ≠ '%' ∨
      ∃ a b, (quotePlusByte c).map plus = ['%', a, b] ∧ hexByte? a b = some c := by
    have hd : (quotePlusByte c).map plus = [c] ∧ c ≠ '%' ∨
        (quotePlusByte c).map plus = ['%', hexDigit (c.toNat / 16), hexDigit (c.toNat % 16)] ∧
          hexByte? (hexDigit (c.toNat / 16)) (hexDigit (c.toNat % 16)) = some c :=
      char_byte (P := fun c => (quotePlusByte c).map plus = [c] ∧ c ≠ '%' ∨
        (quotePlusByte c).map plus = ['%', hexDigit (c.toNat / 16), hexDigit (c.toNat % 16)] ∧
          hexByte? (hexDigit (c.toNat / 16)) (hexDigit (c.toNat % 16)) = some c) (by decide +kernel) hc
    rcases hd with h | h
    · exact Or.inl h
    · exact Or.inr ⟨_, _, h⟩
  rcases hcases with ⟨he, hp⟩ | ⟨a, b, he, hx⟩
  · show unquote ((quotePlusByte c).map plus ++ r) = _
    rw [he]; exact unquote_cons hp r
  · show unquote ((quotePlusByte c).map plus ++ r) = _
    rw [he]; exact unquote_hex hx r

/-- The characters of an encoded text. -/
theorem mem_encode {t : Text} (h : ∀ c ∈ t, Byte c) : ∀ c ∈ encode t, Unreserved c ∨ c = '%' := by
  intro c hc
  obtain ⟨x, hx, hcx⟩ := List.mem_flatMap.1 hc
  by_cases hu : Unreserved x
  · simp only [hu, if_true, List.mem_singleton] at hcx; exact Or.inl (hcx ▸ hu)
  · simp only [hu, if_false] at hcx
    have := char_byte (P := fun x => ∀ c ∈ percent x, Unreserved c ∨ c = '%') (by decide +kernel) (h x hx)
    exact this c hcx

theorem encode_no {t : Text} (h : ∀ c ∈ t, Byte c) {x : Char} (hx : ¬ Unreserved x) (hp : x ≠ '%') : x ∉ encode t := fun hm =>
  (mem_encode h x hm).elim hx hp

theorem plus_encode {t : Text} (h : ∀ c ∈ t, Byte c) : (encode t).map plus = encode t := by
  have : ∀ c ∈ encode t, plus c = c := by
    intro c hc
    unfold plus
    by_cases hp : c = '+'
    · exact absurd (hp ▸ hc) (encode_no h (by decide) (by decide))
    · simp [hp]
  conv => rhs; rw [← List.map_id (encode t)]
  exact List.map_congr_left this

theorem unquotePlus_encode {t : Text} (h : ∀ c ∈ t, Byte c) : unquotePlus (encode t) = t := by
  rw [unquotePlus_eq, plus_encode h, unquote_encode h]

theorem encode_eq_nil {t : Text} : encode t = [] ↔ t = [] := by
  cases t with
  | nil => simp [encode]
  | cons c t =>
    simp only [encode, List.flatMap_cons, List.append_eq_nil_iff]
    by_cases hu : Unreserved c <;> simp [hu, percent]

theorem unquote_no {t : Text} (h : '%' ∉ t) : unquote t = t := by
  induction t with
  | nil => rfl
  | cons c t ih =>
    have hc : c ≠ '%' := fun hh => h (by simp [hh])
    rw [unquote_cons hc, ih (fun hm => h (by simp [hm]))]

theorem unquote_eq_nil {t : Text} : unquote t = [] ↔ t = [] := by
  constructor
  · intro h
    cases t with
    | nil => rfl
    | cons c t =>
      rw [unquote.eq_def] at h
      split at h
      · split at h <;> cases h
      · cases h
      · assumption
  · rintro rfl; rfl

theorem unquotePlus_eq_nil {t : Text} : unquotePlus t = [] ↔ t = [] := by
  rw [unquotePlus_eq, unquote_eq_nil]; simp

/-! ### Query strings -/

/-- The values of a name, in order. -/
def vals (l : List (Text × Text)) (n : Text) : List Text := l.filterMap fun e => if e.1 = n then some e.2 else none

/-- The same in a dictionary. -/
def dvals (d : List (Text × List Text)) (n : Text) : List Text :=
  match d with
  | [] => []
  | (m, vs) :: d => if m = n then vs else dvals d n

theorem dvals_addValue (d : List (Text × List Text)) (n v k : Text) :
    dvals (addValue d n v) k = if n = k then dvals d k ++ [v] else dvals d k := by
  induction d with
  | nil => by_cases h : n = k <;> simp [addValue, dvals, h]
  | cons e d ih =>
    obtain ⟨m, vs⟩ := e
    by_cases hm : m = n
    · subst hm
      by_cases h : m = k <;> simp [addValue, dvals, h]
    · by_cases hk : m = k
      · have : n ≠ k := fun hh => hm (hk.trans hh.symm)
        have hkn : k ≠ n := fun hh => this hh.symm
        subst hk
        simp [addValue, dvals, hm, this]
      · simp [addValue, dvals, hm, hk, ih]

/-- A dictionary of lists as `parse_qs` makes them. -/
structure Fine (d : List (Text × List Text)) : Prop where
  keys : (d.map (·.1)).Pairwise (· ≠ ·)
  full : ∀ e ∈ d, e.2 ≠ []

theorem mem_addValue {d : List (Text × List Text)} {n v k : Text} :
    k ∈ (addValue d n v).map (·.1) ↔ k = n ∨ k ∈ d.map (·.1) := by
  induction d with
  | nil => simp [addValue]
  | cons e d ih =>
    obtain ⟨m, vs⟩ := e
    by_cases hm : m = n
    · subst hm; simp [addValue]
    · simp only [addValue, if_neg hm, List.map_cons, List.mem_cons, ih]
      constructor
      · rintro (h | h | h) <;> simp [h]
      · rintro (h | h | h) <;> simp [h]

theorem Fine.addValue {d : List (Text × List Text)} (h : Fine d) (n v : Text) : Fine (addValue d n v) := by
  induction d with
  | nil => exact ⟨by simp [Connect.addValue], by simp [Connect.addValue]⟩
  | cons e d ih =>
    obtain ⟨m, vs⟩ := e
    have hk := List.pairwise_cons.1 h.keys
    have hd : Fine d := ⟨hk.2, fun e he => h.full e (by simp [he])⟩
    by_cases hm : m = n
    · subst hm
      constructor
      · simpa [Connect.addValue] using h.keys
      · intro e he
        simp only [Connect.addValue, if_true, List.mem_cons] at he
        rcases he with rfl | he
        · simp
        · exact hd.full e he
    · constructor
      · simp only [Connect.addValue, if_neg hm, List.map_cons]
        refine List.pairwise_cons.2 ⟨fun k hk' => ?_, (ih hd).keys⟩
        rcases mem_addValue.1 hk' with rfl | hk'
        · exact hm
        · exact hk.1 k hk'
      · intro e he
        simp only [Connect.addValue, if_neg hm, List.mem_cons] at he
        rcases he with rfl | he
        · exact h.full _ (by simp)
        · exact (ih hd).full e he

theorem collected (l : List (Text × Text)) : ∀ (d : List (Text × List Text)), Fine d →
    Fine (l.foldl (fun d e => addValue d e.1 e.2) d) ∧
      ∀ n, dvals (l.foldl (fun d e => addValue d e.1 e.2) d) n = dvals d n ++ vals l n := by
  induction l with
  | nil => intro d h; exact ⟨h, fun n => by simp [vals]⟩
  | cons e l ih =>
    intro d h
    obtain ⟨h1, h2⟩ := ih _ (h.addValue e.1 e.2)
    refine ⟨h1, fun n => ?_⟩
    rw [List.foldl_cons, h2, dvals_addValue]
    by_cases hn : e.1 = n <;> simp [vals, hn]

theorem fine_parseQs (b : Bool) (q : Text) : Fine (parseQs b q) :=
  (collected _ [] ⟨List.Pairwise.nil, fun _ he => nomatch he⟩).1

theorem dvals_parseQs (b : Bool) (q n : Text) : dvals (parseQs b q) n = vals (parseQsl b q) n := by
  have := (collected (parseQsl b q) [] ⟨List.Pairwise.nil, fun _ he => nomatch he⟩).2 n
  simpa [dvals, parseQs] using this

theorem dvals_none {d : List (Text × List Text)} {n : Text} (h : n ∉ d.map (·.1)) : dvals d n = [] := by
  induction d with
  | nil => rfl
  | cons e d ih =>
    obtain ⟨m, vs⟩ := e
    simp only [List.map_cons, List.mem_cons, not_or] at h
    have : m ≠ n := fun hh => h.1 hh.symm
    simp [dvals, this, ih h.2]

theorem firstValue_eq (d : List (Text × List Text)) (n : Text) : firstValue d n = (dvals d n).headD [] := by
  induction d with
  | nil => rfl
  | cons e d ih =>
    obtain ⟨m, vs⟩ := e
    by_cases h : m = n <;> simp [firstValue, dvals, h, ih]

theorem get?_folded {d : List (Text × List Text)} (h : Fine d) (n : Text) : ∀ o : Options,
    (d.foldl putFirst o).get? n =
      ((dvals d n).head?.map unquote).or (o.get? n) := by
  induction d with
  | nil => intro o; simp [dvals]
  | cons e d ih =>
    intro o
    obtain ⟨m, vs⟩ := e
    have hk := List.pairwise_cons.1 h.keys
    have hd : Fine d := ⟨hk.2, fun e he => h.full e (by simp [he])⟩
    cases vs with
    | nil => exact absurd rfl (h.full (m, []) (by simp))
    | cons v vs =>
      rw [List.foldl_cons, ih hd]
      simp only [putFirst, get?_put]
      by_cases hn : m = n
      · subst hn
        have : dvals d m = [] := dvals_none (fun hm => hk.1 m hm rfl)
        simp [dvals, this]
      · have hn' : n ≠ m := fun hh => hn hh.symm
        simp [dvals, hn, hn']

/-- redis-py takes the first value of a name. -/
theorem get?_queryOptions (q n : Text) : (queryOptions q).get? n = (vals (parseQsl false q) n).head?.map unquote := by
  rw [queryOptions, get?_folded (fine_parseQs false q), dvals_parseQs]
  simp

/-- What is needed of a way of quoting names and values. -/
structure Quoter (f : Text → Text) : Prop where
  amp : ∀ t, (∀ c ∈ t, Byte c) → '&' ∉ f t
  eq : ∀ t, (∀ c ∈ t, Byte c) → '=' ∉ f t
  back : ∀ t, (∀ c ∈ t, Byte c) → unquotePlus (f t) = t
  nil : ∀ t, f t = [] ↔ t = []

theorem quoter_encode : Quoter encode :=
  ⟨fun _ h => encode_no h (by decide) (by decide), fun _ h => encode_no h (by decide) (by decide), fun _ h => unquotePlus_encode h,
    fun _ => encode_eq_nil⟩

theorem quotePlus_no {t : Text} (h : ∀ c ∈ t, Byte c) : '&' ∉ quotePlus t ∧ '=' ∉ quotePlus t := by
  have key : ∀ c ∈ t, '&' ∉ quotePlusByte c ∧ '=' ∉ quotePlusByte c := fun c hc =>
    char_byte (P := fun c => '&' ∉ quotePlusByte c ∧ '=' ∉ quotePlusByte c) (by decide +kernel) (h c hc)
  constructor
  · intro hm
    obtain ⟨c, hc, hcm⟩ := List.mem_flatMap.1 hm
    exact (key c hc).1 hcm
  · intro hm
    obtain ⟨c, hc, hcm⟩ := List.mem_flatMap.1 hm
    exact (key c hc).2 hcm

theorem quoter_quotePlus : Quoter quotePlus :=
  ⟨fun _ h => (quotePlus_no h).1, fun _ h => (quotePlus_no h).2, fun _ h => unquotePlus_quotePlus h, fun t => by
    cases t with
    | nil => simp [quotePlus]
    | cons c t =>
      simp only [quotePlus, List.flatMap_cons, List.append_eq_nil_iff, quotePlusByte]
      by_cases h1 : alwaysSafe c = true
      · simp [h1]
      · by_cases h2 : c = ' '
        · subst h2; simp [h1]
        · simp [h1, h2]⟩

theorem splitOn_ampersands (ts : List Text) (hne : ts ≠ []) (h : ∀ t ∈ ts, '&' ∉ t) : splitOn '&' (ampersands ts) = ts := by
  induction ts with
  | nil => exact absurd rfl hne
  | cons t ts ih =>
    cases ts with
    | nil => exact splitOn_no (h t (by simp))
    | cons t' ts =>
      have : ampersands (t :: t' :: ts) = t ++ '&' :: ampersands (t' :: ts) := rfl
      rw [this, splitOn_at _ (h t (by simp)), ih (by simp) (fun x hx => h x (by simp [hx]))]

theorem filterMap_same {α β : Type} {f g : α → Option β} : ∀ {l : List α}, (∀ x ∈ l, f x = g x) → l.filterMap f = l.filterMap g
  | [], _ => rfl
  | x :: l, h => by
    rw [List.filterMap_cons, List.filterMap_cons, h x (by simp), filterMap_same fun y hy => h y (by simp [hy])]

theorem parseQsl_joined {f : Text → Text} (hf : Quoter f) (b : Bool) (l : List (Text × Text))
    (hl : ∀ e ∈ l, (∀ c ∈ e.1, Byte c) ∧ ∀ c ∈ e.2, Byte c) :
    parseQsl b (ampersands (l.map fun e => f e.1 ++ '=' :: f e.2)) = l.filter fun e => e.2 ≠ [] || b := by
  by_cases hne : l = []
  · subst hne; simp [parseQsl, ampersands, splitOn]
  · unfold parseQsl
    rw [splitOn_ampersands _ (by simpa using hne), List.filterMap_map]
    · have : ∀ e ∈ l, ((fun field => if field = [] then none else
          let p := partition '=' field
          if p.2 ≠ [] || b then some (unquotePlus p.1, unquotePlus p.2) else none) ∘ fun e => f e.1 ++ '=' :: f e.2) e =
          if e.2 ≠ [] || b then some e else none := by
        intro e he
        have h1 := (hl e he).1
        have h2 := (hl e he).2
        simp only [Function.comp]
        rw [if_neg (by simp), partition_at _ (hf.eq _ h1), hf.back _ h1, hf.back _ h2]
        by_cases hv : e.2 = []
        · have := (hf.nil e.2).2 hv
          obtain ⟨n, v⟩ := e
          simp only at hv
          subst hv
          simp [(hf.nil []).2 rfl]
        · have : f e.2 ≠ [] := fun hh => hv ((hf.nil e.2).1 hh)
          simp [hv, this]
      rw [filterMap_same this]
      clear this hl hne
      induction l with
      | nil => rfl
      | cons e l ih =>
        by_cases hc : (e.2 ≠ [] || b) = true
        · simp only [List.filterMap_cons, hc, if_true, List.filter_cons, ih]
        · simp only [List.filterMap_cons, hc, List.filter_cons, ih]; simp
    · intro t ht
      obtain ⟨e, he, rfl⟩ := List.mem_map.1 ht
      intro hm
      rcases List.mem_append.1 hm with hm | hm
      · exact hf.amp _ (hl e he).1 hm
      · rcases List.mem_cons.1 hm with hm | hm
        · exact absurd hm (by decide)
        · exact hf.amp _ (hl e he).2 hm

theorem fields_eq (l : List (Text × Text)) : fields l = ampersands (l.map fun e => encode e.1 ++ '=' :: encode e.2) := by
  induction l with
  | nil => rfl
  | cons e l ih =>
    cases l with
    | nil => simp [fields, ampersands]
    | cons e' l =>
      have : fields (e :: e' :: l) = encode e.1 ++ t!"=" ++ encode e.2 ++ t!"&" ++ fields (e' :: l) := rfl
      rw [this, ih]
      simp [ampersands]

theorem parseQsl_fields {u : Url} (ok : u.Ok) (b : Bool) : parseQsl b (fields u.options) = u.options := by
  rw [fields_eq, parseQsl_joined quoter_encode b _ (fun e he => ⟨ok.names e he, (ok.values e he).2⟩)]
  refine List.filter_eq_self.2 fun e he => ?_
  simp [(ok.values e he).1]

/-! ### The query string of a Sentinel URL, written out again -/

theorem hexVal?_lt {c : Char} {n : Nat} (h : hexVal? c = some n) : n < 16 := by
  unfold hexVal? at h
  split at h
  · rename_i hh
    have := Char.le_def.1 hh.2
    have h2 : c.toNat ≤ 57 := UInt32.le_iff_toNat_le.1 this
    simp only [Option.some.injEq] at h; omega
  · split at h
    · rename_i hh
      have h2 : c.toNat ≤ 70 := UInt32.le_iff_toNat_le.1 (Char.le_def.1 hh.2)
      simp only [Option.some.injEq] at h; omega
    · split at h
      · rename_i hh
        have h2 : c.toNat ≤ 102 := UInt32.le_iff_toNat_le.1 (Char.le_def.1 hh.2)
        simp only [Option.some.injEq] at h; omega
      · cases h

theorem byte_ofNat {n : Nat} (h : n < 256) : Byte (Char.ofNat n) :=
  (by decide +kernel : ∀ n : Fin 256, Byte (Char.ofNat n)) ⟨n, h⟩

theorem hexByte?_byte {a b c : Char} (h : hexByte? a b = some c) : Byte c := by
  unfold hexByte? at h
  split at h
  · rename_i x y hx hy
    have := hexVal?_lt hx
    have := hexVal?_lt hy
    cases h
    exact byte_ofNat (by omega)
  · cases h

theorem bytes_unquote (t : Text) (h : ∀ c ∈ t, Byte c) : ∀ c ∈ unquote t, Byte c := by
  fun_induction unquote t with
  | case1 a b rest x hx ih =>
    intro c hc
    rcases List.mem_cons.1 hc with rfl | hc
    · exact hexByte?_byte hx
    · exact ih (fun y hy => h y (by simp [hy])) c hc
  | case2 a b rest hx ih =>
    intro c hc
    rcases List.mem_cons.1 hc with rfl | hc
    · decide
    · exact ih (fun y hy => h y (List.mem_cons_of_mem _ hy)) c hc
  | case3 x rest hx ih =>
    intro c hc
    rcases List.mem_cons.1 hc with rfl | hc
    · exact h c (by simp)
    · exact ih (fun y hy => h y (by simp [hy])) c hc
  | case4 => intro c hc; cases hc

theorem bytes_unquotePlus {t : Text} (h : ∀ c ∈ t, Byte c) : ∀ c ∈ unquotePlus t, Byte c := by
  rw [unquotePlus_eq]
  refine bytes_unquote _ fun c hc => ?_
  obtain ⟨x, hx, rfl⟩ := List.mem_map.1 hc
  unfold plus
  split
  · decide
  · exact h x hx

theorem splitOn_sub (sep : Char) (t : Text) : ∀ p ∈ splitOn sep t, ∀ c ∈ p, c ∈ t := by
  induction t with
  | nil => intro p hp; simp [splitOn] at hp; subst hp; simp
  | cons x t ih =>
    intro p hp c hc
    simp only [splitOn] at hp
    split at hp
    · rcases List.mem_cons.1 hp with rfl | hp
      · cases hc
      · exact List.mem_cons_of_mem _ (ih p hp c hc)
    · split at hp
      · rename_i hs
        rcases List.mem_cons.1 hp with rfl | hp
        · simp at hc; simp [hc]
        · cases hp
      · rename_i q qs hs
        rcases List.mem_cons.1 hp with rfl | hp
        · rcases List.mem_cons.1 hc with rfl | hc
          · simp
          · exact List.mem_cons_of_mem _ (ih q (by rw [hs]; simp) c hc)
        · exact List.mem_cons_of_mem _ (ih p (by rw [hs]; simp [hp]) c hc)

theorem bytes_parseQsl {b : Bool} {q : Text} (h : ∀ c ∈ q, Byte c) :
    ∀ e ∈ parseQsl b q, (∀ c ∈ e.1, Byte c) ∧ ∀ c ∈ e.2, Byte c := by
  intro e he
  obtain ⟨field, hf, hfe⟩ := List.mem_filterMap.1 he
  split at hfe
  · cases hfe
  · have hb : ∀ c ∈ field, Byte c := fun c hc => h c (splitOn_sub _ _ _ hf c hc)
    simp only at hfe
    split at hfe
    · cases hfe
      refine ⟨bytes_unquotePlus fun c hc => hb c ?_, bytes_unquotePlus fun c hc => hb c ?_⟩
      · exact (List.takeWhile_sublist _).subset hc
      · exact (List.dropWhile_sublist _).subset (List.mem_of_mem_drop hc)
    · cases hfe

/-- Fields without a value are dropped, unless asked for. -/
theorem parseQsl_false (q : Text) : parseQsl false q = (parseQsl true q).filter fun e => e.2 ≠ [] := by
  unfold parseQsl
  induction splitOn '&' q with
  | nil => rfl
  | cons f fs ih =>
    by_cases hf : f = []
    · simp only [List.filterMap_cons, hf, if_true]; simpa using ih
    · by_cases hv : (partition '=' f).2 = []
      · have h2 : unquotePlus [] = [] := rfl
        simp only [List.filterMap_cons, if_neg hf]
        simp [hv, h2] at ih ⊢
        simpa using ih
      · have h2 : unquotePlus (partition '=' f).2 ≠ [] := fun hh => hv (unquotePlus_eq_nil.1 hh)
        simp only [List.filterMap_cons, if_neg hf]
        simp [hv, h2] at ih ⊢
        simpa using ih

theorem vals_append (a b : List (Text × Text)) (n : Text) : vals (a ++ b) n = vals a n ++ vals b n := List.filterMap_append

theorem vals_filter (l : List (Text × Text)) (n : Text) (p : Text → Bool) : vals (l.filter fun e => p e.2) n = (vals l n).filter p := by
  induction l with
  | nil => rfl
  | cons e l ih =>
    by_cases hp : p e.2 = true
    · by_cases hn : e.1 = n
      · simp only [vals, List.filter_cons, hp, if_true, List.filterMap_cons, hn] at ih ⊢; rw [ih]
      · simp only [vals, List.filter_cons, hp, if_true, List.filterMap_cons, hn, if_false] at ih ⊢; rw [ih]
    · by_cases hn : e.1 = n
      · simp only [vals, List.filter_cons, hp, List.filterMap_cons, hn, if_true] at ih ⊢; simpa using ih
      · simp only [vals, List.filter_cons, hp, List.filterMap_cons, hn, if_false] at ih ⊢; simpa using ih

theorem vals_const (vs : List Text) (m n : Text) : vals (vs.map fun v => (m, v)) n = if m = n then vs else [] := by
  induction vs with
  | nil => simp [vals]
  | cons v vs ih =>
    by_cases h : m = n
    · simp only [vals, List.map_cons, List.filterMap_cons, h, if_true] at ih ⊢; rw [ih]
    · simp only [vals, List.map_cons, List.filterMap_cons, h, if_false] at ih ⊢; rw [ih]

theorem vals_flat {d : List (Text × List Text)} (h : (d.map (·.1)).Pairwise (· ≠ ·)) (n : Text) :
    vals (d.flatMap fun e => e.2.map fun v => (e.1, v)) n = dvals d n := by
  induction d with
  | nil => rfl
  | cons e d ih =>
    obtain ⟨m, vs⟩ := e
    have hk := List.pairwise_cons.1 h
    rw [List.flatMap_cons, vals_append, ih hk.2, vals_const]
    by_cases hm : m = n
    · subst hm
      rw [dvals_none (fun hh => hk.1 m hh rfl)]
      simp [dvals]
    · simp [dvals, hm]

theorem dvals_filter (d : List (Text × List Text)) (p : Text → Bool) {n : Text} (hn : p n = true) :
    dvals (d.filter fun e => p e.1) n = dvals d n := by
  induction d with
  | nil => rfl
  | cons e d ih =>
    obtain ⟨m, vs⟩ := e
    by_cases hm : m = n
    · subst hm; simp [dvals, hn]
    · by_cases hp : p m = true
      · simp [dvals, hp, hm, ih]
      · simp [dvals, hp, hm, ih]

theorem mem_dict_bytes {q : Text} (h : ∀ c ∈ q, Byte c) {b : Bool} {n v : Text} (hv : v ∈ vals (parseQsl b q) n) :
    (∀ c ∈ n, Byte c) ∧ ∀ c ∈ v, Byte c := by
  obtain ⟨e, he, hev⟩ := List.mem_filterMap.1 hv
  split at hev
  · rename_i hn
    cases hev
    exact hn ▸ bytes_parseQsl h e he
  · cases hev

theorem dvals_mem {d : List (Text × List Text)} (h : (d.map (·.1)).Pairwise (· ≠ ·)) {e : Text × List Text} (he : e ∈ d) :
    dvals d e.1 = e.2 := by
  induction d with
  | nil => cases he
  | cons x d ih =>
    obtain ⟨m, vs⟩ := x
    have hk := List.pairwise_cons.1 h
    rcases List.mem_cons.1 he with rfl | he
    · simp [dvals]
    · have : m ≠ e.1 := hk.1 e.1 (List.mem_map.2 ⟨e, he, rfl⟩)
      simp [dvals, this, ih hk.2 he]

/-- Writing the query string out again changes no option. -/
theorem get?_remaining {q : Text} (h : ∀ c ∈ q, Byte c) {n : Text} (h1 : n ≠ t!"sentinel_username") (h2 : n ≠ t!"sentinel_password") :
    (queryOptions (remainingQuery q)).get? n = (queryOptions q).get? n := by
  have hfine := fine_parseQs true q
  rw [get?_queryOptions, get?_queryOptions]
  congr 2
  unfold remainingQuery urlencode
  rw [parseQsl_joined quoter_quotePlus]
  · simp only [Bool.or_false]
    have hp : ((decide (n ≠ t!"sentinel_username") && decide (n ≠ t!"sentinel_password")) = true) := by simp [h1, h2]
    rw [vals_filter _ n (fun v => v ≠ []), vals_flat, parseQsl_false, vals_filter _ n (fun v => v ≠ []), ← dvals_parseQs]
    · congr 1
      simpa using dvals_filter (parseQs true q) (fun m => decide (m ≠ t!"sentinel_username") && decide (m ≠ t!"sentinel_password")) hp
    · exact (hfine.keys.sublist ((List.filter_sublist).map _))
  · intro e he
    obtain ⟨x, hx, hxe⟩ := List.mem_flatMap.1 he
    obtain ⟨v, hv, rfl⟩ := List.mem_map.1 hxe
    have hxd := (List.mem_filter.1 hx).1
    have := dvals_mem hfine.keys hxd
    rw [dvals_parseQs] at this
    exact mem_dict_bytes h (by rw [this]; exact hv)

/-! ### The parts of a URL -/

theorem partitionScheme_at (s rest : Text) (h : s ∈ urlSchemes) : partitionScheme (s ++ t!"://" ++ rest) = (s, rest) := by
  simp only [urlSchemes, List.mem_cons, List.not_mem_nil, or_false] at h
  rcases h with rfl | rfl | rfl | rfl | rfl | rfl <;> simp [partitionScheme, List.isPrefixOf]

/-- The part of the URL after the hosts. -/
def Url.tail (u : Url) : Text := u.path ++ (if u.options = [] then [] else t!"?" ++ fields u.options)

theorem fields_chars {u : Url} (ok : u.Ok) : ∀ c ∈ fields u.options, Unreserved c ∨ c ∈ t!"%=&" := by
  have key : ∀ l : List (Text × Text), (∀ o ∈ l, ∀ c ∈ o.1, Byte c) → (∀ o ∈ l, ∀ c ∈ o.2, Byte c) →
      ∀ c ∈ fields l, Unreserved c ∨ c ∈ t!"%=&" := by
    intro l
    have one : ∀ o : Text × Text, (∀ c ∈ o.1, Byte c) → (∀ c ∈ o.2, Byte c) →
        ∀ c ∈ encode o.1 ++ t!"=" ++ encode o.2, Unreserved c ∨ c ∈ t!"%=&" := by
      intro o h1 h2 c hc
      simp only [List.append_assoc, List.mem_append, List.mem_singleton] at hc
      rcases hc with hc | rfl | hc
      · rcases mem_encode h1 c hc with h | rfl
        · exact Or.inl h
        · exact Or.inr (by decide)
      · exact Or.inr (by decide)
      · rcases mem_encode h2 c hc with h | rfl
        · exact Or.inl h
        · exact Or.inr (by decide)
    induction l with
    | nil => intro _ _ c hc; cases hc
    | cons o l ih =>
      intro h1 h2 c hc
      cases l with
      | nil => exact one o (h1 o (by simp)) (h2 o (by simp)) c hc
      | cons o' l =>
        have he : fields (o :: o' :: l) = encode o.1 ++ t!"=" ++ encode o.2 ++ t!"&" ++ fields (o' :: l) := rfl
        rw [he] at hc
        rcases List.mem_append.1 hc with hc | hc
        · rcases List.mem_append.1 hc with hc | hc
          · exact one o (h1 o (by simp)) (h2 o (by simp)) c hc
          · rw [List.mem_singleton.1 hc]; exact Or.inr (by decide)
        · exact ih (fun x hx => h1 x (by simp [hx])) (fun x hx => h2 x (by simp [hx])) c hc
  exact key u.options ok.names (fun o ho => (ok.values o ho).2)

theorem unreserved_ne {c x : Char} (h : Unreserved c) (hx : ¬ Unreserved x) : c ≠ x := fun hh => hx (hh ▸ h)

theorem parts_written {u : Url} (ok : u.Ok) :
    parts u.written = ⟨u.scheme, u.credentials ++ u.hosts, u.path, fields u.options⟩ := by
  have hw : u.written = u.scheme ++ t!"://" ++ ((u.credentials ++ u.hosts) ++ u.tail) := by
    simp only [Url.written, Url.tail, List.append_assoc]
  have hfront : ∀ c ∈ u.credentials ++ u.hosts, (fun c => !isEnd c) c = true := by
    intro c hc
    rcases List.mem_append.1 hc with hc | hc
    · unfold Url.credentials at hc
      split at hc
      · cases hc
      · simp only [List.append_assoc, List.mem_append, List.mem_singleton] at hc
        have hu : ∀ c, Unreserved c ∨ c = '%' → (fun c => !isEnd c) c = true := by
          rintro c (h | rfl)
          · have h1 := unreserved_ne (x := '/') h (by decide)
            have h2 := unreserved_ne (x := '?') h (by decide)
            have h3 := unreserved_ne (x := '#') h (by decide)
            simp [isEnd, h1, h2, h3]
          · decide
        rcases hc with hc | rfl | hc | rfl
        · exact hu c (mem_encode ok.user c hc)
        · decide
        · exact hu c (mem_encode ok.password c hc)
        · decide
    · have := ok.hosts c hc
      simp only [List.mem_cons, List.not_mem_nil, or_false, not_or] at this
      simp [isEnd, this]
  have htail : u.tail = [] ∨ ∃ c b, u.tail = c :: b ∧ isEnd c = true := by
    unfold Url.tail
    rcases ok.path with hp | ⟨p, hp⟩
    · by_cases ho : u.options = []
      · exact Or.inl (by simp [hp, ho])
      · exact Or.inr ⟨'?', fields u.options, by simp [hp, ho], rfl⟩
    · exact Or.inr ⟨'/', _, by rw [hp]; rfl, rfl⟩
  have hclean : ∀ c ∈ u.tail, c ≠ '#' ∧ c ≠ '\t' ∧ c ≠ '\r' ∧ c ≠ '\n' := by
    intro c hc
    rcases List.mem_append.1 hc with hc | hc
    · have := ok.pathChars c hc
      simp only [List.mem_cons, List.not_mem_nil, or_false, not_or] at this
      exact this.2
    · split at hc
      · cases hc
      · rcases List.mem_append.1 hc with hc | hc
        · rw [List.mem_singleton.1 hc]; decide
        · rcases fields_chars ok c hc with h | h
          · exact ⟨unreserved_ne h (by decide), unreserved_ne h (by decide), unreserved_ne h (by decide), unreserved_ne h (by decide)⟩
          · simp only [List.mem_cons, List.not_mem_nil, or_false] at h
            rcases h with rfl | rfl | rfl <;> decide
  have hdrop : ((u.credentials ++ u.hosts) ++ u.tail).dropWhile (fun c => !isEnd c) = u.tail := by
    rw [List.dropWhile_append_of_pos hfront]
    rcases htail with h | ⟨c, b, h, hc⟩
    · rw [h]; rfl
    · rw [h]; simp [hc]
  have htake : ((u.credentials ++ u.hosts) ++ u.tail).takeWhile (fun c => !isEnd c) = u.credentials ++ u.hosts := by
    rw [List.takeWhile_append_of_pos hfront]
    rcases htail with h | ⟨c, b, h, hc⟩
    · rw [h]; simp
    · rw [h]; simp [hc]
  have hfil : u.tail.filter (fun c => !isRemoved c) = u.tail := filter_none (fun c hc => by
    obtain ⟨_, h1, h2, h3⟩ := hclean c hc
    simp [isRemoved, h1, h2, h3])
  have hfrag : u.tail.takeWhile (fun c => decide (c ≠ '#')) = u.tail := by
    have := List.takeWhile_append_of_pos (p := fun c => decide (c ≠ '#')) (l₁ := u.tail) (l₂ := [])
      (fun c hc => decide_eq_true (hclean c hc).1)
    simpa using this
  have hq : '?' ∉ u.path := fun hm => by
    have := ok.pathChars _ hm
    simp at this
  have hpart : partition '?' u.tail = (u.path, fields u.options) := by
    unfold Url.tail
    by_cases ho : u.options = []
    · simpa [ho, fields] using partition_no hq
    · simpa [ho] using partition_at (fields u.options) hq
  unfold parts urlparseMultihost
  rw [hw, partitionScheme_at _ _ ok.scheme]
  simp only [hdrop, htake, hfil, hfrag]
  have h1 := congrArg Prod.fst hpart
  have h2 := congrArg Prod.snd hpart
  simp only [partition] at h1 h2
  rw [h1, h2]

theorem userinfo_written {u : Url} (ok : u.Ok) :
    userinfo (u.credentials ++ u.hosts) =
      if u.user = [] ∧ u.password = [] then none else some (encode u.user ++ t!":" ++ encode u.password) := by
  have hat : '@' ∉ u.hosts := fun hm => by
    have := ok.hosts _ hm
    simp at this
  unfold Url.credentials userinfo
  by_cases h : u.user = [] ∧ u.password = []
  · simp only [h, and_self, if_true, List.nil_append, if_neg hat]
  · simp only [if_neg h]
    rw [if_pos (by simp)]
    congr 1
    rw [List.append_assoc _ t!"@", List.reverse_append]
    simp only [List.cons_append, List.nil_append, List.reverse_cons, List.append_assoc]
    rw [List.dropWhile_append_of_pos (fun c hc => by
      have : c ≠ '@' := fun hh => hat (hh ▸ List.mem_reverse.1 hc)
      simp [this])]
    simp

theorem username_written {u : Url} (ok : u.Ok) :
    (parts u.written).username = if u.user = [] ∧ u.password = [] then none else some (encode u.user) := by
  rw [parts_written ok, Parts.username, userinfo_written ok]
  split
  · rfl
  · have := partition_at (c := ':') (encode u.password) (encode_no ok.user (x := ':') (by decide) (by decide))
    simp [this]

theorem password_written {u : Url} (ok : u.Ok) :
    (parts u.written).password = if u.user = [] ∧ u.password = [] then none else some (encode u.password) := by
  rw [parts_written ok, Parts.password, userinfo_written ok]
  split
  · rfl
  · have := partition_at (c := ':') (encode u.password) (encode_no ok.user (x := ':') (by decide) (by decide))
    simp [this]

theorem putIf_user {u : Url} (ok : u.Ok) (d : Options) (n : Text) (hd : n = t!"username" → d.get? n = none) :
    (putIf d t!"username" unquote (parts u.written).username).get? n =
      if n = t!"username" then (if u.user = [] then none else some u.user) else d.get? n := by
  rw [get?_putIf, username_written ok]
  by_cases hn : n = t!"username"
  · have hd := hd hn
    simp only [hn, if_true] at hd ⊢
    by_cases h : u.user = []
    · by_cases h2 : u.password = [] <;> simp [h, h2, hd, encode]
    · have : encode u.user ≠ [] := fun hh => h (encode_eq_nil.1 hh)
      simp [h, this, unquote_encode ok.user]
  · simp [hn]

theorem putIf_password {u : Url} (ok : u.Ok) (d : Options) (n : Text) (hd : n = t!"password" → d.get? n = none) :
    (putIf d t!"password" unquote (parts u.written).password).get? n =
      if n = t!"password" then (if u.password = [] then none else some u.password) else d.get? n := by
  rw [get?_putIf, password_written ok]
  by_cases hn : n = t!"password"
  · have hd := hd hn
    simp only [hn, if_true] at hd ⊢
    by_cases h : u.password = []
    · by_cases h2 : u.user = [] <;> simp [h, h2, hd, encode]
    · have : encode u.password ≠ [] := fun hh => h (encode_eq_nil.1 hh)
      simp [h, this, unquote_encode ok.password]
  · simp [hn]

/-! ### What each connection is told -/

theorem vals_once {l : List (Text × Text)} (h : (l.map (·.1)).Pairwise (· ≠ ·)) {o : Text × Text} (ho : o ∈ l) : vals l o.1 = [o.2] := by
  have none_of : ∀ (l : List (Text × Text)) (n : Text), n ∉ l.map (·.1) → vals l n = [] := by
    intro l n hn
    refine List.filterMap_eq_nil_iff.2 fun e he => ?_
    rw [if_neg]
    exact fun hh => hn (hh ▸ List.mem_map.2 ⟨e, he, rfl⟩)
  induction l with
  | nil => cases ho
  | cons e l ih =>
    have hk := List.pairwise_cons.1 h
    rcases List.mem_cons.1 ho with rfl | ho
    · have := none_of l o.1 (fun hm => hk.1 o.1 hm rfl)
      simp only [vals, List.filterMap_cons, if_true] at this ⊢
      rw [this]
    · have hne : e.1 ≠ o.1 := hk.1 o.1 (List.mem_map.2 ⟨o, ho, rfl⟩)
      have := ih hk.2 ho
      simp only [vals, List.filterMap_cons, if_neg hne] at this ⊢
      exact this

theorem vals_without {u : Url} {n : Text} (h : u.Without n) : vals u.options n = [] :=
  List.filterMap_eq_nil_iff.2 fun e he => if_neg (h e he)

theorem options_written {u : Url} (ok : u.Ok) (n : Text) :
    (queryOptions (fields u.options)).get? n = (vals u.options n).head?.map unquote := by
  rw [get?_queryOptions, parseQsl_fields ok]

theorem byte_unreserved {c : Char} (h : Unreserved c) : Byte c := by
  rcases h with h | h
  · have key : ∀ a : Char, c ≤ a → c.toNat ≤ a.toNat := fun a ha => UInt32.le_iff_toNat_le.1 (Char.le_def.1 ha)
    simp only [Char.isAlphanum, Char.isAlpha, Char.isUpper, Char.isLower, Char.isDigit, Bool.or_eq_true, Bool.and_eq_true,
      decide_eq_true_eq] at h
    unfold Byte
    rcases h with (⟨_, h⟩ | ⟨_, h⟩) | ⟨_, h⟩
    · have : c.toNat ≤ 90 := UInt32.le_iff_toNat_le.1 h
      omega
    · have : c.toNat ≤ 122 := UInt32.le_iff_toNat_le.1 h
      omega
    · have : c.toNat ≤ 57 := UInt32.le_iff_toNat_le.1 h
      omega
  · simp only [List.mem_cons, List.not_mem_nil, or_false] at h
    rcases h with rfl | rfl | rfl | rfl <;> decide

theorem bytes_fields {u : Url} (ok : u.Ok) : ∀ c ∈ fields u.options, Byte c := by
  intro c hc
  rcases fields_chars ok c hc with h | h
  · exact byte_unreserved h
  · simp only [List.mem_cons, List.not_mem_nil, or_false] at h
    rcases h with rfl | rfl | rfl <;> decide

/-- What redis-py finds in the URL. -/
theorem get?_parseUrl {u : Url} (ok : u.Ok) {s : Text} {n : Text} (h1 : u.Without t!"username") (h2 : u.Without t!"password") :
    (parseUrl { parts u.written with scheme := s }).get? n =
      if n = t!"password" then (if u.password = [] then none else some u.password)
      else if n = t!"username" then (if u.user = [] then none else some u.user)
      else (vals u.options n).head?.map unquote := by
  have hp : (parts u.written).query = fields u.options := by rw [parts_written ok]
  have e1 : (queryOptions (fields u.options)).get? t!"username" = none := by rw [options_written ok, vals_without h1]; rfl
  have e2 : (queryOptions (fields u.options)).get? t!"password" = none := by rw [options_written ok, vals_without h2]; rfl
  have hu : ∀ m, (putIf (queryOptions (fields u.options)) t!"username" unquote (parts u.written).username).get? m =
      if m = t!"username" then (if u.user = [] then none else some u.user) else (queryOptions (fields u.options)).get? m :=
    fun m => putIf_user ok _ m (fun h => h ▸ e1)
  show (putIf (putIf (queryOptions (parts u.written).query) t!"username" unquote (parts u.written).username) t!"password" unquote
    (parts u.written).password).get? n = _
  rw [hp, putIf_password ok _ n (fun h => by rw [h, hu]; simpa using e2), hu, options_written ok]

/-- The options of the query string alone. -/
theorem get?_parseUrl_other {p : Parts} {n : Text} (h1 : n ≠ t!"username") (h2 : n ≠ t!"password") :
    (parseUrl p).get? n = (queryOptions p.query).get? n := by
  unfold parseUrl
  rw [get?_putIf, if_neg h2, get?_putIf, if_neg h1]

theorem get?_connectionKwargs {p : Parts} (hb : ∀ c ∈ p.query, Byte c) {n : Text} (h1 : n ∉ reserved) :
    (connectionKwargs p).get? n = (queryOptions p.query).get? n := by
  simp only [reserved, List.mem_cons, List.not_mem_nil, or_false, not_or] at h1
  obtain ⟨hu, hp, hd, hs, h5, h6⟩ := h1
  have base : (putIf (putIf ((((parseUrl ⟨t!"redis", [], t!"/", remainingQuery p.query⟩).pop t!"db").pop t!"username").pop t!"password")
      t!"username" unquote p.username) t!"password" unquote p.password).get? n = (queryOptions p.query).get? n := by
    rw [get?_putIf, if_neg hp, get?_putIf, if_neg hu, get?_pop, if_neg hp, get?_pop, if_neg hu, get?_pop, if_neg hd,
      get?_parseUrl_other hu hp]
    exact get?_remaining hb h5 h6
  unfold connectionKwargs
  simp only
  split
  · rw [get?_put, if_neg hs]; exact base
  · exact base

theorem master_credentials {u : Url} (ok : u.Ok) :
    (connectionKwargs (parts u.written)).get? t!"username" = (if u.user = [] then none else some u.user) ∧
    (connectionKwargs (parts u.written)).get? t!"password" = (if u.password = [] then none else some u.password) := by
  have key : ∀ (d : Options), d.get? t!"username" = none → d.get? t!"password" = none →
      let e := putIf (putIf d t!"username" unquote (parts u.written).username) t!"password" unquote (parts u.written).password
      e.get? t!"username" = (if u.user = [] then none else some u.user) ∧
      e.get? t!"password" = (if u.password = [] then none else some u.password) := by
    intro d h1 h2
    have hu := fun m (hm : m = t!"username" → d.get? m = none) => putIf_user ok d m hm
    refine ⟨?_, ?_⟩
    · show (putIf _ _ _ _).get? _ = _
      rw [putIf_password ok _ _ (fun h => absurd h (by decide)), if_neg (by decide), hu _ (fun _ => h1), if_pos rfl]
    · show (putIf _ _ _ _).get? _ = _
      rw [putIf_password ok _ _ (fun _ => by rw [hu _ (fun h => absurd h (by decide)), if_neg (by decide)]; exact h2), if_pos rfl]
  have := key ((((parseUrl ⟨t!"redis", [], t!"/", remainingQuery (parts u.written).query⟩).pop t!"db").pop t!"username").pop t!"password")
    (by rw [get?_pop, if_neg (by decide), get?_pop, if_pos rfl]) (by rw [get?_pop, if_pos rfl])
  unfold connectionKwargs
  simp only
  split
  · have hs : ∀ (d : Options) (n v : Text), n ≠ t!"ssl" → (d.put t!"ssl" v).get? n = d.get? n := fun d n v h => by
      rw [get?_put, if_neg h]
    rw [hs _ t!"username" _ (by decide), hs _ t!"password" _ (by decide)]; exact this
  · exact this

/-- Which connection a use goes through. -/
theorem connection_kinds {u : Url} (ok : u.Ok) (db : Text) (use : Use) :
    (u.Watched ∧ ∃ x, connection u.written db use = some (masterPool (parts u.written) db x)) ∨
    ((u.scheme = t!"redis" ∨ u.scheme = t!"rediss") ∧ ∃ x, connection u.written db use = some (serverPool (parts u.written) x)) ∨
    ((u.scheme = t!"redis+cluster" ∨ u.scheme = t!"rediss+cluster") ∧
      connection u.written db use = some (if use = .commands ∨ use = .results then clusterClient (parts u.written) else nodePool (parts u.written))) := by
  have hs : (parts u.written).scheme = u.scheme := by rw [parts_written ok]
  unfold connection
  generalize parts u.written = p at hs
  have hsc := ok.scheme
  simp only [urlSchemes, List.mem_cons, List.not_mem_nil, or_false] at hsc
  have hc : p.isCluster = true ↔ (u.scheme = t!"redis+cluster" ∨ u.scheme = t!"rediss+cluster") := by
    simp only [Parts.isCluster, Bool.or_eq_true, decide_eq_true_eq, hs]
  have hw : p.isSentinel = true ↔ u.Watched := by
    simp only [Parts.isSentinel, Bool.or_eq_true, decide_eq_true_eq, hs, Url.Watched]
  have hm : p.isMemory = false := by
    simp only [Parts.isMemory, hs, decide_eq_false_iff_not]
    rcases hsc with h | h | h | h | h | h <;> rw [h] <;> decide
  by_cases hcl : p.isCluster = true
  · refine Or.inr (Or.inr ⟨hc.1 hcl, ?_⟩)
    cases use <;> simp [through, enter, hcl]
  · have hcl' : p.isCluster = false := by simpa using hcl
    by_cases hse : p.isSentinel = true
    · refine Or.inl ⟨hw.1 hse, ?_⟩
      cases use
      · exact ⟨falseText, by simp [through, enter, hcl', hm, poolFromUrl, hse]⟩
      · exact ⟨falseText, by simp [through, enter, hcl', hm, poolFromUrl, hse]⟩
      · exact ⟨falseText, by simp [through, enter, hcl', hm, poolFromUrl, hse]⟩
      · exact ⟨trueText, by simp [through, enter, hcl', hm, poolFromUrl, hse]⟩
    · refine Or.inr (Or.inl ⟨?_, ?_⟩)
      · have h1 := fun h => hcl (hc.2 h)
        have h2 := fun h => hse (hw.2 h)
        unfold Url.Watched at h2
        rcases hsc with h | h | h | h | h | h
        · exact Or.inl h
        · exact Or.inr h
        · exact absurd (Or.inl h) h2
        · exact absurd (Or.inr h) h2
        · exact absurd (Or.inl h) h1
        · exact absurd (Or.inr h) h1
      · have hse' : p.isSentinel = false := by simpa using hse
        cases use
        · exact ⟨falseText, by simp [through, enter, hcl', hm, poolFromUrl, hse']⟩
        · exact ⟨falseText, by simp [through, enter, hcl', hm, poolFromUrl, hse']⟩
        · exact ⟨falseText, by simp [through, enter, hcl', hm, poolFromUrl, hse']⟩
        · exact ⟨trueText, by simp [through, enter, hcl', hm, poolFromUrl, hse']⟩

/-- For a cluster. -/
def Url.Clustered (u : Url) : Prop := u.scheme = t!"redis+cluster" ∨ u.scheme = t!"rediss+cluster"

theorem not_watched {u : Url} (h : u.Watched) : ¬ (u.scheme = t!"redis" ∨ u.scheme = t!"rediss") ∧ ¬ u.Clustered := by
  unfold Url.Watched at h
  unfold Url.Clustered
  rcases h with h | h <;> rw [h] <;> decide

/-- **C97**: there is a connection for every use. -/
theorem C97_connected (u : Url) (ok : u.Ok) (db : Text) (use : Use) : ∃ c, connection u.written db use = some c := by
  rcases connection_kinds ok db use with ⟨_, x, h⟩ | ⟨_, x, h⟩ | ⟨_, h⟩ <;> exact ⟨_, h⟩

/-- The user name and password the URL spells reach the connection. -/
theorem signs {c : Conn} {user password : Text} (h1 : c.options.get? t!"username" = if user = [] then none else some user)
    (h2 : c.options.get? t!"password" = if password = [] then none else some password) : SignsIn c user password := by
  constructor
  · rw [h1]; by_cases h : user = [] <;> simp [h]
  · rw [h2]; by_cases h : password = [] <;> simp [h]

/-- **C97** (for all but the messages of a cluster): a connection signs in with exactly the user
name and password that the URL spells, whatever characters they have; for a master that Sentinel
watches, no option of the query string stands in for them. -/
theorem C97_signed_in_partial (u : Url) (ok : u.Ok) (hno : u.Watched ∨ u.Without t!"username" ∧ u.Without t!"password")
    (db : Text) (use : Use) (huse : use = .commands ∨ use = .results ∨ ¬ u.Clustered) (c : Conn)
    (h : connection u.written db use = some c) : SignsIn c u.user u.password := by
  rcases connection_kinds ok db use with ⟨hw, x, hc⟩ | ⟨hr, x, hc⟩ | ⟨hr, hc⟩
  · rw [hc] at h
    cases h
    have hcred := master_credentials ok
    refine signs ?_ ?_
    · show ((sentinelPoolKwargs _ db x).pop t!"ssl").get? _ = _
      rw [get?_pop, if_neg (by decide), sentinelPoolKwargs, get?_update, hcred.1]
      by_cases hu : u.user = [] <;> simp [hu, get?_cons]
    · show ((sentinelPoolKwargs _ db x).pop t!"ssl").get? _ = _
      rw [get?_pop, if_neg (by decide), sentinelPoolKwargs, get?_update, hcred.2]
      by_cases hu : u.password = [] <;> simp [hu, get?_cons]
  · obtain ⟨h1, h2⟩ := hno.resolve_left (fun hw => (not_watched hw).1 hr)
    rw [hc] at h
    cases h
    have hp := fun n => get?_parseUrl ok (s := (parts u.written).scheme) (n := n) h1 h2
    refine signs ?_ ?_
    · show (Options.update _ (parseUrl (parts u.written))).get? _ = _
      rw [get?_update, show parts u.written = { parts u.written with scheme := (parts u.written).scheme } from rfl, hp]
      by_cases hu : u.user = [] <;> simp [hu, get?_cons]
    · show (Options.update _ (parseUrl (parts u.written))).get? _ = _
      rw [get?_update, show parts u.written = { parts u.written with scheme := (parts u.written).scheme } from rfl, hp]
      by_cases hu : u.password = [] <;> simp [hu, get?_cons]
  · have huse' : use = .commands ∨ use = .results := by
      rcases huse with h | h | h
      · exact Or.inl h
      · exact Or.inr h
      · exact absurd hr h
    obtain ⟨h1, h2⟩ := hno.resolve_left (fun hw => (not_watched hw).2 hr)
    rw [hc, if_pos huse'] at h
    cases h
    have hn : ∃ s, (parts u.written).normalized = { parts u.written with scheme := s } := by
      unfold Parts.normalized
      split
      · exact ⟨_, rfl⟩
      · exact ⟨_, rfl⟩
    obtain ⟨s, hn⟩ := hn
    have hp := fun n => get?_parseUrl ok (s := s) (n := n) h1 h2
    refine signs ?_ ?_
    · show (Options.update _ (parseUrl (parts u.written).normalized)).get? _ = _
      rw [get?_update, hn, hp]
      by_cases hu : u.user = [] <;> simp [hu, get?_cons]
    · show (Options.update _ (parseUrl (parts u.written).normalized)).get? _ = _
      rw [get?_update, hn, hp]
      by_cases hu : u.password = [] <;> simp [hu, get?_cons]

theorem encode_length (t : Text) : t.length ≤ (encode t).length := by
  induction t with
  | nil => simp
  | cons c t ih =>
    have hc : encode (c :: t) = (if Unreserved c then [c] else percent c) ++ encode t := by simp [encode]
    have h1 : 1 ≤ (if Unreserved c then [c] else percent c).length := by
      by_cases hu : Unreserved c <;> simp [hu, percent]
    rw [hc, List.length_append, List.length_cons]
    omega

theorem encode_eq_self {t : Text} : encode t = t ↔ ∀ c ∈ t, Unreserved c := by
  induction t with
  | nil => simp [encode]
  | cons c t ih =>
    have hc : encode (c :: t) = (if Unreserved c then [c] else percent c) ++ encode t := by simp [encode]
    rw [hc]
    by_cases hu : Unreserved c
    · simp only [hu, if_true, List.cons_append, List.nil_append, List.cons.injEq, true_and, ih, List.mem_cons]
      constructor
      · rintro h x (rfl | hx)
        · exact hu
        · exact h x hx
      · exact fun h x hx => h x (Or.inr hx)
    · simp only [hu, if_false]
      constructor
      · intro h
        have h1 := congrArg List.length h
        have h2 := encode_length t
        simp [percent] at h1
        omega
      · intro h; exact absurd (h c (by simp)) hu

/-- **C97** (the messages of a cluster): the connection over which events are listened for and
published signs in with what the URL spells exactly if neither the user name nor the password has a
character that must be percent-encoded. -/
theorem C97_cluster_messages_partial (u : Url) (ok : u.Ok) (hcl : u.Clustered) (db : Text) (use : Use)
    (huse : use = .listen ∨ use = .publish) (c : Conn) (h : connection u.written db use = some c) :
    SignsIn c u.user u.password ↔ (∀ x ∈ u.user, Unreserved x) ∧ ∀ x ∈ u.password, Unreserved x := by
  rcases connection_kinds ok db use with ⟨hw, x, hc⟩ | ⟨hr, x, hc⟩ | ⟨hr, hc⟩
  · exact absurd hcl (not_watched hw).2
  · exfalso
    unfold Url.Clustered at hcl
    rcases hr with hr | hr <;> rw [hr] at hcl <;> revert hcl <;> decide
  · rw [hc, if_neg (by rcases huse with rfl | rfl <;> simp)] at h
    cases h
    have h1 : ((nodePool (parts u.written)).options.get? t!"username").getD [] = encode u.user := by
      show ((putSome (putSome _ _ _) _ _).get? _).getD [] = _
      rw [get?_putSome, if_neg (by decide), get?_putSome, if_pos rfl, username_written ok]
      by_cases hh : u.user = [] ∧ u.password = []
      · simp [hh, get?_cons, encode]
      · simp [hh]
    have h2 : ((nodePool (parts u.written)).options.get? t!"password").getD [] = encode u.password := by
      show ((putSome (putSome _ _ _) _ _).get? _).getD [] = _
      rw [get?_putSome, if_pos rfl, password_written ok]
      by_cases hh : u.user = [] ∧ u.password = []
      · simp [hh, get?_putSome, get?_cons, encode]
      · simp [hh]
    unfold SignsIn
    rw [h1, h2, encode_eq_self, encode_eq_self]

theorem withoutCluster_scheme {u : Url} (ok : u.Ok) (h : u.Clustered) :
    (parts u.written).normalized.scheme = if u.scheme = t!"rediss+cluster" then t!"rediss" else t!"redis" := by
  have hs : (parts u.written).scheme = u.scheme := by rw [parts_written ok]
  unfold Parts.normalized Parts.isCluster
  rw [hs]
  rcases h with h | h <;> rw [h] <;> rfl

/-- **C97**: a connection uses TLS if the scheme of the URL asks for it, and only then, if the
query string of a Sentinel URL has no option `ssl`. -/
theorem C97_tls_partial (u : Url) (ok : u.Ok) (hssl : u.Watched → u.Without t!"ssl") (db : Text) (use : Use) (c : Conn)
    (h : connection u.written db use = some c) : c.tls = true ↔ u.Secure := by
  have hs : (parts u.written).scheme = u.scheme := by rw [parts_written ok]
  have hq : (parts u.written).query = fields u.options := by rw [parts_written ok]
  rcases connection_kinds ok db use with ⟨hw, x, hc⟩ | ⟨hr, x, hc⟩ | ⟨hr, hc⟩
  · rw [hc] at h
    cases h
    show truthy ((sentinelPoolKwargs (parts u.written) db x).get? t!"ssl") = true ↔ _
    rw [sentinelPoolKwargs, get?_update]
    have hbase : (putIf (putIf ((((parseUrl ⟨t!"redis", [], t!"/", remainingQuery (parts u.written).query⟩).pop t!"db").pop t!"username").pop t!"password")
        t!"username" unquote (parts u.written).username) t!"password" unquote (parts u.written).password).get? t!"ssl" = none := by
      rw [get?_putIf, if_neg (by decide), get?_putIf, if_neg (by decide), get?_pop, if_neg (by decide), get?_pop, if_neg (by decide),
        get?_pop, if_neg (by decide), get?_parseUrl_other (by decide) (by decide), hq]
      show (queryOptions (remainingQuery (fields u.options))).get? _ = none
      rw [get?_remaining (bytes_fields ok) (by decide) (by decide), options_written ok, vals_without (hssl hw)]
      rfl
    unfold connectionKwargs
    simp only [hs]
    unfold Url.Watched at hw
    unfold Url.Secure
    rcases hw with hw | hw
    · rw [hw, if_neg (by decide), hbase]
      show truthy none = true ↔ _
      decide
    · rw [hw, if_pos (by decide), get?_put, if_pos rfl]
      show truthy (some trueText) = true ↔ _
      decide
  · rw [hc] at h
    cases h
    show decide ((parts u.written).scheme = t!"rediss") = true ↔ _
    rw [hs]
    unfold Url.Secure
    rcases hr with hr | hr <;> rw [hr] <;> decide
  · rw [hc] at h
    cases h
    split
    · show decide ((parts u.written).normalized.scheme = t!"rediss") = true ↔ _
      rw [withoutCluster_scheme ok hr]
      unfold Url.Secure
      rcases hr with hr | hr <;> rw [hr] <;> decide
    · show decide ((parts u.written).scheme = t!"rediss+cluster") = true ↔ _
      rw [hs]
      unfold Url.Secure
      rcases hr with hr | hr <;> rw [hr] <;> decide

/-- What a connection other than that to a cluster node has of the query string. -/
theorem get?_options {u : Url} (ok : u.Ok) (db : Text) (use : Use) (huse : use = .commands ∨ use = .results ∨ ¬ u.Clustered) (c : Conn)
    (h : connection u.written db use = some c) {n : Text} (hn : n ∉ reserved) :
    ∃ d : Options, c.options.get? n = ((vals u.options n).head?.map unquote).or (d.get? n) ∧
      d.get? t!"socket_timeout" = some t!"None" := by
  have hq : (parts u.written).query = fields u.options := by rw [parts_written ok]
  have hn' := hn
  simp only [reserved, List.mem_cons, List.not_mem_nil, or_false, not_or] at hn'
  rcases connection_kinds ok db use with ⟨hw, x, hc⟩ | ⟨hr, x, hc⟩ | ⟨hr, hc⟩
  · rw [hc] at h
    cases h
    refine ⟨[(t!"db", db), (t!"decode_responses", x), (t!"socket_timeout", blockingReadTimeout), (t!"socket_keepalive", trueText)], ?_, rfl⟩
    show ((sentinelPoolKwargs _ db x).pop t!"ssl").get? n = _
    rw [get?_pop, if_neg hn'.2.2.2.1, sentinelPoolKwargs, get?_update, get?_connectionKwargs (by rw [hq]; exact bytes_fields ok) hn, hq,
      options_written ok]
  · rw [hc] at h
    cases h
    refine ⟨[(t!"decode_responses", x), (t!"socket_timeout", blockingReadTimeout)], ?_, rfl⟩
    show (Options.update _ (parseUrl (parts u.written))).get? n = _
    rw [get?_update, get?_parseUrl_other hn'.1 hn'.2.1, hq, options_written ok]
  · have huse' : use = .commands ∨ use = .results := by
      rcases huse with h | h | h
      · exact Or.inl h
      · exact Or.inr h
      · exact absurd hr h
    rw [hc, if_pos huse'] at h
    cases h
    refine ⟨[(t!"socket_timeout", blockingReadTimeout)], ?_, rfl⟩
    have hnq : (parts u.written).normalized.query = fields u.options := by
      unfold Parts.normalized
      split <;> exact hq
    show (Options.update _ (parseUrl (parts u.written).normalized)).get? n = _
    rw [get?_update, get?_parseUrl_other hn'.1 hn'.2.1, hnq, options_written ok]

/-- **C97** (for all but the messages of a cluster): an option of the query string reaches the
connection with its value, also where docket has a value of its own for it. -/
theorem C97_options_partial (u : Url) (ok : u.Ok) (db : Text) (use : Use)
    (huse : use = .commands ∨ use = .results ∨ ¬ u.Clustered) (c : Conn) (h : connection u.written db use = some c)
    (o : Text × Text) (ho : o ∈ u.options) (hn : o.1 ∉ reserved) (hp : '%' ∉ o.2) : c.options.get? o.1 = some o.2 := by
  obtain ⟨d, hd, _⟩ := get?_options ok db use huse c h hn
  rw [hd, vals_once ok.once ho]
  simp [unquote_no hp]

/-- **C97**: where the URL gives no read timeout, no connection has one, so that waiting for tasks is
never cut off. -/
theorem C97_waits (u : Url) (ok : u.Ok) (ht : u.Without t!"socket_timeout") (db : Text) (use : Use) (c : Conn)
    (h : connection u.written db use = some c) : c.options.get? t!"socket_timeout" = some t!"None" := by
  by_cases huse : use = .commands ∨ use = .results ∨ ¬ u.Clustered
  · obtain ⟨d, hd, hd2⟩ := get?_options ok db use huse c h (n := t!"socket_timeout") (by decide)
    rw [hd, vals_without ht, hd2]
    rfl
  · simp only [not_or, Classical.not_not] at huse
    rcases connection_kinds ok db use with ⟨hw, x, hc⟩ | ⟨hr, x, hc⟩ | ⟨hr, hc⟩
    · exact absurd huse.2.2 (not_watched hw).2
    · exfalso
      have := huse.2.2
      unfold Url.Clustered at this
      rcases hr with hr | hr <;> rw [hr] at this <;> revert this <;> decide
    · rw [hc, if_neg (by simp [huse])] at h
      cases h
      show (putSome (putSome _ _ _) _ _).get? _ = _
      rw [get?_putSome, if_neg (by decide), get?_putSome, if_neg (by decide)]
      rfl

/-- **C97**: an option of the query string means the same to a master that Sentinel watches as to a
server connected to directly, however the query string is written: escapes, `+`, repeated names,
names without a value. -/
theorem C97_same_options (tls : Bool) (rest : Text) (hb : ∀ c ∈ rest, Byte c) (db : Text) (use : Use) (c d : Conn)
    (hc : connection ((if tls then t!"rediss+sentinel" else t!"redis+sentinel") ++ t!"://" ++ rest) db use = some c)
    (hd : connection ((if tls then t!"rediss" else t!"redis") ++ t!"://" ++ rest) db use = some d)
    (n : Text) (hn : n ∉ t!"socket_keepalive" :: reserved) : c.options.get? n = d.options.get? n := by
  have hk : n ≠ t!"socket_keepalive" := fun h => hn (by simp [h])
  have hn : n ∉ reserved := fun h => hn (List.mem_cons_of_mem _ h)
  have hn' := hn
  simp only [reserved, List.mem_cons, List.not_mem_nil, or_false, not_or] at hn'
  have hparts : ∀ s ∈ urlSchemes, parts (s ++ t!"://" ++ rest) = { parts (t!"redis" ++ t!"://" ++ rest) with scheme := s } := by
    intro s hs
    unfold parts urlparseMultihost
    rw [partitionScheme_at _ _ hs, partitionScheme_at _ _ (by decide)]
  have hq : ∀ c ∈ (parts (t!"redis" ++ t!"://" ++ rest)).query, Byte c := by
    intro c hc
    unfold parts urlparseMultihost at hc
    rw [partitionScheme_at _ _ (by decide)] at hc
    refine hb c ?_
    have h1 := (List.dropWhile_sublist _).subset (List.mem_of_mem_drop hc)
    have h2 := (List.takeWhile_sublist _).subset h1
    have h3 := (List.mem_filter.1 h2).1
    exact (List.dropWhile_sublist _).subset h3
  unfold connection at hc hd
  rw [hparts _ (by cases tls <;> decide)] at hc hd
  generalize parts (t!"redis" ++ t!"://" ++ rest) = p at hq hc hd
  obtain ⟨x, hc', hd'⟩ : ∃ x, c = masterPool { p with scheme := if tls then t!"rediss+sentinel" else t!"redis+sentinel" } db x ∧
      d = serverPool { p with scheme := if tls then t!"rediss" else t!"redis" } x := by
    cases tls <;> cases use <;>
      exact ⟨_, (Option.some.inj hc).symm, (Option.some.inj hd).symm⟩
  subst hc' hd'
  show ((sentinelPoolKwargs _ db x).pop t!"ssl").get? n = (Options.update _ (parseUrl _)).get? n
  rw [get?_pop, if_neg hn'.2.2.2.1, sentinelPoolKwargs, get?_update, get?_update,
    get?_connectionKwargs (p := { p with scheme := if tls then t!"rediss+sentinel" else t!"redis+sentinel" }) hq hn,
    get?_parseUrl_other hn'.1 hn'.2.1]
  congr 1
  have e1 : t!"db" ≠ n := fun h => hn'.2.2.1 h.symm
  have e2 : t!"socket_keepalive" ≠ n := fun h => hk h.symm
  simp [get?_cons, e1, e2]

theorem kwargs_none {p : Parts} {n : Text} (h : n = t!"db" ∨ n = t!"sentinel_username" ∨ n = t!"sentinel_password")
    (hb : ∀ c ∈ p.query, Byte c) : (connectionKwargs p).get? n = none := by
  have hns : n ≠ t!"ssl" ∧ n ≠ t!"username" ∧ n ≠ t!"password" := by
    rcases h with rfl | rfl | rfl <;> decide
  have base : (putIf (putIf ((((parseUrl ⟨t!"redis", [], t!"/", remainingQuery p.query⟩).pop t!"db").pop t!"username").pop t!"password")
      t!"username" unquote p.username) t!"password" unquote p.password).get? n = none := by
    rw [get?_putIf, if_neg hns.2.2, get?_putIf, if_neg hns.2.1, get?_pop, if_neg hns.2.2, get?_pop, if_neg hns.2.1, get?_pop]
    split
    · rfl
    · rename_i hdb
      have hsn := h.resolve_left hdb
      rw [get?_parseUrl_other hns.2.1 hns.2.2]
      show (queryOptions (remainingQuery p.query)).get? n = none
      have hfine := fine_parseQs true p.query
      rw [get?_queryOptions]
      unfold remainingQuery urlencode
      rw [parseQsl_joined quoter_quotePlus]
      · simp only [Bool.or_false]
        rw [vals_filter _ n (fun v => v ≠ []), vals_flat, dvals_none]
        · rfl
        · intro hm
          obtain ⟨e, he, hen⟩ := List.mem_map.1 hm
          have := (List.mem_filter.1 he).2
          rw [hen] at this
          simp only [decide_eq_true_eq] at this
          rcases hsn with h | h
          · exact this.1 h
          · exact this.2 h
        · exact (hfine.keys.sublist ((List.filter_sublist).map _))
      · intro e he
        obtain ⟨x, hx, hxe⟩ := List.mem_flatMap.1 he
        obtain ⟨v, hv, rfl⟩ := List.mem_map.1 hxe
        have hxd := (List.mem_filter.1 hx).1
        have := dvals_mem hfine.keys hxd
        rw [dvals_parseQs] at this
        exact mem_dict_bytes hb (by rw [this]; exact hv)
  unfold connectionKwargs
  simp only
  split
  · rw [get?_put, if_neg hns.1]; exact base
  · exact base

/-- **C97**: the database of a Sentinel URL is that of its path, whatever the query string says, and
what the URL says for the Sentinel daemons stays out of the connections to the master. -/
theorem C97_master_apart (u : Url) (ok : u.Ok) (hw : u.Watched) (db : Text) (use : Use) (c : Conn)
    (h : connection u.written db use = some c) :
    c.options.get? t!"db" = some db ∧ c.options.get? t!"sentinel_username" = none ∧ c.options.get? t!"sentinel_password" = none := by
  have hq : ∀ c ∈ (parts u.written).query, Byte c := by rw [parts_written ok]; exact bytes_fields ok
  rcases connection_kinds ok db use with ⟨_, x, hc⟩ | ⟨hr, x, hc⟩ | ⟨hr, hc⟩
  · rw [hc] at h
    cases h
    have key : ∀ n, n ≠ t!"ssl" → n = t!"db" ∨ n = t!"sentinel_username" ∨ n = t!"sentinel_password" →
        (masterPool (parts u.written) db x).options.get? n = Options.get? [(t!"db", db), (t!"decode_responses", x),
          (t!"socket_timeout", blockingReadTimeout), (t!"socket_keepalive", trueText)] n := by
      intro n hs hn
      show ((sentinelPoolKwargs _ db x).pop t!"ssl").get? n = _
      rw [get?_pop, if_neg hs, sentinelPoolKwargs, get?_update, kwargs_none hn hq]
      rfl
    exact ⟨key _ (by decide) (by decide), key _ (by decide) (by decide), key _ (by decide) (by decide)⟩
  · exact absurd hr (not_watched hw).1
  · exact absurd hr (not_watched hw).2

/-- The value of an option, if it is given. -/
def Url.value (u : Url) (n : Text) : Text := ((u.options.find? fun o => o.1 = n).map (·.2)).getD []

theorem headD_vals (l : List (Text × Text)) (n : Text) : (vals l n).headD [] = ((l.find? fun o => o.1 = n).map (·.2)).getD [] := by
  induction l with
  | nil => rfl
  | cons e l ih =>
    by_cases h : e.1 = n
    · simp [vals, h]
    · simp only [vals, List.filterMap_cons, h, if_false, List.find?_cons, decide_false] at ih ⊢
      exact ih

/-- **C97**: the Sentinel daemons are signed in to with the options `sentinel_username` and
`sentinel_password` of the URL, and with nothing where it has none, over TLS if the scheme asks for
it. -/
theorem C97_daemons (u : Url) (ok : u.Ok) (hw : u.Watched) :
    SignsIn (daemons (parts u.written)) (u.value t!"sentinel_username") (u.value t!"sentinel_password") ∧
      ((daemons (parts u.written)).tls = true ↔ u.Secure) := by
  have hs : (parts u.written).scheme = u.scheme := by rw [parts_written ok]
  have hq : (parts u.written).query = fields u.options := by rw [parts_written ok]
  have hv : ∀ n, firstValue (parseQs true (fields u.options)) n = u.value n := fun n => by
    rw [firstValue_eq, dvals_parseQs, parseQsl_fields ok, headD_vals]; rfl
  have hget : ∀ n, n ≠ t!"ssl" → (sentinelKwargs (parts u.written)).get? n =
      (putIf (putIf [] t!"username" id (some (u.value t!"sentinel_username"))) t!"password" id (some (u.value t!"sentinel_password"))).get? n := by
    intro n hn
    unfold sentinelKwargs
    simp only [hq, hv]
    split
    · rw [get?_put, if_neg hn]
    · rfl
  refine ⟨⟨?_, ?_⟩, ?_⟩
  · show (((sentinelKwargs (parts u.written)).pop t!"ssl").get? _).getD [] = _
    rw [get?_pop, if_neg (by decide), hget _ (by decide), get?_putIf, if_neg (by decide), get?_putIf, if_pos rfl]
    by_cases h : u.value t!"sentinel_username" = [] <;> simp [h]
  · show (((sentinelKwargs (parts u.written)).pop t!"ssl").get? _).getD [] = _
    rw [get?_pop, if_neg (by decide), hget _ (by decide), get?_putIf, if_pos rfl]
    by_cases h : u.value t!"sentinel_password" = [] <;> simp [h, get?_putIf]
  · show truthy ((sentinelKwargs (parts u.written)).get? t!"ssl") = true ↔ _
    have hnone : (putIf (putIf [] t!"username" id (some (u.value t!"sentinel_username"))) t!"password" id
        (some (u.value t!"sentinel_password"))).get? t!"ssl" = none := by
      rw [get?_putIf, if_neg (by decide), get?_putIf, if_neg (by decide)]; rfl
    unfold sentinelKwargs
    simp only [hq, hv, hs]
    unfold Url.Secure
    unfold Url.Watched at hw
    rcases hw with hw | hw
    · rw [hw, if_neg (by decide), hnone]; decide
    · rw [hw, if_pos (by decide), get?_put, if_pos rfl]; decide

/-! ### Cases, and where the code disagrees -/

/-- A cluster with a password that has to be percent-encoded. -/
def clusterUrl : Url := ⟨t!"rediss+cluster", t!"app", t!"p@ss", t!"node:6379", t!"/0", [(t!"health_check_interval", t!"5")]⟩

/-- A cluster with a plain password and a certificate. -/
def certUrl : Url := ⟨t!"rediss+cluster", t!"app", t!"secret", t!"node:6379", [], [(t!"ssl_ca_certs", t!"/ca.pem")]⟩

/-- Sentinel, with credentials of both kinds and an option. -/
def sentinelUrl : Url := ⟨t!"redis+sentinel", t!"app", t!"a:b/c", t!"a:1,b:2", t!"/main/3",
  [(t!"sentinel_password", t!"x%y"), (t!"socket_timeout", t!"5")]⟩

/-- A server. -/
def serverUrl : Url := ⟨t!"redis", [], t!"p w", t!"localhost", t!"/1", [(t!"max_connections", t!"10")]⟩

theorem clusterUrl_ok : clusterUrl.Ok :=
  ⟨by decide, by decide, by decide, by decide, Or.inr ⟨_, rfl⟩, by decide, by decide, by decide, by decide⟩

theorem certUrl_ok : certUrl.Ok := ⟨by decide, by decide, by decide, by decide, Or.inl rfl, by decide, by decide, by decide, by decide⟩

theorem sentinelUrl_ok : sentinelUrl.Ok :=
  ⟨by decide, by decide, by decide, by decide, Or.inr ⟨_, rfl⟩, by decide, by decide, by decide, by decide⟩

theorem serverUrl_ok : serverUrl.Ok :=
  ⟨by decide, by decide, by decide, by decide, Or.inr ⟨_, rfl⟩, by decide, by decide, by decide, by decide⟩

/-- The hypotheses of the theorems above are met. -/
example : sentinelUrl.written = t!"redis+sentinel://app:a%3Ab%2Fc@a:1,b:2/main/3?sentinel_password=x%25y&socket_timeout=5" ∧
    (connection sentinelUrl.written t!"3" .commands).map (·.options.get? t!"password") = some (some t!"a:b/c") ∧
    (connection sentinelUrl.written t!"3" .commands).map (·.options.get? t!"socket_timeout") = some (some t!"5") ∧
    (daemons (parts sentinelUrl.written)).options.get? t!"password" = some t!"x%y" ∧ sentinelUrl.Watched ∧
    sentinelUrl.Without t!"ssl" := by
  refine ⟨by decide +kernel, by decide +kernel, by decide +kernel, by decide +kernel, Or.inl rfl, by unfold Url.Without; decide +kernel⟩

example : serverUrl.written = t!"redis://:p%20w@localhost/1?max_connections=10" ∧
    (connection serverUrl.written t!"" .results).map (·.options.get? t!"password") = some (some t!"p w") ∧
    (connection serverUrl.written t!"" .results).map (·.options.get? t!"username") = some none ∧
    serverUrl.Without t!"username" ∧ serverUrl.Without t!"password" ∧ ¬ serverUrl.Clustered ∧ serverUrl.Without t!"socket_timeout" := by
  refine ⟨by decide +kernel, by decide +kernel, by decide +kernel, by unfold Url.Without; decide +kernel,
    by unfold Url.Without; decide +kernel, by unfold Url.Clustered; decide +kernel, by unfold Url.Without; decide +kernel⟩

/-- **Disagreement.** In a cluster, the connection that events are listened for and published over
is given the user name and password as they stand in the URL, with their escapes: with the password
`p@ss`, written `p%40ss`, commands are signed in properly and messages with the wrong password. -/
theorem C97_violated_cluster_password : ¬ C97_statement ∧
    (∃ c, connection clusterUrl.written [] .commands = some c ∧ c.options.get? t!"password" = some t!"p@ss") ∧
    (∃ c, connection clusterUrl.written [] .publish = some c ∧ c.options.get? t!"password" = some t!"p%40ss") := by
  obtain ⟨c, hc⟩ := C97_connected clusterUrl clusterUrl_ok [] .publish
  refine ⟨fun h => ?_, ⟨_, rfl, by decide +kernel⟩, ⟨_, rfl, by decide +kernel⟩⟩
  have := (h clusterUrl clusterUrl_ok (by decide +kernel) [] .publish c hc).1
  rw [C97_cluster_messages_partial clusterUrl clusterUrl_ok (Or.inr rfl) [] .publish (Or.inr rfl) c hc] at this
  exact absurd (this.2 '@' (by decide)) (by decide)

/-- **Disagreement.** In a cluster, that connection has none of the options of the query string: the
certificates that commands are checked against are not used for the messages. -/
theorem C97_violated_cluster_options : ¬ C97_statement ∧
    (∃ c, connection certUrl.written [] .commands = some c ∧ c.options.get? t!"ssl_ca_certs" = some t!"/ca.pem") ∧
    (∃ c, connection certUrl.written [] .listen = some c ∧ c.tls = true ∧ c.options.get? t!"ssl_ca_certs" = none) := by
  refine ⟨fun h => ?_, ⟨_, rfl, by decide +kernel⟩, ⟨_, rfl, by decide +kernel, by decide +kernel⟩⟩
  have := (h certUrl certUrl_ok (by decide +kernel) [] .listen _ rfl).2.2 (t!"ssl_ca_certs", t!"/ca.pem") (by decide) (by decide)
  exact absurd this (by decide +kernel)

/-- A Sentinel URL that means to switch TLS off. -/
def sslUrl : Url := ⟨t!"redis+sentinel", [], [], t!"a", t!"/main", [(t!"ssl", t!"false")]⟩

/-- **Disagreement.** With a Sentinel URL, the option `ssl` switches TLS on for the master whatever its
value is, `false` included, and leaves it off for the Sentinel daemons. -/
theorem C97_violated_ssl_option : ¬ C97_statement ∧
    (∃ c, connection sslUrl.written [] .commands = some c ∧ c.tls = true) ∧ (daemons (parts sslUrl.written)).tls = false := by
  have ok : sslUrl.Ok := ⟨by decide, by decide, by decide, by decide, Or.inr ⟨_, rfl⟩, by decide, by decide, by decide, by decide⟩
  refine ⟨fun h => ?_, ⟨_, rfl, by decide +kernel⟩, by decide +kernel⟩
  have := (h sslUrl ok (by decide +kernel) [] .commands _ rfl).2.1
  have hs := this.1 (by decide +kernel)
  unfold Url.Secure at hs
  exact absurd hs (by decide)

end Docket.Connect
