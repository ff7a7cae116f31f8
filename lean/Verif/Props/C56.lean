import Verif.Cli.Sentinel

/-! # C56: sentinel URLs are understood -/

namespace Docket.Sentinel
open Cli Decimal

/-! ## Specification: how a sentinel URL is written -/

/-- A letter, a digit, a dot, a dash or an underscore. -/
def HostChar (c : Char) : Prop :=
  (97 ≤ c.toNat ∧ c.toNat ≤ 122) ∨ (65 ≤ c.toNat ∧ c.toNat ≤ 90) ∨ (48 ≤ c.toNat ∧ c.toNat ≤ 57) ∨ c.toNat = 45 ∨ c.toNat = 46 ∨
    c.toNat = 95

instance (c : Char) : Decidable (HostChar c) := by unfold HostChar; infer_instance

/-- A listed host: a name or a bracketed IPv6 address, with or without a port. -/
structure Host where
  name : Text
  bracketed : Bool
  port : Option Nat

/-- How it is written. -/
def Host.written (h : Host) : Text :=
  (if h.bracketed then t!"[" ++ h.name ++ t!"]" else h.name) ++ (match h.port with | none => [] | some p => t!":" ++ dec p)

structure Host.Ok (env : Env) (h : Host) : Prop where
  nonempty : h.name ≠ []
  plain : h.bracketed = false → ∀ c ∈ h.name, HostChar c
  address : h.bracketed = true → (∀ c ∈ h.name, HostChar c ∨ c = ':') ∧ env.bracketsOk h.written = true
  port : ∀ p, h.port = some p → p ≤ 65535

/-- The host and port it stands for; host names are not case sensitive. -/
def Host.denotes (h : Host) : Text × Nat := (h.name.map Char.toLower, h.port.getD 26379)

/-- The texts with commas between them. -/
def commas : List Text → Text
  | [] => []
  | [t] => t
  | t :: ts => t ++ t!"," ++ commas ts

/-- The pieces of a sentinel URL. -/
structure Url where
  tls : Bool
  userinfo : Option Text
  hosts : List Host
  service : Text
  db : Option Nat
  query : Option Text

def Url.written (u : Url) : Text :=
  (if u.tls then t!"rediss+sentinel" else t!"redis+sentinel") ++ t!"://" ++
  (match u.userinfo with | none => [] | some x => x ++ t!"@") ++ commas (u.hosts.map Host.written) ++
  t!"/" ++ u.service ++ (match u.db with | none => [] | some n => t!"/" ++ dec n) ++
  (match u.query with | none => [] | some q => t!"?" ++ q)

structure Url.Ok (env : Env) (u : Url) : Prop where
  userinfo : ∀ x, u.userinfo = some x → ∀ c ∈ x, c ≠ '/' ∧ c ≠ '?' ∧ c ≠ '#'
  some_host : u.hosts ≠ []
  hosts : ∀ h ∈ u.hosts, h.Ok env
  service : u.service ≠ []
  serviceChars : ∀ c ∈ u.service, c ≠ '/' ∧ c ≠ '?' ∧ c ≠ '#' ∧ c ≠ '\t' ∧ c ≠ '\r' ∧ c ≠ '\n'
  db : ∀ n, u.db = some n → n < 10 ^ 4300
  queryChars : ∀ q, u.query = some q → ∀ c ∈ q, c ≠ '#' ∧ c ≠ '\t' ∧ c ≠ '\r' ∧ c ≠ '\n'
  query : env.queryOk (u.query.getD []) = true

/-! ## Proof -/

/-- The characters of a written host. -/
def Good (c : Char) : Prop := HostChar c ∨ c = ':' ∨ c = '[' ∨ c = ']'

instance (c : Char) : Decidable (Good c) := by unfold Good; infer_instance

theorem digit_range {c : Char} (h : (digitVal? c).isSome = true) : 48 ≤ c.toNat ∧ c.toNat ≤ 57 := by
  unfold digitVal? at h
  split at h
  · assumption
  · cases h

theorem dec_host (n : Nat) : ∀ c ∈ dec n, HostChar c := fun c hc => Or.inr (Or.inr (Or.inl (digit_range (dec_digits n c hc))))

theorem good_ne {c x : Char} (h : Good c) (hx : ¬ Good x) : c ≠ x := fun hc => hx (hc ▸ h)

theorem host_ne {c x : Char} (h : HostChar c) (hx : ¬ HostChar x) : c ≠ x := fun hc => hx (hc ▸ h)

theorem good_facts {c : Char} (h : Good c) : c ≠ ',' ∧ c ≠ '@' ∧ isEnd c = false ∧ isRemoved c = false ∧ isSpace c = false := by
  refine ⟨good_ne h (by decide), good_ne h (by decide), ?_, ?_, ?_⟩
  · simp only [isEnd, good_ne h (show ¬ Good '/' by decide), good_ne h (show ¬ Good '?' by decide), good_ne h (show ¬ Good '#' by decide)]
    rfl
  · simp only [isRemoved, good_ne h (show ¬ Good '\t' by decide), good_ne h (show ¬ Good '\r' by decide),
      good_ne h (show ¬ Good '\n' by decide)]
    rfl
  · have h32 := good_ne h (show ¬ Good ' ' by decide)
    have hr : 45 ≤ c.toNat := by
      rcases h with h | rfl | rfl | rfl
      · unfold HostChar at h; omega
      · decide
      · decide
      · decide
    simp only [isSpace, h32, decide_false, Bool.false_or, Bool.or_eq_false_iff, Bool.and_eq_false_iff, decide_eq_false_iff_not]
    exact ⟨Or.inr (by omega), Or.inr (by omega)⟩

theorem written_good {env : Env} {h : Host} (ok : h.Ok env) : ∀ c ∈ h.written, Good c := by
  have hport : ∀ c ∈ (match h.port with | none => [] | some p => t!":" ++ dec p), Good c := by
    cases h.port with
    | none => simp
    | some p =>
      intro c hc
      rcases List.mem_append.1 hc with hc | hc
      · exact Or.inr (Or.inl (List.mem_singleton.1 hc))
      · exact Or.inl (dec_host p c hc)
  intro c hc
  unfold Host.written at hc
  rcases List.mem_append.1 hc with hc | hc
  · cases hb : h.bracketed with
    | false =>
      rw [hb] at hc
      exact Or.inl (ok.plain hb c hc)
    | true =>
      rw [hb] at hc
      simp only [if_true, List.mem_append, List.mem_singleton] at hc
      rcases hc with (hc | hc) | hc
      · exact Or.inr (Or.inr (Or.inl hc))
      · rcases (ok.address hb).1 c hc with h | h
        · exact Or.inl h
        · exact Or.inr (Or.inl h)
      · exact Or.inr (Or.inr (Or.inr hc))
  · exact hport c hc

theorem written_ne_nil {env : Env} {h : Host} (ok : h.Ok env) : h.written ≠ [] := by
  unfold Host.written
  have := ok.nonempty
  split <;> simp [this]

theorem partition_at {c : Char} {a : Text} (b : Text) (h : c ∉ a) : partition c (a ++ c :: b) = (a, b) := by
  have hp : ∀ x ∈ a, (decide (x ≠ c)) = true := fun x hx => decide_eq_true (fun hc => h (hc ▸ hx))
  simp only [partition, List.takeWhile_append_of_pos hp, List.dropWhile_append_of_pos hp]
  simp

theorem partition_no {c : Char} {a : Text} (h : c ∉ a) : partition c a = (a, []) := by
  have hp : ∀ x ∈ a, (decide (x ≠ c)) = true := fun x hx => decide_eq_true (fun hc => h (hc ▸ hx))
  have h1 := List.takeWhile_append_of_pos (l₂ := []) hp
  have h2 := List.dropWhile_append_of_pos (l₂ := []) hp
  simp only [List.append_nil, List.takeWhile_nil, List.dropWhile_nil] at h1 h2
  simp only [partition, h1, h2, List.drop_nil]

theorem portText_no (h : Host) {x : Char} (hx : ¬ HostChar x) (hc : x ≠ ':') :
    x ∉ (match h.port with | none => [] | some p => t!":" ++ dec p) := by
  cases h.port with
  | none => simp
  | some p =>
    intro hm
    rcases List.mem_append.1 hm with hm | hm
    · exact hc (List.mem_singleton.1 hm)
    · exact hx (dec_host p x hm)

theorem hostinfo_written {env : Env} {h : Host} (ok : h.Ok env) :
    hostinfo h.written = (h.name, match h.port with | none => [] | some p => dec p) := by
  unfold hostinfo Host.written
  cases hb : h.bracketed with
  | false =>
    have hn : '[' ∉ h.name := fun hm => absurd (ok.plain hb _ hm) (by decide)
    have hcol : ':' ∉ h.name := fun hm => absurd (ok.plain hb _ hm) (by decide)
    rw [if_neg (by
      intro hm
      rcases List.mem_append.1 hm with hm | hm
      · exact hn hm
      · exact portText_no h (by decide) (by decide) hm)]
    cases h.port with
    | none => simpa using partition_no hcol
    | some p => simpa using partition_at (dec p) hcol
  | true =>
    rw [if_pos (by simp)]
    have hclose : ']' ∉ h.name := by
      intro hm
      rcases (ok.address hb).1 _ hm with h | h
      · exact absurd h (by decide)
      · cases h
    have hopen : ∀ b, partition '[' (t!"[" ++ h.name ++ t!"]" ++ b) = ([], h.name ++ ']' :: b) := by
      intro b
      have := partition_at (c := '[') (a := []) (h.name ++ ']' :: b) (by simp)
      simpa using this
    simp only [if_true, hopen, partition_at _ hclose]
    cases h.port with
    | none => rfl
    | some p =>
      have := partition_at (c := ':') (a := []) (dec p) (by simp)
      simp only [List.nil_append] at this
      simp [this]

theorem dec_length (k n : Nat) (hk : 0 < k) (h : n < 10 ^ k) : (dec n).length ≤ k := by
  induction k generalizing n with
  | zero => omega
  | succ k ih =>
    rw [dec]
    split
    · simp
    · next h10 =>
      have hk0 : 0 < k := by
        rcases Nat.eq_zero_or_pos k with rfl | hk0
        · simp at h; omega
        · exact hk0
      rw [Nat.pow_succ] at h
      have := ih (n / 10) hk0 (by omega)
      simp only [List.length_append, List.length_singleton]
      omega

theorem hostname_written {env : Env} {h : Host} (ok : h.Ok env) : hostname h.written = h.name.map Char.toLower := by
  have hp : ∀ x ∈ h.name, (decide (x ≠ '%')) = true := by
    intro x hx
    cases hb : h.bracketed with
    | false => exact decide_eq_true (host_ne (ok.plain hb x hx) (by decide))
    | true =>
      rcases (ok.address hb).1 x hx with h | h
      · exact decide_eq_true (host_ne h (by decide))
      · subst h; decide
  have h1 := List.takeWhile_append_of_pos (l₂ := []) hp
  have h2 := List.dropWhile_append_of_pos (l₂ := []) hp
  simp only [List.append_nil, List.takeWhile_nil, List.dropWhile_nil] at h1 h2
  unfold hostname
  rw [hostinfo_written ok]
  simp only [h1, h2, List.append_nil]

theorem port_written {env : Env} {h : Host} (ok : h.Ok env) : port h.written = some h.port := by
  unfold port
  rw [hostinfo_written ok]
  have hp := ok.port
  cases hport : h.port with
  | none => rfl
  | some p =>
    have hle := hp p hport
    have hlen := dec_length 5 p (by decide) (by omega)
    simp only
    rw [if_neg (dec_ne_nil p), if_neg (by omega), parse_dec]
    simp only
    rw [if_pos hle]

theorem filter_none {p : Char → Bool} {t : Text} (h : ∀ c ∈ t, p c = true) : t.filter p = t := List.filter_eq_self.2 h

theorem dropWhile_id {p : Char → Bool} {t : Text} (h : ∀ c ∈ t, p c = false) : t.dropWhile p = t := by
  cases t with
  | nil => rfl
  | cons c t => simp [h c (by simp)]

theorem strip_id {t : Text} (h : ∀ c ∈ t, isSpace c = false) : strip t = t := by
  unfold strip
  rw [dropWhile_id h, dropWhile_id (by simpa using h), List.reverse_reverse]

theorem member_written {env : Env} {h : Host} (ok : h.Ok env) : member env h.written = some h.denotes := by
  have hg := written_good ok
  have hf : h.written.filter (fun c => !isRemoved c) = h.written :=
    filter_none (fun c hc => by rw [(good_facts (hg c hc)).2.2.2.1]; rfl)
  unfold member
  simp only [hf]
  have hbr : decide ('[' ∈ h.written) = decide (']' ∈ h.written) := by
    cases hb : h.bracketed with
    | true => simp [Host.written, hb]
    | false =>
      have h1 : '[' ∉ h.written := by
        simp only [Host.written, hb]
        intro hm
        rcases List.mem_append.1 hm with hm | hm
        · exact absurd (ok.plain hb _ hm) (by decide)
        · exact portText_no h (by decide) (by decide) hm
      have h2 : ']' ∉ h.written := by
        simp only [Host.written, hb]
        intro hm
        rcases List.mem_append.1 hm with hm | hm
        · exact absurd (ok.plain hb _ hm) (by decide)
        · exact portText_no h (by decide) (by decide) hm
      simp [h1, h2]
  rw [if_neg (by simpa using hbr), if_neg, if_neg, port_written ok, hostname_written ok]
  · rfl
  · rw [hostname_written ok]; simp [ok.nonempty]
  · rintro ⟨hm, hno⟩
    cases hb : h.bracketed with
    | true => exact hno (ok.address hb).2
    | false =>
      simp only [Host.written, hb] at hm
      rcases List.mem_append.1 hm with hm | hm
      · exact absurd (ok.plain hb _ hm) (by decide)
      · exact portText_no h (by decide) (by decide) hm

theorem members_written {env : Env} (hs : List Host) (ok : ∀ h ∈ hs, h.Ok env) :
    members env (hs.map Host.written) = some (hs.map Host.denotes) := by
  induction hs with
  | nil => rfl
  | cons h hs ih =>
    have okh := ok h (by simp)
    have hst : strip h.written = h.written := strip_id (fun c hc => (good_facts (written_good okh c hc)).2.2.2.2)
    simp only [List.map_cons, members]
    rw [hst, if_neg (written_ne_nil okh), member_written okh, ih (fun x hx => ok x (by simp [hx]))]

theorem splitOn_no {sep : Char} {t : Text} (h : sep ∉ t) : splitOn sep t = [t] := by
  induction t with
  | nil => rfl
  | cons c t ih =>
    simp only [List.mem_cons, not_or] at h
    have hc : ¬ c = sep := fun hh => h.1 hh.symm
    simp [splitOn, hc, ih h.2]

theorem splitOn_at {sep : Char} {a : Text} (b : Text) (h : sep ∉ a) : splitOn sep (a ++ sep :: b) = a :: splitOn sep b := by
  induction a with
  | nil => simp [splitOn]
  | cons c a ih =>
    simp only [List.mem_cons, not_or] at h
    have hc : ¬ c = sep := fun hh => h.1 hh.symm
    simp [splitOn, hc, ih h.2]

theorem splitOn_commas (ts : List Text) (hne : ts ≠ []) (h : ∀ t ∈ ts, ',' ∉ t) : splitOn ',' (commas ts) = ts := by
  induction ts with
  | nil => exact absurd rfl hne
  | cons t ts ih =>
    cases ts with
    | nil => exact splitOn_no (h t (by simp))
    | cons t' ts =>
      have : commas (t :: t' :: ts) = t ++ ',' :: commas (t' :: ts) := by simp [commas]
      rw [this, splitOn_at _ (h t (by simp)), ih (by simp) (fun x hx => h x (by simp [hx]))]

theorem mem_commas {ts : List Text} {c : Char} (h : c ∈ commas ts) : c = ',' ∨ ∃ t ∈ ts, c ∈ t := by
  induction ts with
  | nil => cases h
  | cons t ts ih =>
    cases ts with
    | nil => exact Or.inr ⟨t, by simp, h⟩
    | cons t' ts =>
      have he : commas (t :: t' :: ts) = t ++ ',' :: commas (t' :: ts) := by simp [commas]
      rw [he] at h
      rcases List.mem_append.1 h with h | h
      · exact Or.inr ⟨t, by simp, h⟩
      · rcases List.mem_cons.1 h with h | h
        · exact Or.inl h
        · rcases ih h with h | ⟨x, hx, hc⟩
          · exact Or.inl h
          · exact Or.inr ⟨x, by simp [hx], hc⟩

theorem partitionScheme_written (tls : Bool) (rest : Text) :
    partitionScheme ((if tls then t!"rediss+sentinel" else t!"redis+sentinel") ++ t!"://" ++ rest) =
      (if tls then t!"rediss+sentinel" else t!"redis+sentinel", rest) := by
  cases tls <;> simp [partitionScheme, List.isPrefixOf]

theorem afterLast_at {c : Char} (a : Text) {b : Text} (h : c ∉ b) : afterLast c (a ++ c :: b) = b := by
  have hp : ∀ x ∈ b.reverse, (decide (x ≠ c)) = true := fun x hx => decide_eq_true (fun hc => h (hc ▸ List.mem_reverse.1 hx))
  unfold afterLast
  rw [List.reverse_append, List.reverse_cons, List.append_assoc, List.takeWhile_append_of_pos hp]
  simp

theorem afterLast_no {c : Char} {b : Text} (h : c ∉ b) : afterLast c b = b := by
  have hp : ∀ x ∈ b.reverse, (decide (x ≠ c)) = true := fun x hx => decide_eq_true (fun hc => h (hc ▸ List.mem_reverse.1 hx))
  have h1 := List.takeWhile_append_of_pos (l₂ := []) hp
  simp only [List.append_nil, List.takeWhile_nil] at h1
  unfold afterLast
  rw [h1, List.reverse_reverse]

theorem pyInt_dec (n : Nat) (h : n < 10 ^ 4300) : pyInt (dec n) = some (n : Int) := by
  have hlen := dec_length 4300 n (by decide) h
  have hch : ∀ c ∈ dec n, Good c := fun c hc => Or.inl (dec_host n c hc)
  have hs : strip (dec n) = dec n := strip_id (fun c hc => (good_facts (hch c hc)).2.2.2.2)
  have hne : ∀ x, ¬ (48 ≤ x.toNat ∧ x.toNat ≤ 57) → x ∉ dec n := fun x hx hm => hx (digit_range (dec_digits n x hm))
  have hnat : pyNat (dec n) = some n := by
    unfold pyNat
    rw [splitOn_no (hne '_' (by decide))]
    have h3 : ([dec n].any (· = [])) = false := by simp [dec_ne_nil n]
    rw [h3, if_neg (by simp), if_neg (by simp; omega)]
    simp [parse_dec]
  unfold pyInt
  rw [hs]
  split
  · next heq => exact absurd (by rw [heq]; simp) (hne '-' (by decide))
  · next heq => exact absurd (by rw [heq]; simp) (hne '+' (by decide))
  · rw [hnat]; rfl

/-- What comes after the list of hosts. -/
def Url.tail (u : Url) : Text :=
  t!"/" ++ u.service ++ (match u.db with | none => [] | some n => t!"/" ++ dec n) ++ (match u.query with | none => [] | some q => t!"?" ++ q)

/-- The list of hosts, with the credentials. -/
def Url.front (u : Url) : Text :=
  (match u.userinfo with | none => [] | some x => x ++ t!"@") ++ commas (u.hosts.map Host.written)

/-- The path. -/
def Url.path (u : Url) : Text := t!"/" ++ u.service ++ (match u.db with | none => [] | some n => t!"/" ++ dec n)

theorem urlparse_written {env : Env} {u : Url} (ok : u.Ok env) :
    urlparseMultihost u.written = ⟨u.front, u.path, u.query.getD [], u.tls⟩ := by
  have hw : u.written = (if u.tls then t!"rediss+sentinel" else t!"redis+sentinel") ++ t!"://" ++ (u.front ++ u.tail) := by
    simp only [Url.written, Url.front, Url.tail, List.append_assoc]
  have hfront : ∀ c ∈ u.front, (fun c => !isEnd c) c = true := by
    intro c hc
    unfold Url.front at hc
    rcases List.mem_append.1 hc with hc | hc
    · cases hu : u.userinfo with
      | none => rw [hu] at hc; cases hc
      | some x =>
        rw [hu] at hc
        rcases List.mem_append.1 hc with hc | hc
        · obtain ⟨h1, h2, h3⟩ := ok.userinfo x hu c hc
          simp [isEnd, h1, h2, h3]
        · rw [List.mem_singleton.1 hc]; decide
    · rcases mem_commas hc with rfl | ⟨t, ht, hct⟩
      · decide
      · obtain ⟨h, hh, rfl⟩ := List.mem_map.1 ht
        simp [(good_facts (written_good (ok.hosts h hh) c hct)).2.2.1]
  have htail : ∃ b, u.tail = '/' :: b := ⟨_, by simp only [Url.tail, List.append_assoc, List.cons_append, List.nil_append]; rfl⟩
  have hpath : ∀ c ∈ u.path, c ≠ '?' ∧ c ≠ '#' ∧ c ≠ '\t' ∧ c ≠ '\r' ∧ c ≠ '\n' := by
    intro c hc
    unfold Url.path at hc
    rcases List.mem_append.1 hc with hc | hc
    · rcases List.mem_append.1 hc with hc | hc
      · rw [List.mem_singleton.1 hc]; decide
      · exact (ok.serviceChars c hc).2
    · cases hd : u.db with
      | none => rw [hd] at hc; cases hc
      | some n =>
        rw [hd] at hc
        rcases List.mem_append.1 hc with hc | hc
        · rw [List.mem_singleton.1 hc]; decide
        · have hh := dec_host n c hc
          exact ⟨host_ne hh (by decide), host_ne hh (by decide), host_ne hh (by decide), host_ne hh (by decide), host_ne hh (by decide)⟩
  have htp : u.tail = u.path ++ (match u.query with | none => [] | some q => t!"?" ++ q) := by
    simp only [Url.tail, Url.path]
  have hclean : ∀ c ∈ u.tail, c ≠ '#' ∧ c ≠ '\t' ∧ c ≠ '\r' ∧ c ≠ '\n' := by
    intro c hc
    rw [htp] at hc
    rcases List.mem_append.1 hc with hc | hc
    · exact (hpath c hc).2
    · cases hq : u.query with
      | none => rw [hq] at hc; cases hc
      | some q =>
        rw [hq] at hc
        rcases List.mem_append.1 hc with hc | hc
        · rw [List.mem_singleton.1 hc]; decide
        · exact ok.queryChars q hq c hc
  have hdrop : (u.front ++ u.tail).dropWhile (fun c => !isEnd c) = u.tail := by
    rw [List.dropWhile_append_of_pos hfront]
    obtain ⟨b, hb⟩ := htail
    rw [hb]; rfl
  have htake : (u.front ++ u.tail).takeWhile (fun c => !isEnd c) = u.front := by
    rw [List.takeWhile_append_of_pos hfront]
    obtain ⟨b, hb⟩ := htail
    rw [hb]; simp [isEnd]
  have hfil : u.tail.filter (fun c => !isRemoved c) = u.tail := filter_none (fun c hc => by
    obtain ⟨_, h1, h2, h3⟩ := hclean c hc
    simp [isRemoved, h1, h2, h3])
  have hfrag : u.tail.takeWhile (fun c => decide (c ≠ '#')) = u.tail := by
    have := List.takeWhile_append_of_pos (p := fun c => decide (c ≠ '#')) (l₁ := u.tail) (l₂ := [])
      (fun c hc => decide_eq_true (hclean c hc).1)
    simpa using this
  have hq : '?' ∉ u.path := fun hm => (hpath _ hm).1 rfl
  have hpart : (u.tail.takeWhile (fun c => decide (c ≠ '?')), (u.tail.dropWhile (fun c => decide (c ≠ '?'))).drop 1) =
      (u.path, u.query.getD []) := by
    have : partition '?' u.tail = (u.path, u.query.getD []) := by
      rw [htp]
      cases u.query with
      | none => simpa using partition_no hq
      | some q => simpa using partition_at q hq
    exact this
  unfold urlparseMultihost
  rw [hw, partitionScheme_written]
  simp only [hdrop, htake, hfil, hfrag]
  have h1 := congrArg Prod.fst hpart
  have h2 := congrArg Prod.snd hpart
  simp only at h1 h2
  rw [h1, h2]
  cases u.tls <;> simp

/-- **C56**: a sentinel URL is read as exactly the hosts listed with their ports (26379 where
none is given), the service name and the database number (0 where none is given), with or without
credentials and connection options. -/
theorem C56_reads (env : Env) (u : Url) (ok : u.Ok env) :
    isSentinelUrl u.written = true ∧
    parseSentinelUrl env u.written =
      some ⟨u.hosts.map (fun h => (h.name.map Char.toLower, h.port.getD 26379)), u.service, ((u.db.getD 0 : Nat) : Int), u.tls⟩ := by
  constructor
  · have hw : u.written = (if u.tls then t!"rediss+sentinel" else t!"redis+sentinel") ++ t!"://" ++ (u.front ++ u.tail) := by
      simp only [Url.written, Url.front, Url.tail, List.append_assoc]
    unfold isSentinelUrl
    rw [hw, partitionScheme_written]
    cases u.tls <;> rfl
  · have hgood : ∀ c ∈ commas (u.hosts.map Host.written), c ≠ '@' := by
      intro c hc
      rcases mem_commas hc with rfl | ⟨t, ht, hct⟩
      · decide
      · obtain ⟨h, hh, rfl⟩ := List.mem_map.1 ht
        exact (good_facts (written_good (ok.hosts h hh) c hct)).2.1
    have hat : '@' ∉ commas (u.hosts.map Host.written) := fun hm => hgood _ hm rfl
    have hhost : afterLast '@' u.front = commas (u.hosts.map Host.written) := by
      unfold Url.front
      cases u.userinfo with
      | none => exact afterLast_no hat
      | some x =>
        simp only [List.append_assoc, List.singleton_append]
        exact afterLast_at x hat
    have hsplit : splitOn ',' (commas (u.hosts.map Host.written)) = u.hosts.map Host.written := by
      apply splitOn_commas
      · simpa using ok.some_host
      · intro t ht hm
        obtain ⟨h, hh, rfl⟩ := List.mem_map.1 ht
        exact (good_facts (written_good (ok.hosts h hh) _ hm)).1 rfl
    have hslash : '/' ∉ u.service := fun hm => (ok.serviceChars _ hm).1 rfl
    have hsegs : (splitOn '/' u.path).filter (fun s => s ≠ []) = u.service :: (match u.db with | none => [] | some n => [dec n]) := by
      unfold Url.path
      have hnil : ∀ b, splitOn '/' (t!"/" ++ b) = [] :: splitOn '/' b := fun b => by simp [splitOn]
      rw [List.append_assoc, hnil]
      have hne := ok.service
      cases u.db with
      | none => simp [splitOn_no hslash, hne]
      | some n =>
        have hds : '/' ∉ dec n := fun hm => absurd (dec_host n _ hm) (by decide)
        simp only [List.singleton_append]
        rw [splitOn_at _ hslash, splitOn_no hds]
        simp [hne, dec_ne_nil n]
    unfold parseSentinelUrl
    simp only [urlparse_written ok, hhost, hsplit, members_written u.hosts ok.hosts]
    have hne : ∃ x xs, u.hosts.map Host.denotes = x :: xs := by
      cases hh : u.hosts with
      | nil => exact absurd hh ok.some_host
      | cons x xs => exact ⟨_, _, rfl⟩
    obtain ⟨x, xs, hx⟩ := hne
    rw [hx]
    simp only
    rw [hsegs]
    have hdb : database (match u.db with | none => [] | some n => [dec n]) = some ((u.db.getD 0 : Nat) : Int) := by
      have := ok.db
      cases hd : u.db with
      | none => rfl
      | some n => exact pyInt_dec n (this n hd)
    simp only [hdb, ok.query, if_true, ← hx]
    rfl

/-- **C56**: whatever the URL, what is accepted has at least one host, a name for each, ports in
range, and a service name. -/
theorem C56_accepted (env : Env) (url : Text) (c : Config) (h : parseSentinelUrl env url = some c) :
    c.sentinels ≠ [] ∧ (∀ e ∈ c.sentinels, e.1 ≠ [] ∧ e.2 ≤ 65535) ∧ c.serviceName ≠ [] := by
  have hmem : ∀ (l : List Text) (xs : List (Text × Nat)), members env l = some xs → ∀ e ∈ xs, e.1 ≠ [] ∧ e.2 ≤ 65535 := by
    intro l
    induction l with
    | nil => intro xs hx e he; cases hx; cases he
    | cons m ms ih =>
      intro xs hx
      simp only [members] at hx
      split at hx
      · exact ih xs hx
      · split at hx
        · cases hx
        · next x hmx =>
          split at hx
          · cases hx
          · next xs' hxs =>
            cases hx
            intro e he
            rcases List.mem_cons.1 he with rfl | he
            · unfold member at hmx
              simp only at hmx
              split at hmx
              · cases hmx
              split at hmx
              · cases hmx
              split at hmx
              · cases hmx
              next hn =>
              split at hmx
              · cases hmx
              · next p hp =>
                cases hmx
                refine ⟨hn, ?_⟩
                unfold port at hp
                split at hp
                · cases hp; simp
                split at hp
                · cases hp
                split at hp
                · cases hp
                split at hp
                · next hle => cases hp; exact hle
                · cases hp
            · exact ih xs' hxs e he
  unfold parseSentinelUrl at h
  simp only at h
  split at h
  · cases h
  · cases h
  · next xs hnil hm =>
    split at h
    · cases h
    · next s rest hseg =>
      split at h
      · cases h
      split at h
      · cases h
        refine ⟨fun hc => ?_, hmem _ _ hm, ?_⟩
        · exact hnil hc
        · have : s ∈ (splitOn '/' (urlparseMultihost url).path).filter (fun s => s ≠ []) := by rw [hseg]; simp
          simpa using (List.mem_filter.1 this).2
      · cases h

/-- **C56**: a URL with nothing but blanks and commas where the hosts should be is refused. -/
theorem C56_no_host (env : Env) (tls : Bool) (blanks tail : Text) (hb : ∀ c ∈ blanks, c = ' ' ∨ c = ',')
    (ht : ∀ c, tail.head? = some c → c = '/' ∨ c = '?' ∨ c = '#') :
    parseSentinelUrl env ((if tls then t!"rediss+sentinel" else t!"redis+sentinel") ++ t!"://" ++ (blanks ++ tail)) = none := by
  have hnet : (urlparseMultihost ((if tls then t!"rediss+sentinel" else t!"redis+sentinel") ++ t!"://" ++ (blanks ++ tail))).netloc = blanks := by
    unfold urlparseMultihost
    simp only [partitionScheme_written]
    have hp : ∀ c ∈ blanks, (fun c => !isEnd c) c = true := by
      intro c hc
      rcases hb c hc with rfl | rfl <;> decide
    rw [List.takeWhile_append_of_pos hp]
    cases tail with
    | nil => simp
    | cons x tl =>
      rcases ht x rfl with rfl | rfl | rfl <;> simp [isEnd]
  have hat : '@' ∉ blanks := fun hm => by rcases hb _ hm with h | h <;> cases h
  have hblank : ∀ l : List Text, (∀ t ∈ l, ∀ c ∈ t, c = ' ') → members env l = some [] := by
    intro l
    induction l with
    | nil => intro _; rfl
    | cons t l ih =>
      intro h
      have hst : strip t = [] := by
        have : t.dropWhile isSpace = [] := by
          have h1 := List.dropWhile_append_of_pos (p := isSpace) (l₁ := t) (l₂ := []) (fun c hc => by rw [h t (by simp) c hc]; decide)
          simpa using h1
        simp [strip, this]
      simp only [members, hst, if_true]
      exact ih (fun x hx => h x (by simp [hx]))
  have hpieces : ∀ b : Text, (∀ c ∈ b, c = ' ' ∨ c = ',') → ∀ t ∈ splitOn ',' b, ∀ c ∈ t, c = ' ' := by
    intro b
    induction b with
    | nil => intro _ t ht; simp [splitOn] at ht; subst ht; simp
    | cons x b ih =>
      intro h
      have ih' := ih (fun c hc => h c (by simp [hc]))
      simp only [splitOn]
      split
      · intro t ht
        rcases List.mem_cons.1 ht with rfl | ht
        · simp
        · exact ih' t ht
      · next hx =>
        have hsp : x = ' ' := by
          rcases h x (by simp) with h | h
          · exact h
          · exact absurd h hx
        split
        · intro t ht; simp at ht; subst ht; simp [hsp]
        · next p ps heq =>
          intro t ht
          rcases List.mem_cons.1 ht with rfl | ht
          · intro c hc
            rcases List.mem_cons.1 hc with rfl | hc
            · exact hsp
            · exact ih' p (by rw [heq]; simp) c hc
          · exact ih' t (by rw [heq]; simp [ht])
  unfold parseSentinelUrl
  simp only [hnet, afterLast_no hat, hblank _ (hpieces blanks hb)]

/-- **C56**: a URL with nothing but slashes after the hosts is refused. -/
theorem C56_no_service (env : Env) (tls : Bool) (front : Text) (n : Nat) (query : Text)
    (hf : ∀ c ∈ front, c ≠ '/' ∧ c ≠ '?' ∧ c ≠ '#') (hq : query = [] ∨ query.head? = some '?' ∨ query.head? = some '#') :
    parseSentinelUrl env ((if tls then t!"rediss+sentinel" else t!"redis+sentinel") ++ t!"://" ++
      (front ++ (List.replicate n '/' ++ query))) = none := by
  have hpath : (urlparseMultihost ((if tls then t!"rediss+sentinel" else t!"redis+sentinel") ++ t!"://" ++
      (front ++ (List.replicate n '/' ++ query)))).path = List.replicate n '/' := by
    unfold urlparseMultihost
    simp only [partitionScheme_written]
    have hp : ∀ c ∈ front, (fun c => !isEnd c) c = true := by
      intro c hc
      obtain ⟨h1, h2, h3⟩ := hf c hc
      simp [isEnd, h1, h2, h3]
    rw [List.dropWhile_append_of_pos hp]
    have hd : (List.replicate n '/' ++ query).dropWhile (fun c => !isEnd c) = List.replicate n '/' ++ query := by
      cases n with
      | zero =>
        cases query with
        | nil => rfl
        | cons x q =>
          have : x = '?' ∨ x = '#' := by simpa using hq
          rcases this with rfl | rfl <;> rfl
      | succ n => rfl
    rw [hd, List.filter_append]
    have hr : (List.replicate n '/').filter (fun c => !isRemoved c) = List.replicate n '/' :=
      filter_none (fun c hc => by rw [List.eq_of_mem_replicate hc]; decide)
    rw [hr]
    have h1 : ∀ c ∈ List.replicate n '/', (decide (c ≠ '#')) = true := fun c hc => by rw [List.eq_of_mem_replicate hc]; decide
    have h2 : ∀ c ∈ List.replicate n '/', (decide (c ≠ '?')) = true := fun c hc => by rw [List.eq_of_mem_replicate hc]; decide
    rw [List.takeWhile_append_of_pos h1, List.takeWhile_append_of_pos h2]
    cases query with
    | nil => simp
    | cons x q =>
      have : x = '?' ∨ x = '#' := by simpa using hq
      rcases this with rfl | rfl <;> simp [isRemoved]
  have hseg : (splitOn '/' (List.replicate n '/')).filter (fun s => s ≠ []) = [] := by
    clear hpath
    induction n with
    | zero => simp [splitOn]
    | succ n ih =>
      have : splitOn '/' (List.replicate (n + 1) '/') = [] :: splitOn '/' (List.replicate n '/') := by
        simp [List.replicate_succ, splitOn]
      rw [this, List.filter_cons]
      simpa using ih
  unfold parseSentinelUrl
  simp only [hpath]
  rw [hseg]
  split
  · rfl
  · rfl
  · rfl

/-! ## Examples -/

def anyEnv : Env := ⟨fun _ => true, fun _ => true⟩

def sample : Url :=
  { tls := true, userinfo := some t!"me:p@ss,word", hosts := [⟨t!"S1", false, some 5⟩, ⟨t!"::1", true, none⟩], service := t!"mymaster",
    db := some 3, query := some t!"max_connections=5" }

example : sample.Ok anyEnv := by
  refine ⟨?_, by simp [sample], ?_, by simp [sample], by simp [sample], ?_, ?_, rfl⟩
  · intro x hx; cases hx; decide
  · intro h hh
    simp [sample] at hh
    rcases hh with rfl | rfl
    · exact ⟨by simp, by intro _; decide, by simp, by simp⟩
    · exact ⟨by simp, by simp, by intro _; exact ⟨by decide, rfl⟩, by simp⟩
  · intro n hn
    cases hn
    exact Nat.lt_of_lt_of_le (by decide : 3 < 10 ^ 1) (Nat.pow_le_pow_right (by decide) (by decide))
  · intro q hq; cases hq; decide

example : sample.written = t!"rediss+sentinel://me:p@ss,word@S1:5,[::1]/mymaster/3?max_connections=5" := by decide +kernel
example : parseSentinelUrl anyEnv sample.written = some ⟨[(t!"s1", 5), (t!"::1", 26379)], t!"mymaster", 3, true⟩ := by decide +kernel
example : parseSentinelUrl anyEnv t!"redis+sentinel://a:70000/m" = none ∧ parseSentinelUrl anyEnv t!"redis+sentinel://a:x/m" = none ∧
    parseSentinelUrl anyEnv t!"redis+sentinel://:5/m" = none ∧ parseSentinelUrl anyEnv t!"redis+sentinel://a/m/x" = none := by
  decide +kernel

theorem partitionScheme_back (url : Text) :
    url = (partitionScheme url).1 ∨ url = (partitionScheme url).1 ++ t!"://" ++ (partitionScheme url).2 := by
  induction url with
  | nil => exact .inl rfl
  | cons c cs ih =>
    simp only [partitionScheme]
    split
    · next h =>
      refine .inr ?_
      obtain ⟨r, hr⟩ := List.isPrefixOf_iff_prefix.1 h
      have : cs = '/' :: '/' :: r := by
        simp only [List.cons_append, List.nil_append, List.cons.injEq] at hr
        exact hr.2.symm
      subst this
      simpa using hr.symm
    · rcases ih with ih | ih
      · exact .inl (congrArg (c :: ·) ih)
      · refine .inr ?_
        have := congrArg (c :: ·) ih
        simpa using this

/-- **C56**: no other URL is taken for a sentinel URL: what is has one of the two schemes.  (The
bare word without `://` counts too; it names no host, and is refused.) -/
theorem C56_only_sentinel (url : Text) (h : isSentinelUrl url = true) :
    ∃ tls : Bool, ∃ rest, url = (if tls then t!"rediss+sentinel" else t!"redis+sentinel") ∨
      url = (if tls then t!"rediss+sentinel" else t!"redis+sentinel") ++ t!"://" ++ rest := by
  unfold isSentinelUrl at h
  have hs : (partitionScheme url).1 = t!"redis+sentinel" ∨ (partitionScheme url).1 = t!"rediss+sentinel" := by
    simpa [schemes] using h
  have hb := partitionScheme_back url
  rcases hs with hs | hs
  · exact ⟨false, (partitionScheme url).2, by rw [hs] at hb; exact hb⟩
  · exact ⟨true, (partitionScheme url).2, by rw [hs] at hb; exact hb⟩

example : isSentinelUrl t!"redis://localhost:6379/0" = false := by decide +kernel
example : isSentinelUrl t!"rediss+sentinel://a,b/m" = true := by decide +kernel

end Docket.Sentinel
