import Verif.Codec.Message
/-
C46 An execution survives its message encoding.
-/
namespace Docket.Message

open Decimal

theorem decode_encode (t : Text) : decode (encode t) = some t := by
  have h : (encode t).IsValidUTF8 := (String.ofList t).isValidUTF8
  unfold decode String.fromUTF8?
  rw [dif_pos h]
  show some (String.ofList t).toList = some t
  rw [String.toList_ofList]

theorem num_pad (w n acc : Nat) (rest : Text) (h : n < 10 ^ w) :
    num w acc (pad w n ++ rest) = some (acc * 10 ^ w + n, rest) := by
  induction w generalizing n acc with
  | zero => simp at h; subst h; simp [num, pad]
  | succ w ih =>
    have hd : n / 10 ^ w < 10 := by
      rw [Nat.div_lt_iff_lt_mul (Nat.pow_pos (by omega))]
      rw [Nat.pow_succ] at h; omega
    simp only [pad, List.cons_append, num, digitVal_digitChar hd]
    rw [ih _ _ (Nat.mod_lt _ (Nat.pow_pos (by omega)))]
    congr 1
    congr 1
    rw [Nat.add_mul, Nat.pow_succ]
    have := Nat.div_add_mod n (10 ^ w)
    have e : acc * 10 * 10 ^ w = acc * (10 ^ w * 10) := by rw [Nat.mul_assoc, Nat.mul_comm 10]
    rw [e, Nat.mul_comm (n / 10 ^ w)]
    omega

theorem lit_cons (c : Char) (t : Text) : lit c (c :: t) = some t := by simp [lit]

theorem readFrac_fmtFrac (us : Nat) (h : us ≤ 999999) (rest : Text) (hr : ∀ t, rest ≠ '.' :: t) :
    readFrac (fmtFrac us ++ rest) = some (us, rest) := by
  unfold fmtFrac
  split
  · rename_i h0
    subst h0
    simp only [List.nil_append]
    unfold readFrac
    split
    · rename_i t; exact absurd rfl (hr t)
    · rfl
  · simp only [List.cons_append, readFrac]
    rw [num_pad 6 us 0 rest (by omega)]
    simp

theorem readClock_full (h m s u : Nat) (rest : Text) (hh : h < 100) (hm : m < 100) (hs : s < 100) (hu : u ≤ 999999)
    (hr : ∀ t, rest ≠ '.' :: t) :
    readClock (pad 2 h ++ ':' :: (pad 2 m ++ ':' :: (pad 2 s ++ (fmtFrac u ++ rest)))) = some (h, m, s, u, rest) := by
  simp only [readClock]
  rw [num_pad 2 h 0 _ (by simpa using hh)]
  simp only [Option.bind_some, lit_cons]
  rw [num_pad 2 m 0 _ (by simpa using hm)]
  simp only [Option.bind_some, lit_cons]
  rw [num_pad 2 s 0 _ (by simpa using hs)]
  simp only [Option.bind_some, readFrac_fmtFrac u hu rest hr, Option.map_some, Nat.zero_mul, Nat.zero_add]

theorem readClock_short (h m : Nat) (hh : h < 100) (hm : m < 100) :
    readClock (pad 2 h ++ ':' :: pad 2 m) = some (h, m, 0, 0, []) := by
  simp only [readClock]
  rw [num_pad 2 h 0 _ (by simpa using hh)]
  simp only [Option.bind_some, lit_cons]
  have := num_pad 2 m 0 [] (by simpa using hm)
  rw [List.append_nil] at this
  rw [this]
  simp [lit]

theorem readOffset_fmtOffset (o : Option Int) (h : match o with | none => True | some o => o.natAbs < 86400000000) :
    readOffset (fmtOffset o) = some o := by
  cases o with
  | none => rfl
  | some o =>
    simp only at h
    simp only [fmtOffset, List.cons_append, List.append_assoc]
    unfold readOffset
    have hc : (if o < 0 then '-' else '+') = '+' ∨ (if o < 0 then '-' else '+') = '-' := by split <;> simp
    simp only [hc, if_true]
    have hclk : readClock (pad 2 (o.natAbs / 1000000 / 3600) ++ ':' :: (pad 2 (o.natAbs / 1000000 / 60 % 60) ++
        (if o.natAbs % 60000000 = 0 then [] else ':' :: (pad 2 (o.natAbs / 1000000 % 60) ++ fmtFrac (o.natAbs % 1000000))))) =
        some (o.natAbs / 1000000 / 3600, o.natAbs / 1000000 / 60 % 60, o.natAbs / 1000000 % 60, o.natAbs % 1000000, []) := by
      split
      · rename_i h0
        rw [List.append_nil, readClock_short _ _ (by omega) (by omega)]
        have h1 : o.natAbs / 1000000 % 60 = 0 := by omega
        have h2 : o.natAbs % 1000000 = 0 := by omega
        rw [h1, h2]
      · have := readClock_full (o.natAbs / 1000000 / 3600) (o.natAbs / 1000000 / 60 % 60) (o.natAbs / 1000000 % 60)
          (o.natAbs % 1000000) [] (by omega) (by omega) (by omega) (by omega) (by simp)
        rw [List.append_nil] at this
        exact this
    rw [hclk]
    have ha : ((o.natAbs / 1000000 / 3600 * 60 + o.natAbs / 1000000 / 60 % 60) * 60 + o.natAbs / 1000000 % 60) * 1000000 +
        o.natAbs % 1000000 = o.natAbs := by omega
    simp only [ha]
    congr 1
    congr 1
    by_cases hn : o < 0
    · simp only [hn, if_true]
      show -(o.natAbs : Int) = o
      omega
    · simp only [hn, if_false]
      show (if '+' = '-' then _ else (o.natAbs : Int)) = o
      rw [if_neg (by decide)]
      omega

/-- **C46**: every valid time survives `isoformat` and `fromisoformat`. -/
theorem C46_time (d : DateTime) (h : d.Valid) : fromisoformat (isoformat d) = some d := by
  have hv := h
  obtain ⟨h1, h2, h3, h4, h5, h6, h7, h8, h9, h10, h11⟩ := h
  have hday : d.day < 100 := by
    have : daysIn d.year d.month ≤ 31 := by unfold daysIn; split <;> (try split) <;> omega
    omega
  have hrest : ∀ t, fmtOffset d.offset ≠ '.' :: t := by
    intro t
    cases d.offset with
    | none => simp [fmtOffset]
    | some o =>
      simp only [fmtOffset, List.cons_append]
      intro hc
      injection hc with hc _
      split at hc <;> exact absurd hc (by decide)
  simp only [fromisoformat, isoformat, List.append_assoc, List.cons_append]
  rw [num_pad 4 d.year 0 _ (by omega)]
  simp only [Option.bind_some, lit_cons]
  rw [num_pad 2 d.month 0 _ (by omega)]
  simp only [Option.bind_some, lit_cons]
  rw [num_pad 2 d.day 0 _ (by omega)]
  simp only [Option.bind_some, lit_cons]
  rw [readClock_full d.hour d.minute d.second d.micro _ (by omega) (by omega) (by omega) h10 hrest]
  simp only [Option.bind_some, readOffset_fmtOffset d.offset h11, Nat.zero_mul, Nat.zero_add]
  rw [if_pos hv]

/-- The seven fields of a message. -/
def fields : List Text :=
  [t!"key", t!"when", t!"function", t!"args", t!"kwargs", t!"attempt", t!"generation"]

theorem field_append {m extra : Msg} {f : Text} {b : ByteArray} (h : m.field f = some b) :
    Msg.field (m ++ extra) f = some b := by
  simp only [Msg.field, List.find?_append, Option.map_eq_some_iff] at h ⊢
  obtain ⟨a, h, rfl⟩ := h
  exact ⟨a, by rw [h]; rfl, rfl⟩

theorem fromMessage_of_fields {A K F : Type} {pa : Pickle A} {pk : Pickle K} {e : Execution A K F}
    (ha : pa.Loads e.args) (hk : pk.Loads e.kwargs) (hw : e.when.Valid) (g : Int) {tasks : Text → Option F} {fallback : Option F} {m : Msg} {f : F}
    (hf : resolve tasks fallback e.functionName = some f)
    (m1 : m.field t!"key" = some (encode e.key)) (m2 : m.field t!"when" = some (encode (isoformat e.when)))
    (m3 : m.field t!"function" = some (encode e.functionName)) (m4 : m.field t!"args" = some (pa.dumps e.args))
    (m5 : m.field t!"kwargs" = some (pk.dumps e.kwargs)) (m6 : m.field t!"attempt" = some (encode (decInt e.attempt)))
    (m7 : m.field t!"generation" = some (encode (decInt g))) :
    fromMessage pa pk tasks fallback m = .ok ⟨e.key, e.when, f, e.functionName, e.args, e.kwargs, e.attempt, g⟩ := by
  simp only [fromMessage, m1, m2, m3, m4, m5, m6, m7, Option.bind_some, decode_encode, ha.eq, hk.eq,
    C46_time e.when hw, parseInt_decInt, hf]

/-- **C46**: for every execution whose function is registered under its name, decoding its
message gives back the execution: key, time, function and function name, arguments, attempt
and generation.  Trace headers or other fields appended to the message do not matter. -/
theorem C46_round_trip {A K F : Type} (pa : Pickle A) (pk : Pickle K)
    (tasks : Text → Option F) (fallback : Option F) (e : Execution A K F) (ha : pa.Loads e.args) (hk : pk.Loads e.kwargs) (hw : e.when.Valid)
    (hreg : tasks e.functionName = some e.function) (extra : Msg) :
    fromMessage pa pk tasks fallback (asMessage pa pk e ++ extra) = .ok e := by
  refine fromMessage_of_fields ha hk hw e.generation (f := e.function) (by simp only [resolve, hreg]) ?_ ?_ ?_ ?_ ?_ ?_ ?_ <;>
    exact field_append rfl

/-- **C46**: after the scheduling script has stamped the message, decoding gives the execution
with the new generation and nothing else changed. -/
theorem C46_stamped {A K F : Type} (pa : Pickle A) (pk : Pickle K)
    (tasks : Text → Option F) (fallback : Option F) (e : Execution A K F) (ha : pa.Loads e.args) (hk : pk.Loads e.kwargs) (hw : e.when.Valid)
    (hreg : tasks e.functionName = some e.function) (extra : Msg) (g : Nat) :
    fromMessage pa pk tasks fallback (stamp g (asMessage pa pk e ++ extra)) =
      .ok { e with generation := Int.ofNat g } := by
  rw [stamp, List.map_append]
  exact fromMessage_of_fields ha hk hw (Int.ofNat g) (f := e.function) (by simp only [resolve, hreg])
    (field_append rfl) (field_append rfl) (field_append rfl) (field_append rfl) (field_append rfl)
    (field_append rfl) (field_append rfl)

/-- **C46**: a message for a name this process does not know is decoded with the fallback task
under its original name, so it can be sent on unchanged, and refused if there is none. -/
theorem C46_unregistered {A K F : Type} (pa : Pickle A) (pk : Pickle K)
    (tasks : Text → Option F) (e : Execution A K F) (ha : pa.Loads e.args) (hk : pk.Loads e.kwargs) (hw : e.when.Valid)
    (hreg : tasks e.functionName = none) (extra : Msg) (f : F) :
    fromMessage pa pk tasks none (asMessage pa pk e ++ extra) = .error .unregistered ∧
    ∃ e', fromMessage pa pk tasks (some f) (asMessage pa pk e ++ extra) = .ok e' ∧ e'.function = f ∧
      asMessage pa pk e' = asMessage pa pk e := by
  constructor
  · have h3 : Msg.field (asMessage pa pk e ++ extra) t!"function" = some (encode e.functionName) := field_append rfl
    simp only [fromMessage, h3, Option.bind_some, decode_encode, resolve, hreg]
  · refine ⟨⟨e.key, e.when, f, e.functionName, e.args, e.kwargs, e.attempt, e.generation⟩, ?_, rfl, rfl⟩
    exact fromMessage_of_fields ha hk hw e.generation (by simp only [resolve, hreg])
      (field_append rfl) (field_append rfl) (field_append rfl) (field_append rfl) (field_append rfl)
      (field_append rfl) (field_append rfl)

/-- **C46**: a message written before generations existed, with every field except that one,
is decoded as generation 0. -/
theorem C46_before_generations {A K F : Type} (pa : Pickle A) (pk : Pickle K)
    (tasks : Text → Option F) (fallback : Option F) (e : Execution A K F) (ha : pa.Loads e.args) (hk : pk.Loads e.kwargs) (hw : e.when.Valid)
    (hreg : tasks e.functionName = some e.function) :
    fromMessage pa pk tasks fallback ((asMessage pa pk e).filter (fun x => x.1 ≠ t!"generation")) =
      .ok { e with generation := 0 } := by
  have hm : (asMessage pa pk e).filter (fun x => x.1 ≠ t!"generation") = (asMessage pa pk e).dropLast := rfl
  rw [hm]
  have m1 : Msg.field (asMessage pa pk e).dropLast t!"function" = some (encode e.functionName) := rfl
  have m2 : Msg.field (asMessage pa pk e).dropLast t!"args" = some (pa.dumps e.args) := rfl
  have m3 : Msg.field (asMessage pa pk e).dropLast t!"kwargs" = some (pk.dumps e.kwargs) := rfl
  have m4 : Msg.field (asMessage pa pk e).dropLast t!"key" = some (encode e.key) := rfl
  have m5 : Msg.field (asMessage pa pk e).dropLast t!"when" = some (encode (isoformat e.when)) := rfl
  have m6 : Msg.field (asMessage pa pk e).dropLast t!"attempt" = some (encode (decInt e.attempt)) := rfl
  have m7 : Msg.field (asMessage pa pk e).dropLast t!"generation" = none := rfl
  simp only [fromMessage, m1, m2, m3, m4, m5, m6, m7, Option.bind_some, decode_encode, ha.eq, hk.eq,
    C46_time e.when hw, parseInt_decInt, resolve, hreg]

/-- **C46**: different executions have different messages. -/
theorem C46_injective {A K F : Type} (pa : Pickle A) (pk : Pickle K)
    (tasks : Text → Option F) (e e' : Execution A K F) (ha : pa.Loads e.args) (hk : pk.Loads e.kwargs)
    (ha' : pa.Loads e'.args) (hk' : pk.Loads e'.kwargs) (hw : e.when.Valid) (hw' : e'.when.Valid)
    (hreg : tasks e.functionName = some e.function) (hreg' : tasks e'.functionName = some e'.function)
    (h : asMessage pa pk e = asMessage pa pk e') : e = e' := by
  have h1 := C46_round_trip pa pk tasks none e ha hk hw hreg []
  have h2 := C46_round_trip pa pk tasks none e' ha' hk' hw' hreg' []
  rw [h, h2] at h1
  injection h1 with h1
  exact h1.symm

/-- A time with microseconds and an odd negative offset, and a message with a trace header. -/
def sampleTime : DateTime := ⟨2026, 2, 28, 23, 59, 7, 40, some (-12600000000 - 15000000)⟩

def samplePickle : Pickle Text := ⟨encode, decode⟩

def sampleExecution : Execution Text Text Nat :=
  ⟨t!"clé:1", sampleTime, 7, t!"run", t!"(1,)", t!"{}", 3, 12⟩

example : sampleTime.Valid := by decide
example : isoformat sampleTime = t!"2026-02-28T23:59:07.000040-03:30:15" := by decide
example : ∀ t, samplePickle.Loads t := fun t => ⟨decode_encode t⟩
example : (fun n => if n = t!"run" then some 7 else none) sampleExecution.functionName = some sampleExecution.function := by
  decide
example : ¬ DateTime.Valid ⟨2026, 2, 29, 0, 0, 0, 0, none⟩ := by decide

end Docket.Message
