import Verif.Codec.Trace
import Verif.Props.C46
/-
C108: the run of a task is linked to the trace in which it was added.  Violated for every task
added for later.
-/
namespace Docket.Trace

open Message Decimal

/-- What OpenTelemetry says of a propagator: it sets only its own fields, each once; from what it
set it gets back the span; from nothing it gets no span; and it does not use a field of docket's
messages. -/
structure Propagator.Lawful {Span : Type} (p : Propagator Span) : Prop where
  own : ∀ c, ∀ e ∈ p.inject c, e.1 ∈ p.fields
  once : ∀ c, ((p.inject c).map (·.1)).Nodup
  back : ∀ c get, (∀ f ∈ p.fields, get f = ((p.inject c).find? (fun e => e.1 = f)).map (fun e => [e.2])) →
    p.extract get = some c
  blank : ∀ get, (∀ f ∈ p.fields, get f = none) → p.extract get = none
  apart : ∀ f ∈ p.fields,
    f ∉ [t!"key", t!"when", t!"function", t!"args", t!"kwargs", t!"attempt", t!"generation"]

/-- A task scheduled by someone in the span `c` (or in none), by one of three ways, as a worker
gets it. -/
def received {Span A K F : Type} (p : Propagator Span) (pa : Pickle A) (pk : Pickle K)
    (e : Execution A K F) (current : Option Span) (way : Way) : Option Msg :=
  arrives (injected p current (asMessage pa pk e)) way

/-- **C108**, in full: whenever and however the task reaches a worker, the run is linked to the
span in which the task was scheduled. -/
def C108_statement {Span : Type} (p : Propagator Span) : Prop :=
  ∀ (A K F : Type) (pa : Pickle A) (pk : Pickle K) (e : Execution A K F) (c : Span) (way : Way) (m : Msg),
    received p pa pk e (some c) way = some m → links p m = [c]

theorem field_nil (f : Text) : Msg.field [] f = none := rfl

theorem field_cons (e : Text × ByteArray) (m : Msg) (f : Text) :
    Msg.field (e :: m) f = if e.1 = f then some e.2 else Msg.field m f := by
  simp only [Msg.field, List.find?_cons]
  by_cases h : e.1 = f <;> simp [h]

theorem field_none {m : Msg} {f : Text} (h : f ∉ m.map (·.1)) : m.field f = none := by
  induction m with
  | nil => rfl
  | cons e m ih =>
    simp only [List.map_cons, List.mem_cons, not_or] at h
    rw [field_cons, if_neg (fun h' => h.1 h'.symm)]
    exact ih h.2

theorem mem_of_field {m : Msg} {f : Text} (h : (m.field f).isSome = false) : f ∉ m.map (·.1) := by
  induction m with
  | nil => simp
  | cons e m ih =>
    rw [field_cons] at h
    by_cases he : e.1 = f
    · rw [if_pos he] at h; cases h
    · rw [if_neg he] at h
      simp only [List.map_cons, List.mem_cons, not_or]
      exact ⟨fun h' => he h'.symm, ih h⟩

theorem field_snoc (m : Msg) (k f : Text) (v : ByteArray) (h : (m.field k).isSome = false) :
    Msg.field (m ++ [(k, v)]) f = if k = f then some v else m.field f := by
  induction m with
  | nil => simp [field_cons, field_nil]
  | cons e m ih =>
    rw [field_cons] at h
    by_cases he : e.1 = k
    · rw [if_pos he] at h; cases h
    · rw [if_neg he] at h
      rw [List.cons_append, field_cons, ih h, field_cons]
      by_cases h1 : e.1 = f
      · rw [if_pos h1, if_pos h1, if_neg (fun h2 => he (h1.trans h2.symm))]
      · rw [if_neg h1, if_neg h1]

theorem field_over (m : Msg) (k f : Text) (v : ByteArray) :
    Msg.field (m.map (fun e => if e.1 = k then (k, v) else e)) f =
      if k = f then (m.field f).map (fun _ => v) else m.field f := by
  induction m with
  | nil => simp [field_nil]
  | cons e m ih =>
    rw [List.map_cons, field_cons, ih, field_cons]
    by_cases h1 : e.1 = k
    · by_cases h2 : k = f
      · simp [h1, h2]
      · simp [h1, h2]
    · by_cases h2 : k = f
      · subst h2; simp [h1]
      · simp [h1, h2]

theorem field_put (m : Msg) (k f : Text) (v : ByteArray) :
    (put m k v).field f = if k = f then some v else m.field f := by
  unfold put
  by_cases hs : (m.field k).isSome = true
  · rw [if_pos hs, field_over]
    by_cases h : k = f
    · subst h
      obtain ⟨x, hx⟩ := Option.isSome_iff_exists.1 hs
      rw [if_pos rfl, if_pos rfl, hx]; rfl
    · rw [if_neg h, if_neg h]
  · rw [if_neg hs, field_snoc _ _ _ _ (by simpa using hs)]

theorem nodup_put (m : Msg) (k : Text) (v : ByteArray) (h : (m.map (·.1)).Nodup) :
    ((put m k v).map (·.1)).Nodup := by
  unfold put
  by_cases hs : (m.field k).isSome = true
  · rw [if_pos hs, List.map_map]
    have : ((fun x : Text × ByteArray => x.1) ∘ fun e => if e.1 = k then (k, v) else e) = (fun x => x.1) := by
      funext e
      by_cases he : e.1 = k
      · simp [he]
      · simp [he]
    rw [this]; exact h
  · rw [if_neg hs, List.map_append, List.nodup_append]
    have hn := mem_of_field (m := m) (f := k) (by simpa using hs)
    refine ⟨h, by simp, ?_⟩
    intro a ha b hb hab
    simp only [List.map_cons, List.map_nil, List.mem_singleton] at hb
    subst hb; subst hab
    exact hn ha

theorem field_fold (l m : Msg) (f : Text) (h : (l.map (·.1)).Nodup) :
    Msg.field (l.foldl (fun m e => put m e.1 e.2) m) f = (Msg.field l f).or (m.field f) := by
  induction l generalizing m with
  | nil => simp [field_nil]
  | cons e l ih =>
    simp only [List.map_cons, List.nodup_cons] at h
    rw [List.foldl_cons, ih _ h.2, field_put, field_cons]
    by_cases he : e.1 = f
    · subst he
      rw [if_pos rfl, if_pos rfl, field_none h.1]; rfl
    · rw [if_neg he, if_neg he]

theorem nodup_fold (l m : Msg) (h : (m.map (·.1)).Nodup) :
    ((l.foldl (fun m e => put m e.1 e.2) m).map (·.1)).Nodup := by
  induction l generalizing m with
  | nil => exact h
  | cons e l ih => exact ih _ (nodup_put m _ _ h)

theorem field_toDict (m : Msg) (f : Text) (h : (m.map (·.1)).Nodup) : (toDict m).field f = m.field f := by
  rw [toDict, field_fold _ _ _ h, field_nil, Option.or_none]

theorem stamp_names (g : Nat) (m : Msg) : (stamp g m).map (·.1) = m.map (·.1) := by
  rw [stamp, List.map_map]
  congr 1
  funext e
  by_cases he : e.1 = t!"generation" <;> simp [he]

theorem field_stamp (g : Nat) (m : Msg) (f : Text) :
    (stamp g m).field f = if f = t!"generation" then (m.field f).map (fun _ => encode (dec g)) else m.field f := by
  have h := field_over m t!"generation" f (encode (dec g))
  have e : stamp g m = m.map (fun e => if e.1 = t!"generation" then (t!"generation", encode (dec g)) else e) := by
    rw [stamp]
    congr 1
    funext e
    by_cases he : e.1 = t!"generation"
    · rw [if_pos he, if_pos he, he]
    · rw [if_neg he, if_neg he]
  rw [e, h]
  by_cases hf : f = t!"generation"
  · rw [if_pos hf.symm, if_pos hf]
  · rw [if_neg (fun h => hf h.symm), if_neg hf]

theorem asMessage_names {A K F : Type} (pa : Pickle A) (pk : Pickle K) (e : Execution A K F) :
    (asMessage pa pk e).map (·.1) = names := rfl

theorem names_nodup : names.Nodup := by decide +kernel

theorem injected_fold {Span : Type} (p : Propagator Span) (c : Span) (m : Msg) :
    injected p (some c) m =
      ((p.inject c).map (fun e => (e.1, encode e.2))).foldl (fun m e => put m e.1 e.2) m := by
  simp only [injected, setter, List.foldl_map]

theorem injected_nodup {Span : Type} (p : Propagator Span) (current : Option Span) (m : Msg)
    (h : (m.map (·.1)).Nodup) : ((injected p current m).map (·.1)).Nodup := by
  cases current with
  | none => exact h
  | some c => rw [injected_fold]; exact nodup_fold _ _ h

theorem field_encoded (l : List (Text × Text)) (f : Text) :
    Msg.field (l.map (fun e => (e.1, encode e.2))) f = (l.find? (fun e => e.1 = f)).map (fun e => encode e.2) := by
  induction l with
  | nil => rfl
  | cons e l ih =>
    rw [List.map_cons, field_cons, ih, List.find?_cons]
    by_cases he : e.1 = f <;> simp [he]

/-- What is injected leaves the fields of the message alone. -/
theorem field_injected {Span : Type} {p : Propagator Span} (hp : p.Lawful) (current : Option Span) (m : Msg)
    {f : Text} (hf : f ∈ names) : (injected p current m).field f = m.field f := by
  cases current with
  | none => rfl
  | some c =>
    rw [injected_fold, field_fold, field_encoded]
    · have : (p.inject c).find? (fun e => e.1 = f) = none := by
        rw [List.find?_eq_none]
        intro e he h
        exact hp.apart _ (hp.own c e he) (of_decide_eq_true h ▸ hf)
      rw [this]; rfl
    · rw [List.map_map]; exact hp.once c

theorem field_span {Span : Type} {p : Propagator Span} (hp : p.Lawful) (c : Span) (m : Msg)
    (hm : m.map (·.1) = names) {f : Text} (hf : f ∈ p.fields) :
    (injected p (some c) m).field f = ((p.inject c).find? (fun e => e.1 = f)).map (fun e => encode e.2) := by
  rw [injected_fold, field_fold, field_encoded]
  · rw [field_none (m := m) (by rw [hm]; exact hp.apart f hf), Option.or_none]
  · rw [List.map_map]; exact hp.once c

theorem getter_eq {m : Msg} {f : Text} {o : Option (Text × Text)} (h : m.field f = o.map (fun e => encode e.2)) :
    getter m f = o.map (fun e => [e.2]) := by
  unfold getter
  rw [h]
  cases o with
  | none => rfl
  | some e => simp [decode_encode]

theorem getter_none {m : Msg} {f : Text} (h : m.field f = none) : getter m f = none := by
  unfold getter; rw [h]

/-- What the scheduler makes of a hash that has the seven fields. -/
theorem dueEntry_some {h : Msg} {k w f a kw n g : ByteArray} (h1 : h.field t!"key" = some k)
    (h2 : h.field t!"when" = some w) (h3 : h.field t!"function" = some f) (h4 : h.field t!"args" = some a)
    (h5 : h.field t!"kwargs" = some kw) (h6 : h.field t!"attempt" = some n)
    (h7 : h.field t!"generation" = some g) :
    dueEntry h = some [(t!"key", k), (t!"when", w), (t!"function", f), (t!"args", a), (t!"kwargs", kw),
        (t!"attempt", n), (t!"generation", g)] := by
  unfold dueEntry
  have hne : h.isEmpty = false := by
    cases h with
    | nil => rw [field_nil] at h1; cases h1
    | cons _ _ => rfl
  rw [hne, if_neg (by decide)]
  simp only [h1, h2, h3, h4, h5, h6, h7, Option.getD_some]

/-- What the worker gets, field by field. -/
theorem received_fields {Span A K F : Type} {p : Propagator Span} (hp : p.Lawful) (pa : Pickle A) (pk : Pickle K)
    (e : Execution A K F) (current : Option Span) (way : Way) :
    ∃ m, received p pa pk e current way = some m ∧
      (∀ f ∈ names, m.field f = (stamp way.generation (asMessage pa pk e)).field f) ∧
      ((∀ g, way ≠ .due g) → ∀ f, f ∉ names → m.field f = (injected p current (asMessage pa pk e)).field f) ∧
      (∀ g, way = .due g → ∀ f, f ∉ names → m.field f = none) := by
  have hnd : ((injected p current (asMessage pa pk e)).map (·.1)).Nodup :=
    injected_nodup p current _ (by rw [asMessage_names]; exact names_nodup)
  have hin : ∀ f ∈ names, (injected p current (asMessage pa pk e)).field f = (asMessage pa pk e).field f :=
    fun f hf => field_injected hp current _ hf
  have hgen : t!"generation" ∈ names := by decide +kernel
  cases way with
  | queued g =>
    refine ⟨_, rfl, ?_, ?_, fun _ h => nomatch h⟩
    · intro f hf
      rw [field_toDict _ _ (by rw [stamp_names]; exact hnd), field_stamp, field_stamp, hin f hf]; rfl
    · intro _ f hf
      rw [field_toDict _ _ (by rw [stamp_names]; exact hnd), field_stamp,
        if_neg (fun h => hf (by rw [h]; exact hgen))]
  | woken g' g =>
    refine ⟨_, rfl, ?_, ?_, fun _ h => nomatch h⟩
    · intro f hf
      rw [field_toDict _ _ (by rw [stamp_names, stamp_names]; exact hnd), field_stamp, field_stamp, field_stamp,
        hin f hf]
      simp only [Way.generation]
      by_cases h : f = t!"generation"
      · rw [if_pos h, if_pos h, if_pos h]
        cases (asMessage pa pk e).field f <;> rfl
      · rw [if_neg h, if_neg h, if_neg h]
    · intro _ f hf
      rw [field_toDict _ _ (by rw [stamp_names, stamp_names]; exact hnd), field_stamp, field_stamp,
        if_neg (fun h => hf (by rw [h]; exact hgen)), if_neg (fun h => hf (by rw [h]; exact hgen))]
  | due g =>
    have hd : ∀ f ∈ names, (toDict (stamp g (injected p current (asMessage pa pk e)))).field f =
        (stamp g (asMessage pa pk e)).field f := by
      intro f hf
      rw [field_toDict _ _ (by rw [stamp_names]; exact hnd), field_stamp, field_stamp, hin f hf]
    have hs := dueEntry_some
      (h := toDict (stamp g (injected p current (asMessage pa pk e))))
      ((hd t!"key" (by decide +kernel)).trans rfl) ((hd t!"when" (by decide +kernel)).trans rfl)
      ((hd t!"function" (by decide +kernel)).trans rfl) ((hd t!"args" (by decide +kernel)).trans rfl)
      ((hd t!"kwargs" (by decide +kernel)).trans rfl) ((hd t!"attempt" (by decide +kernel)).trans rfl)
      ((hd t!"generation" (by decide +kernel)).trans rfl)
    refine ⟨toDict (stamp g (asMessage pa pk e)), ?_, ?_, fun h => absurd rfl (h g), ?_⟩
    · simp only [received, arrives, hs, Option.map_some]
      rfl
    · intro f hf
      rw [field_toDict _ _ (by rw [stamp_names, asMessage_names]; exact names_nodup)]; rfl
    · intro _ _ f hf
      rw [field_toDict _ _ (by rw [stamp_names, asMessage_names]; exact names_nodup)]
      exact field_none (by rw [stamp_names, asMessage_names]; exact hf)

/-- **C108** (partial): a task that goes on the stream at once, or that waits in line for a slot
and is woken, reaches a worker and its run is linked to the span in which it was scheduled, to
that one only.  Missing, and false: the same for tasks scheduled for later. -/
theorem C108_linked_partial {Span A K F : Type} (p : Propagator Span) (hp : p.Lawful) (pa : Pickle A) (pk : Pickle K)
    (e : Execution A K F) (c : Span) (way : Way) (hw : ∀ g, way ≠ .due g) :
    ∃ m, received p pa pk e (some c) way = some m ∧ links p m = [c] := by
  obtain ⟨m, h1, -, h3, -⟩ := received_fields hp pa pk e (some c) way
  refine ⟨m, h1, ?_⟩
  have : p.extract (getter m) = some c := by
    apply hp.back
    intro f hf
    exact getter_eq ((h3 hw f (hp.apart f hf)).trans (field_span hp c _ (asMessage_names pa pk e) hf))
  rw [links, this]

/-- **C108**: whatever is injected, and by whichever way, what the worker decodes is the task that
was scheduled, with the last generation the scripts gave it. -/
theorem C108_undisturbed {Span A K F : Type} (p : Propagator Span) (hp : p.Lawful) (pa : Pickle A) (pk : Pickle K)
    (tasks : Text → Option F) (fallback : Option F) (e : Execution A K F) (ha : pa.Loads e.args) (hk : pk.Loads e.kwargs)
    (hw : e.when.Valid) (hreg : tasks e.functionName = some e.function) (current : Option Span) (way : Way) :
    ∃ m, received p pa pk e current way = some m ∧
      fromMessage pa pk tasks fallback m = .ok { e with generation := (way.generation : Int) } := by
  obtain ⟨m, h1, h2, -⟩ := received_fields hp pa pk e current way
  refine ⟨m, h1, ?_⟩
  refine fromMessage_of_fields ha hk hw (Int.ofNat way.generation) (f := e.function) (by simp only [resolve, hreg])
    ?_ ?_ ?_ ?_ ?_ ?_ ?_ <;> (rw [h2 _ (by decide +kernel)]; rfl)

/-- **C108**: a task scheduled outside of any trace is linked to none. -/
theorem C108_unlinked {Span A K F : Type} (p : Propagator Span) (hp : p.Lawful) (pa : Pickle A) (pk : Pickle K)
    (e : Execution A K F) (way : Way) :
    ∃ m, received p pa pk e none way = some m ∧ links p m = [] := by
  obtain ⟨m, h1, -, h3, h4⟩ := received_fields hp pa pk e none way
  refine ⟨m, h1, ?_⟩
  have : p.extract (getter m) = none := by
    apply hp.blank
    intro f hf
    apply getter_none
    have hf' := hp.apart f hf
    have : way = .due way.generation ∨ ∀ g, way ≠ .due g := by
      cases way with
      | due g => exact Or.inl rfl
      | queued g => exact Or.inr (fun _ h => nomatch h)
      | woken _ g => exact Or.inr (fun _ h => nomatch h)
    rcases this with h | h
    · exact h4 _ h f hf'
    · rw [h3 h f hf']
      exact field_none (by exact hf')
  rw [links, this]

/-- The code violates **C108**, for every task scheduled for later, whatever it is and in whatever
span it was scheduled: the scheduler makes the stream entry of seven fields it names
(worker.py:196-204), so what was injected into the message stays behind in the hash, which is
deleted, and the run is linked to nothing. -/
theorem C108_violated_later_always {Span A K F : Type} (p : Propagator Span) (hp : p.Lawful) (pa : Pickle A)
    (pk : Pickle K) (e : Execution A K F) (c : Span) (g : Nat) :
    ∃ m, received p pa pk e (some c) (.due g) = some m ∧ links p m = [] := by
  obtain ⟨m, h1, -, -, h4⟩ := received_fields hp pa pk e (some c) (.due g)
  refine ⟨m, h1, ?_⟩
  have : p.extract (getter m) = none :=
    hp.blank _ (fun f hf => getter_none (h4 g rfl f (hp.apart f hf)))
  rw [links, this]

/-- A propagator with one field, `traceparent`, whose text is the span. -/
def traceparent : Propagator Text :=
  { fields := [t!"traceparent"]
    inject := fun c => [(t!"traceparent", c)]
    extract := fun get => match get t!"traceparent" with
      | some (t :: _) => some t
      | _ => none }

theorem traceparent_lawful : traceparent.Lawful where
  own := by intro c e he; simp only [traceparent, List.mem_singleton] at he ⊢; rw [he]
  once := by intro c; simp [traceparent]
  back := by
    intro c get h
    have := h t!"traceparent" (List.mem_singleton.2 rfl)
    simp only [traceparent, this]
    simp
  blank := by
    intro get h
    have := h t!"traceparent" (List.mem_singleton.2 rfl)
    simp only [traceparent, this]
  apart := by
    intro f hf
    simp only [traceparent, List.mem_singleton] at hf
    rw [hf]
    decide +kernel

/-- So the full statement is false. -/
theorem C108_violated_later : ¬ C108_statement traceparent := by
  intro h
  obtain ⟨m, h1, h2⟩ := C108_violated_later_always traceparent traceparent_lawful samplePickle samplePickle
    sampleExecution t!"00-4bf92f3577b34da6a3ce929d0e0e4736-00f067aa0ba902b7-01" 1
  have := h _ _ _ _ _ _ _ _ _ h1
  rw [h2] at this
  cases this

/-- The hypotheses of the theorems are met by a real header and the message of C46. -/
example : ∃ m, received traceparent samplePickle samplePickle sampleExecution
    (some t!"00-4bf92f3577b34da6a3ce929d0e0e4736-00f067aa0ba902b7-01") (.woken 13 14) = some m ∧
    links traceparent m = [t!"00-4bf92f3577b34da6a3ce929d0e0e4736-00f067aa0ba902b7-01"] :=
  C108_linked_partial _ traceparent_lawful _ _ _ _ _ (fun _ h => nomatch h)

example : sampleExecution.when.Valid ∧ samplePickle.Loads sampleExecution.args :=
  ⟨by decide, ⟨decode_encode sampleExecution.args⟩⟩

end Docket.Trace
