import Verif.Core.Log
/-
Deliveries and leases: the invariants behind C10, C11 and C12.
-/
namespace Docket
open Redis

/-- The event hands out or renews message `id` at time `t`. -/
def Touches (e : Event) (id : MsgId) (t : Time) : Prop :=
  (∃ pid w b m, e = .handed pid id w b t m) ∨ e = .renewed id t

structure LeaseInv (cfg : Cfg) (s : Sys) : Prop where
  since : ∀ p ∈ s.r.pending, ∀ e ∈ s.log, ∀ t, Touches e p.id t → t ≤ p.since
  delivered : ∀ e ∈ s.log, ∀ id t, Touches e id t → id ≤ s.r.lastDelivered
  handed : ∀ p ∈ s.r.pending, ∃ e ∈ s.log, ∃ pid w b t m, e = Event.handed pid p.id w b t m
  now : ∀ p ∈ s.r.pending, p.since ≤ s.r.now
  past : ∀ e ∈ s.log, ∀ id t, Touches e id t → t ≤ s.r.now
  new : ∀ l1 l2 pid id w t m, s.log = l1 ++ .handed pid id w false t m :: l2 →
    ∀ e ∈ l2, ∀ t', ¬ Touches e id t'
  red : ∀ l1 l2 pid id w t m, s.log = l1 ++ .handed pid id w true t m :: l2 →
    (∃ e ∈ l2, ∃ pid' w' b t' m', e = Event.handed pid' id w' b t' m') ∧
    ∀ e ∈ l2, ∀ t', Touches e id t' → t' + cfg.redelivery ≤ t

/-- Steps that add no delivery events: pending entries only disappear. -/
theorem LeaseInv.keep {cfg : Cfg} {s s' : Sys} (h : LeaseInv cfg s) (l : List Event)
    (hl : s'.log = l ++ s.log) (hnt : ∀ e ∈ l, ∀ id t, ¬ Touches e id t)
    (hp : ∀ p ∈ s'.r.pending, p ∈ s.r.pending) (hld : s.r.lastDelivered = s'.r.lastDelivered)
    (hnow : s.r.now ≤ s'.r.now) : LeaseInv cfg s' := by
  have hmem : ∀ e ∈ s'.log, ∀ id t, Touches e id t → e ∈ s.log := by
    intro e he id t ht
    rw [hl, List.mem_append] at he
    rcases he with he | he
    · exact absurd ht (hnt e he id t)
    · exact he
  have hsplit : ∀ l1 l2 pid id w b t m, s'.log = l1 ++ Event.handed pid id w b t m :: l2 →
      ∃ l1', s.log = l1' ++ .handed pid id w b t m :: l2 := by
    intro l1 l2 pid id w b t m hs
    rw [hl] at hs
    rcases List.append_eq_append_iff.1 hs with ⟨a, h1, h2⟩ | ⟨a, h1, h2⟩
    · exact ⟨a, h2⟩
    · cases a with
      | nil => exact ⟨[], by simpa using h2.symm⟩
      | cons b' bs =>
        simp only [List.cons_append, List.cons.injEq] at h2
        have hb : b' ∈ l := by rw [h1]; simp
        exact absurd (Or.inl ⟨pid, w, b, m, h2.1.symm⟩) (hnt b' hb id t)
  refine ⟨?_, ?_, ?_, ?_, ?_, ?_, ?_⟩
  · intro p hp' e he t ht
    exact h.since p (hp p hp') e (hmem e he _ _ ht) t ht
  · intro e he id t ht
    rw [← hld]; exact h.delivered e (hmem e he _ _ ht) id t ht
  · intro p hp'
    obtain ⟨e, he, hx⟩ := h.handed p (hp p hp')
    exact ⟨e, by rw [hl]; exact List.mem_append.2 (Or.inr he), hx⟩
  · intro p hp'; have := h.now p (hp p hp'); omega
  · intro e he id t ht; have := h.past e (hmem e he _ _ ht) id t ht; omega
  · intro l1 l2 pid id w t m hs
    obtain ⟨l1', hs'⟩ := hsplit _ _ _ _ _ _ _ _ hs
    exact h.new l1' l2 pid id w t m hs'
  · intro l1 l2 pid id w t m hs
    obtain ⟨l1', hs'⟩ := hsplit _ _ _ _ _ _ _ _ hs
    exact h.red l1' l2 pid id w t m hs'

/-- One new delivery, to a worker, of a message not delivered before. -/
theorem LeaseInv.deliver {cfg : Cfg} {s s' : Sys} (h : LeaseInv cfg s) (pid : Nat) (id : MsgId)
    (w : WorkerName) (m : Msg) (hl : s'.log = .handed pid id w false s.r.now m :: s.log)
    (hid : s.r.lastDelivered < id)
    (hp : s'.r.pending = s.r.pending ++ [⟨id, w, s.r.now⟩]) (hpend : ∀ p ∈ s.r.pending, p.id ≤ s.r.lastDelivered)
    (hld : s'.r.lastDelivered = id) (hnow : s'.r.now = s.r.now) : LeaseInv cfg s' := by
  have htouch : ∀ i t, Touches (.handed pid id w false s.r.now m) i t ↔ i = id ∧ t = s.r.now := by
    intro i t
    simp only [Touches, Event.handed.injEq, reduceCtorEq, or_false]
    constructor
    · rintro ⟨_, _, _, _, _, rfl, _, _, rfl, _⟩; exact ⟨rfl, rfl⟩
    · rintro ⟨rfl, rfl⟩; exact ⟨_, _, _, _, rfl, rfl, rfl, rfl, rfl, rfl⟩
  refine ⟨?_, ?_, ?_, ?_, ?_, ?_, ?_⟩
  · intro p hp' e he t ht
    rw [hp, List.mem_append, List.mem_singleton] at hp'
    rw [hl, List.mem_cons] at he
    rcases he with rfl | he
    · rw [htouch] at ht
      rcases hp' with hp' | rfl
      · have := hpend p hp'; omega
      · simp only; omega
    · rcases hp' with hp' | rfl
      · exact h.since p hp' e he t ht
      · exact h.past e he _ t ht
  · intro e he i t ht
    rw [hl, List.mem_cons] at he
    rcases he with rfl | he
    · rw [htouch] at ht; omega
    · have := h.delivered e he i t ht; omega
  · intro p hp'
    rw [hp, List.mem_append, List.mem_singleton] at hp'
    rcases hp' with hp' | rfl
    · obtain ⟨e, he, hx⟩ := h.handed p hp'
      exact ⟨e, by rw [hl]; exact List.mem_cons_of_mem _ he, hx⟩
    · exact ⟨_, by rw [hl]; exact List.mem_cons_self, _, _, _, _, _, rfl⟩
  · intro p hp'
    rw [hp, List.mem_append, List.mem_singleton] at hp'
    rcases hp' with hp' | rfl
    · have := h.now p hp'; omega
    · simp only; omega
  · intro e he i t ht
    rw [hl, List.mem_cons] at he
    rcases he with rfl | he
    · rw [htouch] at ht; omega
    · have := h.past e he i t ht; omega
  · intro l1 l2 pid' id' w' t m' hs
    rw [hl] at hs
    cases l1 with
    | nil =>
      simp only [List.nil_append, List.cons.injEq, Event.handed.injEq] at hs
      obtain ⟨⟨_, rfl, _, _, _, _⟩, rfl⟩ := hs
      intro e he t' ht
      have := h.delivered e he _ t' ht; omega
    | cons a l1 =>
      simp only [List.cons_append, List.cons.injEq] at hs
      exact h.new l1 l2 pid' id' w' t m' hs.2
  · intro l1 l2 pid' id' w' t m' hs
    rw [hl] at hs
    cases l1 with
    | nil =>
      simp only [List.nil_append, List.cons.injEq, Event.handed.injEq] at hs
      obtain ⟨⟨_, _, _, h0, _⟩, _⟩ := hs
      simp at h0
    | cons a l1 =>
      simp only [List.cons_append, List.cons.injEq] at hs
      exact h.red l1 l2 pid' id' w' t m' hs.2

/-- A batch of new deliveries. -/
theorem LeaseInv.deliverMany {cfg : Cfg} (w : WorkerName) (new : List (MsgId × Msg)) :
    ∀ {s : Sys}, LeaseInv cfg s → (∀ p ∈ s.r.pending, p.id ≤ s.r.lastDelivered) →
    new.Pairwise (fun a b => a.1 < b.1) → (∀ e ∈ new, s.r.lastDelivered < e.1) →
    ∀ {s' : Sys}, s'.log = (newHanded s.nextPid w false s.r.now new).reverse ++ s.log →
    s'.r.pending = s.r.pending ++ new.map (fun e => ⟨e.1, w, s.r.now⟩) →
    s'.r.lastDelivered = (new.getLast?.map (·.1)).getD s.r.lastDelivered →
    s'.r.now = s.r.now → LeaseInv cfg s' := by
  induction new with
  | nil =>
    intro s h _ _ _ s' hl hp hld hnow
    refine h.keep [] (by simpa [newHanded] using hl) (by simp) ?_ ?_ (by omega)
    · intro p hp'; rw [hp] at hp'; simpa using hp'
    · simpa using hld.symm
  | cons e es ih =>
    intro s h hpend hsort hnew s' hl hp hld hnow
    rw [List.pairwise_cons] at hsort
    let s1 : Sys := { s with
      r := { s.r with pending := s.r.pending ++ [⟨e.1, w, s.r.now⟩], lastDelivered := e.1 }
      nextPid := s.nextPid + 1
      log := .handed s.nextPid e.1 w false s.r.now e.2 :: s.log }
    have h1 : LeaseInv cfg s1 := h.deliver s.nextPid e.1 w e.2 rfl (hnew e (by simp)) rfl hpend rfl rfl
    refine ih h1 ?_ hsort.2 (fun x hx => hsort.1 x hx) (s' := s') ?_ ?_ ?_ hnow
    · intro p hp'
      simp only [s1, List.mem_append, List.mem_singleton] at hp'
      rcases hp' with hp' | rfl
      · have := hpend p hp'; have := hnew e (by simp); simp only [s1]; omega
      · exact Nat.le_refl _
    · rw [hl]; simp [newHanded, s1]
    · rw [hp]; simp [s1]
    · rw [hld]
      cases es with
      | nil => simp [s1]
      | cons a es => simp [List.getLast?_cons_cons, s1, List.getLast?_cons]

/-- A redelivery or a renewal: one pending entry gets a new time. -/
theorem LeaseInv.touch {cfg : Cfg} {s s' : Sys} (h : LeaseInv cfg s) (ev : Event) (id : MsgId)
    (w : WorkerName) (p0 : Pend) (hp0 : p0 ∈ s.r.pending) (hid : p0.id = id)
    (hev : (∃ pid m, ev = .handed pid id w true s.r.now m ∧ p0.since + cfg.redelivery ≤ s.r.now) ∨
      ev = .renewed id s.r.now)
    (hl : s'.log = ev :: s.log)
    (hp : s'.r.pending = s.r.pending.map (fun p => if p.id = id then ⟨id, w, s.r.now⟩ else p))
    (hpend : ∀ p ∈ s.r.pending, p.id ≤ s.r.lastDelivered)
    (hld : s'.r.lastDelivered = s.r.lastDelivered) (hnow : s'.r.now = s.r.now) :
    LeaseInv cfg s' := by
  have htouch : ∀ i t, Touches ev i t → i = id ∧ t = s.r.now := by
    intro i t ht
    rcases hev with ⟨pid, m, rfl, _⟩ | rfl <;> rcases ht with ⟨_, _, _, _, h1⟩ | h1
    · simp only [Event.handed.injEq] at h1; exact ⟨h1.2.1.symm, h1.2.2.2.2.1.symm⟩
    · simp at h1
    · simp at h1
    · simp only [Event.renewed.injEq] at h1; exact ⟨h1.1.symm, h1.2.symm⟩
  refine ⟨?_, ?_, ?_, ?_, ?_, ?_, ?_⟩
  · intro p hp' e he t ht
    rw [hp] at hp'
    obtain ⟨x, hx, rfl⟩ := List.mem_map.1 hp'
    rw [hl, List.mem_cons] at he
    by_cases hxi : x.id = id
    · rw [if_pos hxi] at ht ⊢
      rcases he with rfl | he
      · have := htouch _ _ ht; simp only; omega
      · exact h.past e he _ t ht
    · rw [if_neg hxi] at ht ⊢
      rcases he with rfl | he
      · exact absurd (htouch _ _ ht).1 hxi
      · exact h.since x hx e he t ht
  · intro e he i t ht
    rw [hl, List.mem_cons] at he
    rw [hld]
    rcases he with rfl | he
    · rw [(htouch _ _ ht).1, ← hid]; exact hpend p0 hp0
    · exact h.delivered e he i t ht
  · intro p hp'
    rw [hp] at hp'
    obtain ⟨x, hx, rfl⟩ := List.mem_map.1 hp'
    obtain ⟨e, he, hx'⟩ := h.handed x hx
    refine ⟨e, by rw [hl]; exact List.mem_cons_of_mem _ he, ?_⟩
    split
    · rename_i hxi; rw [← hxi]; exact hx'
    · exact hx'
  · intro p hp'
    rw [hp] at hp'
    obtain ⟨x, hx, rfl⟩ := List.mem_map.1 hp'
    rw [hnow]
    split
    · exact Nat.le_refl _
    · exact h.now x hx
  · intro e he i t ht
    rw [hl, List.mem_cons] at he
    rw [hnow]
    rcases he with rfl | he
    · rw [(htouch _ _ ht).2]; exact Nat.le_refl _
    · exact h.past e he i t ht
  · intro l1 l2 pid' id' w' t m' hs
    rw [hl] at hs
    cases l1 with
    | nil =>
      simp only [List.nil_append, List.cons.injEq] at hs
      rcases hev with ⟨pid, m, rfl, _⟩ | rfl <;> simp at hs
    | cons a l1 =>
      simp only [List.cons_append, List.cons.injEq] at hs
      exact h.new l1 l2 pid' id' w' t m' hs.2
  · intro l1 l2 pid' id' w' t m' hs
    rw [hl] at hs
    cases l1 with
    | nil =>
      simp only [List.nil_append, List.cons.injEq] at hs
      rcases hev with ⟨pid, m, rfl, hidle⟩ | rfl
      · simp only [Event.handed.injEq] at hs
        obtain ⟨⟨_, rfl, _, _, rfl, _⟩, rfl⟩ := hs
        refine ⟨?_, ?_⟩
        · obtain ⟨e, he, hx⟩ := h.handed p0 hp0
          rw [hid] at hx
          exact ⟨e, he, hx⟩
        · intro e he t' ht
          rw [← hid] at ht
          have := h.since p0 hp0 e he t' ht
          omega
      · simp at hs
    | cons a l1 =>
      simp only [List.cons_append, List.cons.injEq] at hs
      exact h.red l1 l2 pid' id' w' t m' hs.2

theorem LeaseInv.step {cfg : Cfg} {s : Sys} (hw : WF s) (h : LeaseInv cfg s) (op : Op) :
    LeaseInv cfg (step cfg s op) := by
  have he := step_eff cfg s hw.queue op
  generalize Docket.step cfg s op = s' at he
  have hf : ∀ f : Pend → Bool, ∀ p ∈ s.r.pending.filter f, p ∈ s.r.pending :=
    fun _ _ h => (List.mem_filter.1 h).1
  have hone : ∀ ev : Event, (∀ pid id w b t m, ev ≠ .handed pid id w b t m) →
      (∀ id t, ev ≠ .renewed id t) → ∀ e ∈ [ev], ∀ id t, ¬ Touches e id t := by
    intro ev h1 h2 e he id t ht
    simp only [List.mem_singleton] at he
    subst he
    rcases ht with ⟨_, _, _, _, h3⟩ | h3
    · exact h1 _ _ _ _ _ _ h3
    · exact h2 _ _ h3
  cases he with
  | tick d => exact h.keep [] rfl (by simp) (fun _ h => h) rfl (by simp [advance])
  | poll w n new hnew =>
    refine h.deliverMany w new hw.stream.pend ?_ ?_ rfl rfl rfl rfl
    · rw [hnew]; exact (hw.stream.sorted.filter _).sublist (List.take_sublist _ _)
    · intro e he
      rw [hnew] at he
      simpa using (List.mem_filter.1 (List.mem_of_mem_take he)).2
  | redeliver w p e hp he hid hidle =>
    exact h.touch _ e.1 w p hp hid (Or.inl ⟨_, _, rfl, hidle⟩) rfl rfl hw.stream.pend rfl rfl
  | renew w id he hp =>
    obtain ⟨p, hp, hid⟩ := hp
    exact h.touch _ id w p hp hid (Or.inr rfl) rfl rfl hw.stream.pend rfl rfl
  | _ =>
    first
    | exact h.keep [] rfl (by simp) (fun _ h => h) rfl (Nat.le_refl _)
    | exact h.keep [] rfl (by simp) (hf _) rfl (Nat.le_refl _)
    | exact h.keep [_] rfl (hone _ (by simp) (by simp)) (fun _ h => h) rfl (Nat.le_refl _)
    | exact h.keep [_] rfl (hone _ (by simp) (by simp)) (hf _) rfl (Nat.le_refl _)

theorem LeaseInv.run (cfg : Cfg) (ops : List Op) : LeaseInv cfg (run cfg ops) := by
  have : ∀ s, WF s → LeaseInv cfg s → LeaseInv cfg (runFrom cfg s ops) := by
    induction ops with
    | nil => intro s _ h; exact h
    | cons o ops ih => intro s hw h; exact ih _ (hw.step o) (h.step hw o)
  refine this _ WF.init ?_
  constructor <;> simp

/-- The message id was delivered and is neither in the stream nor pending. -/
structure Gone (s : Sys) (id : MsgId) : Prop where
  delivered : id ≤ s.r.lastDelivered
  stream : ∀ e ∈ s.r.stream, e.1 ≠ id
  pending : ∀ p ∈ s.r.pending, p.id ≠ id

theorem getLast_ge {ms : List (MsgId × Msg)} {ld : MsgId}
    (h : ∀ e ∈ ms, ld < e.1) : ld ≤ (ms.getLast?.map (·.1)).getD ld := by
  cases hl : ms.getLast? with
  | none => simp
  | some e => simp only [Option.map_some, Option.getD_some]
              have := h e (List.mem_of_getLast? hl); omega

theorem Gone.step {cfg : Cfg} {s : Sys} {id : MsgId} (hw : WF s) (h : Gone s id) (op : Op) :
    Gone (step cfg s op) id ∧ ∀ l, (step cfg s op).log = l ++ s.log →
      ∀ pid w b t m, Event.handed pid id w b t m ∉ l := by
  have he := step_eff cfg s hw.queue op
  generalize Docket.step cfg s op = s' at he
  have hlt : id < s.r.nextId := Nat.lt_of_le_of_lt h.delivered hw.stream.ldlt
  have hf : ∀ f : Pend → Bool, ∀ p ∈ s.r.pending.filter f, p.id ≠ id :=
    fun _ p hp => h.pending p (List.mem_filter.1 hp).1
  have hsf : ∀ f : MsgId × Msg → Bool, ∀ p ∈ s.r.stream.filter f, p.1 ≠ id :=
    fun _ p hp => h.stream p (List.mem_filter.1 hp).1
  have hd : ∀ k, ∀ e ∈ dropOwn s.r k, e.1 ≠ id := fun _ e he => h.stream e (mem_dropOwn he)
  have hadd : ∀ (st : List (MsgId × Msg)) (m : Msg), (∀ e ∈ st, e.1 ≠ id) →
      ∀ e ∈ st ++ [(s.r.nextId, m)], e.1 ≠ id := by
    intro st m hst e he
    simp only [List.mem_append, List.mem_singleton] at he
    rcases he with he | rfl
    · exact hst e he
    · simp only; omega
  have hnil : ∀ l, s.log = l ++ s.log → ∀ pid w b t m, Event.handed pid id w b t m ∉ l := by
    intro l hl
    have := congrArg List.length hl
    simp only [List.length_append] at this
    have : l = [] := List.length_eq_zero_iff.1 (by omega)
    simp [this]
  have hone : ∀ ev : Event, (∀ pid w b t m, ev ≠ .handed pid id w b t m) →
      ∀ l, ev :: s.log = l ++ s.log → ∀ pid w b t m, Event.handed pid id w b t m ∉ l := by
    intro ev hev l hl pid w b t m hm
    have : [ev] = l := List.append_cancel_right (bs := s.log) (by simpa using hl)
    rw [← this, List.mem_singleton] at hm
    exact hev pid w b t m hm.symm
  cases he with
  | addNow k q => exact ⟨⟨h.1, hadd _ _ h.2, h.3⟩, hone _ (by simp)⟩
  | replaceNow k q => exact ⟨⟨h.1, hadd _ _ (hd k), h.3⟩, hone _ (by simp)⟩
  | replaceLater k q => exact ⟨⟨h.1, hd k, h.3⟩, hone _ (by simp)⟩
  | cancel k => exact ⟨⟨h.1, hd k, h.3⟩, hone _ (by simp)⟩
  | clear op j js =>
    refine ⟨⟨h.1, ?_, h.3⟩, hone _ (by simp)⟩
    intro e he
    simp only at he
    split at he
    · simp at he
    · exact h.2 e he
  | schedule t ht =>
    refine ⟨⟨h.1, ?_, h.3⟩, hnil⟩
    intro e he
    simp only [List.mem_append] at he
    rcases he with he | he
    · exact h.2 e he
    · have := (mem_numbered he).1; omega
  | poll w n new hnew =>
    have hgt : ∀ e ∈ new, s.r.lastDelivered < e.1 := by
      intro e he
      rw [hnew] at he
      simpa using (List.mem_filter.1 (List.mem_of_mem_take he)).2
    refine ⟨⟨Nat.le_trans h.1 (getLast_ge hgt), h.2, ?_⟩, ?_⟩
    · intro p hp
      simp only [List.mem_append, List.mem_map] at hp
      rcases hp with hp | ⟨e, he, rfl⟩
      · exact h.3 p hp
      · have := hgt e he; have := h.1; simp only; omega
    · intro l hl pid w' b t m hm
      have hl' : (newHanded s.nextPid w false s.r.now new).reverse = l :=
        List.append_cancel_right (bs := s.log) hl
      rw [← hl', List.mem_reverse] at hm
      obtain ⟨p', e, heq, he, _⟩ := mem_newHanded hm
      simp only [Event.handed.injEq] at heq
      have := hgt e he; have := h.1; omega
  | redeliver w p e hp he hid hidle =>
    refine ⟨⟨h.1, h.2, ?_⟩, hone _ ?_⟩
    · intro x hx
      obtain ⟨y, hy, rfl⟩ := List.mem_map.1 hx
      split
      · exact h.2 e he
      · exact h.3 y hy
    · intro pid w' b t m hc
      simp only [Event.handed.injEq] at hc
      exact h.2 e he hc.2.1
  | renew w i he hp =>
    refine ⟨⟨h.1, h.2, ?_⟩, hone _ (by simp)⟩
    intro x hx
    obtain ⟨y, hy, rfl⟩ := List.mem_map.1 hx
    split
    · obtain ⟨e, he, rfl⟩ := he; exact h.2 e he
    · exact h.3 y hy
  | rescheduleNow p t a d q =>
    exact ⟨⟨h.1, hadd _ _ (hsf _), hf _⟩, hone _ (by simp)⟩
  | _ =>
    first
    | exact ⟨⟨h.1, h.2, h.3⟩, hnil⟩
    | exact ⟨⟨h.1, h.2, hf _⟩, hnil⟩
    | exact ⟨⟨h.1, hsf _, hf _⟩, hnil⟩
    | exact ⟨⟨h.1, h.2, h.3⟩, hone _ (by simp)⟩
    | exact ⟨⟨h.1, hsf _, hf _⟩, hone _ (by simp)⟩

theorem Gone.runFrom {cfg : Cfg} {id : MsgId} (ops : List Op) : ∀ {s : Sys}, WF s → Gone s id →
    Gone (runFrom cfg s ops) id ∧
    ∀ pid w b t m, Event.handed pid id w b t m ∉ newEvents s (runFrom cfg s ops) := by
  induction ops with
  | nil => intro s _ h; exact ⟨h, by simp [newEvents]⟩
  | cons o ops ih =>
    intro s hw h
    obtain ⟨h1, h2⟩ := h.step hw o (cfg := cfg)
    obtain ⟨h3, h4⟩ := ih (hw.step o) h1
    refine ⟨h3, ?_⟩
    intro pid w b t m hm
    have hsplit := newEvents_append cfg hw [o] ops
    rw [List.singleton_append] at hsplit
    rw [hsplit, List.mem_append] at hm
    rcases hm with hm | hm
    · exact h4 pid w b t m hm
    · exact h2 _ (newEvents_spec cfg hw [o]) pid w b t m hm

end Docket
