import Verif.Views.Contexts
/-
C93 Leaving a docket gives back everything it opened.
-/
namespace Docket.Ctx

/-! ## Specification -/

/-- Everything that was opened has been closed, once, and nothing else. -/
def Released (w : World) : Prop :=
  (∀ r, r ∈ w.env.opened ↔ r ∈ w.env.closed) ∧ w.env.closed.Nodup

/-- Entering the docket in `w`, the awaits ending as in `os`, succeeds. -/
def Enters (cfg : Settings) (w : World) (os : List Outcome) : Prop := (step cfg w (.enter os)).2 = none

/-- The first thing that is awaited fails: the URL is refused or the server cannot be reached. -/
def FailsAtOnce (os : List Outcome) : Prop := os.head? = some .error ∨ os.head? = some .cancelled

/-- Every block is entered, or refused at once. -/
def Smooth (cfg : Settings) : World → List Block → Prop
  | _, [] => True
  | w, b :: bs => (Enters cfg w b.entering ∨ FailsAtOnce b.entering) ∧ Smooth cfg (block cfg w b).1 bs

instance (cfg w os) : Decidable (Enters cfg w os) := by unfold Enters; infer_instance
instance (os) : Decidable (FailsAtOnce os) := by unfold FailsAtOnce; infer_instance
instance decSmooth (cfg : Settings) : ∀ w bs, Decidable (Smooth cfg w bs)
  | _, [] => isTrue trivial
  | w, b :: bs =>
    have := decSmooth cfg (block cfg w b).1 bs
    by unfold Smooth; infer_instance

/-- **C93**, in full: whatever fails when, after any number of `async with docket` blocks one
after the other everything is closed, and the docket can be entered again. -/
def C93_statement : Prop :=
  ∀ cfg bs, Released (blocks cfg World.new bs) ∧ Enters cfg (blocks cfg World.new bs) []

/-! ## Undoing -/

/-- `e'` is `e` with the resources `rs` (newest first) made. -/
structure Grew (e e' : Env) (rs : List Nat) : Prop where
  opened : e'.opened = rs ++ e.opened
  closed : e'.closed = e.closed
  ids : rs.reverse = List.range' e.next rs.length
  next : e'.next = e.next + rs.length

/-- Leaving closes `rs` in order and ends in `s'`; it raises what was raised before, or, only if
an await was cancelled, a cancellation. -/
def Undoes {S : Type} (leave : Env → Option Exc → S × Env × Option Exc) (rs : List Nat) (s' : S) : Prop :=
  ∀ e x, ∃ os y, leave e x = (s', { e with closed := rs.reverse ++ e.closed, oracle := os }, y) ∧
    (y = x ∨ y = some .cancelled) ∧ (.cancelled ∉ e.oracle → y = x ∧ .cancelled ∉ os)

theorem close_spec (r : Nat) (e : Env) : ∃ os y, closeResource r e = ({ e with closed := r :: e.closed, oracle := os }, y) ∧
    (y = none ∨ y = some .cancelled) ∧ (.cancelled ∉ e.oracle → y = none ∧ .cancelled ∉ os) := by
  obtain ⟨n, o, c, os⟩ := e
  cases os with
  | nil => exact ⟨[], none, rfl, Or.inl rfl, fun _ => ⟨rfl, by simp⟩⟩
  | cons a os =>
    cases a with
    | ok => exact ⟨os, none, rfl, Or.inl rfl, fun h => ⟨rfl, fun h' => h (by simp [h'])⟩⟩
    | error => exact ⟨os, none, rfl, Or.inl rfl, fun h => ⟨rfl, fun h' => h (by simp [h'])⟩⟩
    | cancelled => exact ⟨os, some .cancelled, rfl, Or.inr rfl, fun h => absurd (by simp) h⟩

theorem cancel_spec (r : Nat) (e : Env) : ∃ os y, cancelTask r e = ({ e with closed := r :: e.closed, oracle := os }, y) ∧
    (y = none ∨ y = some .cancelled) ∧ (.cancelled ∉ e.oracle → y = none ∧ .cancelled ∉ os) := by
  obtain ⟨n, o, c, os⟩ := e
  cases os with
  | nil => exact ⟨[], none, rfl, Or.inl rfl, fun _ => ⟨rfl, by simp⟩⟩
  | cons a os =>
    cases a with
    | ok => exact ⟨os, none, rfl, Or.inl rfl, fun h => ⟨rfl, fun h' => h (by simp [h'])⟩⟩
    | error => exact ⟨os, none, rfl, Or.inl rfl, fun h => ⟨rfl, fun h' => h (by simp [h'])⟩⟩
    | cancelled => exact ⟨os, some .cancelled, rfl, Or.inr rfl, fun h => absurd (by simp) h⟩

/-- What a callback does, as seen from `unwind`: it closes `rs` and goes from `s` to `s'`. -/
def Calls {C S : Type} (call : C → S → Env → S × Env × Option Exc) (cb : C) (s : S) (rs : List Nat) (s' : S) : Prop :=
  ∀ e, ∃ os y, call cb s e = (s', { e with closed := rs ++ e.closed, oracle := os }, y) ∧
    (y = none ∨ y = some .cancelled) ∧ (.cancelled ∉ e.oracle → y = none ∧ .cancelled ∉ os)

/-- An unwinding that closes `rs` and goes from `s` to `s'`. -/
def Unwinds {C S : Type} (call : C → S → Env → S × Env × Option Exc) (cbs : List C) (s : S) (rs : List Nat) (s' : S) : Prop :=
  ∀ e x, ∃ os y, unwind call cbs s e x = (s', { e with closed := rs ++ e.closed, oracle := os }, y) ∧
    (y = x ∨ y = some .cancelled) ∧ (.cancelled ∉ e.oracle → y = x ∧ .cancelled ∉ os)

theorem Unwinds.nil {C S : Type} (call : C → S → Env → S × Env × Option Exc) (s : S) : Unwinds call [] s [] s :=
  fun e x => ⟨e.oracle, x, rfl, Or.inl rfl, fun h => ⟨rfl, h⟩⟩

theorem Unwinds.cons {C S : Type} {call : C → S → Env → S × Env × Option Exc} {cb : C} {cbs : List C} {s s' s'' : S}
    {rs rs' : List Nat} (h : Calls call cb s rs s') (h' : Unwinds call cbs s' rs' s'') :
    Unwinds call (cb :: cbs) s (rs' ++ rs) s'' := by
  intro e x
  obtain ⟨os, y, h1, h2, h3⟩ := h e
  obtain ⟨os', y', g1, g2, g3⟩ := h' { e with closed := rs ++ e.closed, oracle := os } (y.or x)
  refine ⟨os', y', ?_, ?_, ?_⟩
  · simp only [unwind, h1, g1, List.append_assoc]
  · rcases g2 with g2 | g2
    · rcases h2 with h2 | h2
      · subst h2; exact Or.inl (by simpa using g2)
      · subst h2; exact Or.inr (by simpa using g2)
    · exact Or.inr g2
  · intro hc
    obtain ⟨a, b⟩ := h3 hc
    obtain ⟨c, d⟩ := g3 b
    subst a
    exact ⟨by simpa using c, d⟩

theorem Calls.pure {C S : Type} {call : C → S → Env → S × Env × Option Exc} {cb : C} {s s' : S}
    (h : ∀ e, call cb s e = (s', e, none)) : Calls call cb s [] s' :=
  fun e => ⟨e.oracle, none, h e, Or.inl rfl, fun hc => ⟨rfl, hc⟩⟩

theorem Calls.closing {C S : Type} {call : C → S → Env → S × Env × Option Exc} {cb : C} {s : S} {r : Nat}
    (h : ∀ e, call cb s e = (s, (closeResource r e).1, (closeResource r e).2)) : Calls call cb s [r] s := by
  intro e
  obtain ⟨os, y, h1, h2⟩ := close_spec r e
  exact ⟨os, y, by rw [h, h1]; rfl, h2⟩

theorem Calls.cancelling {C S : Type} {call : C → S → Env → S × Env × Option Exc} {cb : C} {s : S} {r : Nat}
    (h : ∀ e, call cb s e = (s, (cancelTask r e).1, (cancelTask r e).2)) : Calls call cb s [r] s := by
  intro e
  obtain ⟨os, y, h1, h2⟩ := cancel_spec r e
  exact ⟨os, y, by rw [h, h1]; rfl, h2⟩

/-! ## The parts -/

/-- An unused connection, but for its stack. -/
def unused (st : Option (List ConnCb)) : Conn := { Conn.new with stack := st }

theorem Grew.refl (e : Env) (os : List Outcome) : Grew e { e with oracle := os } [] := ⟨rfl, rfl, rfl, rfl⟩

theorem Grew.trans {e e' e'' : Env} {rs rs' : List Nat} (h : Grew e e' rs) (h' : Grew e' e'' rs') :
    Grew e e'' (rs' ++ rs) := by
  refine ⟨by rw [h'.opened, h.opened, List.append_assoc], h'.closed.trans h.closed, ?_, ?_⟩
  · rw [List.reverse_append, h.ids, h'.ids, h.next]
    have := @List.range'_append_1 e.next rs.length rs'.length
    simp only [List.length_append]
    rw [this, Nat.add_comm rs'.length]
  · rw [h'.next, h.next, List.length_append]; omega

theorem grew_make (e : Env) : Grew e e.make.2 [e.make.1] := ⟨rfl, rfl, rfl, rfl⟩

theorem await_eq (e : Env) : ∃ os, e.await.2 = { e with oracle := os } := by
  obtain ⟨n, o, c, os⟩ := e
  cases os with
  | nil => exact ⟨[], rfl⟩
  | cons a os => exact ⟨os, rfl⟩

theorem raises_none {o : Outcome} (h : o.raises = none) : o = .ok := by cases o <;> first | rfl | cases h

theorem grew_await (e : Env) : Grew e e.await.2 [] := by
  obtain ⟨os, h⟩ := await_eq e
  rw [h]; exact Grew.refl e os

theorem enterConn_ok {mode : Mode} {st} {e e' : Env} {c : Conn} (h : enterConn mode (unused st) e = (c, e', none)) :
    ∃ rs, Grew e e' rs ∧ Undoes (leaveConn c) rs Conn.new ∧ c.connected = true := by
  unfold enterConn at h
  rw [if_neg (by simp [unused, Conn.new, Conn.connected])] at h
  cases mode with
  | cluster =>
    simp only at h
    cases h1 : e.await.1.raises with
    | some x => simp [h1] at h
    | none =>
      simp only [h1] at h
      cases h2 : e.await.2.make.2.await.1.raises with
      | some x => simp [h2] at h
      | none =>
        simp only [h2, Prod.mk.injEq, and_true] at h
        obtain ⟨hc, he⟩ := h
        subst hc; subst he
        refine ⟨_, (((grew_await e).trans (grew_make _)).trans (grew_await _)).trans (grew_make _), ?_, rfl⟩
        intro e0 x
        obtain ⟨os, y, g1, g2⟩ := Unwinds.cons (call := ConnCb.call)
          (s := { unused st with cluster := some e.await.2.make.1, node := some e.await.2.make.2.await.2.make.1, stack := some [.close e.await.2.make.2.await.2.make.1, .forgetNode, .close e.await.2.make.1, .forgetCluster] })
          (Calls.closing (cb := .close e.await.2.make.2.await.2.make.1) (fun _ => rfl))
          (Unwinds.cons (Calls.pure (cb := .forgetNode) (fun _ => rfl))
            (Unwinds.cons (Calls.closing (cb := .close e.await.2.make.1) (fun _ => rfl))
              (Unwinds.cons (Calls.pure (cb := .forgetCluster) (fun _ => rfl)) (Unwinds.nil _ _)))) e0 x
        refine ⟨os, y, ?_, g2⟩
        simp only [leaveConn]
        rw [g1]
        rfl
  | memory =>
    simp only at h
    cases h1 : e.await.1.raises with
    | some x => simp [h1] at h
    | none =>
      simp only [h1, Prod.mk.injEq, and_true] at h
      obtain ⟨hc, he⟩ := h
      subst hc; subst he
      refine ⟨_, grew_await e, ?_, rfl⟩
      intro e0 x
      exact ⟨e0.oracle, x, rfl, Or.inl rfl, fun h => ⟨rfl, h⟩⟩
  | pool =>
    simp only at h
    cases h1 : e.await.1.raises with
    | some x => simp [h1] at h
    | none =>
      simp only [h1, Prod.mk.injEq, and_true] at h
      obtain ⟨hc, he⟩ := h
      subst hc; subst he
      refine ⟨_, (grew_await e).trans (grew_make _), ?_, rfl⟩
      intro e0 x
      obtain ⟨os, y, g1, g2⟩ := Unwinds.cons (call := ConnCb.call)
        (s := { unused st with pool := some e.await.2.make.1, stack := some [.close e.await.2.make.1, .forgetPool] })
        (Calls.closing (cb := .close e.await.2.make.1) (fun _ => rfl))
        (Unwinds.cons (Calls.pure (cb := .forgetPool) (fun _ => rfl)) (Unwinds.nil _ _)) e0 x
      refine ⟨os, y, ?_, g2⟩
      simp only [leaveConn]
      rw [g1]
      rfl

/-- Nested: leaving the inner context is a callback of the outer one. -/
theorem Undoes.calls {C S T : Type} {call : C → S → Env → S × Env × Option Exc} {cb : C} {s s' : S}
    {leave : Env → Option Exc → T × Env × Option Exc} {rs : List Nat} {t : T} (h : Undoes leave rs t)
    (hc : ∀ e, ∀ os y, leave e none = (t, { e with closed := rs.reverse ++ e.closed, oracle := os }, y) →
      call cb s e = (s', { e with closed := rs.reverse ++ e.closed, oracle := os }, y)) :
    Calls call cb s rs.reverse s' := by
  intro e
  obtain ⟨os, y, h1, h2, h3⟩ := h e none
  exact ⟨os, y, hc e os y h1, h2, h3⟩

theorem enterStrikes_ok {mode : Mode} {e e' : Env} {s : Strikes} (h : enterStrikes mode Strikes.new e = (s, e', none)) :
    ∃ rs, Grew e e' rs ∧ Undoes (leaveStrikes s) rs Strikes.new := by
  unfold enterStrikes at h
  rw [if_neg (by simp [Strikes.new, Conn.new, Conn.connected])] at h
  cases hc : enterConn mode Strikes.new.conn e with
  | mk c r =>
    obtain ⟨e1, x⟩ := r
    rw [hc] at h
    cases x with
    | some x => simp at h
    | none =>
      obtain ⟨rs, h1, h2, _⟩ := enterConn_ok (st := none) (c := c) (e' := e1) hc
      simp only [Prod.mk.injEq, and_true] at h
      obtain ⟨hs, he⟩ := h
      subst hs; subst he
      refine ⟨_, h1.trans (grew_make e1), ?_⟩
      intro e0 x
      obtain ⟨os, y, g1, g2⟩ := Unwinds.cons (call := StrikesCb.call)
        (s := { Strikes.new with conn := c, loaded := true, monitor := some e1.make.1, stack := some [.cancel e1.make.1, .forgetMonitor, .forgetLoaded, .leaveConn] })
        (Calls.cancelling (cb := .cancel e1.make.1) (fun _ => rfl))
        (Unwinds.cons (Calls.pure (cb := .forgetMonitor) (fun _ => rfl))
          (Unwinds.cons (Calls.pure (cb := .forgetLoaded) (fun _ => rfl))
            (Unwinds.cons (cb := .leaveConn) (h2.calls (s' := { Strikes.new with stack := some [.cancel e1.make.1, .forgetMonitor, .forgetLoaded, .leaveConn] })
              (fun e os y he => by simp only [StrikesCb.call]; rw [he]; rfl)) (Unwinds.nil _ _)))) e0 x
      refine ⟨os, y, ?_, g2⟩
      simp only [leaveStrikes]
      rw [g1]
      simp [Strikes.new]

theorem enterStore_ok {mode : Mode} {e e' : Env} {s : Store} (h : enterStore mode Store.new e = (s, e', none)) :
    ∃ rs, Grew e e' rs ∧ Undoes (leaveStore s) rs Store.new := by
  have other : ∀ e', (({ Store.new with stack := some [] } : Store), e.await.2, e.await.1.raises) = (s, e', none) →
      ∃ rs, Grew e e' rs ∧ Undoes (leaveStore s) rs Store.new := by
    intro e' h
    simp only [Prod.mk.injEq] at h
    obtain ⟨hs, he, _⟩ := h
    subst hs; subst he
    exact ⟨_, grew_await e, fun e0 x => ⟨e0.oracle, x, rfl, Or.inl rfl, fun h => ⟨rfl, h⟩⟩⟩
  cases mode with
  | cluster => exact other e' h
  | memory => exact other e' h
  | pool =>
    simp only [enterStore] at h
    cases h1 : e.await.1.raises with
    | some x => simp [h1] at h
    | none =>
      simp only [h1, Prod.mk.injEq] at h
      obtain ⟨hs, he, _⟩ := h
      subst hs; subst he
      refine ⟨_, (((grew_await e).trans (grew_make _)).trans (grew_make _)).trans (grew_await _), ?_⟩
      intro e0 x
      obtain ⟨os, y, g1, g2⟩ := Unwinds.cons (call := StoreCb.call)
        (s := { Store.new with pool := some e.await.2.make.1, client := some e.await.2.make.2.make.1, stack := some [.close e.await.2.make.2.make.1, .forgetClient, .close e.await.2.make.1, .forgetPool] })
        (Calls.closing (cb := .close e.await.2.make.2.make.1) (fun _ => rfl))
        (Unwinds.cons (Calls.pure (cb := .forgetClient) (fun _ => rfl))
          (Unwinds.cons (Calls.closing (cb := .close e.await.2.make.1) (fun _ => rfl))
            (Unwinds.cons (Calls.pure (cb := .forgetPool) (fun _ => rfl)) (Unwinds.nil _ _)))) e0 x
      refine ⟨os, y, ?_, g2⟩
      simp only [leaveStore]
      rw [g1]
      rfl

/-! ## The docket -/

/-- The docket is not in use. -/
structure Idle (d : Dkt) : Prop where
  redis : ∃ st, d.redis = unused st
  lists : ∀ i, d.nlists ≤ i → d.lists i = Strikes.new
  stores : ∀ i, d.nstores ≤ i → d.stores i = Store.new

theorem enter_ok {cfg : Settings} {d d' : Dkt} {e e' : Env} (hi : Idle d) (h : enter cfg d e = (d', e', none)) :
    ∃ rs d'', Grew e e' rs ∧ Undoes (leave d') rs d'' ∧ Idle d'' := by
  obtain ⟨st, hr⟩ := hi.redis
  simp only [enter] at h
  cases hc : enterConn cfg.mode d.redis e with
  | mk c r =>
    obtain ⟨e1, x⟩ := r
    rw [hc] at h
    cases x with
    | some x => simp at h
    | none =>
      rw [hr] at hc
      obtain ⟨rs, a1, a2, _⟩ := enterConn_ok hc
      simp only at h
      cases hs : enterStrikes cfg.mode (d.lists d.nlists) e1 with
      | mk s r =>
        obtain ⟨e2, x⟩ := r
        rw [hs] at h
        cases x with
        | some x => simp at h
        | none =>
          rw [hi.lists _ (Nat.le_refl _)] at hs
          obtain ⟨rs2, b1, b2⟩ := enterStrikes_ok hs
          simp only [enterResults] at h
          have fin : ∀ (st2 : Nat → Store) (n : Nat) (str : Option Nat) (stk : Option (List DocketCb)),
              (∀ i, n ≤ i → st2 i = Store.new) →
              Idle ⟨Conn.new, upd (upd d.lists d.nlists s) d.nlists Strikes.new, d.nlists + 1, some d.nlists, st2, n, str, stk⟩ := by
            intro st2 n str stk hst
            refine ⟨⟨none, rfl⟩, ?_, hst⟩
            intro i hi'
            have hlt : i ≠ d.nlists := by simp only at hi'; omega
            simp only [upd, if_neg hlt]
            exact hi.lists i (by simp only at hi'; omega)
          have two : ∀ (st2 : Nat → Store) (n : Nat) (str : Option Nat) (stk : Option (List DocketCb)),
              Unwinds DocketCb.call [.leaveStrikes d.nlists, .leaveRedis]
                ⟨c, upd d.lists d.nlists s, d.nlists + 1, some d.nlists, st2, n, str, stk⟩ (rs.reverse ++ rs2.reverse)
                ⟨Conn.new, upd (upd d.lists d.nlists s) d.nlists Strikes.new, d.nlists + 1, some d.nlists, st2, n, str, stk⟩ := by
            intro st2 n str stk
            have one : Unwinds DocketCb.call [.leaveRedis]
                ⟨c, upd (upd d.lists d.nlists s) d.nlists Strikes.new, d.nlists + 1, some d.nlists, st2, n, str, stk⟩ ([] ++ rs.reverse)
                ⟨Conn.new, upd (upd d.lists d.nlists s) d.nlists Strikes.new, d.nlists + 1, some d.nlists, st2, n, str, stk⟩ :=
              Unwinds.cons (a2.calls (fun e os y he => by simp only [DocketCb.call]; rw [he])) (Unwinds.nil _ _)
            rw [List.nil_append] at one
            refine Unwinds.cons ?_ one
            refine b2.calls ?_
            intro e os y he
            have hup : upd d.lists d.nlists s d.nlists = s := by simp [upd]
            simp only [DocketCb.call, hup]
            rw [he]
          cases hu : cfg.userStore with
          | some b =>
            have : d' = { d with nlists := d.nlists + 1, strikes := some d.nlists, redis := c, lists := upd d.lists d.nlists s, store := none, stack := some [.leaveStrikes d.nlists, .leaveRedis] } ∧ ∃ os, e' = { e2 with oracle := os } := by
              cases b with
              | true =>
                simp only [hu, Prod.mk.injEq] at h
                obtain ⟨os, ho⟩ := await_eq e2
                exact ⟨h.1.symm, os, by rw [← ho, h.2.1]⟩
              | false =>
                simp only [hu, Prod.mk.injEq] at h
                exact ⟨h.1.symm, e2.oracle, h.2.1.symm⟩
            obtain ⟨hd, os, he'⟩ := this
            subst hd; subst he'
            refine ⟨_, _, (a1.trans b1).trans (Grew.refl e2 os), ?_, fin d.stores d.nstores none none hi.stores⟩
            intro e0 x
            obtain ⟨os, y, g1, g2⟩ := two d.stores d.nstores none (some [.leaveStrikes d.nlists, .leaveRedis]) e0 x
            refine ⟨os, y, ?_, g2⟩
            simp only [leave]
            rw [g1]
            simp
          | none =>
            simp only [hu] at h
            cases ht : enterStore cfg.mode (d.stores d.nstores) e2 with
            | mk t r =>
              obtain ⟨e3, x⟩ := r
              rw [ht] at h
              cases x with
              | some x => simp at h
              | none =>
                rw [hi.stores _ (Nat.le_refl _)] at ht
                obtain ⟨rs3, c1, c2⟩ := enterStore_ok ht
                simp only [Prod.mk.injEq, and_true] at h
                obtain ⟨hd, he'⟩ := h
                subst hd; subst he'
                refine ⟨_, _, (a1.trans b1).trans c1, ?_,
                  fin (upd (upd d.stores d.nstores t) d.nstores Store.new) (d.nstores + 1) none none ?_⟩
                · intro e0 x
                  have three := Unwinds.cons (call := DocketCb.call) (cb := .forgetStore)
                    (s := ⟨c, upd d.lists d.nlists s, d.nlists + 1, some d.nlists, upd d.stores d.nstores t, d.nstores + 1, some d.nstores, some [.forgetStore, .leaveStore d.nstores, .leaveStrikes d.nlists, .leaveRedis]⟩)
                    (Calls.pure (fun _ => rfl))
                    (Unwinds.cons (cb := .leaveStore d.nstores) (c2.calls (s' := ⟨c, upd d.lists d.nlists s, d.nlists + 1, some d.nlists, upd (upd d.stores d.nstores t) d.nstores Store.new, d.nstores + 1, none, some [.forgetStore, .leaveStore d.nstores, .leaveStrikes d.nlists, .leaveRedis]⟩)
                      (fun e os y he => by
                        have hup : upd d.stores d.nstores t d.nstores = t := by simp [upd]
                        simp only [DocketCb.call, hup]; rw [he]))
                      (two _ _ _ _))
                  obtain ⟨os, y, g1, g2⟩ := three e0 x
                  refine ⟨os, y, ?_, g2⟩
                  simp only [leave]
                  rw [g1]
                  simp
                · intro i hi'
                  have hlt : i ≠ d.nstores := by omega
                  simp only [upd, if_neg hlt]
                  exact hi.stores i (by omega)

theorem enter_at_once {cfg : Settings} {d : Dkt} {e : Env} (hi : Idle d) (h : FailsAtOnce e.oracle) :
    ∃ d' os x, enter cfg d e = (d', { e with oracle := os }, some x) ∧ Idle d' := by
  obtain ⟨st, hr⟩ := hi.redis
  have hx : ∃ x os, e.await.1.raises = some x ∧ e.await.2 = { e with oracle := os } := by
    obtain ⟨n, o, c, os⟩ := e
    cases os with
    | nil => rcases h with h | h <;> cases h
    | cons a os =>
      rcases h with h | h
      · cases h; exact ⟨.error, os, rfl, rfl⟩
      · cases h; exact ⟨.cancelled, os, rfl, rfl⟩
  obtain ⟨x, os, h1, h2⟩ := hx
  have hc : enterConn cfg.mode d.redis e = (unused (some []), { e with oracle := os }, some x) := by
    rw [hr]
    unfold enterConn
    rw [if_neg (by simp [unused, Conn.new, Conn.connected])]
    cases cfg.mode <;> simp only [h1, h2] <;> rfl
  refine ⟨{ d with redis := unused (some []), stack := some [], nlists := d.nlists + 1, strikes := some d.nlists }, os, x, ?_, ?_⟩
  · simp only [enter, hc]
  · exact ⟨⟨_, rfl⟩, fun i hi' => hi.lists i (by simp only at hi'; omega), hi.stores⟩

/-! ## Theorems -/

/-- What holds between smooth blocks. -/
structure Between (w : World) : Prop where
  idle : Idle w.docket
  opened : w.env.opened.reverse = List.range' 0 w.env.next
  perm : w.env.closed.Perm w.env.opened

theorem Between.new : Between World.new :=
  ⟨⟨⟨none, rfl⟩, fun _ _ => rfl, fun _ _ => rfl⟩, rfl, List.Perm.refl _⟩

theorem Between.released {w : World} (h : Between w) : Released w := by
  refine ⟨fun r => h.perm.mem_iff.symm, ?_⟩
  rw [h.perm.nodup_iff, ← (List.reverse_perm w.env.opened).nodup_iff, h.opened]
  exact List.nodup_range'

/-- A block that is entered: what it opened is closed in the opposite order when it is over. -/
theorem block_entered {cfg : Settings} {w : World} (hi : Idle w.docket) {b : Block} (he : Enters cfg w b.entering) :
    ∃ rs, (block cfg w b).1.env.opened = rs ++ w.env.opened ∧
      (block cfg w b).1.env.closed = rs.reverse ++ w.env.closed ∧
      rs.reverse = List.range' w.env.next rs.length ∧
      (block cfg w b).1.env.next = w.env.next + rs.length ∧ Idle (block cfg w b).1.docket ∧
      ((block cfg w b).2 = (if b.failed then some .body else none) ∨ (block cfg w b).2 = some .cancelled) ∧
      (.cancelled ∉ b.leaving → (block cfg w b).2 = if b.failed then some .body else none) := by
  unfold Enters at he
  simp only [step] at he
  cases hs : enter cfg w.docket { w.env with oracle := b.entering } with
  | mk d r =>
    obtain ⟨e, x⟩ := r
    rw [hs] at he
    simp only at he
    subst he
    obtain ⟨rs, d'', h1, h2, h3⟩ := enter_ok hi hs
    obtain ⟨os, y, g1, g2, g3⟩ := h2 { e with oracle := b.leaving } (if b.failed then some .body else none)
    have hb : block cfg w b = (⟨d'', { e with closed := rs.reverse ++ e.closed, oracle := os }⟩, y) := by
      unfold block
      simp only [step, hs, g1]
    rw [hb]
    exact ⟨rs, h1.opened, by show rs.reverse ++ e.closed = _; rw [h1.closed], h1.ids, h1.next, h3, g2, fun hc => (g3 hc).1⟩

theorem block_at_once {cfg : Settings} {w : World} (hi : Idle w.docket) {b : Block} (he : FailsAtOnce b.entering) :
    ∃ x, (block cfg w b).2 = some x ∧ Idle (block cfg w b).1.docket ∧
      (block cfg w b).1.env.opened = w.env.opened ∧ (block cfg w b).1.env.closed = w.env.closed ∧
      (block cfg w b).1.env.next = w.env.next := by
  obtain ⟨d', os, x, h1, h2⟩ := enter_at_once (cfg := cfg) (e := { w.env with oracle := b.entering }) hi he
  have hb : block cfg w b = (⟨d', { w.env with oracle := os }⟩, some x) := by
    unfold block
    simp only [step, h1]
  rw [hb]
  exact ⟨x, rfl, h2, rfl, rfl, rfl⟩

theorem Between.block {cfg : Settings} {w : World} (h : Between w) {b : Block}
    (hb : Enters cfg w b.entering ∨ FailsAtOnce b.entering) : Between (block cfg w b).1 := by
  rcases hb with hb | hb
  · obtain ⟨rs, h1, h2, h3, h4, h5, _⟩ := block_entered h.idle hb
    refine ⟨h5, ?_, ?_⟩
    · rw [h1, h4, List.reverse_append, h.opened, h3]
      have := @List.range'_append_1 0 w.env.next rs.length
      rw [Nat.zero_add] at this
      exact this
    · rw [h1, h2]
      exact (List.reverse_perm rs).append h.perm
  · obtain ⟨x, h1, h2, h3, h4, h5⟩ := block_at_once (cfg := cfg) h.idle hb
    exact ⟨h2, by rw [h3, h5]; exact h.opened, by rw [h3, h4]; exact h.perm⟩

theorem Between.blocks {cfg : Settings} (bs : List Block) : ∀ {w : World}, Between w → Smooth cfg w bs →
    Between (blocks cfg w bs) := by
  induction bs with
  | nil => intro w h _; exact h
  | cons b bs ih => intro w h hs; exact ih (h.block hs.1) hs.2

/-- **C93**, partial.  After any number of blocks, each of which was entered or refused at
once, everything is closed, once, however the blocks and the closings ended; and the docket can
be entered again.  Missing: blocks whose entering fails halfway (`C93_violated`). -/
theorem C93_released_partial (cfg : Settings) (bs : List Block) (hs : Smooth cfg World.new bs) :
    Released (blocks cfg World.new bs) ∧ Enters cfg (blocks cfg World.new bs) [] := by
  have hb := Between.new.blocks bs hs
  refine ⟨hb.released, ?_⟩
  generalize blocks cfg World.new bs = w at hb
  obtain ⟨⟨⟨st, hr⟩, hl, hst⟩, _⟩ := hb
  obtain ⟨d, e⟩ := w
  obtain ⟨c, lists, nl, str, stores, ns, store, stack⟩ := d
  simp only at hr hl hst
  subst hr
  obtain ⟨mode, us⟩ := cfg
  have hl' := hl nl (Nat.le_refl _)
  have hs' := hst ns (Nat.le_refl _)
  cases mode <;> rcases us with _ | _ | _ <;>
    simp [Enters, step, enter, enterConn, enterStrikes, enterResults, enterStore, unused, Conn.new, Conn.connected, Env.await, Env.make, Outcome.raises, hl', hs', Strikes.new]

/-- **C93, order and outcome**, partial in the same sense: a block that was entered closes what
it opened in the opposite order, and ends the way its body ended unless a closing is cancelled;
exceptions from closing never get out. -/
theorem C93_block_partial (cfg : Settings) (bs : List Block) (hs : Smooth cfg World.new bs) (b : Block)
    (he : Enters cfg (blocks cfg World.new bs) b.entering) :
    ∃ rs, (blocks cfg World.new (bs ++ [b])).env.opened = rs ++ (blocks cfg World.new bs).env.opened ∧
      (blocks cfg World.new (bs ++ [b])).env.closed = rs.reverse ++ (blocks cfg World.new bs).env.closed ∧
      ((block cfg (blocks cfg World.new bs) b).2 = (if b.failed then some .body else none) ∨
        (block cfg (blocks cfg World.new bs) b).2 = some .cancelled) ∧
      (.cancelled ∉ b.leaving →
        (block cfg (blocks cfg World.new bs) b).2 = if b.failed then some .body else none) := by
  obtain ⟨rs, h1, h2, _, _, _, h6⟩ := block_entered (Between.new.blocks bs hs).idle he
  have : blocks cfg World.new (bs ++ [b]) = (block cfg (blocks cfg World.new bs) b).1 := by
    simp [blocks, List.foldl_append]
  rw [this]
  exact ⟨rs, h1, h2, h6⟩

/-- While a docket is in use, or held to be in use, entering it is refused and nothing is opened
or closed. -/
theorem C93_not_reentrant (cfg : Settings) (w : World) (os : List Outcome) (h : w.docket.redis.connected = true) :
    (step cfg w (.enter os)).2 = some .assertion ∧
    (step cfg w (.enter os)).1.env.opened = w.env.opened ∧ (step cfg w (.enter os)).1.env.closed = w.env.closed ∧
    (step cfg w (.enter os)).1.docket.redis.connected = true := by
  simp only [step, enter, enterConn, if_pos h]
  exact ⟨trivial, trivial, trivial, h⟩

/-! ## Disagreements -/

/-- A docket with a result storage of the user's, whose `setup` fails. -/
def setupFails : Block := ⟨[.ok, .ok, .error], [], false⟩

/-- **Disagreement.**  When entering a docket fails after its first step, for example because
the `setup` of the user's result storage raises or the caller is cancelled there, nothing of
what was opened is closed: the connection pools stay open and the strike monitor goes on
running (docket.py:218-247 does not unwind its stack when it raises). -/
theorem C93_violated : ¬ C93_statement := by
  intro h
  have := (h ⟨.pool, some true⟩ [setupFails]).1.1 0
  revert this
  decide +kernel

/-- **Disagreement.**  After that the docket can never be entered again: every attempt is
refused as if it were in use. -/
theorem C93_violated_stuck (bs : List Block) (b : Block) :
    (block ⟨.pool, some true⟩ (blocks ⟨.pool, some true⟩ World.new (setupFails :: bs)) b).2 = some .assertion := by
  have key : ∀ (bs : List Block) w, w.docket.redis.connected = true →
      (blocks ⟨.pool, some true⟩ w bs).docket.redis.connected = true := by
    intro bs
    induction bs with
    | nil => intro w h; exact h
    | cons b bs ih =>
      intro w h
      have hr := C93_not_reentrant ⟨.pool, some true⟩ w b.entering h
      refine ih (block _ w b).1 ?_
      unfold block
      cases hs : step ⟨.pool, some true⟩ w (.enter b.entering) with
      | mk w' x =>
        rw [hs] at hr
        obtain ⟨h1, _, _, h4⟩ := hr
        simp only at h1
        subst h1
        exact h4
  have hc := key bs (block ⟨.pool, some true⟩ World.new setupFails).1 (by decide +kernel)
  have hr := C93_not_reentrant ⟨.pool, some true⟩ _ b.entering hc
  show (block _ (blocks _ (block ⟨.pool, some true⟩ World.new setupFails).1 bs) b).2 = _
  unfold block at hr ⊢
  cases hs : step ⟨.pool, some true⟩ (blocks ⟨.pool, some true⟩ (block ⟨.pool, some true⟩ World.new setupFails).1 bs) (.enter b.entering) with
  | mk w' x =>
    unfold block at hs
    rw [hs] at hr
    obtain ⟨h1, _⟩ := hr
    simp only at h1
    subst h1
    rw [hs]

/-- Calls one after the other. -/
def calls (cfg : Settings) (w : World) (ops : List Op) : World := ops.foldl (fun w o => (step cfg w o).1) w

/-- An attempt to enter a docket that is in use is refused, and makes no difference to it. -/
def C93_refusal_harmless : Prop :=
  ∀ cfg os, let w := (step cfg World.new (.enter [])).1
    let w' := (step cfg w (.enter os)).1
    w'.docket.strikes = w.docket.strikes ∧ Released (step cfg w' (.leave [] false)).1

/-- **Disagreement.**  Entering a docket that is already entered is refused, but by then it has
a new, unconnected strike list (strikes are no longer seen or sent) and a new, empty stack, so
that leaving it closes nothing. -/
theorem C93_violated_refusal : ¬ C93_refusal_harmless := by
  intro h
  have := (h ⟨.pool, none⟩ []).1
  revert this
  decide +kernel

/-- The second half of it on its own. -/
theorem C93_violated_refusal_leaks :
    ¬ Released (calls ⟨.pool, none⟩ World.new [.enter [], .enter [], .leave [] false]) := by
  intro h
  have := h.1 0
  revert this
  decide +kernel

/-! ## Examples -/

/-- Smooth blocks, with failing bodies and failing and cancelled closings. -/
example : Smooth ⟨.pool, none⟩ World.new
    [⟨[], [], false⟩, ⟨[.error], [], false⟩, ⟨[], [.error, .cancelled, .error], true⟩, ⟨[.ok, .ok, .ok, .ok], [], true⟩] := by
  decide +kernel

example : let w := blocks ⟨.pool, none⟩ World.new [⟨[], [.error, .cancelled], true⟩]
    w.env.opened = [4, 3, 2, 1, 0] ∧ w.env.closed = [0, 1, 2, 3, 4] ∧
    (block ⟨.pool, none⟩ World.new ⟨[], [.error, .cancelled], true⟩).2 = some .cancelled := by decide +kernel

example : Smooth ⟨.cluster, some true⟩ World.new [⟨[], [], false⟩, ⟨[.cancelled], [], false⟩, ⟨[], [], true⟩] := by
  decide +kernel

end Docket.Ctx
