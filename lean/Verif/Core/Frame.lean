import Verif.Core.Known
/-
Steps of one task key leave the data of every other key alone.
-/
namespace Docket
open Redis

/-- The task key an operation is about: the one it names, or the one of the execution it
names.  `none` for operations about the whole docket, the clock or a worker. -/
def keyOf (s : Sys) : Op → Option Key
  | .add k _ _ | .replace k _ _ | .cancel k | .cancelTtl k => some k
  | .increment k _ | .setTotal k _ | .setMessage k _ => some k
  | .claim pid | .strikeOut pid | .store pid _ | .abandon pid => (s.proc? pid).map (·.msg.key)
  | .finish pid _ _ _ | .reschedule pid _ _ _ => (s.proc? pid).map (·.msg.key)
  | _ => none

/-- Everything the docket and its workers hold about one task key. -/
structure View where
  record : Option Run
  parked : Option Msg
  scheduled : List (Key × Time)
  messages : List (MsgId × Msg)
  progress : Option Prog
  result : Option Stored
  executions : List Proc
  announced : List Published
  leases : List Pend
  deriving DecidableEq

/-- The part of the state that belongs to `k`.  A pending entry belongs to `k` when the
stream message with its id does. -/
def viewOf (s : Sys) (k : Key) : View where
  record := s.r.runs k
  parked := s.r.parked k
  scheduled := s.r.queue.filter (fun e => e.1 = k)
  messages := s.r.stream.filter (fun e => e.2.key = k)
  progress := s.r.progress k
  result := s.results k
  executions := s.procs.filter (fun p => p.msg.key = k)
  announced := s.r.published.filter (fun x => x.key = k)
  leases := s.r.pending.filter (fun x => s.r.stream.any (fun e => e.1 = x.id ∧ e.2.key = k))

theorem filter_filter_self {α : Type} {l : List α} {f g : α → Bool} (h : ∀ x ∈ l, g x → f x) :
    (l.filter f).filter g = l.filter g := by
  rw [List.filter_filter]
  apply List.filter_congr
  intro x hx
  cases hg : g x with
  | false => rfl
  | true => simp [h x hx hg]

theorem zinsert_filter {k k' : Key} {t : Time} (h : k' ≠ k) (q : List (Key × Time)) :
    (zinsert k t q).filter (fun e => e.1 = k') = q.filter (fun e => e.1 = k') := by
  induction q with
  | nil => simp [zinsert, Ne.symm h]
  | cons e es ih =>
    simp only [zinsert]
    split
    · rw [List.filter_cons_of_neg (by simp [Ne.symm h])]
    · simp only [List.filter_cons, ih]

theorem queue_filter {k k' : Key} (h : k' ≠ k) (q : List (Key × Time)) :
    (q.filter (fun e => e.1 ≠ k)).filter (fun e => e.1 = k') = q.filter (fun e => e.1 = k') := by
  apply filter_filter_self
  intro x _ hx
  simp only [decide_eq_true_eq] at hx
  simp [hx, h]

theorem published_filter {k k' : Key} (h : k' ≠ k) (st : RunState) (l : List Published) :
    ((⟨k, st⟩ : Published) :: l).filter (fun x => x.key = k') = l.filter (fun x => x.key = k') := by
  rw [List.filter_cons_of_neg (by simp [Ne.symm h])]

theorem stream_append {k k' : Key} (h : k' ≠ k) (st : List (MsgId × Msg)) (id : MsgId) (m : Msg)
    (hm : m.key = k) : (st ++ [(id, m)]).filter (fun e => e.2.key = k') =
      st.filter (fun e => e.2.key = k') := by
  rw [List.filter_append]
  simp [hm, Ne.symm h]

theorem any_append {k k' : Key} (h : k' ≠ k) (st : List (MsgId × Msg)) (id : MsgId) (m : Msg)
    (hm : m.key = k) (i : MsgId) : (st ++ [(id, m)]).any (fun e => e.1 = i ∧ e.2.key = k') =
      st.any (fun e => e.1 = i ∧ e.2.key = k') := by
  simp [hm, Ne.symm h]

theorem dropOwn_filter {s : Sys} (hw : WF s) {k k' : Key} (h : k' ≠ k) :
    (dropOwn s.r k).filter (fun e => e.2.key = k') = s.r.stream.filter (fun e => e.2.key = k') := by
  simp only [dropOwn]
  cases hs : s.r.streamIdOf k with
  | none => rfl
  | some id =>
    apply filter_filter_self
    intro x hx hk
    simp only [decide_eq_true_eq] at hk ⊢
    simp only [Redis.streamIdOf, Option.bind_eq_some_iff] at hs
    obtain ⟨v, hv, hid⟩ := hs
    intro hc
    exact h (hk.symm.trans ((hw.sid k v id hv hid).2 x hx hc))

theorem any_of_filter {k : Key} {a b : List (MsgId × Msg)}
    (h : a.filter (fun e => e.2.key = k) = b.filter (fun e => e.2.key = k)) (i : MsgId) :
    a.any (fun e => e.1 = i ∧ e.2.key = k) = b.any (fun e => e.1 = i ∧ e.2.key = k) := by
  have key : ∀ l : List (MsgId × Msg), l.any (fun e => e.1 = i ∧ e.2.key = k) =
      (l.filter (fun e => e.2.key = k)).any (fun e => e.1 = i) := by
    intro l
    rw [List.any_filter]
    congr 1
    funext e
    by_cases h1 : e.1 = i <;> by_cases h2 : e.2.key = k <;> simp [h1, h2]
  rw [key, key, h]

theorem own_filter {s : Sys} (hw : WF s) {p : Proc} (hp : p ∈ s.procs) {k' : Key}
    (h : k' ≠ p.msg.key) :
    (s.r.stream.filter (fun e => e.1 ≠ p.id)).filter (fun e => e.2.key = k') =
      s.r.stream.filter (fun e => e.2.key = k') := by
  apply filter_filter_self
  intro x hx hk
  simp only [decide_eq_true_eq] at hk ⊢
  intro hc
  have := (hw.procs.1 p hp).2.2 x hx hc
  exact h (by rw [← this]; exact hk.symm)

theorem procs_drop {s : Sys} (hw : WF s) {p : Proc} (hp : p ∈ s.procs) {k' : Key}
    (h : k' ≠ p.msg.key) :
    (s.procs.filter (fun x => x.pid ≠ p.pid)).filter (fun x => x.msg.key = k') =
      s.procs.filter (fun x => x.msg.key = k') := by
  apply filter_filter_self
  intro x hx hk
  simp only [decide_eq_true_eq] at hk ⊢
  intro hc
  have h1 := proc?_of_mem hw hx
  rw [hc, proc?_of_mem hw hp] at h1
  have := Option.some.inj h1
  subst this
  exact h hk.symm

theorem procs_phase {s : Sys} (hw : WF s) {p : Proc} (hp : p ∈ s.procs) {k' : Key}
    (h : k' ≠ p.msg.key) (ph : Phase) :
    (s.procs.map (fun x => if x.pid = p.pid then { x with phase := ph } else x)).filter
      (fun x => x.msg.key = k') = s.procs.filter (fun x => x.msg.key = k') := by
  have huniq : ∀ x ∈ s.procs, x.pid = p.pid → x = p := by
    intro x hx hc
    have h1 := proc?_of_mem hw hx
    rw [hc, proc?_of_mem hw hp] at h1
    exact (Option.some.inj h1).symm
  generalize s.procs = ps at huniq
  induction ps with
  | nil => rfl
  | cons a ps ih =>
    have ih := ih (fun x hx => huniq x (List.mem_cons_of_mem _ hx))
    simp only [List.map_cons, List.filter_cons]
    rw [ih]
    by_cases hc : a.pid = p.pid
    · have := huniq a List.mem_cons_self hc
      subst this
      simp [Ne.symm h]
    · simp [hc]

theorem pending_filter {s : Sys} (hw : WF s) {p : Proc} (hp : p ∈ s.procs) {k' : Key}
    (h : k' ≠ p.msg.key) :
    (s.r.pending.filter (fun x => x.id ≠ p.id)).filter
        (fun x => s.r.stream.any (fun e => e.1 = x.id ∧ e.2.key = k')) =
      s.r.pending.filter (fun x => s.r.stream.any (fun e => e.1 = x.id ∧ e.2.key = k')) := by
  apply filter_filter_self
  intro x hx hany
  simp only [List.any_eq_true, decide_eq_true_eq] at hany ⊢
  obtain ⟨e, he, h1, h2⟩ := hany
  intro hc
  have := (hw.procs.1 p hp).2.2 e he (h1.trans hc)
  exact h (by rw [← this]; exact h2.symm)

theorem view_frame (cfg : Cfg) {s : Sys} (hw : WF s) (op : Op) {k k' : Key}
    (hk : keyOf s op = some k) (hne : k' ≠ k) : viewOf (step cfg s op) k' = viewOf s k' := by
  have he := step_eff cfg s hw.queue op
  have hpid : ∀ {p : Proc}, p ∈ s.procs → (s.proc? p.pid).map (·.msg.key) = some p.msg.key := by
    intro p hp; rw [proc?_of_mem hw hp]; rfl
  have hpk : ∀ {p : Proc}, p ∈ s.procs → (s.proc? p.pid).map (·.msg.key) = some k →
      k' ≠ p.msg.key := by
    intro p hp h
    rw [hpid hp, Option.some.injEq] at h
    rw [h]; exact hne
  generalize Docket.step cfg s op = s' at he
  -- equality of views, component by component
  have mk : ∀ {s' : Sys}, s'.r.runs k' = s.r.runs k' → s'.r.parked k' = s.r.parked k' →
      s'.r.queue.filter (fun e => e.1 = k') = s.r.queue.filter (fun e => e.1 = k') →
      s'.r.stream.filter (fun e => e.2.key = k') = s.r.stream.filter (fun e => e.2.key = k') →
      s'.r.progress k' = s.r.progress k' → s'.results k' = s.results k' →
      s'.procs.filter (fun p => p.msg.key = k') = s.procs.filter (fun p => p.msg.key = k') →
      s'.r.published.filter (fun x => x.key = k') = s.r.published.filter (fun x => x.key = k') →
      s'.r.pending.filter (fun x => s.r.stream.any (fun e => e.1 = x.id ∧ e.2.key = k')) =
        s.r.pending.filter (fun x => s.r.stream.any (fun e => e.1 = x.id ∧ e.2.key = k')) →
      viewOf s' k' = viewOf s k' := by
    intro s' h1 h2 h3 h4 h5 h6 h7 h8 h9
    have h10 : (fun x : Pend => s'.r.stream.any (fun e => e.1 = x.id ∧ e.2.key = k')) =
        fun x : Pend => s.r.stream.any (fun e => e.1 = x.id ∧ e.2.key = k') := by
      funext x; exact any_of_filter h4 x.id
    simp only [viewOf, h1, h2, h3, h4, h5, h6, h7, h8]
    rw [h10, h9]
  cases he with
  | nop => rfl
  | addNow k1 q t ht hwh hx =>
    simp only [keyOf, Option.some.injEq] at hk; subst hk
    exact mk (upd_other _ _ _ _ hne) rfl rfl (stream_append hne _ _ _ rfl) rfl rfl rfl
      (published_filter hne _ _) rfl
  | addLater k1 q t ht hwh hx =>
    simp only [keyOf, Option.some.injEq] at hk; subst hk
    exact mk (upd_other _ _ _ _ hne) (upd_other _ _ _ _ hne)
      ((zinsert_filter hne _).trans (queue_filter hne _)) rfl rfl rfl rfl
      (published_filter hne _ _) rfl
  | replaceNow k1 q t ht hwh =>
    simp only [keyOf, Option.some.injEq] at hk; subst hk
    exact mk (upd_other _ _ _ _ hne) (upd_other _ _ _ _ hne) (queue_filter hne _)
      ((stream_append hne _ _ _ rfl).trans (dropOwn_filter hw hne)) rfl rfl rfl
      (published_filter hne _ _) rfl
  | replaceLater k1 q t ht hwh =>
    simp only [keyOf, Option.some.injEq] at hk; subst hk
    exact mk (upd_other _ _ _ _ hne) (upd_other _ _ _ _ hne)
      ((zinsert_filter hne _).trans (queue_filter hne _)) (dropOwn_filter hw hne) rfl rfl rfl
      (published_filter hne _ _) rfl
  | cancel k1 =>
    simp only [keyOf, Option.some.injEq] at hk; subst hk
    exact mk (upd_other _ _ _ _ hne) (upd_other _ _ _ _ hne) (queue_filter hne _)
      (dropOwn_filter hw hne) (upd_other _ _ _ _ hne) rfl rfl rfl rfl
  | cancelTtl k1 hk1 =>
    simp only [keyOf, Option.some.injEq] at hk; subst hk
    exact mk (upd_other _ _ _ _ hne) rfl rfl rfl rfl rfl rfl rfl rfl
  | abandon pid =>
    simp only [keyOf, Option.map_eq_some_iff] at hk
    obtain ⟨p, hp, rfl⟩ := hk
    obtain ⟨h1, rfl⟩ := find_pid hp
    exact mk rfl rfl rfl rfl rfl rfl (procs_drop hw h1 hne) rfl rfl
  | strikeOut p hp hph =>
    have hne := hpk hp hk
    exact mk (upd_other _ _ _ _ hne) rfl rfl rfl rfl rfl (procs_phase hw hp hne _) rfl rfl
  | claimSuperseded p hp hph hs =>
    have hne := hpk hp hk
    exact mk rfl rfl rfl (own_filter hw hp hne) rfl rfl (procs_drop hw hp hne) rfl
      (pending_filter hw hp hne)
  | claim p hp hph hs =>
    have hne := hpk hp hk
    exact mk (upd_other _ _ _ _ hne) rfl rfl rfl (upd_other _ _ _ _ hne) rfl
      (procs_phase hw hp hne _) (published_filter hne _ _) rfl
  | store p data hp hph httl =>
    have hne := hpk hp hk
    exact mk rfl rfl rfl rfl rfl (upd_other _ _ _ _ hne) rfl rfl rfl
  | finish p st e w hp hph hs =>
    have hne := hpk hp hk
    exact mk (upd_other _ _ _ _ hne) rfl rfl (own_filter hw hp hne) (upd_other _ _ _ _ hne) rfl
      (procs_drop hw hp hne) (published_filter hne _ _) (pending_filter hw hp hne)
  | finishSuperseded p st e w hp hph hs =>
    have hne := hpk hp hk
    have hprog : supersededProgress s.r p.msg.key p.msg.gen k' = s.r.progress k' := by
      simp only [supersededProgress]
      cases (s.r.progress p.msg.key).bind (·.gen) with
      | none => exact upd_other _ _ _ _ hne
      | some pg =>
        simp only
        split
        · exact upd_other _ _ _ _ hne
        · rfl
    exact mk rfl rfl rfl (own_filter hw hp hne) hprog rfl
      (procs_drop hw hp hne) (published_filter hne _ _) (pending_filter hw hp hne)
  | rescheduleNow p t a d q hp hph hq hd hwh =>
    have hne := hpk hp hk
    exact mk (upd_other _ _ _ _ hne) rfl rfl
      ((stream_append hne _ _ ⟨p.msg.key, q, s.r.nextGen p.msg.key⟩ rfl).trans
        (own_filter hw hp hne)) rfl rfl
      (procs_drop hw hp hne) (published_filter hne _ _) (pending_filter hw hp hne)
  | rescheduleLater p t a d q hp hph hq hd hwh =>
    have hne := hpk hp hk
    exact mk (upd_other _ _ _ _ hne) (upd_other _ _ _ _ hne)
      ((zinsert_filter hne _).trans (queue_filter hne _)) (own_filter hw hp hne) rfl rfl
      (procs_drop hw hp hne) (published_filter hne _ _) (pending_filter hw hp hne)
  | prog op k1 f hop =>
    have : k1 = k := by
      rcases hop with ⟨n, rfl, _⟩ | ⟨n, rfl, _⟩ | ⟨n, rfl, _⟩ <;>
        simpa [keyOf] using hk
    subst this
    exact mk rfl rfl rfl rfl (upd_other _ _ _ _ hne) rfl rfl rfl rfl
  | clear op j js hop =>
    rcases hop with ⟨rfl, _⟩ | ⟨rfl, _⟩ <;> simp [keyOf] at hk
  | _ => simp [keyOf] at hk

end Docket
