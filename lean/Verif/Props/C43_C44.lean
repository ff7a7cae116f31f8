import Verif.Worker.Loop
/-
C43 A worker never runs more tasks than its concurrency.
C44 run_at_most() bounds the executions of each limited key.
-/
namespace Docket.Loop

theorem setPhase_length (s : St) (u : Nat) (p : Phase) : (s.setPhase u p).active.length = s.active.length := by
  simp [St.setPhase]

theorem setPhase_uids (s : St) (u : Nat) (p : Phase) :
    (s.setPhase u p).active.map Task.uid = s.active.map Task.uid := by
  simp only [St.setPhase, List.map_map]
  apply List.map_congr_left
  intro t _
  simp only [Function.comp]
  split <;> rfl

/-- What the operations of tasks and signals leave alone. -/
structure Same (s s' : St) : Prop where
  pc : s'.pc = s.pc
  uids : s'.active.map Task.uid = s.active.map Task.uid
  byKey : s'.byKey = s.byKey
  slots : s'.slots = s.slots
  next : s'.next = s.next
  asks : s'.asks = s.asks

theorem Same.refl (s : St) : Same s s := ⟨rfl, rfl, rfl, rfl, rfl, rfl⟩

theorem Same.setPhase (s : St) (u : Nat) (p : Phase) : Same s (s.setPhase u p) :=
  ⟨rfl, setPhase_uids s u p, rfl, rfl, rfl, rfl⟩

theorem Same.trans {a b c : St} (h : Same a b) (g : Same b c) : Same a c :=
  ⟨g.pc.trans h.pc, g.uids.trans h.uids, g.byKey.trans h.byKey, g.slots.trans h.slots,
   g.next.trans h.next, g.asks.trans h.asks⟩

theorem Same.length {a b : St} (h : Same a b) : b.active.length = a.active.length := by
  have := congrArg List.length h.uids
  simpa using this

theorem interrupt_same (s : St) (t : Task) (b : Bool) : Same s (interrupt s t b) := by
  simp only [interrupt]
  split
  · exact Same.refl _
  · split
    · exact ⟨rfl, rfl, rfl, rfl, rfl, rfl⟩
    · exact Same.trans (b := { s with interrupted := t.uid :: s.interrupted }) ⟨rfl, rfl, rfl, rfl, rfl, rfl⟩ (Same.setPhase _ _ _)
  · exact Same.trans (b := { s with interrupted := t.uid :: s.interrupted }) ⟨rfl, rfl, rfl, rfl, rfl, rfl⟩ (Same.setPhase _ _ _)

/-- The operations of the main loop. -/
def Op.isLoop : Op → Bool
  | .loop _ | .leave | .rerun => true
  | _ => false

theorem step_same (cfg : Cfg) (s : St) (op : Op) (h : op.isLoop = false) : Same s (step cfg s op) := by
  cases op with
  | loop r => cases h
  | leave => cases h
  | rerun => cases h
  | check u b =>
    simp only [step]
    split
    · split <;> exact Same.setPhase _ _ _
    · exact Same.refl _
  | struck u =>
    simp only [step]
    split
    · exact Same.setPhase _ _ _
    · exact Same.refl _
  | claimed u ok =>
    simp only [step]
    split
    · rename_i k _
      split
      · exact Same.trans (b := { s with
          counts := if (cfg.limits k).isSome then updKey s.counts k (s.counts k + 1) else s.counts
          started := k :: s.started }) ⟨rfl, rfl, rfl, rfl, rfl, rfl⟩ (Same.setPhase _ _ _)
      · exact Same.setPhase _ _ _
    · exact Same.refl _
  | ends u e =>
    simp only [step]
    split
    · split
      · split
        · exact Same.refl _
        · exact Same.setPhase _ _ _
      · exact Same.setPhase _ _ _
    · exact Same.refl _
  | recorded u ok =>
    simp only [step]
    split
    · exact Same.setPhase _ _ _
    · exact Same.refl _
  | signal k b =>
    simp only [step]
    split
    · exact Same.refl _
    · split
      · exact Same.refl _
      · split
        · exact Same.refl _
        · exact interrupt_same _ _ _

/-- The invariant of C43. -/
structure SlotInv (cfg : Cfg) (s : St) : Prop where
  bound : s.active.length ≤ cfg.concurrency
  starting : ∀ r ms, s.pc = .starting r ms →
    s.slots = (cfg.concurrency : Int) - s.active.length ∧ (ms.length : Int) ≤ s.slots
  asks : ∀ a ∈ s.asks, 1 ≤ a.1 ∧ a.1 + a.2 ≤ cfg.concurrency

theorem SlotInv.same {cfg : Cfg} {s s' : St} (h : SlotInv cfg s) (hs : Same s s') : SlotInv cfg s' :=
  ⟨by rw [hs.length]; exact h.bound,
   fun r ms hp => by rw [hs.slots, hs.length]; exact h.starting r ms (hs.pc ▸ hp),
   by rw [hs.asks]; exact h.asks⟩

theorem ask_inv {cfg : Cfg} {s : St} (hb : s.active.length ≤ cfg.concurrency)
    (ha : ∀ a ∈ s.asks, 1 ≤ a.1 ∧ a.1 + a.2 ≤ cfg.concurrency)
    (hs : s.slots = (cfg.concurrency : Int) - s.active.length) (hp : ¬ s.slots ≤ 0)
    (r : Bool) (reply : List (Option Key)) : SlotInv cfg (ask s r reply) := by
  refine ⟨hb, ?_, ?_⟩
  · intro r' ms he
    simp only [ask, PC.starting.injEq] at he
    refine ⟨hs, ?_⟩
    rw [← he.2]
    have := List.length_take_le s.slots.toNat reply
    simp only [ask]
    omega
  · intro a he
    simp only [ask, List.mem_cons] at he
    rcases he with rfl | he
    · simp only
      omega
    · exact ha a he

theorem loopStep_inv {cfg : Cfg} {s : St} (h : SlotInv cfg s) (reply : List (Option Key)) :
    SlotInv cfg (loopStep cfg s reply) := by
  unfold loopStep
  split
  · exact ⟨h.bound, by simp, h.asks⟩
  · rename_i u rest hp
    unfold completeOne
    split
    · exact ⟨h.bound, by simp, h.asks⟩
    · refine ⟨Nat.le_trans (List.length_filter_le _ _) h.bound, ?_, h.asks⟩
      intro r ms he
      dsimp only at he
      split at he <;> simp at he
  · dsimp only
    split
    · exact ⟨h.bound, by simp, h.asks⟩
    · rename_i hsl
      exact ask_inv (s := { s with slots := (cfg.concurrency : Int) - s.active.length }) h.bound h.asks rfl hsl _ _
  · rename_i r m ms hp
    obtain ⟨h1, h2⟩ := h.starting r (m :: ms) hp
    simp only [List.length_cons] at h2
    cases m with
    | none =>
      refine ⟨h.bound, ?_, h.asks⟩
      intro r' ms' he
      simp only [PC.starting.injEq] at he
      obtain ⟨_, rfl⟩ := he
      exact ⟨h1, by simp only; omega⟩
    | some k =>
      refine ⟨?_, ?_, h.asks⟩
      · simp only [startTask, List.length_append, List.length_singleton]
        omega
      · intro r' ms' he
        simp only [startTask, PC.starting.injEq] at he
        obtain ⟨_, rfl⟩ := he
        simp only [startTask, List.length_append, List.length_singleton]
        refine ⟨by omega, by omega⟩
  · rename_i hp
    obtain ⟨h1, h2⟩ := h.starting _ _ hp
    split
    · exact ⟨h.bound, by simp, h.asks⟩
    · rename_i hsl
      exact ask_inv h.bound h.asks h1 hsl _ _
  · exact ⟨h.bound, by simp, h.asks⟩
  · exact h

theorem SlotInv.run (cfg : Cfg) (ops : List Op) : SlotInv cfg (run cfg ops) := by
  refine run_induction cfg (SlotInv cfg) ⟨Nat.zero_le _, by simp, by simp⟩ ?_ ops
  intro ops op h
  by_cases hl : op.isLoop = false
  · exact h.same (step_same cfg _ op hl)
  · cases op with
    | loop r => exact loopStep_inv h r
    | leave => exact ⟨h.bound, by simp [step], h.asks⟩
    | rerun =>
      simp only [step]
      split
      · exact ⟨Nat.zero_le _, by simp, h.asks⟩
      · exact h
    | _ => exact absurd rfl hl

/-- The tasks a worker has in progress. -/
def St.inProgress (s : St) : List Task := s.active.filter (fun t => !t.phase.isDone)

/-- **C43**: in every history, the tasks in progress are at most the concurrency; whenever
Redis was asked for messages, at least one and at most as many as there were free slots were
asked for; and the messages received and not yet started fit in the free slots. -/
theorem C43_concurrency (cfg : Cfg) (ops : List Op) :
    (run cfg ops).inProgress.length ≤ cfg.concurrency ∧
    (∀ n active, (n, active) ∈ (run cfg ops).asks → 1 ≤ n ∧ n + active ≤ cfg.concurrency) ∧
    (∀ r ms, (run cfg ops).pc = .starting r ms → ms.length + (run cfg ops).active.length ≤ cfg.concurrency) := by
  have h := SlotInv.run cfg ops
  refine ⟨Nat.le_trans (List.length_filter_le _ _) h.bound, fun n a hm => h.asks _ hm, ?_⟩
  intro r ms hp
  obtain ⟨h1, h2⟩ := h.starting r ms hp
  omega

/-- The bound is reached: concurrency 2, three messages waiting. -/
example :
    let ops : List Op := [.loop [], .loop [some 1], .loop [], .loop [some 2, some 3], .loop [],
      .check 0 false, .check 1 false, .claimed 0 true, .claimed 1 true, .loop [], .loop [], .loop []]
    (run { concurrency := 2 } ops).inProgress.length = 2 ∧
      (run { concurrency := 2 } ops).asks = [(1, 1), (2, 0)] := by
  decide +kernel

/-- **C43**: a worker with a free slot asks for work: from the top of the loop, once the
ended tasks have been processed (none of them with an exception), Redis is asked if fewer
than `concurrency` tasks are active. -/
theorem C43_asks (cfg : Cfg) (s : St) (hpc : s.pc = .completing []) (h : s.active.length < cfg.concurrency)
    (reply : List (Option Key)) :
    ((cfg.concurrency : Int) - s.active.length, s.active.length) ∈ (step cfg s (.loop reply)).asks ∧
    (step cfg s (.loop reply)).pc = .starting true (reply.take (cfg.concurrency - s.active.length)) := by
  simp only [step, loopStep, hpc]
  rw [if_neg (by omega)]
  refine ⟨by simp [ask], ?_⟩
  simp only [ask, PC.starting.injEq, true_and]
  congr 1
  omega

/-! ### C44 -/

theorem find_mem {s : St} {u : Nat} {t : Task} (h : s.find u = some t) : t ∈ s.active ∧ t.uid = u := by
  refine ⟨List.mem_of_find?_eq_some h, ?_⟩
  have := List.find?_some h
  simpa using this

/-- The tasks of a key that were let through by the strike list and wait for their claim. -/
def St.claiming (s : St) (k : Key) : List Task := s.active.filter (fun t => t.key = k ∧ t.phase = .claiming)

/-- In this history, tasks of the key are started one after the other: none is let through
while another waits for its claim. -/
def OneAtATime (cfg : Cfg) (k : Key) (ops : List Op) : Prop :=
  ∀ pre u b, pre ++ [Op.check u b] <+: ops → (run cfg pre).claiming k = []

/-- The executions of a key that were started. -/
def St.starts (s : St) (k : Key) : Nat := (s.started.filter (fun x => x = k)).length

theorem claiming_setPhase {s : St} {u : Nat} {t : Task} (hd : (s.active.map Task.uid).Nodup)
    (hf : s.find u = some t) (p : Phase) (k : Key) :
    ((s.setPhase u p).claiming k).length + (if t.key = k ∧ t.phase = .claiming then 1 else 0) =
      (s.claiming k).length + (if t.key = k ∧ p = .claiming then 1 else 0) := by
  simp only [St.claiming, St.setPhase]
  simp only [St.find] at hf
  generalize s.active = l at *
  induction l with
  | nil => cases hf
  | cons x l ih =>
    simp only [List.map_cons, List.nodup_cons] at hd
    simp only [List.find?_cons] at hf
    by_cases hx : x.uid = u
    · simp only [hx, decide_true, Option.some.injEq] at hf
      subst hf
      have hrest : l.map (fun t => if t.uid = u then { t with phase := p } else t) = l := by
        conv => rhs; rw [← List.map_id l]
        apply List.map_congr_left
        intro y hy
        rw [if_neg]
        · rfl
        · intro hc
          exact hd.1 (by rw [hx, ← hc]; exact List.mem_map_of_mem hy)
      simp only [List.map_cons, hx, if_true, hrest, List.filter_cons]
      by_cases h1 : x.key = k <;> by_cases h2 : x.phase = .claiming <;> by_cases h3 : p = .claiming <;>
        simp [h1, h2, h3]
    · simp only [hx, decide_false] at hf
      have := ih hd.2 hf
      simp only [List.map_cons, if_neg hx, List.filter_cons]
      split
      · simp only [List.length_cons]; omega
      · omega

/-- The task identifiers are distinct. -/
structure UidInv (s : St) : Prop where
  nodup : (s.active.map Task.uid).Nodup
  lt : ∀ u ∈ s.active.map Task.uid, u < s.next

theorem UidInv.same {s s' : St} (h : UidInv s) (hs : Same s s') : UidInv s' :=
  ⟨by rw [hs.uids]; exact h.nodup, by rw [hs.uids, hs.next]; exact h.lt⟩

theorem UidInv.step {cfg : Cfg} {s : St} (h : UidInv s) (op : Op) : UidInv (step cfg s op) := by
  by_cases hl : op.isLoop = false
  · exact h.same (step_same cfg _ op hl)
  · cases op with
    | loop r =>
      simp only [Loop.step, loopStep]
      split
      · exact ⟨h.nodup, h.lt⟩
      · rename_i u _ _
        unfold completeOne
        split
        · exact ⟨h.nodup, h.lt⟩
        · have hsub := List.Sublist.map Task.uid (List.filter_sublist (p := fun x => decide (x.uid ≠ u)) (l := s.active))
          exact ⟨h.nodup.sublist hsub, fun u hu => h.lt u (hsub.subset hu)⟩
      · split
        · exact ⟨h.nodup, h.lt⟩
        · exact ⟨h.nodup, h.lt⟩
      · rename_i m _ _
        cases m with
        | none => exact ⟨h.nodup, h.lt⟩
        | some k =>
          refine ⟨?_, ?_⟩
          · simp only [startTask, List.map_append, List.map_cons, List.map_nil]
            rw [List.nodup_append]
            refine ⟨h.nodup, by simp, ?_⟩
            intro a ha b hb
            simp only [List.mem_singleton] at hb
            have := h.lt a ha
            omega
          · intro u hu
            simp only [startTask, List.map_append, List.map_cons, List.map_nil, List.mem_append,
              List.mem_singleton] at hu ⊢
            rcases hu with hu | hu
            · have := h.lt u hu; omega
            · omega
      · split
        · exact ⟨h.nodup, h.lt⟩
        · exact ⟨h.nodup, h.lt⟩
      · exact ⟨h.nodup, h.lt⟩
      · exact h
    | leave => exact ⟨h.nodup, h.lt⟩
    | rerun =>
      simp only [Loop.step]
      split
      · exact ⟨by simp, by simp⟩
      · exact h
    | _ => exact absurd rfl hl

theorem UidInv.run (cfg : Cfg) (ops : List Op) : UidInv (run cfg ops) :=
  run_induction cfg UidInv ⟨by simp, by simp⟩ (fun _ op h => h.step op) ops

/-- The bookkeeping of `run_at_most`. -/
structure CountInv (cfg : Cfg) (k : Key) (n : Nat) (s : St) : Prop where
  counted : s.counts k = s.starts k
  bound : s.counts k + (s.claiming k).length ≤ n

theorem claiming_filter_le (s : St) (p : Task → Bool) (k : Key) :
    ((s.active.filter p).filter (fun t => decide (t.key = k ∧ t.phase = .claiming))).length ≤ (s.claiming k).length := by
  simp only [St.claiming]
  exact (List.filter_sublist.filter _).length_le

theorem loop_count {cfg : Cfg} {k : Key} {n : Nat} {s : St} (h : CountInv cfg k n s) (op : Op)
    (hl : op.isLoop = true) : CountInv cfg k n (step cfg s op) := by
  have hc : (step cfg s op).counts = s.counts ∧ (step cfg s op).started = s.started ∧
      ((step cfg s op).claiming k).length ≤ (s.claiming k).length := by
    cases op with
    | loop r =>
      simp only [step, loopStep]
      split
      · exact ⟨rfl, rfl, Nat.le_refl _⟩
      · unfold completeOne
        split
        · exact ⟨rfl, rfl, Nat.le_refl _⟩
        · exact ⟨rfl, rfl, claiming_filter_le s _ k⟩
      · split
        · exact ⟨rfl, rfl, Nat.le_refl _⟩
        · exact ⟨rfl, rfl, Nat.le_refl _⟩
      · rename_i m _ _
        cases m with
        | none => exact ⟨rfl, rfl, Nat.le_refl _⟩
        | some k' =>
          refine ⟨rfl, rfl, ?_⟩
          simp [startTask, St.claiming]
      · split
        · exact ⟨rfl, rfl, Nat.le_refl _⟩
        · exact ⟨rfl, rfl, Nat.le_refl _⟩
      · exact ⟨rfl, rfl, Nat.le_refl _⟩
      · exact ⟨rfl, rfl, Nat.le_refl _⟩
    | leave => exact ⟨rfl, rfl, Nat.le_refl _⟩
    | rerun =>
      simp only [step]
      split
      · exact ⟨rfl, rfl, Nat.zero_le _⟩
      · exact ⟨rfl, rfl, Nat.le_refl _⟩
    | _ => cases hl
  obtain ⟨h1, h2, h3⟩ := hc
  refine ⟨by rw [h1, St.starts, h2]; exact h.counted, ?_⟩
  rw [h1]
  have := h.bound
  omega

theorem setPhase_count {cfg : Cfg} {k : Key} {n : Nat} {s : St} (h : CountInv cfg k n s) (hu : UidInv s)
    {u : Nat} {t : Task} (hf : s.find u = some t) {p : Phase} (hp : p ≠ .claiming) :
    CountInv cfg k n (s.setPhase u p) := by
  refine ⟨h.counted, ?_⟩
  have := claiming_setPhase hu.nodup hf p k
  simp only [hp, and_false, if_false] at this
  have hb := h.bound
  show s.counts k + _ ≤ n
  omega

theorem step_count {cfg : Cfg} {k : Key} {n : Nat} (hk : cfg.limits k = some n) {s : St}
    (h : CountInv cfg k n s) (hu : UidInv s) (op : Op)
    (h1 : ∀ u b, op = .check u b → s.claiming k = []) : CountInv cfg k n (step cfg s op) := by
  cases op with
  | loop r => exact loop_count h _ rfl
  | leave => exact loop_count h _ rfl
  | rerun => exact loop_count h _ rfl
  | check u b =>
    simp only [step]
    split
    · rename_i x k' hf
      split
      · exact setPhase_count h hu hf (by simp)
      · rename_i hnl
        have := claiming_setPhase hu.nodup hf .claiming k
        simp only [reduceCtorEq, and_false, if_false, and_true, Nat.add_zero] at this
        have h0 := h1 u b rfl
        refine ⟨h.counted, ?_⟩
        show s.counts k + _ ≤ n
        rw [this, h0]
        have hb := h.bound
        by_cases hkk : k' = k
        · subst hkk
          simp only [limited, hk, Bool.or_eq_true, decide_eq_true_eq, not_or] at hnl
          simp only [if_true, List.length_nil]
          omega
        · simp only [hkk, if_false, List.length_nil]
          omega
    · exact h
  | struck u =>
    simp only [step]
    split
    · rename_i hf; exact setPhase_count h hu hf (by simp)
    · exact h
  | claimed u ok =>
    simp only [step]
    split
    · rename_i x k' hf
      split
      · have := claiming_setPhase hu.nodup hf .running k
        simp only [reduceCtorEq, and_false, if_false, and_true, Nat.add_zero] at this
        have hb := h.bound
        have hcnt := h.counted
        refine ⟨?_, ?_⟩
        · show (if (cfg.limits k').isSome then updKey s.counts k' (s.counts k' + 1) else s.counts) k = _
          by_cases hkk : k' = k
          · subst hkk
            simp only [hk, Option.isSome_some, if_true, updKey, St.starts, St.setPhase,
              List.filter_cons, decide_true]
            simp only [List.length_cons]
            simpa [St.starts] using hcnt
          · have hkk' : ¬ k = k' := fun h => hkk h.symm
            have : (if (cfg.limits k').isSome then updKey s.counts k' (s.counts k' + 1) else s.counts) k = s.counts k := by
              split <;> simp [updKey, hkk']
            rw [this, hcnt]
            simp [St.starts, St.setPhase, hkk]
        · have hsame : (({ s with
              counts := if (cfg.limits k').isSome then updKey s.counts k' (s.counts k' + 1) else s.counts
              started := k' :: s.started } : St).setPhase u .running).claiming k = (s.setPhase u .running).claiming k := rfl
          rw [hsame]
          show (if (cfg.limits k').isSome then updKey s.counts k' (s.counts k' + 1) else s.counts) k + _ ≤ n
          by_cases hkk : k' = k
          · subst hkk
            simp only [hk, Option.isSome_some, if_true, updKey]
            simp only [if_true] at this
            omega
          · have hkk' : ¬ k = k' := fun h => hkk h.symm
            have h2 : (if (cfg.limits k').isSome then updKey s.counts k' (s.counts k' + 1) else s.counts) k = s.counts k := by
              split <;> simp [updKey, hkk']
            rw [h2]
            simp only [hkk, if_false] at this
            omega
      · exact setPhase_count h hu hf (by simp)
    · exact h
  | ends u e =>
    simp only [step]
    split
    · rename_i hf
      split
      · split
        · exact h
        · exact setPhase_count h hu hf (by simp)
      · exact setPhase_count h hu hf (by simp)
    · exact h
  | recorded u ok =>
    simp only [step]
    split
    · rename_i hf; exact setPhase_count h hu hf (by simp)
    · exact h
  | signal k' b =>
    simp only [step]
    split
    · exact h
    · split
      · exact h
      · split
        · exact h
        · rename_i u _ t hf
          obtain ⟨_, hue⟩ := find_mem hf
          have hf' : ({ s with interrupted := t.uid :: s.interrupted } : St).find t.uid = some t := by
            rw [hue]; exact hf
          have h' : CountInv cfg k n { s with interrupted := t.uid :: s.interrupted } := ⟨h.counted, h.bound⟩
          have hu' : UidInv { s with interrupted := t.uid :: s.interrupted } := ⟨hu.nodup, hu.lt⟩
          simp only [interrupt]
          split
          · exact h
          · split
            · exact h'
            · exact setPhase_count h' hu' hf' (by simp)
          · exact setPhase_count h' hu' hf' (by simp)

theorem count_run {cfg : Cfg} {k : Key} {n : Nat} (hk : cfg.limits k = some n) (ops : List Op)
    (h : OneAtATime cfg k ops) : CountInv cfg k n (run cfg ops) := by
  have : ∀ m (ops : List Op), ops.length = m → OneAtATime cfg k ops → CountInv cfg k n (run cfg ops) := by
    intro m
    induction m with
    | zero =>
      intro ops hl _
      rw [List.length_eq_zero_iff.1 hl]
      exact ⟨rfl, Nat.zero_le _⟩
    | succ m ih =>
      intro ops hl ho
      rcases List.eq_nil_or_concat ops with h' | ⟨ops', op, h'⟩
      · rw [h'] at hl; cases hl
      · rw [List.concat_eq_append] at h'
        subst h'
        rw [run_snoc]
        refine step_count hk (ih _ (by simpa using hl) ?_) (UidInv.run _ _) op ?_
        · intro pre u b hp
          exact ho pre u b (hp.trans (List.prefix_append _ _))
        · rintro u b rfl
          exact ho ops' u b (List.prefix_refl _)
  exact this _ ops rfl h

/-- **C44, partial**: with `run_at_most({k: n})`, if tasks of the key are started one after
the other, the key is started at most `n` times, in every such history.  What is missing:
starts of the same key that overlap, `C44_violated_overlap`. -/
theorem C44_at_most_partial (cfg : Cfg) (k : Key) (n : Nat) (hk : cfg.limits k = some n) (ops : List Op)
    (h : OneAtATime cfg k ops) : (run cfg ops).starts k ≤ n := by
  have := count_run hk ops h
  have h1 := this.counted
  have h2 := this.bound
  omega

/-- **C44**: keys that are not limited are not affected: a task of such a key is let through
exactly if the strike list lets it through. -/
theorem C44_others_unlimited (cfg : Cfg) (k : Key) (hk : cfg.limits k = none) (s : St) (u : Nat) (stricken : Bool)
    (hf : s.find u = some ⟨u, k, .created⟩) :
    step cfg s (.check u stricken) = s.setPhase u (if stricken then .striking else .claiming) := by
  simp only [step, hf, limited, hk, Bool.or_false]
  split
  · simp
  · simp

/-- **C44**: and the worker does start a limited key until the limit is reached. -/
theorem C44_not_before_limit (cfg : Cfg) (k : Key) (n : Nat) (hk : cfg.limits k = some n) (s : St) (u : Nat)
    (hf : s.find u = some ⟨u, k, .created⟩) :
    step cfg s (.check u false) = s.setPhase u (if s.counts k < n then .claiming else .striking) := by
  simp only [step, hf, limited, hk, Bool.false_or, decide_eq_true_eq]
  by_cases h : s.counts k < n
  · rw [if_neg (by omega), if_pos h]
  · rw [if_pos (by omega), if_neg h]

theorem oneAtATime_of_take {cfg : Cfg} {k : Key} {ops : List Op}
    (h : ∀ i < ops.length, (match ops[i]? with | some (.check ..) => true | _ => false) = true →
      (run cfg (ops.take i)).claiming k = []) : OneAtATime cfg k ops := by
  intro pre u b hp
  obtain ⟨rest, hr⟩ := hp
  have h1 : pre.length < ops.length := by rw [← hr]; simp
  have h2 : ops.take pre.length = pre := by rw [← hr]; simp
  have h3 : ops[pre.length]? = some (.check u b) := by rw [← hr]; simp
  have := h pre.length h1 (by rw [h3])
  rwa [h2] at this

/-- A history that meets the hypotheses: limit 1, two deliveries of key 5 after each other;
the second is struck. -/
def twice : List Op := [.loop [], .loop [some 5], .loop [], .check 0 false, .claimed 0 true, .ends 0 (some .returned),
  .loop [some 5], .loop [], .loop [], .check 1 false]

example : (run { concurrency := 3, limits := fun k => if k = 5 then some 1 else none } twice).starts 5 = 1 ∧
    (run { concurrency := 3, limits := fun k => if k = 5 then some 1 else none } twice).active =
      [⟨0, 5, .done .returned⟩, ⟨1, 5, .striking⟩] := by
  decide +kernel

example : OneAtATime { concurrency := 3, limits := fun k => if k = 5 then some 1 else none } 5 twice :=
  oneAtATime_of_take (by decide +kernel)

/-- The full statement of C44. -/
def C44_at_most : Prop :=
  ∀ (cfg : Cfg) (k : Key) (n : Nat) (ops : List Op), cfg.limits k = some n → (run cfg ops).starts k ≤ n

/-- **C44, violated**: two deliveries of the key that are both let through before the first
claim is answered (the count is only raised after the claim, worker.py:1028-1034) both run: a
redelivery of a message, or a task that replaced one which was being claimed. -/
theorem C44_violated_overlap : ¬ C44_at_most := by
  intro h
  have := h { concurrency := 2, limits := fun k => if k = 5 then some 1 else none } 5 1
    [.loop [], .loop [], .loop [some 5, some 5], .loop [], .loop [], .loop [], .check 0 false, .check 1 false,
     .claimed 0 true, .claimed 1 true] (by decide)
  revert this
  decide +kernel

end Docket.Loop
