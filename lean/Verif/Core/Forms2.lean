import Verif.Core.Forms
/-
Closed forms of the scheduler script, of `clear` and of handing out messages.
-/
namespace Docket
open Redis

/-- Pair messages with consecutive ids. -/
def numbered (i : MsgId) : List Msg → List (MsgId × Msg)
  | [] => []
  | m :: ms => (i, m) :: numbered (i + 1) ms

theorem mem_numbered {i : MsgId} {ms : List Msg} {e : MsgId × Msg} (h : e ∈ numbered i ms) :
    i ≤ e.1 ∧ e.1 < i + ms.length ∧ e.2 ∈ ms := by
  induction ms generalizing i with
  | nil => simp [numbered] at h
  | cons m ms ih =>
    simp only [numbered, List.mem_cons] at h
    rcases h with rfl | h
    · simp
    · have := ih h
      simp only [List.length_cons, List.mem_cons]
      grind

theorem numbered_of_mem {i : MsgId} {ms : List Msg} {m : Msg} (h : m ∈ ms) :
    ∃ id, (id, m) ∈ numbered i ms := by
  induction ms generalizing i with
  | nil => simp at h
  | cons a ms ih =>
    simp only [List.mem_cons] at h
    rcases h with rfl | h
    · exact ⟨i, by simp [numbered]⟩
    · obtain ⟨id, h⟩ := ih (i := i + 1) h
      exact ⟨id, by simp [numbered, h]⟩

theorem numbered_sorted (i : MsgId) (ms : List Msg) :
    (numbered i ms).Pairwise (fun a b => a.1 < b.1) := by
  induction ms generalizing i with
  | nil => simp [numbered]
  | cons m ms ih =>
    simp only [numbered, List.pairwise_cons]
    refine ⟨fun e he => ?_, ih _⟩
    have := mem_numbered he
    omega

theorem numbered_append (i : MsgId) (as bs : List Msg) :
    numbered i (as ++ bs) = numbered i as ++ numbered (i + as.length) bs := by
  induction as generalizing i with
  | nil => simp [numbered]
  | cons a as ih => simp [numbered, ih]; congr 1; omega

@[simp] theorem numbered_map_snd (i : MsgId) (ms : List Msg) :
    (numbered i ms).map (·.2) = ms := by
  induction ms generalizing i with
  | nil => rfl
  | cons m ms ih => simp [numbered, ih]

@[simp] theorem numbered_length (i : MsgId) (ms : List Msg) :
    (numbered i ms).length = ms.length := by
  induction ms generalizing i with
  | nil => rfl
  | cons m ms ih => simp [numbered, ih]

theorem numbered_map_fst (i : MsgId) (ms : List Msg) :
    (numbered i ms).map (·.1) = List.range' i ms.length := by
  induction ms generalizing i with
  | nil => rfl
  | cons m ms ih => simp [numbered, ih, List.range'_succ]

theorem filterMap_congr' {α β : Type} {f g : α → Option β} {l : List α}
    (h : ∀ a ∈ l, f a = g a) : l.filterMap f = l.filterMap g := by
  induction l with
  | nil => rfl
  | cons a l ih => simp [List.filterMap_cons, h a (by simp), ih (fun b hb => h b (by simp [hb]))]

/-- What the scheduler loop makes of Redis for the task keys `ks`. -/
def movedTo (r : Redis) (ks : List Key) : Redis :=
  { r with
    nextId := r.nextId + (ks.filterMap r.parked).length
    stream := r.stream ++ numbered r.nextId (ks.filterMap r.parked)
    parked := fun k => if k ∈ ks then none else r.parked k
    runs := fun k => if k ∈ ks ∧ (r.parked k).isSome then
      some { r.run k with state := some .queued } else r.runs k
    published := ((ks.filterMap r.parked).map (fun m => ⟨m.key, .queued⟩)).reverse ++ r.published }

theorem foldl_streamOne (ks : List Key) (hn : ks.Nodup) (r : Redis) (n : Nat)
    (hk : ∀ k m, r.parked k = some m → m.key = k) :
    ks.foldl streamOne (r, n) = (movedTo r ks, n + (ks.filterMap r.parked).length) := by
  induction ks generalizing r n with
  | nil => simp [movedTo, numbered]
  | cons k ks ih =>
    simp only [List.nodup_cons] at hn
    obtain ⟨hk1, hn⟩ := hn
    cases hp : r.parked k with
    | none =>
      have h1 : streamOne (r, n) k = (r, n) := by simp [streamOne, hp]
      rw [List.foldl_cons, h1, ih hn r n hk]
      simp only [List.filterMap_cons, hp, Prod.mk.injEq, and_true]
      simp only [movedTo, List.filterMap_cons, hp]
      congr 1
      · funext k'
        by_cases h : k' = k
        · subst h; simp [hk1, hp]
        · simp [h]
      · funext k'
        by_cases h : k' = k
        · subst h; simp [hk1, hp]
        · simp [h]
    | some m =>
      have hmk := hk k m hp
      let r1 : Redis := { r with
        nextId := r.nextId + 1
        stream := r.stream ++ [(r.nextId, m)]
        parked := upd r.parked k none
        runs := upd r.runs k (some { r.run k with state := some .queued })
        published := ⟨k, .queued⟩ :: r.published }
      have h1 : streamOne (r, n) k = (r1, n + 1) := by
        simp [streamOne, hp, xadd, unpark, hsetRun, publish, hmk, r1, Redis.run]
      have hf : ks.filterMap r1.parked = ks.filterMap r.parked := by
        apply filterMap_congr'
        intro a ha
        have : a ≠ k := fun h => hk1 (h ▸ ha)
        simp [r1, upd, this]
      have hk' : ∀ k m, r1.parked k = some m → m.key = k := by
        intro k2 m2 h2
        simp only [r1, upd] at h2
        split at h2
        · simp at h2
        · exact hk _ _ h2
      rw [List.foldl_cons, h1, ih hn r1 (n + 1) hk']
      simp only [hf, List.filterMap_cons, hp, List.length_cons, Prod.mk.injEq]
      refine ⟨?_, by omega⟩
      simp only [movedTo, hf, List.filterMap_cons, hp, List.length_cons]
      have e1 : r1.nextId + (ks.filterMap r.parked).length
          = r.nextId + ((ks.filterMap r.parked).length + 1) := by simp only [r1]; omega
      have e2 : r1.stream ++ numbered r1.nextId (ks.filterMap r.parked)
          = r.stream ++ numbered r.nextId (m :: ks.filterMap r.parked) := by
        simp [r1, numbered]
      have e3 : (fun k' => if k' ∈ ks then none else r1.parked k')
          = (fun k' => if k' ∈ k :: ks then none else r.parked k') := by
        funext k'
        by_cases h : k' = k
        · subst h; simp [r1]
        · simp [h, r1, upd]
      have e4 : (fun k' => if k' ∈ ks ∧ (r1.parked k').isSome then
            some { r1.run k' with state := some .queued } else r1.runs k')
          = (fun k' => if k' ∈ k :: ks ∧ (r.parked k').isSome then
            some { r.run k' with state := some .queued } else r.runs k') := by
        funext k'
        by_cases h : k' = k
        · subst h; simp [r1, hk1, hp]
        · simp [h, r1, upd, Redis.run]
      have e5 : ((ks.filterMap r.parked).map (fun m => (⟨m.key, .queued⟩ : Published))).reverse
            ++ r1.published
          = ((m :: ks.filterMap r.parked).map (fun m => (⟨m.key, .queued⟩ : Published))).reverse
            ++ r.published := by
        simp [r1, hmk]
      rw [e1, e2, e3, e4, e5]

/-- Keys due at `t`. -/
def dueKeys (r : Redis) (t : Time) : List Key := (r.queue.filter (fun e => e.2 ≤ t)).map (·.1)

theorem luaStreamDue_eq (r : Redis) (t : Time)
    (hn : (r.queue.map (·.1)).Nodup)
    (hk : ∀ k m, r.parked k = some m → m.key = k) :
    luaStreamDue r t =
      ({ movedTo r (dueKeys r t) with
          queue := if ((dueKeys r t).filterMap r.parked).length > 0
            then r.queue.filter (fun e => ¬ e.2 ≤ t) else r.queue },
        (r.queue.length, ((dueKeys r t).filterMap r.parked).length)) := by
  have hd : (dueKeys r t).Nodup := by
    simp only [dueKeys]
    exact List.Sublist.nodup (List.Sublist.map _ List.filter_sublist) hn
  have := foldl_streamOne (dueKeys r t) hd r 0 hk
  simp only [luaStreamDue]
  simp only [dueKeys] at this ⊢
  rw [this]
  simp only [Nat.zero_add]
  by_cases hc : ((List.map (fun x => x.fst)
      (List.filter (fun e => decide (e.snd ≤ t)) r.queue)).filterMap r.parked).length > 0
  · simp only [hc, if_true]; rfl
  · simp only [hc, if_false]; rfl

theorem foldl_expire_unpark (ttl : Nat) (ks : List Key) (r : Redis) :
    ks.foldl (fun r k => expireRun ttl (r.unpark k) k) r =
      { r with parked := fun k => if k ∈ ks then none else r.parked k
               runs := fun k => if k ∈ ks then expiredRun ttl r k else r.runs k } := by
  induction ks generalizing r with
  | nil => simp
  | cons k ks ih =>
    rw [List.foldl_cons, ih, expireRun_eq]
    simp only [unpark]
    congr 1
    · funext k'
      by_cases h : k' = k <;> simp [h, upd]
    · funext k'
      by_cases h : k' = k
      · subst h
        by_cases hm : k' ∈ ks
        · simp [hm, expiredRun]; split <;> simp [Function.comp_def]
        · simp [hm, expiredRun]
      · simp [h, upd, expiredRun]

theorem foldl_expire (ttl : Nat) (ks : List Key) (r : Redis) :
    ks.foldl (fun r k => expireRun ttl r k) r =
      { r with runs := fun k => if k ∈ ks then expiredRun ttl r k else r.runs k } := by
  induction ks generalizing r with
  | nil => simp
  | cons k ks ih =>
    rw [List.foldl_cons, ih, expireRun_eq]
    simp only
    congr 1
    · funext k'
      by_cases h : k' = k
      · subst h
        by_cases hm : k' ∈ ks
        · simp [hm, expiredRun]; split <;> simp [Function.comp_def]
        · simp [hm, expiredRun]
      · simp [h, upd, expiredRun]

theorem clearWrite_eq (ttl : Nat) (r : Redis) (j : ClearJob) :
    clearWrite ttl r j =
      { r with
        stream := if j.streamCount > 0 then [] else r.stream
        queue := []
        parked := fun k => if k ∈ j.scheduledKeys then none else r.parked k
        runs := fun k => if k ∈ j.scheduledKeys ∨ k ∈ j.streamKeys then expiredRun ttl r k
                         else r.runs k } := by
  simp only [clearWrite]
  rw [foldl_expire_unpark, foldl_expire]
  by_cases hc : j.streamCount > 0
  all_goals
    simp only [hc, if_true, if_false]
    congr 1
    funext k
    simp only [expiredRun]
    by_cases h1 : k ∈ j.scheduledKeys <;> by_cases h2 : k ∈ j.streamKeys <;> simp [h1, h2]
    try (split <;> simp [Function.comp_def])

/-- The executions `handOut` creates. -/
def newProcs (pid : Nat) (w : WorkerName) (red : Bool) : List (MsgId × Msg) → List Proc
  | [] => []
  | e :: es => ⟨pid, w, e.1, e.2, red, .handed⟩ :: newProcs (pid + 1) w red es

/-- The history `handOut` writes (oldest first). -/
def newHanded (pid : Nat) (w : WorkerName) (red : Bool) (t : Time) : List (MsgId × Msg) → List Event
  | [] => []
  | e :: es => .handed pid e.1 w red t e.2 :: newHanded (pid + 1) w red t es

theorem handOut_eq (s : Sys) (w : WorkerName) (red : Bool) (ms : List (MsgId × Msg)) :
    handOut s w red ms =
      { s with procs := s.procs ++ newProcs s.nextPid w red ms
               nextPid := s.nextPid + ms.length
               log := (newHanded s.nextPid w red s.r.now ms).reverse ++ s.log } := by
  induction ms generalizing s with
  | nil => simp [handOut, newProcs, newHanded]
  | cons e es ih =>
    simp only [handOut, List.foldl_cons] at ih ⊢
    rw [ih]
    simp only [newProcs, newHanded, List.length_cons, List.reverse_cons, List.append_assoc,
      List.singleton_append]
    congr 1
    omega

theorem mem_newProcs {pid : Nat} {w : WorkerName} {red : Bool} {ms : List (MsgId × Msg)} {p : Proc}
    (h : p ∈ newProcs pid w red ms) :
    (p.id, p.msg) ∈ ms ∧ p.phase = .handed ∧ p.worker = w ∧ p.redelivered = red ∧
      pid ≤ p.pid ∧ p.pid < pid + ms.length := by
  induction ms generalizing pid with
  | nil => simp [newProcs] at h
  | cons e es ih =>
    simp only [newProcs, List.mem_cons] at h
    rcases h with rfl | h
    · simp
    · have := ih h
      simp only [List.mem_cons, List.length_cons]
      grind

theorem mem_newHanded {pid : Nat} {w : WorkerName} {red : Bool} {t : Time}
    {ms : List (MsgId × Msg)} {ev : Event} (h : ev ∈ newHanded pid w red t ms) :
    ∃ p e, ev = .handed p e.1 w red t e.2 ∧ e ∈ ms ∧ pid ≤ p ∧ p < pid + ms.length := by
  induction ms generalizing pid with
  | nil => simp [newHanded] at h
  | cons e es ih =>
    simp only [newHanded, List.mem_cons] at h
    rcases h with rfl | h
    · exact ⟨pid, e, rfl, by simp, by omega, by simp⟩
    · obtain ⟨p, e', h1, h2, h3, h4⟩ := ih h
      exact ⟨p, e', h1, by simp [h2], by omega, by simp; omega⟩

theorem newProcs_pids (pid : Nat) (w : WorkerName) (red : Bool) (ms : List (MsgId × Msg)) :
    (newProcs pid w red ms).map (·.pid) = List.range' pid ms.length := by
  induction ms generalizing pid with
  | nil => rfl
  | cons e es ih => simp [newProcs, ih, List.range'_succ]

end Docket
