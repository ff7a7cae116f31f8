import Verif.Worker.Seed
import Verif.Core.Settled
import Verif.Core.Forms
import Verif.Core.WFStep

/-! # C53: automatic tasks are seeded once and recovered when lost -/

namespace Docket.Seed

/-! ## Specification -/

/-- Everything there is about a task key is the same in both states: its record, its progress,
its messages, its place in the schedule, the executions that workers hold. -/
structure SameFor (k : Key) (a b : Sys) : Prop where
  record : b.r.runs k = a.r.runs k
  progress : b.r.progress k = a.r.progress k
  stream : b.r.stream.filter (fun e => e.2.key = k) = a.r.stream.filter (fun e => e.2.key = k)
  schedule : b.r.queue.filter (fun e => e.1 = k) = a.r.queue.filter (fun e => e.1 = k)
  parked : b.r.parked k = a.r.parked k
  procs : b.procs = a.procs
  results : b.results = a.results

/-- The function is scheduled: a message that the registry resolves to it is in the stream
(waiting or being executed) or in the schedule. -/
def Scheduled (t : Tasks) (s : Sys) (f : Fn) : Prop :=
  ∃ m : Msg, (InStream s m ∨ InSchedule s m) ∧ m.key = f.name ∧ t.get m.req.fn = some f

/-- Every automatic function is registered under its own name (and possibly others). -/
def OwnNames (t : Tasks) : Prop := ∀ n f, (n, f) ∈ t → f.auto.isSome → t.get f.name = some f

/-- A message of the key is in the stream or the schedule. -/
def Waiting (s : Sys) (k : Key) : Prop := ∃ m : Msg, (InStream s m ∨ InSchedule s m) ∧ m.key = k

/-! ## One step -/

theorem SameFor.refl (k : Key) (a : Sys) : SameFor k a a := ⟨rfl, rfl, rfl, rfl, rfl, rfl, rfl⟩

theorem SameFor.trans {k : Key} {a b c : Sys} (h1 : SameFor k a b) (h2 : SameFor k b c) : SameFor k a c :=
  ⟨h2.record.trans h1.record, h2.progress.trans h1.progress, h2.stream.trans h1.stream, h2.schedule.trans h1.schedule,
    h2.parked.trans h1.parked, h2.procs.trans h1.procs, h2.results.trans h1.results⟩

theorem zinsert_filter {k k' : Key} (h : k ≠ k') (t : Nat) (l : List (Key × Nat)) :
    (zinsert k t l).filter (fun e => e.1 = k') = l.filter (fun e => e.1 = k') := by
  induction l with
  | nil => simp [zinsert, h]
  | cons x l ih =>
    unfold zinsert
    split
    · simp [h]
    · simp only [List.filter_cons, ih]

theorem doAdd_other (s : Sys) (k k' : Key) (q : Request) (t : Nat) (h : k ≠ k') : SameFor k' s (doAdd s k q t).1 := by
  simp only [doAdd, doSchedule, luaSchedule, Bool.false_eq_true, if_false]
  by_cases hx : scheduleExists s.r k = true
  · simp only [hx, if_true]; exact SameFor.refl k' s
  · simp only [hx, Bool.false_eq_true, if_false]
    by_cases hw : q.when_ ≤ t
    · simp only [hw, decide_true, schedulePlace_now]
      refine ⟨upd_other _ _ _ _ (Ne.symm h), rfl, ?_, rfl, rfl, rfl, rfl⟩
      simp [List.filter_append, h]
    · simp only [hw, decide_false, schedulePlace_later]
      refine ⟨upd_other _ _ _ _ (Ne.symm h), rfl, rfl, ?_, upd_other _ _ _ _ (Ne.symm h), rfl, rfl⟩
      simp only
      rw [zinsert_filter h, List.filter_filter]
      congr 1
      funext e
      by_cases he : e.1 = k' <;> simp [he, Ne.symm h]

theorem doAdd_live (s : Sys) (k : Key) (q : Request) (t : Nat) (h : isLive s k = true) : (doAdd s k q t).1 = s := by
  have : scheduleExists s.r k = true := h
  simp [doAdd, doSchedule, luaSchedule, this]

theorem doAdd_new (s : Sys) (k : Key) (q : Request) (t : Nat) (h : isLive s k = false) :
    ∃ m : Msg, (InStream (doAdd s k q t).1 m ∨ InSchedule (doAdd s k q t).1 m) ∧ m.key = k ∧ m.req = q := by
  have hx : scheduleExists s.r k = false := h
  by_cases hw : q.when_ ≤ t
  · simp only [doAdd, doSchedule, luaSchedule, hx, hw, decide_true, Bool.false_eq_true, if_false, schedulePlace_now]
    exact ⟨⟨k, q, s.r.nextGen k⟩, Or.inl ⟨s.r.nextId, by simp⟩, rfl, rfl⟩
  · simp only [doAdd, doSchedule, luaSchedule, hx, hw, decide_false, Bool.false_eq_true, if_false, schedulePlace_later]
    exact ⟨⟨k, q, s.r.nextGen k⟩, Or.inr ⟨by simp, by simp [zinsert_mem]⟩, rfl, rfl⟩

theorem SameFor.live {k : Key} {a b : Sys} (h : SameFor k a b) : isLive b k = isLive a k := by
  simp [isLive, Redis.knownOf, Redis.stateOf, h.record]

theorem SameFor.inStream {k : Key} {a b : Sys} (h : SameFor k a b) {m : Msg} (hk : m.key = k) (hm : InStream a m) : InStream b m := by
  obtain ⟨id, hi⟩ := hm
  have : (id, m) ∈ a.r.stream.filter (fun e => e.2.key = k) := by simp [hi, hk]
  rw [← h.stream] at this
  exact ⟨id, (List.mem_filter.1 this).1⟩

theorem SameFor.inSchedule {k : Key} {a b : Sys} (h : SameFor k a b) {m : Msg} (hk : m.key = k) (hm : InSchedule a m) : InSchedule b m := by
  obtain ⟨h1, h2⟩ := hm
  subst hk
  refine ⟨by rw [h.parked]; exact h1, ?_⟩
  have : (m.key, m.req.when_) ∈ a.r.queue.filter (fun e => e.1 = m.key) := by simp [h2]
  rw [← h.schedule] at this
  exact (List.mem_filter.1 this).1

/-! ## The loop -/

theorem loop_same (stricken : Fn → Bool) (k : Key) (fuel i : Nat) (t : Tasks) (s : Sys) (h : isLive s k = true) :
    SameFor k s (loop stricken fuel i t s).1 := by
  induction fuel generalizing i t s with
  | zero => exact SameFor.refl k s
  | succ fuel ih =>
    unfold loop
    split
    · exact SameFor.refl k s
    · next n f _ =>
      split
      · exact ih _ _ _ h
      · next when_ _ =>
        split
        · exact ih _ _ _ h
        · next hl =>
          have hne : f.name ≠ k := by
            intro hc
            rw [hc] at hl
            exact hl h
          have hsame : SameFor k s (addFn stricken t s f when_).2 := by
            unfold addFn
            simp only
            split
            · exact SameFor.refl k s
            · exact doAdd_other _ _ _ _ _ hne
          dsimp only
          split
          · exact hsame.trans (ih _ _ _ (by rw [hsame.live]; exact h))
          · exact hsame

/-- **C53**: seeding never disturbs a live schedule.  Whatever the registry and the state, and
whether or not the seeding ends with an error, nothing changes for a task that is known or
running. -/
theorem C53_never_disturbs (lockFree : Bool) (stricken : Fn → Bool) (t : Tasks) (s : Sys) (k : Key) (h : isLive s k = true) :
    SameFor k s (seed lockFree stricken t s).1 := by
  unfold seed
  split
  · exact loop_same _ _ _ _ _ _ h
  · exact SameFor.refl k s

theorem loop_foreign (stricken : Fn → Bool) (k : Key) (fuel i : Nat) (t : Tasks) (s : Sys)
    (h : ∀ n f, (n, f) ∈ t → f.auto.isSome → f.name ≠ k) : SameFor k s (loop stricken fuel i t s).1 := by
  induction fuel generalizing i t s with
  | zero => exact SameFor.refl k s
  | succ fuel ih =>
    unfold loop
    split
    · exact SameFor.refl k s
    · next n f hf =>
      have hmem := List.mem_of_getElem? hf
      split
      · exact ih _ _ _ h
      · next when_ hauto =>
        have hne : f.name ≠ k := h n f hmem (by rw [hauto]; rfl)
        split
        · exact ih _ _ _ h
        · have hsame : SameFor k s (addFn stricken t s f when_).2 := by
            unfold addFn
            simp only
            split
            · exact SameFor.refl k s
            · exact doAdd_other _ _ _ _ _ hne
          dsimp only
          split
          · refine hsame.trans (ih _ _ _ ?_)
            intro n' f' hm ha
            unfold addFn Tasks.set at hm
            simp only at hm
            split at hm
            · obtain ⟨e, he, heq⟩ := List.mem_map.1 hm
              split at heq
              · cases heq; exact hne
              · subst heq; exact h n' f' he ha
            · rcases List.mem_append.1 hm with hm | hm
              · exact h n' f' hm ha
              · cases List.mem_singleton.1 hm; exact hne
          · exact hsame

/-- **C53**: seeding touches no key but the names of automatic functions. -/
theorem C53_only_automatic (lockFree : Bool) (stricken : Fn → Bool) (t : Tasks) (s : Sys) (k : Key)
    (h : ∀ n f, (n, f) ∈ t → f.auto.isSome → f.name ≠ k) : SameFor k s (seed lockFree stricken t s).1 := by
  unfold seed
  split
  · exact loop_foreign _ _ _ _ _ _ h
  · exact SameFor.refl k s

theorem get_mem {t : Tasks} {n : String} {f : Fn} (h : t.get n = some f) : (n, f) ∈ t := by
  unfold Tasks.get at h
  simp only [Option.map_eq_some_iff] at h
  obtain ⟨e, he, rfl⟩ := h
  have h1 := List.mem_of_find?_eq_some he
  have h2 : e.1 = n := by simpa using List.find?_some he
  rw [← h2]
  exact h1

theorem set_own {t : Tasks} (hn : (t.map (·.1)).Nodup) {f : Fn} (h : t.get f.name = some f) : t.set f.name f = t := by
  have hm := get_mem h
  unfold Tasks.set
  rw [if_pos (by rw [List.any_eq_true]; exact ⟨_, hm, by simp⟩)]
  conv => rhs; rw [← List.map_id t]
  apply List.map_congr_left
  intro e he
  by_cases hx : e.1 = f.name
  · rw [if_pos hx]
    have : e = (f.name, f) := by
      clear h
      induction t with
      | nil => cases he
      | cons x t ih =>
        simp only [List.map_cons, List.nodup_cons] at hn
        rcases List.mem_cons.1 he with rfl | he'
        · rcases List.mem_cons.1 hm with hh | hm'
          · exact hh.symm
          · exact absurd (by rw [hx]; exact List.mem_map_of_mem (f := (·.1)) hm') hn.1
        · rcases List.mem_cons.1 hm with rfl | hm'
          · exact absurd (show f.name ∈ t.map (·.1) from hx ▸ List.mem_map_of_mem (f := (·.1)) he') hn.1
          · exact ih hn.2 hm' he'
    exact this.symm
  · rw [if_neg hx]; rfl

/-- Along the loop: what is live is waiting, and the functions already visited are live. -/
structure LoopOK (stricken : Fn → Bool) (t : Tasks) (i : Nat) (s : Sys) : Prop where
  truthful : ∀ n f, (n, f) ∈ t → f.auto.isSome → isLive s f.name = true → Waiting s f.name
  done : ∀ j f, j < i → (t[j]?).map (·.2) = some f → f.auto.isSome → stricken f = false → Waiting s f.name
  own : ∀ n f m, (n, f) ∈ t → f.auto.isSome → InStream s m ∨ InSchedule s m → m.key = f.name → m.req.fn = f.name

theorem SameFor.waiting {k : Key} {a b : Sys} (h : SameFor k a b) (hw : Waiting a k) : Waiting b k := by
  obtain ⟨m, hm, hk⟩ := hw
  exact ⟨m, hm.imp (h.inStream hk) (h.inSchedule hk), hk⟩

theorem SameFor.symm {k : Key} {a b : Sys} (h : SameFor k a b) : SameFor k b a :=
  ⟨h.record.symm, h.progress.symm, h.stream.symm, h.schedule.symm, h.parked.symm, h.procs.symm, h.results.symm⟩

theorem doAdd_msgs (s : Sys) (k : Key) (q : Request) (t : Nat) (m : Msg) (hk : m.key = k)
    (h : InStream (doAdd s k q t).1 m ∨ InSchedule (doAdd s k q t).1 m) : (InStream s m ∨ InSchedule s m) ∨ m.req = q := by
  simp only [doAdd, doSchedule, luaSchedule, Bool.false_eq_true, if_false] at h
  by_cases hx : scheduleExists s.r k = true
  · simp only [hx, if_true] at h; exact Or.inl h
  · simp only [hx, Bool.false_eq_true, if_false] at h
    by_cases hw : q.when_ ≤ t
    · simp only [hw, decide_true, schedulePlace_now] at h
      rcases h with ⟨id, hi⟩ | ⟨h1, h2⟩
      · simp only [List.mem_append, List.mem_singleton] at hi
        rcases hi with hi | hi
        · exact Or.inl (Or.inl ⟨id, hi⟩)
        · cases hi; exact Or.inr rfl
      · exact Or.inl (Or.inr ⟨h1, h2⟩)
    · simp only [hw, decide_false, schedulePlace_later] at h
      rcases h with ⟨id, hi⟩ | ⟨h1, h2⟩
      · exact Or.inl (Or.inl ⟨id, hi⟩)
      · simp only [hk, upd_same] at h1
        cases h1
        exact Or.inr rfl

theorem loop_ok (stricken : Fn → Bool) (t : Tasks) (hn : (t.map (·.1)).Nodup) (ho : OwnNames t) (fuel i : Nat) (s : Sys)
    (hf : fuel + i = t.length) (h : LoopOK stricken t i s) :
    (loop stricken fuel i t s).2.2 = .finished ∧ (loop stricken fuel i t s).2.1 = t ∧
      LoopOK stricken t t.length (loop stricken fuel i t s).1 := by
  induction fuel generalizing i s with
  | zero =>
    have : i = t.length := by omega
    subst this
    exact ⟨rfl, rfl, h⟩
  | succ fuel ih =>
    have hi : i < t.length := by omega
    unfold loop
    obtain ⟨⟨n, f⟩, hti⟩ : ∃ e, t[i]? = some e := ⟨_, List.getElem?_eq_getElem hi⟩
    rw [hti]
    have hmem : (n, f) ∈ t := List.mem_of_getElem? hti
    have hget : (t[i]?).map (·.2) = some f := by rw [hti]; rfl
    have hadv : ∀ s', LoopOK stricken t i s' → (f.auto.isSome → stricken f = false → Waiting s' f.name) → LoopOK stricken t (i + 1) s' := by
      intro s' h' hw
      refine ⟨h'.truthful, ?_, h'.own⟩
      intro j g hj hg ha hs
      by_cases hji : j = i
      · subst hji
        rw [hget] at hg
        cases hg
        exact hw ha hs
      · exact h'.done j g (by omega) hg ha hs
    simp only
    split
    · next hauto => exact ih _ _ (by omega) (hadv s h (by rw [hauto]; intro hc; cases hc))
    · next when_ hauto =>
      have hsome : f.auto.isSome := by rw [hauto]; rfl
      split
      · next hl => exact ih _ _ (by omega) (hadv s h (fun _ _ => h.truthful n f hmem hsome hl))
      · next hl =>
        have hset := set_own hn (ho n f hmem hsome)
        have ha1 : (addFn stricken t s f when_).1 = t := hset
        rw [ha1, if_pos rfl]
        refine ih _ _ (by omega) ?_
        have hl' : isLive s f.name = false := by simpa using hl
        cases hs : stricken f with
        | true =>
          have : (addFn stricken t s f when_).2 = s := by simp [addFn, hs]
          rw [this]
          exact hadv s h (fun _ hc => by rw [hs] at hc; cases hc)
        | false =>
          have hst : (addFn stricken t s f when_).2 = (doAdd s f.name (request f when_) s.r.now).1 := by simp [addFn, hs]
          rw [hst]
          obtain ⟨m, hm, hk, hq⟩ := doAdd_new s f.name (request f when_) s.r.now hl'
          have hwait : Waiting (doAdd s f.name (request f when_) s.r.now).1 f.name := ⟨m, hm, hk⟩
          refine hadv _ ⟨?_, ?_, ?_⟩ (fun _ _ => hwait)
          · intro n' g hg ha hlive
            by_cases hgn : f.name = g.name
            · rw [← hgn]; exact hwait
            · have hsame := doAdd_other s f.name g.name (request f when_) s.r.now hgn
              rw [hsame.live] at hlive
              exact hsame.waiting (h.truthful n' g hg ha hlive)
          · intro j g hj hg ha hs'
            by_cases hgn : f.name = g.name
            · rw [← hgn]; exact hwait
            · exact (doAdd_other s f.name g.name (request f when_) s.r.now hgn).waiting (h.done j g hj hg ha hs')
          · intro n' g m' hg ha hm' hk'
            by_cases hgn : f.name = g.name
            · rcases doAdd_msgs s f.name (request f when_) s.r.now m' (by rw [hgn]; exact hk') hm' with hh | hh
              · exact h.own n' g m' hg ha hh hk'
              · rw [hh, ← hgn]; rfl
            · have hsame := (doAdd_other s f.name g.name (request f when_) s.r.now hgn).symm
              exact h.own n' g m' hg ha (hm'.imp (hsame.inStream hk') (hsame.inSchedule hk')) hk'

/-- **C53**, partial: after any history, if the lock is free, seeding ends normally, leaves the
registry as it is and leaves every automatic function that is not stricken scheduled.
Assumed, for the keys of the automatic functions: each has a message waiting, or was settled by
the last cancel or completion (`C53_violated_after_clear`); its messages are of that function
(`C53_violated_key_taken`); and the functions are registered under their own names
(`C53_violated_alias`, `C53_violated_same_name`). -/
theorem C53_all_scheduled_partial (cfg : Cfg) (ops : List Op) (stricken : Fn → Bool) (t : Tasks)
    (hn : (t.map (·.1)).Nodup) (ho : OwnNames t)
    (hrec : ∀ n f, (n, f) ∈ t → f.auto.isSome →
      Waiting (run cfg ops) f.name ∨
      (Throughout cfg (fun s => ¬ Orphaned s f.name) {} ops ∧ settled (run cfg ops).log f.name = true))
    (hkeys : ∀ n f m, (n, f) ∈ t → f.auto.isSome → InStream (run cfg ops) m ∨ InSchedule (run cfg ops) m →
      m.key = f.name → m.req.fn = f.name) :
    (seed true stricken t (run cfg ops)).2.2 = .finished ∧ (seed true stricken t (run cfg ops)).2.1 = t ∧
    ∀ n f, (n, f) ∈ t → f.auto.isSome → stricken f = false →
      Scheduled t (seed true stricken t (run cfg ops)).1 f := by
  have h0 : LoopOK stricken t 0 (run cfg ops) := by
    refine ⟨?_, ?_, hkeys⟩
    · intro n f hm ha hl
      rcases hrec n f hm ha with hw | ⟨hno, hset⟩
      · exact hw
      · have hinv := SettledInv.runFrom (cfg := cfg) WF.init (OriginInv.run cfg []) (GenInv.init f.name) (SettledInv.init f.name) hno
        have hx : scheduleExists (run cfg ops).r f.name = false := hinv.free hset
        have hl' : scheduleExists (run cfg ops).r f.name = true := hl
        rw [hx] at hl'
        cases hl'
    · intro j f hj
      omega
  have hseed : seed true stricken t (run cfg ops) = loop stricken t.length 0 t (run cfg ops) := rfl
  rw [hseed]
  obtain ⟨h1, h2, h3⟩ := loop_ok stricken t hn ho t.length 0 (run cfg ops) rfl h0
  refine ⟨h1, h2, ?_⟩
  intro n f hm ha hs
  obtain ⟨j, hj, hjf⟩ := List.getElem_of_mem hm
  obtain ⟨m, hmm, hk⟩ := h3.done j f hj (by rw [List.getElem?_eq_getElem hj, hjf]; rfl) ha hs
  exact ⟨m, hmm, hk, by rw [h3.own n f m hm ha hmm hk]; exact ho n f hm ha⟩

theorem mem_set {t : Tasks} {n : String} {f : Fn} {e : String × Fn} (h : e ∈ t.set n f) : e ∈ t ∨ e.2 = f := by
  unfold Tasks.set at h
  split at h
  · obtain ⟨x, hx, he⟩ := List.mem_map.1 h
    split at he
    · exact Or.inr (by rw [← he])
    · exact Or.inl (he ▸ hx)
  · rcases List.mem_append.1 h with h | h
    · exact Or.inl h
    · exact Or.inr (by rw [List.mem_singleton.1 h])

/-- **C53**: seeding adds nothing else: a message that is there afterwards was there before, or
it is the first attempt of an automatic function of the registry that is not stricken, without
arguments, under the function's name as key and for its initial time.  This needs no
assumption on the registry or the state. -/
theorem C53_as_declared (stricken : Fn → Bool) (t : Tasks) (lockFree : Bool) (s : Sys) (m : Msg)
    (h : InStream (seed lockFree stricken t s).1 m ∨ InSchedule (seed lockFree stricken t s).1 m) :
    (InStream s m ∨ InSchedule s m) ∨
    ∃ n f initial, (n, f) ∈ t ∧ f.auto = some initial ∧ stricken f = false ∧ m.key = f.name ∧
      m.req = { fn := f.name, args := "", kwargs := "", when_ := initial, attempt := 1 } := by
  have gen : ∀ (fuel i : Nat) (u : Tasks) (s : Sys), (∀ e ∈ u, ∃ n, (n, e.2) ∈ t) →
      InStream (loop stricken fuel i u s).1 m ∨ InSchedule (loop stricken fuel i u s).1 m →
      (InStream s m ∨ InSchedule s m) ∨
      ∃ n f initial, (n, f) ∈ t ∧ f.auto = some initial ∧ stricken f = false ∧ m.key = f.name ∧
        m.req = { fn := f.name, args := "", kwargs := "", when_ := initial, attempt := 1 } := by
    intro fuel
    induction fuel with
    | zero => intro i u s _ h; exact Or.inl h
    | succ fuel ih =>
      intro i u s hu h
      unfold loop at h
      split at h
      · exact Or.inl h
      · next n f hti =>
        obtain ⟨n', hn'⟩ := hu _ (List.mem_of_getElem? hti)
        split at h
        · exact ih _ _ _ hu h
        · next when_ hauto =>
          split at h
          · exact ih _ _ _ hu h
          · have hone : InStream (addFn stricken u s f when_).2 m ∨ InSchedule (addFn stricken u s f when_).2 m →
                (InStream s m ∨ InSchedule s m) ∨
                ∃ n f initial, (n, f) ∈ t ∧ f.auto = some initial ∧ stricken f = false ∧ m.key = f.name ∧
                  m.req = { fn := f.name, args := "", kwargs := "", when_ := initial, attempt := 1 } := by
              intro h
              cases hs : stricken f with
              | true =>
                have : (addFn stricken u s f when_).2 = s := by simp [addFn, hs]
                rw [this] at h
                exact Or.inl h
              | false =>
                have hst : (addFn stricken u s f when_).2 = (doAdd s f.name (request f when_) s.r.now).1 := by simp [addFn, hs]
                rw [hst] at h
                by_cases hk : m.key = f.name
                · rcases doAdd_msgs s f.name (request f when_) s.r.now m hk h with h | h
                  · exact Or.inl h
                  · exact Or.inr ⟨n', f, when_, hn', hauto, hs, hk, h⟩
                · have hsame := (doAdd_other s f.name m.key (request f when_) s.r.now (Ne.symm hk)).symm
                  exact Or.inl (h.imp (hsame.inStream rfl) (hsame.inSchedule rfl))
            simp only at h
            split at h
            · rcases ih _ _ _ (fun e he => by
                rcases mem_set he with he | he
                · exact hu e he
                · exact ⟨n', he ▸ hn'⟩) h with h | h
              · exact hone h
              · exact Or.inr h
            · exact hone h
  unfold seed at h
  split at h
  · exact gen _ _ _ _ (fun e he => ⟨e.1, he⟩) h
  · exact Or.inl h

/-- **C53**: while another worker holds the lock, seeding does nothing. -/
theorem C53_locked (stricken : Fn → Bool) (t : Tasks) (s : Sys) :
    (seed false stricken t s).1 = s ∧ (seed false stricken t s).2.1 = t := ⟨rfl, rfl⟩

/-! A registry with two automatic functions, one of them with an alias as well, and an
ordinary one; one of the automatic functions is running, the other was completed. -/

def fa : Fn := ⟨0, "tick", some 0⟩
def fb : Fn := ⟨1, "sweep", some 50⟩
def fc : Fn := ⟨2, "mail", none⟩
def sampleTasks : Tasks := [("tick", fa), ("mail", fc), ("sweep", fb), ("alias", fb)]
def sampleOps : List Op :=
  [.add "tick" ⟨"tick", "", "", 0, 1⟩ 0, .poll "w" 1, .claim 0,
   .add "sweep" ⟨"sweep", "", "", 0, 1⟩ 0, .poll "w" 1, .claim 1, .finish 1 .completed none false]

example : (sampleTasks.map (·.1)).Nodup ∧ (∀ e ∈ sampleTasks, e.2.auto.isSome → sampleTasks.get e.2.name = some e.2) := by decide
example : (∃ e ∈ (run ⟨10, 3⟩ sampleOps).r.stream, e.2.key = "tick") ∧
    Throughout ⟨10, 3⟩ (fun s => ¬ Orphaned s "sweep") {} sampleOps ∧ settled (run ⟨10, 3⟩ sampleOps).log "sweep" = true := by
  decide
example : isLive (run ⟨10, 3⟩ sampleOps) "tick" = true := by decide
example : ((seed true (fun _ => false) sampleTasks (run ⟨10, 3⟩ sampleOps)).1.r.queue,
    (seed true (fun _ => false) sampleTasks (run ⟨10, 3⟩ sampleOps)).2.2) = ([("sweep", 50)], .finished) := by decide

/-! ## The full statement and where it fails -/

/-- C53 for any registry and state. -/
def C53_all_scheduled : Prop :=
  ∀ (cfg : Cfg) (ops : List Op) (t : Tasks), (t.map (·.1)).Nodup →
    (seed true (fun _ => false) t (run cfg ops)).2.2 = .finished ∧
    ∀ n f, (n, f) ∈ t → f.auto.isSome →
      Scheduled t (seed true (fun _ => false) t (run cfg ops)).1 f

theorem not_scheduled {t : Tasks} {s : Sys} {f : Fn}
    (h : s.r.stream.all (fun e => e.2.key ≠ f.name || t.get e.2.req.fn ≠ some f) = true)
    (h' : (match s.r.parked f.name with | none => true | some m => decide (t.get m.req.fn ≠ some f)) = true) : ¬ Scheduled t s f := by
  rintro ⟨m, ⟨id, hm⟩ | ⟨hm, _⟩, hk, hg⟩
  · have := List.all_eq_true.1 h _ hm
    simp [hk, hg] at this
  · rw [hk] at hm
    rw [hm] at h'
    simp [hg] at h'

/-- **C53, violated**: an automatic function registered only under another name: scheduling it
registers it under its own name as well, which ends the iteration over the registry with an
error.  At startup this error ends the worker. -/
theorem C53_violated_alias : ¬ C53_all_scheduled := by
  intro h
  have := (h ⟨10, 3⟩ [] [("alias", fa), ("sweep", fb)] (by decide)).1
  revert this
  decide

/-- **C53, violated**: of two automatic functions with the same `__name__` one is never
scheduled, as they share the key. -/
theorem C53_violated_same_name : ¬ C53_all_scheduled := by
  intro h
  have := (h ⟨10, 3⟩ [] [("tick", fa), ("other.tick", ⟨7, "tick", some 3⟩)] (by decide)).2 "other.tick" ⟨7, "tick", some 3⟩
    (by simp) rfl
  revert this
  exact not_scheduled (by decide) (by decide)

/-- **C53, violated**: after `clear()` the automatic tasks are gone, but their records still say
that they are known, so they are not seeded again until the records expire. -/
theorem C53_violated_after_clear : ¬ C53_all_scheduled := by
  intro h
  have := (h ⟨10, 3⟩ [.add "tick" ⟨"tick", "", "", 5, 1⟩ 0, .clear] [("tick", fa)] (by decide)).2 "tick" fa (by simp) rfl
  revert this
  exact not_scheduled (by decide) (by decide)

/-- **C53, violated**: while some other task uses the name of an automatic function as its key,
the automatic function is not scheduled. -/
theorem C53_violated_key_taken : ¬ C53_all_scheduled := by
  intro h
  have := (h ⟨10, 3⟩ [.add "tick" ⟨"mail", "", "", 5, 1⟩ 0] [("tick", fa), ("mail", fc)] (by decide)).2 "tick" fa (by simp) rfl
  revert this
  exact not_scheduled (by decide) (by decide)

end Docket.Seed
