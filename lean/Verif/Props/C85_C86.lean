import Verif.Worker.Stop
import Verif.Core.Lease
import Verif.Core.Pids
/-
C85 and C86: how a worker ends.
-/
namespace Docket.Stop
open Docket Redis

/-! ### The executions and the messages of a worker -/

/-- An execution stays until its worker settles it, and then its message is gone; only its own
worker's steps touch it. -/
theorem proc_keep {cfg : Docket.Cfg} {s : Sys} (hw : WF s) (op : Docket.Op) {p : Proc} (hp : p ∈ s.procs) :
    (∃ p' ∈ (Docket.step cfg s op).procs, p'.pid = p.pid ∧ p'.id = p.id ∧ p'.worker = p.worker ∧
      (subject op ≠ some p.pid → p' = p)) ∨
    (Gone (Docket.step cfg s op) p.id ∧ subject op = some p.pid) ∨ op = .crash p.worker ∨ op = .abandon p.pid := by
  have hdel := (hw.procs.1 p hp).1
  have hidlt : p.id < s.r.nextId := Nat.lt_of_le_of_lt hdel hw.stream.ldlt
  have huniq : ∀ x ∈ s.procs, x.pid = p.pid → x = p := by
    intro x hx hxp
    have h1 := proc?_of_mem hw hx
    have h2 := proc?_of_mem hw hp
    rw [hxp, h2] at h1
    exact (Option.some.inj h1).symm
  have he := step_eff cfg s hw.queue op
  generalize Docket.step cfg s op = s' at he
  have hfil : ∀ id : MsgId, id = p.id → (∀ e ∈ s.r.stream.filter (fun e => e.1 ≠ id), e.1 ≠ p.id) ∧
      (∀ e ∈ s.r.pending.filter (fun x => x.id ≠ id), e.id ≠ p.id) := by
    rintro id rfl
    exact ⟨fun e he => by simpa using (List.mem_filter.1 he).2,
      fun e he => by simpa using (List.mem_filter.1 he).2⟩
  have hkeep : ∀ x : Proc, x.pid ≠ p.pid → p ∈ s.procs.filter (fun y => y.pid ≠ x.pid) := by
    intro x hx
    exact List.mem_filter.2 ⟨hp, by simpa using Ne.symm hx⟩
  cases he with
  | poll w n new hnew => exact Or.inl ⟨p, List.mem_append_left _ hp, rfl, rfl, rfl, fun _ => rfl⟩
  | redeliver w x e hx he hid hidle => exact Or.inl ⟨p, List.mem_append_left _ hp, rfl, rfl, rfl, fun _ => rfl⟩
  | crash w =>
    by_cases h : p.worker = w
    · subst h; exact Or.inr (Or.inr (Or.inl rfl))
    · exact Or.inl ⟨p, List.mem_filter.2 ⟨hp, by simpa using h⟩, rfl, rfl, rfl, fun _ => rfl⟩
  | abandon pid =>
    by_cases h : p.pid = pid
    · subst h; exact Or.inr (Or.inr (Or.inr rfl))
    · exact Or.inl ⟨p, List.mem_filter.2 ⟨hp, by simpa using h⟩, rfl, rfl, rfl, fun _ => rfl⟩
  | strikeOut x hx hph =>
    refine Or.inl ⟨_, List.mem_map.2 ⟨p, hp, rfl⟩, by split <;> rfl, by split <;> rfl, by split <;> rfl, fun hs => ?_⟩
    rw [if_neg (fun h => hs (by simp [subject, h]))]
  | claim x hx hph hs =>
    refine Or.inl ⟨_, List.mem_map.2 ⟨p, hp, rfl⟩, by split <;> rfl, by split <;> rfl, by split <;> rfl, fun hs => ?_⟩
    rw [if_neg (fun h => hs (by simp [subject, h]))]
  | claimSuperseded x hx =>
    by_cases h : x.pid = p.pid
    · obtain ⟨h1, h2⟩ := hfil x.id (by rw [huniq x hx h])
      exact Or.inr (Or.inl ⟨⟨hdel, h1, h2⟩, by simp [subject, h]⟩)
    · exact Or.inl ⟨p, hkeep x h, rfl, rfl, rfl, fun _ => rfl⟩
  | finish x st e w hx =>
    by_cases h : x.pid = p.pid
    · obtain ⟨h1, h2⟩ := hfil x.id (by rw [huniq x hx h])
      exact Or.inr (Or.inl ⟨⟨hdel, h1, h2⟩, by simp [subject, h]⟩)
    · exact Or.inl ⟨p, hkeep x h, rfl, rfl, rfl, fun _ => rfl⟩
  | finishSuperseded x st e w hx =>
    by_cases h : x.pid = p.pid
    · obtain ⟨h1, h2⟩ := hfil x.id (by rw [huniq x hx h])
      exact Or.inr (Or.inl ⟨⟨hdel, h1, h2⟩, by simp [subject, h]⟩)
    · exact Or.inl ⟨p, hkeep x h, rfl, rfl, rfl, fun _ => rfl⟩
  | rescheduleNow x t a d q hx =>
    by_cases h : x.pid = p.pid
    · obtain ⟨h1, h2⟩ := hfil x.id (by rw [huniq x hx h])
      refine Or.inr (Or.inl ⟨⟨hdel, ?_, h2⟩, by simp [subject, h]⟩)
      intro e he
      simp only [List.mem_append, List.mem_singleton] at he
      rcases he with he | rfl
      · exact h1 e he
      · simp only; omega
    · exact Or.inl ⟨p, hkeep x h, rfl, rfl, rfl, fun _ => rfl⟩
  | rescheduleLater x t a d q hx =>
    by_cases h : x.pid = p.pid
    · obtain ⟨h1, h2⟩ := hfil x.id (by rw [huniq x hx h])
      exact Or.inr (Or.inl ⟨⟨hdel, h1, h2⟩, by simp [subject, h]⟩)
    · exact Or.inl ⟨p, hkeep x h, rfl, rfl, rfl, fun _ => rfl⟩
  | _ => exact Or.inl ⟨p, hp, rfl, rfl, rfl, fun _ => rfl⟩

/-- Executions with new numbers come only from a poll or a redelivery. -/
theorem proc_new {cfg : Docket.Cfg} {s : Sys} (hw : WF s) (op : Docket.Op) :
    s.nextPid ≤ (Docket.step cfg s op).nextPid ∧
    ∀ p ∈ (Docket.step cfg s op).procs, (∃ q ∈ s.procs, q.pid = p.pid ∧ q.worker = p.worker ∧
        (subject op ≠ some p.pid → q = p)) ∨
      (s.nextPid ≤ p.pid ∧ ((∃ n, op = .poll p.worker n) ∨ ∃ id, op = .redeliver p.worker id)) := by
  have he := step_eff cfg s hw.queue op
  generalize Docket.step cfg s op = s' at he
  cases he with
  | poll w n new hnew =>
    refine ⟨Nat.le_add_right _ _, fun p hp => ?_⟩
    rcases List.mem_append.1 hp with hp | hp
    · exact Or.inl ⟨p, hp, rfl, rfl, fun _ => rfl⟩
    · have h1 := mem_newProcs hp
      exact Or.inr ⟨h1.2.2.2.2.1, Or.inl ⟨n, by rw [h1.2.2.1]⟩⟩
  | redeliver w x e hx he hid hidle =>
    refine ⟨Nat.le_add_right _ _, fun p hp => ?_⟩
    rcases List.mem_append.1 hp with hp | hp
    · exact Or.inl ⟨p, hp, rfl, rfl, fun _ => rfl⟩
    · rw [List.mem_singleton.1 hp]
      exact Or.inr ⟨Nat.le_refl _, Or.inr ⟨_, rfl⟩⟩
  | crash w => exact ⟨Nat.le_refl _, fun p hp => Or.inl ⟨p, (List.mem_filter.1 hp).1, rfl, rfl, fun _ => rfl⟩⟩
  | abandon pid => exact ⟨Nat.le_refl _, fun p hp => Or.inl ⟨p, (List.mem_filter.1 hp).1, rfl, rfl, fun _ => rfl⟩⟩
  | strikeOut p hp hph =>
    refine ⟨Nat.le_refl _, fun x hx => ?_⟩
    obtain ⟨y, hy, rfl⟩ := List.mem_map.1 hx
    refine Or.inl ⟨y, hy, by split <;> rfl, by split <;> rfl, fun h => ?_⟩
    split
    · rename_i h1; exact absurd (by simp [subject, h1]) h
    · rfl
  | claim p hp hph hs =>
    refine ⟨Nat.le_refl _, fun x hx => ?_⟩
    obtain ⟨y, hy, rfl⟩ := List.mem_map.1 hx
    refine Or.inl ⟨y, hy, by split <;> rfl, by split <;> rfl, fun h => ?_⟩
    split
    · rename_i h1; exact absurd (by simp [subject, h1]) h
    · rfl
  | claimSuperseded p hp hph hs => exact ⟨Nat.le_refl _, fun p hp => Or.inl ⟨p, (List.mem_filter.1 hp).1, rfl, rfl, fun _ => rfl⟩⟩
  | finish p st e w hp hph hs => exact ⟨Nat.le_refl _, fun p hp => Or.inl ⟨p, (List.mem_filter.1 hp).1, rfl, rfl, fun _ => rfl⟩⟩
  | finishSuperseded p st e w hp hph hs => exact ⟨Nat.le_refl _, fun p hp => Or.inl ⟨p, (List.mem_filter.1 hp).1, rfl, rfl, fun _ => rfl⟩⟩
  | rescheduleNow p t a d q hp hph hq hd hwh => exact ⟨Nat.le_refl _, fun p hp => Or.inl ⟨p, (List.mem_filter.1 hp).1, rfl, rfl, fun _ => rfl⟩⟩
  | rescheduleLater p t a d q hp hph hq hd hwh => exact ⟨Nat.le_refl _, fun p hp => Or.inl ⟨p, (List.mem_filter.1 hp).1, rfl, rfl, fun _ => rfl⟩⟩
  | _ => exact ⟨Nat.le_refl _, fun p hp => Or.inl ⟨p, hp, rfl, rfl, fun _ => rfl⟩⟩

/-- Marking an execution terminal that has been claimed puts an end to it. -/
theorem finish_drops (cfg : Docket.Cfg) {s : Sys} (hw : WF s) {p : Proc} (hp : p ∈ s.procs) (hph : p.phase = .running)
    (st : RunState) (hst : st.terminal = true) (e : Option String) (b : Bool) :
    ∀ x ∈ (Docket.step cfg s (.finish p.pid st e b)).procs, x.pid ≠ p.pid := by
  have h1 := proc?_of_mem hw hp
  intro x hx
  simp only [Docket.step, doFinish, h1, hph, hst, true_and, true_or, if_true, Sys.dropProc] at hx
  simpa using (List.mem_filter.1 hx).2

theorem reschedule_drops (cfg : Docket.Cfg) {s : Sys} (hw : WF s) {p : Proc} (hp : p ∈ s.procs) (hph : p.phase = .running)
    (t a : Nat) : ∀ x ∈ (Docket.step cfg s (.reschedule p.pid t a s.r.now)).procs, x.pid ≠ p.pid := by
  have h1 := proc?_of_mem hw hp
  intro x hx
  simp only [Docket.step, Nat.le_refl, if_true, doReschedule, h1, hph, Sys.dropProc] at hx
  simpa using (List.mem_filter.1 hx).2

/-! ### What is said about a history -/

/-- Something holds of every event in the state in which it happens. -/
def Each (cfg : Cfg) (P : St → Ev → Prop) : St → List Ev → Prop
  | _, [] => True
  | s, e :: es => P s e ∧ Each cfg P (step cfg s e) es

/-- The worker has left its loop and is winding up: it takes its heartbeat back, waits for its
tasks and puts them away. -/
def WindingUp : PC → Prop
  | .cleanup | .gathering | .settling _ => True
  | _ => False

/-- The run is not cancelled while it is winding up. -/
def OnceOnly (s : St) (e : Ev) : Prop := e = .cancel → ¬ WindingUp s.pc

theorem Each.mono {cfg : Cfg} {P Q : St → Ev → Prop} (h : ∀ s e, P s e → Q s e) (es : List Ev) :
    ∀ s, Each cfg P s es → Each cfg Q s es := by
  induction es with
  | nil => intro s _; trivial
  | cons e es ih => intro s h1; exact ⟨h s e h1.1, ih _ h1.2⟩

theorem Each.append {cfg : Cfg} {P : St → Ev → Prop} (a : List Ev) {b : List Ev} :
    ∀ s, Each cfg P s (a ++ b) ↔ Each cfg P s a ∧ Each cfg P (runFrom cfg s a) b := by
  induction a with
  | nil => intro s; simp [Each, runFrom]
  | cons e a ih => intro s; simp only [List.cons_append, Each, ih, and_assoc]; rfl

/-- Invariants hold along histories. -/
theorem each_run {cfg : Cfg} {P : St → Ev → Prop} {I : St → Prop}
    (hs : ∀ s e, I s → P s e → I (step cfg s e)) (es : List Ev) :
    ∀ s, I s → Each cfg P s es → I (runFrom cfg s es) := by
  induction es with
  | nil => intro s h _; exact h
  | cons e es ih => intro s h h1; exact ih _ (hs s e h h1.1) h1.2

theorem run_always {cfg : Cfg} {I : St → Prop} (hs : ∀ s e, I s → I (step cfg s e)) (es : List Ev) :
    ∀ s, I s → I (runFrom cfg s es) := by
  induction es with
  | nil => intro s h; exact h
  | cons e es ih => intro s h; exact ih _ (hs s e h)

/-! ### Waiting for the tasks -/

structure Waits (s : St) : Prop where
  act : ∀ t ∈ s.active, t.ending.isSome = true → t.pid ∈ s.ended
  bg : ∀ b ∈ s.begun, b.1 ∈ s.ended ∨ ∃ t ∈ s.active, t.pid = b.1
  comp : ∀ rest, s.pc = .completing rest → ∀ u ∈ rest, u ∈ s.ended
  sett : ∀ rest, s.pc = .settling rest → ∀ t ∈ s.active, t.ending.isSome = true
  conn : s.pc = .connecting → s.active = []
  over : s.pc = .over → ∀ t ∈ s.active, t.ending.isSome = true

/-- Nothing of it depends on the docket or on the other fields. -/
theorem Waits.congr {s s' : St} (h : Waits s) (ha : s'.active = s.active) (he : s'.ended = s.ended)
    (hb : s'.begun = s.begun)
    (comp : ∀ rest, s'.pc = .completing rest → ∀ u ∈ rest, u ∈ s.ended)
    (sett : ∀ rest, s'.pc = .settling rest → ∀ t ∈ s.active, t.ending.isSome = true)
    (conn : s'.pc = .connecting → s.active = [])
    (over : s'.pc = .over → ∀ t ∈ s.active, t.ending.isSome = true) : Waits s' := by
  refine ⟨?_, ?_, ?_, ?_, ?_, ?_⟩
  · rw [ha, he]; exact h.act
  · rw [ha, he, hb]; exact h.bg
  · rw [he]; exact comp
  · rw [ha]; exact sett
  · rw [ha]; exact conn
  · rw [ha]; exact over

theorem Waits.popped {s : St} (h : Waits s) {u : Nat} (hu : (∃ t ∈ s.active, t.pid = u) → u ∈ s.ended) :
    Waits { popped s u with pc := .top } := by
  refine ⟨fun t ht => h.act t (List.mem_filter.1 ht).1, fun b hb => ?_, fun _ h => (nomatch h), fun _ h => (nomatch h),
    fun h => (nomatch h), fun h => (nomatch h)⟩
  rcases h.bg b hb with h1 | ⟨t, ht, h1⟩
  · exact Or.inl h1
  · by_cases hx : t.pid = u
    · left
      have := hu ⟨t, ht, hx⟩
      rw [← h1, hx]; exact this
    · exact Or.inr ⟨t, List.mem_filter.2 ⟨ht, by simpa using hx⟩, h1⟩

theorem Waits.leave {s : St} (h : Waits s) (ha : ∀ t ∈ s.active, t.ending.isSome = true) : Waits (leave s) := by
  unfold Stop.leave
  split
  · refine ⟨fun t ht => (nomatch ht), fun b hb => ?_, fun _ h => (nomatch h), fun _ h => (nomatch h), fun _ => rfl, fun h => (nomatch h)⟩
    rcases h.bg b hb with h1 | ⟨t, ht, h1⟩
    · exact Or.inl h1
    · left; rw [← h1]; exact h.act t ht (ha t ht)
  · exact h.congr rfl rfl rfl (fun _ h => nomatch h) (fun _ h => nomatch h) (fun h => nomatch h) (fun _ => ha)

theorem Waits.to {s : St} (h : Waits s) (pc : PC) (h1 : pc = .top ∨ pc = .askOld ∨ pc = .askNew ∨ (∃ o r, pc = .starting o r) ∨
    pc = .leaving ∨ pc = .cleanup ∨ pc = .gathering) : Waits { s with pc := pc } := by
  refine h.congr rfl rfl rfl ?_ ?_ ?_ ?_ <;>
    rcases h1 with h | h | h | ⟨o, r, h⟩ | h | h | h <;> subst h <;> intros <;> contradiction

theorem Waits.step {cfg : Cfg} {s : St} (h : Waits s) (e : Ev) (hc : e = .cancel → s.pc ≠ .cleanup) : Waits (step cfg s e) := by
  cases e with
  | op o =>
    simp only [Stop.step]
    split
    · exact h.congr rfl rfl rfl h.comp h.sett h.conn h.over
    · exact h
  | signal pid =>
    simp only [Stop.step]
    split
    · exact h.congr rfl rfl rfl h.comp h.sett h.conn h.over
    · exact h
  | stop => exact h.congr rfl rfl rfl h.comp h.sett h.conn h.over
  | ends pid e =>
    simp only [Stop.step]
    split
    · have hsome : ∀ t ∈ s.active, t.ending.isSome = true →
          (if t.pid = pid then { t with ending := some e } else t).ending.isSome = true := by
        intro t _ ht; split
        · rfl
        · exact ht
      refine ⟨fun t ht => ?_, fun b hb => ?_, fun r hr u hu => ?_, fun r hr t ht => ?_, fun hr => ?_, fun hr t ht => ?_⟩
      · obtain ⟨y, hy, rfl⟩ := List.mem_map.1 ht
        intro h1
        split at h1
        · rename_i h2
          rw [if_pos h2]
          simp only [markEnded]; rw [h2]; exact List.mem_cons_self
        · rename_i h2
          rw [if_neg h2]
          exact List.mem_cons_of_mem _ (h.act y hy h1)
      · rcases h.bg b hb with h1 | ⟨t, ht, h1⟩
        · exact Or.inl (List.mem_cons_of_mem _ h1)
        · exact Or.inr ⟨_, List.mem_map.2 ⟨t, ht, rfl⟩, by split <;> exact h1⟩
      · exact List.mem_cons_of_mem _ (h.comp r hr u hu)
      · obtain ⟨y, hy, rfl⟩ := List.mem_map.1 ht
        exact hsome y hy (h.sett r hr y hy)
      · simp only [markEnded]; rw [h.conn hr]; rfl
      · obtain ⟨y, hy, rfl⟩ := List.mem_map.1 ht
        exact hsome y hy (h.over hr y hy)
    · exact h
  | go lapsed more delay =>
    simp only [Stop.step, go]
    cases hpc : s.pc with
    | connecting =>
      simp only
      split
      · refine h.congr rfl rfl rfl (fun _ h => (nomatch h)) (fun _ h => (nomatch h)) (fun h => (nomatch h)) (fun _ => ?_)
        rw [h.conn hpc]; exact fun _ h => (nomatch h)
      · exact h.to _ (Or.inl rfl)
    | top =>
      simp only
      split
      · refine h.congr rfl rfl rfl (fun r hr u hu => ?_) (fun _ h => (nomatch h)) (fun h => (nomatch h)) (fun h => (nomatch h))
        cases hr
        obtain ⟨t, ht, rfl⟩ := List.mem_map.1 hu
        exact h.act t (List.mem_filter.1 ht).1 (List.mem_filter.1 ht).2
      · exact h.to _ (by simp)
    | completing rest =>
      cases rest with
      | nil =>
        simp only
        split <;> exact h.to _ (by simp)
      | cons u rest =>
        simp only [complete]
        split
        · exact h.congr rfl rfl rfl (fun r hr v hv => by cases hr; exact h.comp _ hpc v (List.mem_cons_of_mem _ hv))
            (fun _ h => (nomatch h)) (fun h => (nomatch h)) (fun h => (nomatch h))
        · have hp := h.popped (u := u) (fun _ => h.comp _ hpc u List.mem_cons_self)
          split
          · exact hp.congr rfl rfl rfl (fun _ h => (nomatch h)) (fun _ h => (nomatch h)) (fun h => (nomatch h)) (fun h => (nomatch h))
          · exact hp.congr rfl rfl rfl (fun _ h => (nomatch h)) (fun _ h => (nomatch h)) (fun h => (nomatch h)) (fun h => (nomatch h))
          · exact hp.congr rfl rfl rfl (fun r hr v hv => by cases hr; exact h.comp _ hpc v (List.mem_cons_of_mem _ hv))
              (fun _ h => (nomatch h)) (fun h => (nomatch h)) (fun h => (nomatch h))
    | askOld => exact h.congr rfl rfl rfl (fun _ h => (nomatch h)) (fun _ h => (nomatch h)) (fun h => (nomatch h)) (fun h => (nomatch h))
    | askNew => exact h.congr rfl rfl rfl (fun _ h => (nomatch h)) (fun _ h => (nomatch h)) (fun h => (nomatch h)) (fun h => (nomatch h))
    | starting old rest =>
      cases rest with
      | nil =>
        cases old with
        | true =>
          simp only
          split <;> exact h.to _ (by simp)
        | false => exact h.to _ (by simp)
      | cons b rest =>
        refine ⟨fun t ht h1 => ?_, fun x hx => ?_, fun _ h => (nomatch h), fun _ h => (nomatch h), fun h => (nomatch h), fun h => (nomatch h)⟩
        · rcases List.mem_append.1 ht with ht | ht
          · exact h.act t ht h1
          · rw [List.mem_singleton.1 ht] at h1; cases h1
        · rcases List.mem_cons.1 hx with rfl | hx
          · exact Or.inr ⟨_, List.mem_append_right _ (List.mem_singleton.2 rfl), rfl⟩
          · rcases h.bg x hx with h1 | ⟨t, ht, h1⟩
            · exact Or.inl h1
            · exact Or.inr ⟨t, List.mem_append_left _ ht, h1⟩
    | leaving => exact h.to _ (by simp)
    | cleanup =>
      simp only
      split
      · rename_i ha
        exact h.leave (by rw [ha]; exact fun _ h => (nomatch h))
      · exact h.to _ (by simp)
    | gathering =>
      simp only
      split
      · rename_i ha
        have ha' : ∀ t ∈ s.active, t.ending.isSome = true := by simpa using ha
        split
        · exact h.congr rfl rfl rfl (fun _ h => (nomatch h)) (fun _ h => (nomatch h)) (fun h => (nomatch h)) (fun _ => ha')
        · exact h.congr rfl rfl rfl (fun _ h => (nomatch h)) (fun _ _ => ha') (fun h => (nomatch h)) (fun h => (nomatch h))
      · exact h
    | settling rest =>
      have hall := h.sett _ hpc
      cases rest with
      | nil => exact h.leave hall
      | cons u rest =>
        simp only [settle]
        split
        · exact h.congr rfl rfl rfl (fun _ h => (nomatch h)) (fun _ _ => hall) (fun h => (nomatch h)) (fun h => (nomatch h))
        · have hp := h.popped (u := u) (fun ⟨t, ht, h1⟩ => h1 ▸ h.act t ht (hall t ht))
          have hpa : ∀ t ∈ (Stop.popped s u).active, t.ending.isSome = true := fun t ht => hall t (List.mem_filter.1 ht).1
          split
          · refine Waits.leave ?_ hpa
            exact hp.congr rfl rfl rfl (fun r hr => by rw [show s.pc = PC.completing r from hr] at hpc; cases hpc)
              (fun _ _ => hpa) (fun hr => by rw [show s.pc = PC.connecting from hr] at hpc; cases hpc)
              (fun _ => hpa)
          · exact hp.congr rfl rfl rfl (fun _ h => (nomatch h)) (fun _ h => (nomatch h)) (fun h => (nomatch h)) (fun _ => hpa)
          · exact hp.congr rfl rfl rfl (fun _ h => (nomatch h)) (fun _ h => (nomatch h)) (fun h => (nomatch h)) (fun _ => hpa)
          · exact hp.congr rfl rfl rfl (fun _ h => (nomatch h)) (fun _ _ => hpa) (fun h => (nomatch h)) (fun h => (nomatch h))
    | over => exact h
  | exception lost =>
    simp only [Stop.step, exception]
    cases hpc : s.pc with
    | connecting =>
      have hcon := h.conn hpc
      have hov : Waits { s with pc := .over } :=
        h.congr rfl rfl rfl (fun _ h => (nomatch h)) (fun _ h => (nomatch h)) (fun h => (nomatch h))
          (fun _ => by rw [hcon]; exact fun _ h => (nomatch h))
      simp only
      split
      · split
        · exact hov
        · exact h
      · exact hov.congr rfl rfl rfl (fun _ h => (nomatch h)) (fun _ h => (nomatch h)) (fun h => (nomatch h)) hov.over
    | completing rest =>
      cases rest with
      | nil => exact h.congr rfl rfl rfl (fun _ h => (nomatch h)) (fun _ h => (nomatch h)) (fun h => (nomatch h)) (fun h => (nomatch h))
      | cons u rest =>
        have hp := h.popped (u := u) (fun _ => h.comp _ hpc u List.mem_cons_self)
        exact hp.congr rfl rfl rfl (fun _ h => (nomatch h)) (fun _ h => (nomatch h)) (fun h => (nomatch h)) (fun h => (nomatch h))
    | settling rest =>
      have hall := h.sett _ hpc
      cases rest with
      | nil => exact h
      | cons u rest =>
        have hp := h.popped (u := u) (fun ⟨t, ht, h1⟩ => h1 ▸ h.act t ht (hall t ht))
        have hpa : ∀ t ∈ (Stop.popped s u).active, t.ending.isSome = true := fun t ht => hall t (List.mem_filter.1 ht).1
        simp only
        split
        · refine Waits.leave ?_ hpa
          exact hp.congr rfl rfl rfl (fun r hr => by rw [show s.pc = PC.completing r from hr] at hpc; cases hpc)
              (fun _ _ => hpa) (fun hr => by rw [show s.pc = PC.connecting from hr] at hpc; cases hpc)
              (fun _ => hpa)
        · exact hp.congr rfl rfl rfl (fun _ h => (nomatch h)) (fun _ h => (nomatch h)) (fun h => (nomatch h)) (fun _ => hpa)
    | leaving => exact h.congr rfl rfl rfl (fun _ h => (nomatch h)) (fun _ h => (nomatch h)) (fun h => (nomatch h)) (fun h => (nomatch h))
    | top => exact h
    | cleanup => exact h
    | gathering => exact h
    | over => exact h
    | askOld =>
      simp only
      split <;> exact h.congr rfl rfl rfl (fun _ h => (nomatch h)) (fun _ h => (nomatch h)) (fun h => (nomatch h)) (fun h => (nomatch h))
    | askNew =>
      simp only
      split <;> exact h.congr rfl rfl rfl (fun _ h => (nomatch h)) (fun _ h => (nomatch h)) (fun h => (nomatch h)) (fun h => (nomatch h))
    | starting o r =>
      simp only
      split <;> exact h.congr rfl rfl rfl (fun _ h => (nomatch h)) (fun _ h => (nomatch h)) (fun h => (nomatch h)) (fun h => (nomatch h))
  | cancel =>
    simp only [Stop.step, cancelled]
    cases hpc : s.pc with
    | connecting =>
      exact h.congr rfl rfl rfl (fun _ h => (nomatch h)) (fun _ h => (nomatch h)) (fun h => (nomatch h))
          (fun _ => by rw [h.conn hpc]; exact fun _ h => (nomatch h))
    | completing rest =>
      cases rest with
      | nil => exact h.to _ (by simp)
      | cons u rest =>
        have hp := h.popped (u := u) (fun _ => h.comp _ hpc u List.mem_cons_self)
        exact hp.congr rfl rfl rfl (fun _ h => (nomatch h)) (fun _ h => (nomatch h)) (fun h => (nomatch h)) (fun h => (nomatch h))
    | settling rest =>
      have hall := h.sett _ hpc
      cases rest with
      | nil => exact h.congr rfl rfl rfl (fun _ h => (nomatch h)) (fun _ h => (nomatch h)) (fun h => (nomatch h)) (fun _ => hall)
      | cons u rest =>
        have hp := h.popped (u := u) (fun ⟨t, ht, h1⟩ => h1 ▸ h.act t ht (hall t ht))
        have hpa : ∀ t ∈ (Stop.popped s u).active, t.ending.isSome = true := fun t ht => hall t (List.mem_filter.1 ht).1
        exact hp.congr rfl rfl rfl (fun _ h => (nomatch h)) (fun _ h => (nomatch h)) (fun h => (nomatch h)) (fun _ => hpa)
    | cleanup => exact absurd hpc (hc rfl)
    | gathering =>
      exact h.congr rfl rfl rfl (fun _ h => (nomatch h)) (fun _ h => (nomatch h)) (fun h => (nomatch h)) (fun h => (nomatch h))
    | over => exact h
    | leaving => exact h.congr rfl rfl rfl (fun _ h => (nomatch h)) (fun _ h => (nomatch h)) (fun h => (nomatch h)) (fun h => (nomatch h))
    | top => exact h.to _ (by simp)
    | askOld => exact h.to _ (by simp)
    | askNew => exact h.to _ (by simp)
    | starting o r => exact h.to _ (by simp)

/-- The worker does not wind up its run twice over, and is not interrupted while it takes its
heartbeat back. -/
theorem Waits.run (cfg : Cfg) (past : List Docket.Op) (es : List Ev)
    (h : Each cfg (fun s e => e = .cancel → s.pc ≠ .cleanup) (start cfg past) es) : Waits (run cfg past es) :=
  each_run (I := Waits) (fun _ _ h h1 => Waits.step h _ h1) es (start cfg past)
    ⟨(fun _ h => (nomatch h)), (fun _ h => (nomatch h)), (fun _ h => (nomatch h)), (fun _ h => (nomatch h)), (fun _ => rfl),
      (fun h => (nomatch h))⟩ h

theorem interrupted_step {cfg : Cfg} {s : St} (h : s.interrupted = []) (e : Ev) (hc : e = .cancel → s.pc ≠ .gathering) :
    (step cfg s e).interrupted = [] := by
  have hl : ∀ s : St, (leave s).interrupted = s.interrupted := by intro s; unfold leave; split <;> rfl
  cases e with
  | op o => simp only [step]; split <;> exact h
  | signal pid => simp only [step]; split <;> exact h
  | stop => exact h
  | ends pid e => simp only [step]; split <;> exact h
  | go lapsed more delay =>
    simp only [step, go]
    split <;> (try simp only [complete, settle, leaveLost]) <;> (try split) <;> (try split) <;> (try rw [hl]) <;> exact h
  | exception lost =>
    simp only [step, exception]
    split <;> (try simp only [leaveLost]) <;> (try split) <;> (try split) <;> (try rw [hl]) <;> exact h
  | cancel =>
    simp only [step, cancelled]
    split <;> first | exact h | (rename_i hg; exact absurd hg (hc rfl))

/-! ### Settling the tasks -/

/-- An execution of this worker: it is in its hands, or its message is gone. -/
structure Tracked (cfg : Cfg) (s : Sys) (b : Nat × MsgId) : Prop where
  low : b.1 < s.nextPid
  own : ∀ p ∈ s.procs, p.pid = b.1 → p.worker = cfg.worker
  safe : Gone s b.2 ∨ ∃ p ∈ s.procs, p.pid = b.1 ∧ p.id = b.2

theorem Tracked.step {cfg : Cfg} {s : Sys} {b : Nat × MsgId} (hw : WF s) (h : Tracked cfg s b) (o : Docket.Op)
    (h1 : o ≠ .crash cfg.worker) (h2 : (∃ p ∈ s.procs, p.pid = b.1) → o ≠ .abandon b.1) :
    Tracked cfg (Docket.step cfg.core s o) b := by
  obtain ⟨hn, hp⟩ := proc_new (cfg := cfg.core) hw o
  refine ⟨Nat.lt_of_lt_of_le h.low hn, fun p hpp hpid => ?_, ?_⟩
  · rcases hp p hpp with ⟨q, hq, h3, h4, _⟩ | ⟨h3, _⟩
    · rw [← h4]; exact h.own q hq (h3.trans hpid)
    · have := h.low; omega
  · rcases h.safe with h3 | ⟨p, hpp, h3, h4⟩
    · exact Or.inl (h3.step hw o).1
    · rcases proc_keep (cfg := cfg.core) hw o hpp with ⟨p', hp', h5, h6, _⟩ | ⟨h5, _⟩ | h5 | h5
      · exact Or.inr ⟨p', hp', h5.trans h3, h6.trans h4⟩
      · rw [h4] at h5; exact Or.inl h5
      · rw [h.own p hpp h3] at h5; exact absurd h5 h1
      · rw [h3] at h5; exact absurd h5 (h2 ⟨p, hpp, h3⟩)

/-- What asking for messages does to the executions. -/
structure Asked (cfg : Cfg) (s s' : Sys) : Prop where
  wf : WF s'
  np : s.nextPid ≤ s'.nextPid
  old : ∀ p ∈ s.procs, p ∈ s'.procs
  new : ∀ p ∈ s'.procs, p ∈ s.procs ∨ (s.nextPid ≤ p.pid ∧ p.worker = cfg.worker)
  gone : ∀ id, Gone s id → Gone s' id

theorem asked_step {cfg : Cfg} {s : Sys} (hw : WF s) {o : Docket.Op}
    (ho : (∃ n, o = .poll cfg.worker n) ∨ ∃ id, o = .redeliver cfg.worker id) : Asked cfg s (Docket.step cfg.core s o) := by
  have hs : subject o = none := by rcases ho with ⟨n, rfl⟩ | ⟨n, rfl⟩ <;> rfl
  have hn := proc_new (cfg := cfg.core) hw o
  refine ⟨hw.step o, hn.1, fun p hp => ?_, fun p hp => ?_, fun id h => (h.step hw o).1⟩
  · rcases proc_keep (cfg := cfg.core) hw o hp with ⟨p', hp', _, _, _, h⟩ | ⟨_, h⟩ | h | h
    · rw [h (by rw [hs]; exact fun h => nomatch h)] at hp'; exact hp'
    · rw [hs] at h; cases h
    · rcases ho with ⟨n, rfl⟩ | ⟨n, rfl⟩ <;> cases h
    · rcases ho with ⟨n, rfl⟩ | ⟨n, rfl⟩ <;> cases h
  · rcases hn.2 p hp with ⟨q, hq, _, _, h⟩ | ⟨h, h1⟩
    · rw [h (by rw [hs]; exact fun h => nomatch h)] at hq; exact Or.inl hq
    · refine Or.inr ⟨h, ?_⟩
      rcases ho with ⟨n, rfl⟩ | ⟨n, rfl⟩ <;> rcases h1 with ⟨m, h1⟩ | ⟨m, h1⟩ <;> first | (injection h1 with h1; exact h1.symm) | injection h1

theorem Asked.trans {cfg : Cfg} {a b c : Sys} (h : Asked cfg a b) (h' : Asked cfg b c) : Asked cfg a c := by
  refine ⟨h'.wf, Nat.le_trans h.np h'.np, fun p hp => h'.old p (h.old p hp), fun p hp => ?_, fun id hg => h'.gone id (h.gone id hg)⟩
  rcases h'.new p hp with h1 | ⟨h1, h2⟩
  · exact h.new p h1
  · exact Or.inr ⟨Nat.le_trans h.np h1, h2⟩

theorem asked_many {cfg : Cfg} (ids : List MsgId) : ∀ {s : Sys}, WF s →
    Asked cfg s (Docket.runFrom cfg.core s (ids.map (fun id => .redeliver cfg.worker id))) := by
  induction ids with
  | nil => intro s hw; exact ⟨hw, Nat.le_refl _, fun _ h => h, fun _ h => Or.inl h, fun _ h => h⟩
  | cons id ids ih =>
    intro s hw
    have h1 := asked_step (cfg := cfg) hw (Or.inr ⟨id, rfl⟩)
    exact h1.trans (ih h1.wf)

theorem Asked.tracked {cfg : Cfg} {s s' : Sys} (h : Asked cfg s s') {b : Nat × MsgId} (hb : Tracked cfg s b) : Tracked cfg s' b := by
  refine ⟨Nat.lt_of_lt_of_le hb.low h.np, fun p hp hpid => ?_, ?_⟩
  · rcases h.new p hp with h1 | ⟨h1, h2⟩
    · exact hb.own p h1 hpid
    · exact h2
  · rcases hb.safe with h1 | ⟨p, hp, h1⟩
    · exact Or.inl (h.gone _ h1)
    · exact Or.inr ⟨p, h.old p hp, h1⟩

/-- The messages of an answer. -/
theorem Asked.handed {cfg : Cfg} {s s' : Sys} (hw : WF s) (h : Asked cfg s s') :
    ((handedSince s s').map (·.1)).Nodup ∧
    ∀ b ∈ handedSince s s', s.nextPid ≤ b.1 ∧ Tracked cfg s' b := by
  constructor
  · unfold handedSince
    rw [List.map_map]
    exact List.Sublist.nodup (List.Sublist.map _ List.filter_sublist) h.wf.procs.2
  · intro b hb
    obtain ⟨p, hp, rfl⟩ := List.mem_map.1 hb
    obtain ⟨hp, hge⟩ := List.mem_filter.1 hp
    have hge : s.nextPid ≤ p.pid := by simpa using hge
    refine ⟨hge, (h.wf.procs.1 p hp).2.1, fun q hq hqp => ?_, Or.inr ⟨p, hp, rfl, rfl⟩⟩
    rcases h.new q hq with h1 | ⟨_, h2⟩
    · have := (hw.procs.1 q h1).2.1
      have hqp : q.pid = p.pid := hqp
      omega
    · exact h2

/-- A task that has ended has been claimed, or there is nothing left of its execution. -/
def Proper (s : Sys) (t : Task) : Prop :=
  match t.ending with
  | none => True
  | some .returned | some (.refused _) => ∀ p ∈ s.procs, p.pid = t.pid → p.phase = .running
  | some .handled => ∀ p ∈ s.procs, p.pid ≠ t.pid
  | some (.raised _) | some .cancelled => False

structure Settles (cfg : Cfg) (s : St) : Prop where
  wf : WF s.sys
  act : ∀ t ∈ s.active, Tracked cfg s.sys (t.pid, t.id)
  nodup : (s.active.map (·.pid)).Nodup
  bg : ∀ b ∈ s.begun, Tracked cfg s.sys b ∧ (Gone s.sys b.2 ∨ ∃ t ∈ s.active, t.pid = b.1)
  done : ∀ t ∈ s.active, Proper s.sys t
  quiet : s.gatherCancelled = false

/-- What the place where the run is says about the tasks. -/
def Place (cfg : Cfg) (s : St) : Prop :=
  match s.pc with
  | .connecting | .over => s.active = []
  | .completing rest => ∀ u ∈ rest, ∀ t ∈ s.active, t.pid = u → t.ending.isSome = true
  | .starting _ rest => (rest.map (·.1)).Nodup ∧ ∀ b ∈ rest, Tracked cfg s.sys b ∧ ∀ t ∈ s.active, t.pid ≠ b.1
  | .settling rest => ∀ t ∈ s.active, t.ending.isSome = true ∧ t.pid ∈ rest
  | _ => True

theorem task_unique {l : List Task} (h : (l.map (·.pid)).Nodup) {a b : Task} (ha : a ∈ l) (hb : b ∈ l) (hp : a.pid = b.pid) :
    a = b := by
  induction l with
  | nil => cases ha
  | cons x l ih =>
    rw [List.map_cons, List.nodup_cons] at h
    rcases List.mem_cons.1 ha with h1 | h1 <;> rcases List.mem_cons.1 hb with h2 | h2
    · rw [h1, h2]
    · exact absurd (List.mem_map.2 ⟨b, h2, by rw [← h1, hp]⟩) h.1
    · exact absurd (List.mem_map.2 ⟨a, h1, by rw [← h2, hp]⟩) h.1
    · exact ih h.2 h1 h2

/-- Steps that do not concern an execution leave a task as it is. -/
theorem Proper.step {cfg : Cfg} {s : Sys} (hw : WF s) {t : Task} (h : Proper s t) (hl : t.pid < s.nextPid) (o : Docket.Op)
    (ho : t.ending.isSome = true → (∃ p ∈ s.procs, p.pid = t.pid) → subject o ≠ some t.pid) :
    Proper (Docket.step cfg.core s o) t := by
  have key : t.ending.isSome = true → ∀ p ∈ (Docket.step cfg.core s o).procs, p.pid = t.pid → p ∈ s.procs := by
    intro he p hp hpid
    rcases (proc_new (cfg := cfg.core) hw o).2 p hp with ⟨q, hq, h1, _, h2⟩ | ⟨h1, _⟩
    · rw [h2 (by rw [hpid]; exact ho he ⟨q, hq, h1.trans hpid⟩)] at hq; exact hq
    · omega
  unfold Proper at h ⊢
  split <;> rename_i he <;> rw [he] at h key
  · trivial
  · exact fun p hp hpid => h p (key rfl p hp hpid) hpid
  · exact fun p hp hpid => h p (key rfl p hp hpid) hpid
  · exact fun p hp hpid => h p (key rfl p hp hpid) hpid
  · exact h
  · exact h

/-- What somebody else, or a task, does. -/
theorem Settles.op {cfg : Cfg} {s : St} (h : Settles cfg s) (o : Docket.Op)
    (h1 : o ≠ .crash cfg.worker)
    (h2 : ∀ p ∈ s.sys.procs, p.worker = cfg.worker → subject o = some p.pid → running s p.pid = true ∧ o ≠ .abandon p.pid) :
    Settles cfg { s with sys := Docket.step cfg.core s.sys o } ∧
    ∀ b, Tracked cfg s.sys b → Tracked cfg (Docket.step cfg.core s.sys o) b := by
  have htr : ∀ b, Tracked cfg s.sys b → Tracked cfg (Docket.step cfg.core s.sys o) b := by
    intro b hb
    refine hb.step h.wf o h1 (fun ⟨p, hp, hpid⟩ ho => ?_)
    subst ho
    exact (h2 p hp (hb.own p hp hpid) (by rw [hpid]; rfl)).2 (by rw [hpid])
  refine ⟨⟨h.wf.step o, fun t ht => htr _ (h.act t ht), h.nodup, fun b hb => ⟨htr _ (h.bg b hb).1, ?_⟩, fun t ht => ?_, h.quiet⟩, htr⟩
  · rcases (h.bg b hb).2 with h3 | h3
    · exact Or.inl (h3.step h.wf o).1
    · exact Or.inr h3
  · refine (h.done t ht).step h.wf (h.act t ht).low o (fun he ⟨p, hp, hpid⟩ hs => ?_)
    have h3 := (h2 p hp ((h.act t ht).own p hp hpid) (by rw [hpid]; exact hs)).1
    simp only [running, List.any_eq_true, Bool.and_eq_true, decide_eq_true_eq] at h3
    obtain ⟨t', ht', h4, h5⟩ := h3
    rw [task_unique h.nodup ht' ht (h4.trans hpid)] at h5
    rw [Option.isNone_iff_eq_none] at h5
    rw [h5] at he; cases he

theorem may_ok {cfg : Cfg} {s : St} (hw : WF s.sys) {o : Docket.Op} (h : may cfg s o = true) :
    o ≠ .crash cfg.worker ∧
    ∀ p ∈ s.sys.procs, p.worker = cfg.worker → subject o = some p.pid → running s p.pid = true ∧ o ≠ .abandon p.pid := by
  constructor
  · rintro rfl
    simp [may] at h
  · intro p hp hpw hs
    have h1 := proc?_of_mem hw hp
    unfold may at h
    split at h
    · cases hs
    · cases hs
    · cases hs
    · rw [hs] at h
      simp only [h1, hpw, if_true, Bool.and_eq_true, decide_eq_true_eq] at h
      exact h.1

/-- The tasks of a worker are ended by nothing but returning and being refused, and neither an
exception nor a cancellation hits the worker while it puts a task away; it is not cancelled
while it is winding up. -/
def PuttingAway : PC → Prop
  | .completing (_ :: _) | .settling (_ :: _) => True
  | _ => False

def Smooth (s : St) : Ev → Prop
  | .ends _ (.raised _) | .ends _ .cancelled => False
  | .exception _ => ¬ PuttingAway s.pc
  | .cancel => ¬ PuttingAway s.pc ∧ ¬ WindingUp s.pc
  | _ => True

/-- `process_completed_tasks` for one task. -/
theorem Settles.put {cfg : Cfg} {s : St} (h : Settles cfg s) {t : Task} (ht : t ∈ s.active) (he : t.ending.isSome = true)
    (delay : Nat) :
    Settles cfg { popped s t.pid with sys := Docket.runFrom cfg.core s.sys (settleOps s t delay) } := by
  have hd := h.done t ht
  -- whatever the steps are, they belong to this execution and put an end to it
  have key : ∃ ops : List Docket.Op, settleOps s t delay = ops ∧
      ((ops = [] ∧ ∀ p ∈ s.sys.procs, p.pid ≠ t.pid) ∨
       ∃ o, ops = [o] ∧ subject o = some t.pid ∧ o ≠ .abandon t.pid ∧
        ∀ p ∈ (Docket.step cfg.core s.sys o).procs, p.pid ≠ t.pid) := by
    refine ⟨_, rfl, ?_⟩
    unfold settleOps
    have hnone : s.sys.proc? t.pid = none → ∀ p ∈ s.sys.procs, p.pid ≠ t.pid := by
      intro h1 p hp hpid
      have := proc?_of_mem h.wf hp
      rw [hpid, h1] at this; cases this
    unfold Proper at hd
    cases hen : t.ending with
    | none => rw [hen] at he; cases he
    | some e =>
      rw [hen] at hd
      cases hpr : s.sys.proc? t.pid with
      | none => left; cases e <;> (try rename_i b; cases b) <;> exact ⟨rfl, hnone hpr⟩
      | some p =>
        obtain ⟨hp, hpid⟩ := find_pid hpr
        cases e with
        | returned =>
          right
          refine ⟨_, rfl, rfl, fun h => (nomatch h), ?_⟩
          have := finish_drops cfg.core h.wf hp (hd p hp hpid) .failed rfl none false
          rw [hpid] at this; exact this
        | refused again =>
          cases again with
          | true =>
            right
            refine ⟨_, rfl, rfl, fun h => (nomatch h), ?_⟩
            have := reschedule_drops cfg.core h.wf hp (hd p hp hpid) (s.sys.r.now + delay) p.msg.req.attempt
            rw [hpid] at this; exact this
          | false =>
            right
            refine ⟨_, rfl, rfl, fun h => (nomatch h), ?_⟩
            have := finish_drops cfg.core h.wf hp (hd p hp hpid) .cancelled rfl none false
            rw [hpid] at this; exact this
        | handled => exact absurd hpid (hd p hp)
        | raised l => exact hd.elim
        | cancelled => exact hd.elim
  obtain ⟨ops, hops, hk⟩ := key
  rw [hops]
  have hsub : ∀ x ∈ (popped s t.pid).active, x ∈ s.active ∧ x.pid ≠ t.pid := by
    intro x hx
    exact ⟨(List.mem_filter.1 hx).1, by simpa using (List.mem_filter.1 hx).2⟩
  have hnd : ((popped s t.pid).active.map (·.pid)).Nodup :=
    List.Sublist.nodup (List.Sublist.map _ List.filter_sublist) h.nodup
  rcases hk with ⟨rfl, hnone⟩ | ⟨o, rfl, hso, hoa, hdrop⟩
  · refine ⟨h.wf, fun x hx => h.act x (hsub x hx).1, hnd, fun b hb => ⟨(h.bg b hb).1, ?_⟩, fun x hx => h.done x (hsub x hx).1, h.quiet⟩
    rcases (h.bg b hb).2 with h1 | ⟨x, hx, h1⟩
    · exact Or.inl h1
    · by_cases hxt : x.pid = t.pid
      · rcases (h.bg b hb).1.safe with h2 | ⟨p, hp, h2, _⟩
        · exact Or.inl h2
        · exact absurd (by rw [h2, ← h1, hxt]) (hnone p hp)
      · exact Or.inr ⟨x, List.mem_filter.2 ⟨hx, by simpa using hxt⟩, h1⟩
  · have hcr : o ≠ .crash cfg.worker := by rintro rfl; cases hso
    have htr : ∀ b, Tracked cfg s.sys b → Tracked cfg (Docket.step cfg.core s.sys o) b := by
      intro b hb
      refine hb.step h.wf o hcr (fun _ hob => ?_)
      subst hob
      exact hoa (congrArg _ (Option.some.inj hso))
    refine ⟨h.wf.step o, fun x hx => htr _ (h.act x (hsub x hx).1), hnd, fun b hb => ⟨htr _ (h.bg b hb).1, ?_⟩, fun x hx => ?_, h.quiet⟩
    · rcases (h.bg b hb).2 with h1 | ⟨x, hx, h1⟩
      · exact Or.inl (h1.step h.wf o).1
      · by_cases hxt : x.pid = t.pid
        · rcases (htr _ (h.bg b hb).1).safe with h2 | ⟨p, hp, h2, _⟩
          · exact Or.inl h2
          · exact absurd (by rw [h2, ← h1, hxt]) (hdrop p hp)
        · exact Or.inr ⟨x, List.mem_filter.2 ⟨hx, by simpa using hxt⟩, h1⟩
    · refine (h.done x (hsub x hx).1).step h.wf (h.act x (hsub x hx).1).low o (fun _ _ hs => ?_)
      rw [hso] at hs
      exact (hsub x hx).2 (Option.some.inj hs).symm

/-- The docket may change under a worker that asks for messages. -/
theorem Settles.ask {cfg : Cfg} {s : St} (h : Settles cfg s) {sys : Sys} (ha : Asked cfg s.sys sys) :
    Settles cfg { s with sys := sys } := by
  refine ⟨ha.wf, fun t ht => ha.tracked (h.act t ht), h.nodup, fun b hb => ⟨ha.tracked (h.bg b hb).1, ?_⟩, fun t ht => ?_, h.quiet⟩
  · rcases (h.bg b hb).2 with h1 | h1
    · exact Or.inl (ha.gone _ h1)
    · exact Or.inr h1
  · have hl := (h.act t ht).low
    have key : ∀ p ∈ sys.procs, p.pid = t.pid → p ∈ s.sys.procs := by
      intro p hp hpid
      rcases ha.new p hp with h1 | ⟨h1, _⟩
      · exact h1
      · simp only at hl; omega
    have hd := h.done t ht
    unfold Proper at hd ⊢
    split <;> rename_i he <;> rw [he] at hd
    · trivial
    · exact fun p hp hpid => hd p (key p hp hpid) hpid
    · exact fun p hp hpid => hd p (key p hp hpid) hpid
    · exact fun p hp hpid => hd p (key p hp hpid) hpid
    · exact hd
    · exact hd

/-- Nothing of it depends on the place. -/
theorem Settles.congr {cfg : Cfg} {s s' : St} (h : Settles cfg s) (h1 : s'.sys = s.sys) (h2 : s'.active = s.active)
    (h3 : s'.begun = s.begun) (h4 : s'.gatherCancelled = s.gatherCancelled) : Settles cfg s' := by
  cases s; cases s'; simp only at h1 h2 h3 h4; subst h1 h2 h3 h4
  exact ⟨h.wf, h.act, h.nodup, h.bg, h.done, h.quiet⟩

theorem Settles.leave {cfg : Cfg} {s : St} (h : Settles cfg s) (ha : s.active = []) :
    Settles cfg (leave s) ∧ Place cfg (leave s) := by
  unfold Stop.leave
  split
  · exact ⟨h.congr rfl ha.symm rfl rfl, rfl⟩
  · exact ⟨h.congr rfl rfl rfl rfl, ha⟩

theorem Settles.step {cfg : Cfg} {s : St} (h : Settles cfg s) (hpl : Place cfg s) (e : Ev) (hc : Smooth s e) :
    Settles cfg (step cfg s e) ∧ Place cfg (step cfg s e) := by
  cases e with
  | op o =>
    simp only [Stop.step]
    split
    · rename_i hm
      obtain ⟨h1, h2⟩ := may_ok h.wf hm
      obtain ⟨h3, h4⟩ := h.op o h1 h2
      refine ⟨h3, ?_⟩
      unfold Place at hpl ⊢
      simp only
      split <;> rename_i hpc <;> simp only [hpc] at hpl <;> try exact hpl
      exact ⟨hpl.1, fun b hb => ⟨h4 b (hpl.2 b hb).1, (hpl.2 b hb).2⟩⟩
    · exact ⟨h, hpl⟩
  | signal pid =>
    simp only [Stop.step]
    split
    · exact ⟨h.congr rfl rfl rfl rfl, hpl⟩
    · exact ⟨h, hpl⟩
  | stop => exact ⟨h.congr rfl rfl rfl rfl, hpl⟩
  | ends pid e =>
    simp only [Stop.step]
    split
    · rename_i hm
      simp only [Bool.and_eq_true] at hm
      obtain ⟨hrun, hcan⟩ := hm
      have hpids : ∀ t : Task, (if t.pid = pid then { t with ending := some e } else t).pid = t.pid := by
        intro t; split <;> rfl
      have hids : ∀ t : Task, (if t.pid = pid then { t with ending := some e } else t).id = t.id := by
        intro t; split <;> rfl
      have hnone : ∀ t ∈ s.active, t.ending.isSome = true →
          (if t.pid = pid then { t with ending := some e } else t).ending.isSome = true := by
        intro t _ ht; split
        · rfl
        · exact ht
      constructor
      · refine ⟨h.wf, fun t ht => ?_, ?_, fun b hb => ⟨(h.bg b hb).1, ?_⟩, fun t ht => ?_, h.quiet⟩
        · obtain ⟨y, hy, rfl⟩ := List.mem_map.1 ht
          rw [hpids, hids]; exact h.act y hy
        · simp only [markEnded, List.map_map]
          have : ((fun x : Task => x.pid) ∘ fun t : Task => if t.pid = pid then { t with ending := some e } else t) = (·.pid) :=
            funext hpids
          rw [this]; exact h.nodup
        · rcases (h.bg b hb).2 with h1 | ⟨t, ht, h1⟩
          · exact Or.inl h1
          · exact Or.inr ⟨_, List.mem_map.2 ⟨t, ht, rfl⟩, (hpids t).trans h1⟩
        · obtain ⟨y, hy, rfl⟩ := List.mem_map.1 ht
          split
          · rename_i hyp
            have hphase : (match s.sys.proc? pid with | none => true | some p => decide (p.phase = .running)) = true →
                ∀ p ∈ s.sys.procs, p.pid = y.pid → p.phase = .running := by
              intro h1 p hp hpid
              have h2 := proc?_of_mem h.wf hp
              rw [hpid, hyp] at h2
              rw [h2] at h1
              simpa using h1
            cases e with
            | returned => exact hphase hcan
            | refused b => exact hphase hcan
            | handled =>
              intro p hp hpid
              have h2 := proc?_of_mem h.wf hp
              have hpid : p.pid = y.pid := hpid
              rw [hpid, hyp] at h2
              simp only [canEnd] at hcan
              change (s.sys.proc? pid).isNone = true at hcan
              rw [h2] at hcan
              cases hcan
            | raised l => exact hc.elim
            | cancelled => exact hc.elim
          · exact h.done y hy
      · unfold Place at hpl ⊢
        simp only [markEnded]
        split <;> rename_i hpc <;> simp only [hpc] at hpl
        · rw [hpl]; rfl
        · rw [hpl]; rfl
        · intro u hu t ht htu
          obtain ⟨y, hy, rfl⟩ := List.mem_map.1 ht
          exact hnone y hy (hpl u hu y hy ((hpids y).symm.trans htu))
        · refine ⟨hpl.1, fun b hb => ⟨(hpl.2 b hb).1, fun t ht => ?_⟩⟩
          obtain ⟨y, hy, rfl⟩ := List.mem_map.1 ht
          rw [hpids]; exact (hpl.2 b hb).2 y hy
        · intro t ht
          obtain ⟨y, hy, rfl⟩ := List.mem_map.1 ht
          exact ⟨hnone y hy (hpl y hy).1, by rw [hpids]; exact (hpl y hy).2⟩
        · trivial
    · exact ⟨h, hpl⟩
  | go lapsed more delay =>
    simp only [Stop.step, go]
    unfold Place at hpl
    cases hpc : s.pc with
    | connecting =>
      simp only [hpc] at hpl
      simp only
      split
      · exact ⟨h.congr rfl rfl rfl rfl, hpl⟩
      · exact ⟨h.congr rfl rfl rfl rfl, trivial⟩
    | top =>
      simp only
      split
      · refine ⟨h.congr rfl rfl rfl rfl, fun u hu t ht htu => ?_⟩
        obtain ⟨y, hy, rfl⟩ := List.mem_map.1 hu
        rw [task_unique h.nodup ht (List.mem_filter.1 hy).1 htu]
        exact (List.mem_filter.1 hy).2
      · exact ⟨h.congr rfl rfl rfl rfl, trivial⟩
    | completing rest =>
      simp only [hpc] at hpl
      cases rest with
      | nil =>
        simp only
        split <;> exact ⟨h.congr rfl rfl rfl rfl, trivial⟩
      | cons u rest =>
        simp only [complete]
        split
        · exact ⟨h.congr rfl rfl rfl rfl, fun v hv => hpl v (List.mem_cons_of_mem _ hv)⟩
        · rename_i t hf
          have ht := List.mem_of_find?_eq_some hf
          have hu : t.pid = u := by simpa using List.find?_some hf
          have he := hpl u List.mem_cons_self t ht hu
          have hs := h.put ht he delay
          have hd := h.done t ht
          rw [hu] at hs
          unfold Proper at hd
          split
          · rename_i hx; rw [hx] at hd; exact hd.elim
          · rename_i hx; rw [hx] at hd; exact hd.elim
          · refine ⟨hs.congr rfl rfl rfl rfl, fun v hv x hx => hpl v (List.mem_cons_of_mem _ hv) x (List.mem_filter.1 hx).1⟩
    | askOld =>
      have ha := asked_many (cfg := cfg) (lapsed.take (slots cfg s)) h.wf
      refine ⟨(h.ask ha).congr rfl rfl rfl rfl, ?_⟩
      obtain ⟨h1, h2⟩ := ha.handed h.wf
      refine ⟨h1, fun b hb => ⟨(h2 b hb).2, fun t ht htb => ?_⟩⟩
      have := (h2 b hb).1
      have := (h.act t ht).low
      simp only at this
      omega
    | askNew =>
      have ha := asked_step (cfg := cfg) h.wf (o := .poll cfg.worker (slots cfg s)) (Or.inl ⟨_, rfl⟩)
      refine ⟨(h.ask ha).congr rfl rfl rfl rfl, ?_⟩
      obtain ⟨h1, h2⟩ := ha.handed h.wf
      refine ⟨h1, fun b hb => ⟨(h2 b hb).2, fun t ht htb => ?_⟩⟩
      have := (h2 b hb).1
      have := (h.act t ht).low
      simp only at this
      omega
    | starting old rest =>
      simp only [hpc] at hpl
      cases rest with
      | nil =>
        cases old with
        | true =>
          simp only
          split <;> exact ⟨h.congr rfl rfl rfl rfl, trivial⟩
        | false => exact ⟨h.congr rfl rfl rfl rfl, trivial⟩
      | cons b rest =>
        obtain ⟨hnd, hall⟩ := hpl
        rw [List.map_cons, List.nodup_cons] at hnd
        obtain ⟨hb1, hb2⟩ := hall b List.mem_cons_self
        constructor
        · refine ⟨h.wf, fun t ht => ?_, ?_, fun x hx => ?_, fun t ht => ?_, h.quiet⟩
          · rcases List.mem_append.1 ht with ht | ht
            · exact h.act t ht
            · rw [List.mem_singleton.1 ht]; exact hb1
          · simp only [begin_, List.map_append, List.map_cons, List.map_nil]
            rw [List.nodup_append]
            refine ⟨h.nodup, List.nodup_cons.2 ⟨fun h => (nomatch h), List.nodup_nil⟩, fun a ha c hc hac => ?_⟩
            obtain ⟨t, ht, rfl⟩ := List.mem_map.1 ha
            rw [List.mem_singleton.1 hc] at hac
            exact hb2 t ht hac
          · rcases List.mem_cons.1 hx with rfl | hx
            · exact ⟨hb1, Or.inr ⟨_, List.mem_append_right _ (List.mem_singleton.2 rfl), rfl⟩⟩
            · refine ⟨(h.bg x hx).1, ?_⟩
              rcases (h.bg x hx).2 with h1 | ⟨t, ht, h1⟩
              · exact Or.inl h1
              · exact Or.inr ⟨t, List.mem_append_left _ ht, h1⟩
          · rcases List.mem_append.1 ht with ht | ht
            · exact h.done t ht
            · rw [List.mem_singleton.1 ht]; trivial
        · refine ⟨hnd.2, fun x hx => ⟨(hall x (List.mem_cons_of_mem _ hx)).1, fun t ht => ?_⟩⟩
          rcases List.mem_append.1 ht with ht | ht
          · exact (hall x (List.mem_cons_of_mem _ hx)).2 t ht
          · rw [List.mem_singleton.1 ht]
            intro hbx
            exact hnd.1 (List.mem_map.2 ⟨x, hx, hbx.symm⟩)
    | leaving => exact ⟨h.congr rfl rfl rfl rfl, trivial⟩
    | cleanup =>
      simp only
      split
      · rename_i ha
        exact h.leave ha
      · exact ⟨h.congr rfl rfl rfl rfl, trivial⟩
    | gathering =>
      simp only
      split
      · rename_i ha
        have ha' : ∀ t ∈ s.active, t.ending.isSome = true := by simpa using ha
        split
        · rename_i hg; rw [h.quiet] at hg; cases hg
        · exact ⟨h.congr rfl rfl rfl rfl, fun t ht => ⟨ha' t ht, List.mem_map.2 ⟨t, ht, rfl⟩⟩⟩
      · refine ⟨h, ?_⟩
        unfold Place; rw [hpc]; trivial
    | settling rest =>
      simp only [hpc] at hpl
      cases rest with
      | nil =>
        refine h.leave ?_
        cases hact : s.active with
        | nil => rfl
        | cons t l => exact nomatch (hpl t (by rw [hact]; exact List.mem_cons_self)).2
      | cons u rest =>
        simp only [settle]
        split
        · rename_i hf
          refine ⟨h.congr rfl rfl rfl rfl, fun t ht => ⟨(hpl t ht).1, ?_⟩⟩
          rcases List.mem_cons.1 (hpl t ht).2 with h1 | h1
          · have := List.find?_eq_none.1 hf t ht
            simp [h1] at this
          · exact h1
        · rename_i t hf
          have ht := List.mem_of_find?_eq_some hf
          have hu : t.pid = u := by simpa using List.find?_some hf
          have he := (hpl t ht).1
          have hs := h.put ht he delay
          have hd := h.done t ht
          rw [hu] at hs
          unfold Proper at hd
          split
          · rename_i hx; rw [hx] at hd; exact hd.elim
          · rename_i hx; rw [hx] at hd; exact hd.elim
          · rename_i hx; rw [hx] at hd; exact hd.elim
          · refine ⟨hs.congr rfl rfl rfl rfl, fun x hx => ⟨(hpl x (List.mem_filter.1 hx).1).1, ?_⟩⟩
            have h1 : x.pid ≠ u := by simpa using (List.mem_filter.1 hx).2
            rcases List.mem_cons.1 (hpl x (List.mem_filter.1 hx).1).2 with h2 | h2
            · exact absurd h2 h1
            · exact h2
    | over =>
      refine ⟨h, ?_⟩
      unfold Place; exact hpl
  | exception lost =>
    simp only [Stop.step, exception]
    have hpl' := hpl
    unfold Place at hpl
    cases hpc : s.pc with
    | connecting =>
      simp only [hpc] at hpl
      simp only
      split
      · split
        · exact ⟨h.congr rfl rfl rfl rfl, hpl⟩
        · exact ⟨h, hpl'⟩
      · exact ⟨h.congr rfl rfl rfl rfl, hpl⟩
    | completing rest =>
      cases rest with
      | nil => exact ⟨h.congr rfl rfl rfl rfl, trivial⟩
      | cons u rest => exact absurd (by rw [hpc]; trivial) hc
    | settling rest =>
      cases rest with
      | nil => exact ⟨h, hpl'⟩
      | cons u rest => exact absurd (by rw [hpc]; trivial) hc
    | leaving => exact ⟨h.congr rfl rfl rfl rfl, trivial⟩
    | top => exact ⟨h, hpl'⟩
    | cleanup => exact ⟨h, hpl'⟩
    | gathering => exact ⟨h, hpl'⟩
    | over => exact ⟨h, hpl'⟩
    | askOld =>
      simp only
      split <;> exact ⟨h.congr rfl rfl rfl rfl, trivial⟩
    | askNew =>
      simp only
      split <;> exact ⟨h.congr rfl rfl rfl rfl, trivial⟩
    | starting o r =>
      simp only
      split <;> exact ⟨h.congr rfl rfl rfl rfl, trivial⟩
  | cancel =>
    simp only [Stop.step, cancelled]
    have hpl' := hpl
    unfold Place at hpl
    cases hpc : s.pc with
    | connecting =>
      simp only [hpc] at hpl
      exact ⟨h.congr rfl rfl rfl rfl, hpl⟩
    | completing rest =>
      cases rest with
      | nil => exact ⟨h.congr rfl rfl rfl rfl, trivial⟩
      | cons u rest => exact absurd (by rw [hpc]; trivial) hc.1
    | settling rest => exact absurd (by rw [hpc]; trivial) hc.2
    | cleanup => exact absurd (by rw [hpc]; trivial) hc.2
    | gathering => exact absurd (by rw [hpc]; trivial) hc.2
    | over => exact ⟨h, hpl'⟩
    | leaving => exact ⟨h.congr rfl rfl rfl rfl, trivial⟩
    | top => exact ⟨h.congr rfl rfl rfl rfl, trivial⟩
    | askOld => exact ⟨h.congr rfl rfl rfl rfl, trivial⟩
    | askNew => exact ⟨h.congr rfl rfl rfl rfl, trivial⟩
    | starting o r => exact ⟨h.congr rfl rfl rfl rfl, trivial⟩

theorem Settles.run (cfg : Cfg) (past : List Docket.Op) (es : List Ev) (h : Each cfg Smooth (start cfg past) es) :
    Settles cfg (run cfg past es) ∧ Place cfg (run cfg past es) :=
  each_run (I := fun s => Settles cfg s ∧ Place cfg s) (fun _ _ h h1 => Settles.step h.1 h.2 _ h1) es (start cfg past)
    ⟨⟨WF.run cfg.core past, (fun _ h => (nomatch h)), List.nodup_nil, (fun _ h => (nomatch h)), (fun _ h => (nomatch h)), rfl⟩, rfl⟩ h

/-! ### Room -/

theorem redeliver_procs (cfg : Docket.Cfg) {s : Sys} (hw : WF s) (w : WorkerName) (id : MsgId) :
    (Docket.step cfg s (.redeliver w id)).procs = s.procs ∨
    ∃ p, (Docket.step cfg s (.redeliver w id)).procs = s.procs ++ [p] := by
  generalize hop : Docket.Op.redeliver w id = op
  have he := step_eff cfg s hw.queue op
  generalize Docket.step cfg s op = s' at he
  cases he with
  | nop => exact Or.inl rfl
  | redeliver w' x e hx he hid hidle => exact Or.inr ⟨_, rfl⟩
  | clear o j js h => rcases h with ⟨h, _⟩ | ⟨h, _⟩ <;> rw [h] at hop <;> cases hop
  | prog o k f h => rcases h with ⟨_, h, _⟩ | ⟨_, h, _⟩ | ⟨_, h, _⟩ <;> rw [h] at hop <;> cases hop
  | _ => cases hop

theorem redeliver_count {cfg : Docket.Cfg} (w : WorkerName) (f : Proc → Bool) (ids : List MsgId) : ∀ {s : Sys}, WF s →
    ((Docket.runFrom cfg s (ids.map (fun id => .redeliver w id))).procs.filter f).length ≤ (s.procs.filter f).length + ids.length := by
  induction ids with
  | nil => intro s _; exact Nat.le_refl _
  | cons id ids ih =>
    intro s hw
    have h1 := ih (hw.step (cfg := cfg) (.redeliver w id))
    simp only [List.map_cons, Docket.runFrom_cons, List.length_cons]
    rcases redeliver_procs cfg hw w id with h2 | ⟨p, h2⟩
    · rw [h2] at h1; omega
    · rw [h2, List.filter_append, List.length_append] at h1
      have := List.length_filter_le f [p]
      simp only [List.length_singleton] at this
      omega

theorem newProcs_length (w : WorkerName) (red : Bool) (ms : List (MsgId × Msg)) : ∀ pid, (newProcs pid w red ms).length = ms.length := by
  induction ms with
  | nil => intro pid; rfl
  | cons e ms ih => intro pid; simp only [newProcs, List.length_cons, ih]

theorem poll_count {cfg : Docket.Cfg} {s : Sys} (hw : WF s) (w : WorkerName) (n : Nat) (f : Proc → Bool) :
    ((Docket.step cfg s (.poll w n)).procs.filter f).length ≤ (s.procs.filter f).length + n := by
  generalize hop : Docket.Op.poll w n = op
  have he := step_eff cfg s hw.queue op
  generalize Docket.step cfg s op = s' at he
  cases he with
  | nop => exact Nat.le_add_right _ _
  | poll w' n' new hnew =>
    cases hop
    simp only [List.filter_append, List.length_append]
    have h1 := List.length_filter_le f (newProcs s.nextPid w false new)
    have h2 : (newProcs s.nextPid w false new).length = new.length := newProcs_length _ _ _ _
    have h3 : new.length ≤ n := by rw [hnew]; exact List.length_take_le _ _
    omega
  | clear o j js h => rcases h with ⟨h, _⟩ | ⟨h, _⟩ <;> rw [h] at hop <;> cases hop
  | prog o k f h => rcases h with ⟨_, h, _⟩ | ⟨_, h, _⟩ | ⟨_, h, _⟩ <;> rw [h] at hop <;> cases hop
  | _ => cases hop

theorem none_yet {s : Sys} (hw : WF s) : s.procs.filter (fun p => decide (s.nextPid ≤ p.pid)) = [] := by
  rw [List.filter_eq_nil_iff]
  intro p hp
  have := (hw.procs.1 p hp).2.1
  simp only [decide_eq_true_eq]; omega

theorem handed_old {cfg : Cfg} {s : Sys} (hw : WF s) (ids : List MsgId) :
    (handedSince s (Docket.runFrom cfg.core s (ids.map (fun id => .redeliver cfg.worker id)))).length ≤ ids.length := by
  have := redeliver_count (cfg := cfg.core) cfg.worker (fun p => decide (s.nextPid ≤ p.pid)) ids hw
  rw [none_yet hw] at this
  simpa [handedSince] using this

theorem handed_new {cfg : Cfg} {s : Sys} (hw : WF s) (n : Nat) :
    (handedSince s (Docket.step cfg.core s (.poll cfg.worker n))).length ≤ n := by
  have := poll_count (cfg := cfg.core) hw cfg.worker n (fun p => decide (s.nextPid ≤ p.pid))
  rw [none_yet hw] at this
  simpa [handedSince] using this

theorem leave_sys (s : St) : (leave s).sys = s.sys := by unfold leave; split <;> rfl

theorem wf_step {cfg : Cfg} {s : St} (h : WF s.sys) (e : Ev) : WF (step cfg s e).sys := by
  cases e with
  | op o =>
    simp only [step]; split
    · exact h.step o
    · exact h
  | signal pid => simp only [step]; split <;> exact h
  | stop => exact h
  | ends pid e => simp only [step]; split <;> exact h
  | go lapsed more delay =>
    simp only [step, go]
    split <;> (try simp only [complete, settle, leaveLost]) <;> (try split) <;> (try split) <;> (try rw [leave_sys]) <;>
      first | exact h | exact h.runFrom _ | exact h.step _
  | exception lost =>
    simp only [step, exception]
    split <;> (try simp only [leaveLost]) <;> (try split) <;> (try split) <;> (try rw [leave_sys]) <;> exact h
  | cancel =>
    simp only [step, cancelled]
    split <;> exact h

/-- The worker has never more tasks than `concurrency`. -/
structure Room (cfg : Cfg) (s : St) : Prop where
  wf : WF s.sys
  act : s.active.length ≤ cfg.concurrency
  start : ∀ o rest, s.pc = .starting o rest → s.active.length + rest.length ≤ cfg.concurrency
  comp : ∀ rest, s.pc = .completing rest → rest.length ≤ cfg.concurrency

theorem Room.to {cfg : Cfg} {s : St} (h : Room cfg s) {s' : St} (h1 : s'.sys = s.sys) (h2 : s'.active.length ≤ s.active.length)
    (h3 : ∀ o rest, s'.pc ≠ .starting o rest) (h4 : ∀ rest, s'.pc = .completing rest → rest.length ≤ cfg.concurrency) :
    Room cfg s' :=
  ⟨by rw [h1]; exact h.wf, Nat.le_trans h2 h.act, fun o r hr => absurd hr (h3 o r), h4⟩

theorem Room.leave {cfg : Cfg} {s : St} (h : Room cfg s) : Room cfg (leave s) := by
  unfold Stop.leave
  split
  · exact h.to rfl (Nat.zero_le _) (fun _ _ h => (nomatch h)) (fun _ h => (nomatch h))
  · exact h.to rfl (Nat.le_refl _) (fun _ _ h => (nomatch h)) (fun _ h => (nomatch h))

theorem popped_le (s : St) (u : Nat) : (popped s u).active.length ≤ s.active.length := List.length_filter_le _ _

theorem Room.step {cfg : Cfg} {s : St} (h : Room cfg s) (e : Ev) : Room cfg (step cfg s e) := by
  have hwf := wf_step (cfg := cfg) h.wf e
  cases e with
  | op o =>
    simp only [Stop.step] at hwf ⊢
    split
    · rename_i hm
      rw [if_pos hm] at hwf
      exact ⟨hwf, h.act, h.start, h.comp⟩
    · exact h
  | signal pid =>
    simp only [Stop.step]; split
    · exact ⟨h.wf, h.act, h.start, h.comp⟩
    · exact h
  | stop => exact ⟨h.wf, h.act, h.start, h.comp⟩
  | ends pid e =>
    simp only [Stop.step]; split
    · have hl : (markEnded s pid e).active.length = s.active.length := by simp [markEnded]
      refine ⟨h.wf, by rw [hl]; exact h.act, fun o r hr => ?_, h.comp⟩
      rw [hl]; exact h.start o r hr
    · exact h
  | go lapsed more delay =>
    simp only [Stop.step] at hwf
    simp only [Stop.step]
    unfold go at hwf ⊢
    cases hpc : s.pc with
    | connecting => simp only; split <;> exact h.to rfl (Nat.le_refl _) (fun _ _ h => (nomatch h)) (fun _ h => (nomatch h))
    | top =>
      simp only
      split
      · refine h.to rfl (Nat.le_refl _) (fun _ _ h => (nomatch h)) (fun r hr => ?_)
        cases hr
        have := List.length_filter_le (fun t : Task => t.ending.isSome) s.active
        have := h.act
        simp only [List.length_map]; omega
      · exact h.to rfl (Nat.le_refl _) (fun _ _ h => (nomatch h)) (fun _ h => (nomatch h))
    | completing rest =>
      cases rest with
      | nil => simp only; split <;> exact h.to rfl (Nat.le_refl _) (fun _ _ h => (nomatch h)) (fun _ h => (nomatch h))
      | cons u rest =>
        have hc := h.comp _ hpc
        simp only [List.length_cons] at hc
        simp only [hpc] at hwf
        simp only [complete] at hwf ⊢
        have hle := popped_le s u
        have ha := h.act
        split
        · exact h.to rfl (Nat.le_refl _) (fun _ _ h => (nomatch h)) (fun r hr => by cases hr; omega)
        · rename_i t hf
          simp only [hf] at hwf
          split <;> rename_i hx <;> simp only [hx] at hwf <;>
            refine ⟨hwf, Nat.le_trans hle ha, fun _ _ h => (nomatch h), fun r hr => ?_⟩ <;> cases hr <;> omega
    | askOld =>
      have h1 := handed_old (cfg := cfg) h.wf (lapsed.take (slots cfg s))
      have h2 : (lapsed.take (slots cfg s)).length ≤ slots cfg s := List.length_take_le _ _
      have h3 := h.act
      simp only [hpc] at hwf
      refine ⟨hwf, h.act, fun o r hr => ?_, fun _ h => (nomatch h)⟩
      cases hr
      unfold slots at *
      simp only
      omega
    | askNew =>
      have h1 := handed_new (cfg := cfg) h.wf (slots cfg s)
      have h3 := h.act
      simp only [hpc] at hwf
      refine ⟨hwf, h.act, fun o r hr => ?_, fun _ h => (nomatch h)⟩
      cases hr
      unfold slots at *
      simp only
      omega
    | starting old rest =>
      cases rest with
      | nil =>
        cases old with
        | true => simp only; split <;> exact h.to rfl (Nat.le_refl _) (fun _ _ h => (nomatch h)) (fun _ h => (nomatch h))
        | false => exact h.to rfl (Nat.le_refl _) (fun _ _ h => (nomatch h)) (fun _ h => (nomatch h))
      | cons b rest =>
        have hs := h.start _ _ hpc
        simp only [List.length_cons] at hs
        refine ⟨h.wf, ?_, fun o r hr => ?_, fun _ h => (nomatch h)⟩
        · simp only [begin_, List.length_append, List.length_singleton]; omega
        · cases hr
          simp only [begin_, List.length_append, List.length_singleton]; omega
    | leaving => exact h.to rfl (Nat.le_refl _) (fun _ _ h => (nomatch h)) (fun _ h => (nomatch h))
    | cleanup =>
      simp only
      split
      · exact h.leave
      · exact h.to rfl (Nat.le_refl _) (fun _ _ h => (nomatch h)) (fun _ h => (nomatch h))
    | gathering =>
      simp only
      split
      · split <;> exact h.to rfl (Nat.le_refl _) (fun _ _ h => (nomatch h)) (fun _ h => (nomatch h))
      · exact h
    | settling rest =>
      cases rest with
      | nil => exact h.leave
      | cons u rest =>
        simp only [hpc] at hwf
        simp only [settle] at hwf ⊢
        have hle := popped_le s u
        have ha := h.act
        split
        · exact h.to rfl (Nat.le_refl _) (fun _ _ h => (nomatch h)) (fun r hr => (nomatch hr))
        · rename_i t hf
          simp only [hf] at hwf
          split <;> rename_i hx <;> simp only [hx] at hwf
          · refine Room.leave ⟨by rw [leaveLost, leave_sys] at hwf; exact hwf, Nat.le_trans hle ha, fun o r hr => ?_, fun r hr => ?_⟩ <;>
              (change s.pc = _ at hr; rw [hpc] at hr; cases hr)
          · exact ⟨hwf, Nat.le_trans hle ha, fun _ _ h => (nomatch h), fun _ h => (nomatch h)⟩
          · exact ⟨hwf, Nat.le_trans hle ha, fun _ _ h => (nomatch h), fun _ h => (nomatch h)⟩
          · exact ⟨hwf, Nat.le_trans hle ha, fun _ _ h => (nomatch h), fun _ h => (nomatch h)⟩
    | over => exact h
  | exception lost =>
    simp only [Stop.step, exception]
    split
    · split
      · split
        · exact h.to rfl (Nat.le_refl _) (fun _ _ h => (nomatch h)) (fun _ h => (nomatch h))
        · exact h
      · exact h.to rfl (Nat.le_refl _) (fun _ _ h => (nomatch h)) (fun _ h => (nomatch h))
    · exact h
    · exact h.to rfl (popped_le s _) (fun _ _ h => (nomatch h)) (fun _ h => (nomatch h))
    · split <;> exact h.to rfl (Nat.le_refl _) (fun _ _ h => (nomatch h)) (fun _ h => (nomatch h))
    · split <;> exact h.to rfl (Nat.le_refl _) (fun _ _ h => (nomatch h)) (fun _ h => (nomatch h))
    · split <;> exact h.to rfl (Nat.le_refl _) (fun _ _ h => (nomatch h)) (fun _ h => (nomatch h))
    · exact h.to rfl (Nat.le_refl _) (fun _ _ h => (nomatch h)) (fun _ h => (nomatch h))
    · exact h.to rfl (Nat.le_refl _) (fun _ _ h => (nomatch h)) (fun _ h => (nomatch h))
    · exact h
    · exact h
    · rename_i u r hpc
      split
      · refine Room.leave ⟨h.wf, Nat.le_trans (popped_le s u) h.act, fun o r hr => ?_, fun r hr => ?_⟩ <;>
          (change s.pc = _ at hr; rw [hpc] at hr; cases hr)
      · exact h.to rfl (popped_le s _) (fun _ _ h => (nomatch h)) (fun _ h => (nomatch h))
    · exact h
    · exact h
  | cancel =>
    simp only [Stop.step, cancelled]
    split
    · exact h.to rfl (Nat.le_refl _) (fun _ _ h => (nomatch h)) (fun _ h => (nomatch h))
    · exact h.to rfl (popped_le s _) (fun _ _ h => (nomatch h)) (fun _ h => (nomatch h))
    · exact h.to rfl (Nat.le_refl _) (fun _ _ h => (nomatch h)) (fun _ h => (nomatch h))
    · exact h.to rfl (Nat.le_refl _) (fun _ _ h => (nomatch h)) (fun _ h => (nomatch h))
    · exact h.to rfl (Nat.le_refl _) (fun _ _ h => (nomatch h)) (fun _ h => (nomatch h))
    · exact h.to rfl (Nat.le_refl _) (fun _ _ h => (nomatch h)) (fun _ h => (nomatch h))
    · exact h.to rfl (Nat.le_refl _) (fun _ _ h => (nomatch h)) (fun _ h => (nomatch h))
    · exact h.to rfl (Nat.le_refl _) (fun _ _ h => (nomatch h)) (fun _ h => (nomatch h))
    · exact h.to rfl (Nat.le_refl _) (fun _ _ h => (nomatch h)) (fun _ h => (nomatch h))
    · rename_i hpc
      exact h.to rfl (Nat.le_refl _) (fun _ _ hr => by change s.pc = _ at hr; rw [hpc] at hr; cases hr)
        (fun _ hr => by change s.pc = _ at hr; rw [hpc] at hr; cases hr)
    · exact h.to rfl (popped_le s _) (fun _ _ h => (nomatch h)) (fun _ h => (nomatch h))
    · exact h.to rfl (Nat.le_refl _) (fun _ _ h => (nomatch h)) (fun _ h => (nomatch h))
    · exact h

theorem room_run (cfg : Cfg) (past : List Docket.Op) (es : List Ev) : Room cfg (run cfg past es) :=
  run_always (I := Room cfg) (fun _ e h => Room.step h e) es (start cfg past)
    ⟨WF.run cfg.core past, Nat.zero_le _, (fun _ _ h => (nomatch h)), (fun _ h => (nomatch h))⟩

/-! ### What is begun after a stop -/

/-- How many tasks a worker that is stopping may still begin. -/
def still (cfg : Cfg) (s : St) : Nat :=
  match s.pc with
  | .completing _ | .askOld => cfg.concurrency
  | .askNew => cfg.concurrency - s.active.length
  | .starting true _ => cfg.concurrency - s.active.length
  | .starting false rest => rest.length
  | _ => 0

theorem leave_begun (s : St) : (leave s).begun = s.begun := by unfold leave; split <;> rfl
theorem leave_stopping (s : St) : (leave s).stopping = s.stopping := by unfold leave; split <;> rfl
theorem leave_over {s : St} (h : s.stopping = true) : (leave s).pc = .over := by unfold leave; simp [h]
theorem leave_still (cfg : Cfg) (s : St) : still cfg (leave s) = 0 := by unfold leave; split <;> rfl

theorem still_le {cfg : Cfg} {s : St} (h : Room cfg s) : still cfg s ≤ cfg.concurrency := by
  unfold still
  split <;> (try omega)
  rename_i rest hpc
  have := h.start _ _ hpc
  omega

theorem stopping_step {cfg : Cfg} {s : St} (h : s.stopping = true) (e : Ev) : (step cfg s e).stopping = true := by
  cases e with
  | op o => simp only [step]; split <;> exact h
  | signal pid => simp only [step]; split <;> exact h
  | stop => rfl
  | ends pid e => simp only [step]; split <;> exact h
  | go lapsed more delay =>
    simp only [step, go]
    split <;> (try simp only [complete, settle, leaveLost]) <;> (try split) <;> (try split) <;> (try rw [leave_stopping]) <;> exact h
  | exception lost =>
    simp only [step, exception]
    split <;> (try simp only [leaveLost]) <;> (try split) <;> (try split) <;> (try rw [leave_stopping]) <;> exact h
  | cancel =>
    simp only [step, cancelled]
    split <;> exact h

theorem few_step {cfg : Cfg} {s : St} (hr : Room cfg s) (h : s.stopping = true) (e : Ev) :
    (step cfg s e).begun.length + still cfg (step cfg s e) ≤ s.begun.length + still cfg s := by
  cases e with
  | op o => simp only [step]; split <;> exact Nat.le_refl _
  | signal pid => simp only [step]; split <;> exact Nat.le_refl _
  | stop => exact Nat.le_refl _
  | ends pid e =>
    simp only [step]; split
    · have hl : (markEnded s pid e).active.length = s.active.length := by simp [markEnded]
      have h1 : still cfg (markEnded s pid e) = still cfg s := by
        unfold still
        simp only [hl]
        rfl
      rw [h1]; exact Nat.le_refl _
    · exact Nat.le_refl _
  | go lapsed more delay =>
    simp only [step]
    unfold go
    cases hpc : s.pc with
    | connecting => simp [h, still, hpc]
    | top => simp [h, still, hpc]
    | completing rest =>
      cases rest with
      | nil =>
        simp only
        split <;> simp [still, hpc]
      | cons u rest =>
        simp only [complete]
        split
        · simp [still, hpc]
        · split <;> simp [still, hpc, popped]
    | askOld => simp only [still, hpc]; omega
    | askNew =>
      have h1 := handed_new (cfg := cfg) hr.wf (slots cfg s)
      simp only [still, hpc]
      unfold slots at *
      omega
    | starting old rest =>
      have hs := hr.start _ _ hpc
      cases rest with
      | nil =>
        cases old with
        | true => simp only; split <;> simp [still, hpc]
        | false => simp [still, hpc]
      | cons b rest =>
        simp only [List.length_cons] at hs
        cases old with
        | true => simp only [still, hpc, begin_, List.length_cons, List.length_append, List.length_nil]; omega
        | false => simp only [still, hpc, begin_, List.length_cons]; omega
    | leaving => simp [still, hpc]
    | cleanup =>
      simp only
      split
      · rw [leave_still, leave_begun]; omega
      · simp [still, hpc]
    | gathering =>
      simp only
      split
      · split <;> simp [still, hpc]
      · simp [still, hpc]
    | settling rest =>
      cases rest with
      | nil => simp only; rw [leave_still, leave_begun]; omega
      | cons u rest =>
        simp only [settle]
        split
        · simp [still, hpc]
        · split
          · rw [leaveLost, leave_still, leave_begun]; simp [popped]
          all_goals simp [still, hpc, popped]
    | over => simp
  | exception lost =>
    simp only [step, exception]
    split <;> rename_i hpc
    · split
      · simp [still]
      · simp [still, hpc]
    · omega
    · simp [still, hpc, popped]
    · split <;> simp [still, hpc]
    · split <;> simp [still, hpc]
    · split <;> simp [still]
    · simp [still, hpc]
    · simp [still, hpc]
    · omega
    · omega
    · split
      · rw [leaveLost, leave_still, leave_begun]; simp [popped]
      · simp [still, hpc, popped]
    · omega
    · omega
  | cancel =>
    simp only [step, cancelled]
    split <;> rename_i hpc <;> simp [still, hpc, popped]

/-! ### How long it takes -/

/-- How often the run goes on. -/
def goes (es : List Ev) : Nat := es.countP (fun e => match e with | .go _ _ _ => true | _ => false)

/-- A number that no step makes larger, and that every step of the run makes smaller, is
reduced to nothing. -/
theorem rank_run {cfg : Cfg} {I : St → Prop} {P : St → Ev → Prop} {r : St → Nat}
    (hs : ∀ s e, I s → P s e → I (step cfg s e) ∧ r (step cfg s e) ≤ r s ∧
      ((∃ l m d, e = .go l m d) → r (step cfg s e) ≤ r s - 1)) (es : List Ev) :
    ∀ s, I s → Each cfg P s es → I (runFrom cfg s es) ∧ r (runFrom cfg s es) ≤ r s - goes es := by
  induction es with
  | nil => intro s h _; exact ⟨h, by simp [runFrom, goes]⟩
  | cons e es ih =>
    intro s h h1
    have h2 := hs s e h h1.1
    have h3 := ih _ h2.1 h1.2
    refine ⟨h3.1, ?_⟩
    have h4 : runFrom cfg s (e :: es) = runFrom cfg (step cfg s e) es := rfl
    rw [h4]
    have h5 := h3.2
    cases e with
    | go l m d =>
      have h6 := h2.2.2 ⟨l, m, d, rfl⟩
      have h7 : goes (.go l m d :: es) = goes es + 1 := by simp [goes]
      omega
    | _ =>
      have h6 := h2.2.1
      have h7 : ∀ e : Ev, (∀ l m d, e ≠ .go l m d) → goes (e :: es) = goes es := by
        intro e he
        unfold goes
        rw [List.countP_cons]
        cases e <;> first | rfl | exact absurd rfl (he _ _ _)
      rw [h7 _ (by intro l m d h; cases h)]
      omega

/-- How many steps are left to a stopping worker in its loop. -/
def loopRank (cfg : Cfg) (s : St) : Nat :=
  match s.pc with
  | .connecting | .top => 1
  | .starting false rest => rest.length + 2
  | .askNew => cfg.concurrency + 3
  | .starting true rest => rest.length + cfg.concurrency + 4
  | .askOld => 2 * cfg.concurrency + 5
  | .completing rest => rest.length + 2 * cfg.concurrency + 6
  | _ => 0

theorem leave_rank {cfg : Cfg} {s : St} (h : s.stopping = true) : loopRank cfg (leave s) = 0 := by
  unfold loopRank; rw [leave_over h]

theorem loopRank_step {cfg : Cfg} {s : St} (hr : Room cfg s) (h : s.stopping = true) (e : Ev) :
    loopRank cfg (step cfg s e) ≤ loopRank cfg s ∧
    ((∃ l m d, e = .go l m d) → loopRank cfg (step cfg s e) ≤ loopRank cfg s - 1) := by
  cases e with
  | op o => exact ⟨by simp only [step]; split <;> exact Nat.le_refl _, fun ⟨_, _, _, h⟩ => (nomatch h)⟩
  | signal pid => exact ⟨by simp only [step]; split <;> exact Nat.le_refl _, fun ⟨_, _, _, h⟩ => (nomatch h)⟩
  | stop => exact ⟨Nat.le_refl _, fun ⟨_, _, _, h⟩ => (nomatch h)⟩
  | ends pid e => exact ⟨by simp only [step]; split <;> exact Nat.le_refl _, fun ⟨_, _, _, h⟩ => (nomatch h)⟩
  | go lapsed more delay =>
    have key : loopRank cfg (step cfg s (.go lapsed more delay)) ≤ loopRank cfg s - 1 := by
      simp only [step]
      unfold go
      cases hpc : s.pc with
      | connecting => simp [h, loopRank, hpc]
      | top => simp [h, loopRank, hpc]
      | completing rest =>
        cases rest with
        | nil =>
          simp only
          split
          · simp only [loopRank, hpc, List.length_nil]; omega
          · simp only [loopRank, hpc, List.length_nil]; omega
        | cons u rest =>
          simp only [complete]
          split
          · simp only [loopRank, hpc, List.length_cons]; omega
          · split <;> simp only [loopRank, hpc, List.length_cons] <;> omega
      | askOld =>
        have h1 := handed_old (cfg := cfg) hr.wf (lapsed.take (slots cfg s))
        have h2 : (lapsed.take (slots cfg s)).length ≤ slots cfg s := List.length_take_le _ _
        simp only [loopRank, hpc]
        unfold slots at *
        omega
      | askNew =>
        have h1 := handed_new (cfg := cfg) hr.wf (slots cfg s)
        simp only [loopRank, hpc]
        unfold slots at *
        omega
      | starting old rest =>
        cases rest with
        | nil =>
          cases old with
          | true =>
            simp only
            split
            · simp only [loopRank, hpc, List.length_nil]; omega
            · simp only [loopRank, hpc, List.length_nil]; omega
          | false => simp [loopRank, hpc]
        | cons b rest => cases old <;> simp only [loopRank, hpc, List.length_cons] <;> omega
      | leaving => simp [loopRank]
      | cleanup =>
        simp only
        split
        · rw [leave_rank h]; omega
        · simp [loopRank]
      | gathering =>
        simp only
        split
        · split <;> simp [loopRank]
        · simp [loopRank, hpc]
      | settling rest =>
        cases rest with
        | nil => simp only; rw [leave_rank h]; omega
        | cons u rest =>
          simp only [settle]
          split
          · simp [loopRank]
          · split
            · rw [leaveLost, leave_rank (by exact h)]; omega
            all_goals simp [loopRank]
      | over => simp [loopRank, hpc]
    exact ⟨Nat.le_trans key (Nat.sub_le _ _), fun _ => key⟩
  | exception lost =>
    refine ⟨?_, fun ⟨_, _, _, h⟩ => (nomatch h)⟩
    simp only [step, exception]
    split <;> rename_i hpc
    · split
      · simp [loopRank, hpc]
      · simp [loopRank]
    · omega
    · simp [loopRank]
    · split <;> simp [loopRank]
    · split <;> simp [loopRank]
    · split <;> simp [loopRank]
    · simp [loopRank]
    · simp [loopRank]
    · omega
    · omega
    · split
      · rw [leaveLost, leave_rank (by exact h)]; omega
      · simp [loopRank]
    · omega
    · omega
  | cancel =>
    refine ⟨?_, fun ⟨_, _, _, h⟩ => (nomatch h)⟩
    simp only [step, cancelled]
    split <;> rename_i hpc <;> simp [loopRank, hpc]

theorem loopRank_zero {cfg : Cfg} {s : St} (h : loopRank cfg s = 0) : s.pc = .leaving ∨ WindingUp s.pc ∨ s.pc = .over := by
  unfold loopRank at h
  cases hpc : s.pc with
  | leaving => exact .inl rfl
  | cleanup => exact .inr (.inl trivial)
  | gathering => exact .inr (.inl trivial)
  | settling r => exact .inr (.inl trivial)
  | over => exact .inr (.inr rfl)
  | starting o r => rw [hpc] at h; cases o <;> simp at h
  | _ => rw [hpc] at h; simp at h

theorem loopRank_le {cfg : Cfg} {s : St} (h : Room cfg s) : loopRank cfg s ≤ 3 * cfg.concurrency + 6 := by
  unfold loopRank
  split <;> rename_i hpc <;> (try omega)
  · have := h.start _ _ hpc; omega
  · have := h.start _ _ hpc; omega
  · have := h.comp _ hpc; omega

/-- How many steps are left to a worker that has only to put its tasks away. -/
def endRank (s : St) : Nat :=
  match s.pc with
  | .leaving => s.active.length + 4
  | .cleanup => s.active.length + 3
  | .gathering => s.active.length + 2
  | .settling rest => rest.length + 1
  | _ => 0

/-- The worker is on its way out and its tasks have ended. -/
structure Ending_ (s : St) : Prop where
  out : s.pc = .leaving ∨ WindingUp s.pc ∨ s.pc = .over
  act : ∀ t ∈ s.active, t.ending.isSome = true

theorem Ending_.popped {s : St} (h : Ending_ s) (u : Nat) : ∀ t ∈ (popped s u).active, t.ending.isSome = true :=
  fun t ht => h.act t (List.mem_filter.1 ht).1

/-- No `ConnectionError` comes while the worker winds up, and no task ends with one. -/
def NoLost (s : St) (e : Ev) : Prop :=
  (∀ pid, e ≠ .ends pid (.raised true)) ∧ (e = .exception true → ¬ WindingUp s.pc)

structure Steady (s : St) : Prop where
  lost : s.disconnected = true → s.pc = .leaving ∨ WindingUp s.pc ∨ s.pc = .over
  act : ∀ t ∈ s.active, t.ending ≠ some (.raised true)

/-- What holds once the run has been cancelled. -/
structure After (s : St) : Prop where
  out : WindingUp s.pc ∨ s.pc = .over
  quiet : s.pc = .cleanup ∨ (∃ r, s.pc = .settling r) → s.disconnected = false
  gath : s.pc = .gathering → s.disconnected = true → s.gatherCancelled = true
  act : ∀ t ∈ s.active, t.ending ≠ some (.raised true)

theorem ended_act {s : St} {pid : Nat} {e : Ending} (h : ∀ t ∈ s.active, t.ending ≠ some (.raised true)) (he : e ≠ .raised true) :
    ∀ t ∈ (markEnded s pid e).active, t.ending ≠ some (.raised true) := by
  intro t ht
  obtain ⟨t', ht', rfl⟩ := List.mem_map.1 ht
  have := h t' ht'
  split
  · exact fun h => he (Option.some.inj h)
  · exact this

theorem popped_act {s : St} (h : ∀ t ∈ s.active, t.ending ≠ some (.raised true)) (u : Nat) :
    ∀ t ∈ (popped s u).active, t.ending ≠ some (.raised true) :=
  fun t ht => h t (List.mem_filter.1 ht).1

theorem Steady.leave {s : St} (h : Steady s) : Steady (leave s) := by
  unfold Stop.leave
  split
  · exact ⟨(fun h => (nomatch h)), (fun _ h => (nomatch h))⟩
  · exact ⟨fun _ => .inr (.inr rfl), h.act⟩

theorem Steady.to {s s' : St} (h : Steady s) (ha : ∀ t ∈ s'.active, t ∈ s.active)
    (hd : s'.disconnected = s.disconnected) (hp : s'.pc = .leaving ∨ WindingUp s'.pc ∨ s'.pc = .over ∨
      ¬ (s.pc = .leaving ∨ WindingUp s.pc ∨ s.pc = .over)) : Steady s' := by
  refine ⟨fun h1 => ?_, fun t ht => h.act t (ha t ht)⟩
  rw [hd] at h1
  have h2 := h.lost h1
  rcases hp with h3 | h3 | h3 | h3
  · exact .inl h3
  · exact .inr (.inl h3)
  · exact .inr (.inr h3)
  · exact absurd h2 h3

theorem popped_sub (s : St) (u : Nat) : ∀ t ∈ (popped s u).active, t ∈ s.active := fun _ ht => (List.mem_filter.1 ht).1

theorem out_not {p : PC} (h : p = .connecting ∨ p = .top ∨ (∃ r, p = .completing r) ∨ p = .askOld ∨ p = .askNew ∨ (∃ o r, p = .starting o r)) :
    ¬ (p = .leaving ∨ WindingUp p ∨ p = .over) := by
  rintro (h1 | h1 | h1) <;> rcases h with h | h | ⟨_, h⟩ | h | h | ⟨_, _, h⟩ <;> subst h <;> cases h1

theorem Steady.step {cfg : Cfg} {s : St} (h : Steady s) (e : Ev) (hn : NoLost s e) : Steady (step cfg s e) := by
  have id_ : ∀ t ∈ s.active, t ∈ s.active := fun _ h => h
  cases e with
  | op o => simp only [Stop.step]; split <;> exact ⟨h.lost, h.act⟩
  | signal pid => simp only [Stop.step]; split <;> exact ⟨h.lost, h.act⟩
  | stop => exact ⟨h.lost, h.act⟩
  | ends pid e =>
    simp only [Stop.step]; split
    · exact ⟨h.lost, ended_act h.act (fun he => hn.1 pid (by rw [he]))⟩
    · exact h
  | go lapsed more delay =>
    simp only [Stop.step]
    unfold go
    cases hpc : s.pc with
    | connecting => simp only; split <;> exact h.to id_ rfl (.inr (.inr (.inr (out_not (by simp [hpc])))))
    | top => simp only; split <;> exact h.to id_ rfl (.inr (.inr (.inr (out_not (by simp [hpc])))))
    | completing rest =>
      cases rest with
      | nil => simp only; split <;> exact h.to id_ rfl (.inr (.inr (.inr (out_not (by simp [hpc])))))
      | cons u rest =>
        simp only [complete]
        split
        · exact h.to id_ rfl (.inr (.inr (.inr (out_not (by simp [hpc])))))
        · split <;> exact h.to (popped_sub s u) rfl (.inr (.inr (.inr (out_not (by simp [hpc])))))
    | askOld => exact h.to id_ rfl (.inr (.inr (.inr (out_not (by simp [hpc])))))
    | askNew => exact h.to id_ rfl (.inr (.inr (.inr (out_not (by simp [hpc])))))
    | starting old rest =>
      cases rest with
      | nil =>
        cases old with
        | true => simp only; split <;> exact h.to id_ rfl (.inr (.inr (.inr (out_not (by simp [hpc])))))
        | false => exact h.to id_ rfl (.inr (.inr (.inr (out_not (by simp [hpc])))))
      | cons b rest =>
        refine ⟨fun h1 => absurd (h.lost h1) (out_not (by simp [hpc])), fun t ht => ?_⟩
        rcases List.mem_append.1 ht with h1 | h1
        · exact h.act t h1
        · rw [List.mem_singleton.1 h1]; exact fun h => (nomatch h)
    | leaving => exact h.to id_ rfl (.inr (.inl trivial))
    | cleanup =>
      simp only
      split
      · exact h.leave
      · exact h.to id_ rfl (.inr (.inl trivial))
    | gathering =>
      simp only
      split
      · split
        · exact h.to id_ rfl (.inr (.inr (.inl rfl)))
        · exact h.to id_ rfl (.inr (.inl trivial))
      · exact h
    | settling rest =>
      cases rest with
      | nil => exact h.leave
      | cons u rest =>
        simp only [settle]
        split
        · exact h.to id_ rfl (.inr (.inl trivial))
        · split
          · refine Steady.leave ⟨fun _ => .inr (.inl ?_), popped_act h.act u⟩
            simp only [popped, hpc]; trivial
          · exact h.to (popped_sub s u) rfl (.inr (.inr (.inl rfl)))
          · exact h.to (popped_sub s u) rfl (.inr (.inr (.inl rfl)))
          · exact h.to (popped_sub s u) rfl (.inr (.inl trivial))
    | over => exact h
  | exception lost =>
    simp only [Stop.step]
    unfold exception
    cases hpc : s.pc with
    | connecting =>
      simp only
      split
      · split
        · exact h.to id_ rfl (.inr (.inr (.inl rfl)))
        · exact h
      · exact h.to id_ rfl (.inr (.inr (.inl rfl)))
    | top => exact h
    | completing rest =>
      cases rest with
      | nil => exact h.to id_ rfl (.inr (.inl trivial))
      | cons u rest => exact h.to (popped_sub s u) rfl (.inr (.inl trivial))
    | askOld =>
      simp only
      split
      · exact ⟨fun _ => .inl rfl, h.act⟩
      · exact h.to id_ rfl (.inr (.inl trivial))
    | askNew =>
      simp only
      split
      · exact ⟨fun _ => .inl rfl, h.act⟩
      · exact h.to id_ rfl (.inr (.inl trivial))
    | starting o r =>
      simp only
      split
      · exact ⟨fun _ => .inl rfl, h.act⟩
      · exact h.to id_ rfl (.inr (.inl trivial))
    | leaving => exact h.to id_ rfl (.inr (.inl trivial))
    | cleanup => exact h
    | gathering => exact h
    | settling rest =>
      cases rest with
      | nil => exact h
      | cons u rest =>
        cases lost with
        | true => exact absurd (show WindingUp s.pc by rw [hpc]; trivial) (hn.2 rfl)
        | false => exact h.to (popped_sub s u) rfl (.inr (.inr (.inl rfl)))
    | over => exact h
  | cancel =>
    simp only [Stop.step]
    unfold cancelled
    cases hpc : s.pc with
    | completing rest =>
      cases rest with
      | nil => exact h.to id_ rfl (.inr (.inl trivial))
      | cons u rest => exact h.to (popped_sub s u) rfl (.inr (.inl trivial))
    | settling rest =>
      cases rest with
      | nil => exact h.to id_ rfl (.inr (.inr (.inl rfl)))
      | cons u rest => exact h.to (popped_sub s u) rfl (.inr (.inr (.inl rfl)))
    | connecting => exact h.to id_ rfl (.inr (.inr (.inl rfl)))
    | cleanup => exact h.to id_ rfl (.inr (.inr (.inl rfl)))
    | over => exact h
    | gathering => exact ⟨fun _ => .inr (.inl (by simp only [hpc]; trivial)), h.act⟩
    | leaving => exact ⟨(fun h => (nomatch h)), h.act⟩
    | _ => exact h.to id_ rfl (.inr (.inl trivial))

theorem Steady.run (cfg : Cfg) (past : List Docket.Op) (es : List Ev) (h : Each cfg NoLost (start cfg past) es) :
    Steady (run cfg past es) :=
  each_run (I := Steady) (fun _ e h h1 => Steady.step h e h1) es (start cfg past)
    ⟨(fun h => (nomatch h)), (fun _ h => (nomatch h))⟩ h

/-- What the cancellation does. -/
theorem After.begins {s : St} (h : Steady s) : After (cancelled s) ∧ (cancelled s).begun = s.begun := by
  have hd : ¬ (s.pc = .leaving ∨ WindingUp s.pc ∨ s.pc = .over) → s.disconnected = false := by
    intro h1
    cases hd : s.disconnected with
    | false => rfl
    | true => exact absurd (h.lost hd) h1
  have ov : ∀ s' : St, (∀ t ∈ s'.active, t ∈ s.active) → s'.pc = .over → After s' := by
    intro s' ha hp
    exact ⟨.inr hp, (by rintro (h1 | ⟨_, h1⟩) <;> rw [hp] at h1 <;> cases h1), (fun h1 => by rw [hp] at h1; cases h1),
      fun t ht => h.act t (ha t ht)⟩
  have cl : ∀ s' : St, (∀ t ∈ s'.active, t ∈ s.active) → s'.pc = .cleanup → s'.disconnected = false → After s' := by
    intro s' ha hp hd
    exact ⟨.inl (by rw [hp]; trivial), fun _ => hd, (fun h1 => by rw [hp] at h1; cases h1),
      fun t ht => h.act t (ha t ht)⟩
  have id_ : ∀ t ∈ s.active, t ∈ s.active := fun _ h => h
  unfold cancelled
  cases hpc : s.pc with
  | connecting => exact ⟨ov _ id_ rfl, rfl⟩
  | completing rest =>
    have h1 := hd (out_not (by simp [hpc]))
    cases rest with
    | nil => exact ⟨cl _ id_ rfl h1, rfl⟩
    | cons u rest => exact ⟨cl _ (popped_sub s u) rfl h1, rfl⟩
  | leaving => exact ⟨cl _ id_ rfl rfl, rfl⟩
  | cleanup => exact ⟨ov _ id_ rfl, rfl⟩
  | gathering =>
    exact ⟨⟨.inl (by simp only [hpc]; trivial), (by rintro (h1 | ⟨_, h1⟩) <;> simp only [hpc] at h1 <;> cases h1),
      fun _ _ => rfl, h.act⟩, rfl⟩
  | settling rest =>
    cases rest with
    | nil => exact ⟨ov _ id_ rfl, rfl⟩
    | cons u rest => exact ⟨ov _ (popped_sub s u) rfl, rfl⟩
  | over => exact ⟨ov _ id_ hpc, rfl⟩
  | _ => exact ⟨cl _ id_ rfl (hd (out_not (by simp [hpc]))), rfl⟩

theorem leave_over' {s : St} (h : s.disconnected = false) : leave s = { s with pc := .over } := by unfold leave; simp [h]

theorem After.step {cfg : Cfg} {s : St} (h : After s) (e : Ev) (hn : NoLost s e) :
    After (step cfg s e) ∧ (step cfg s e).begun = s.begun := by
  have ov : ∀ s' : St, (∀ t ∈ s'.active, t ∈ s.active) → s'.pc = .over → After s' := by
    intro s' ha hp
    exact ⟨.inr hp, (by rintro (h1 | ⟨_, h1⟩) <;> rw [hp] at h1 <;> cases h1), (fun h1 => by rw [hp] at h1; cases h1),
      fun t ht => h.act t (ha t ht)⟩
  have se : ∀ s' : St, (∀ t ∈ s'.active, t ∈ s.active) → (∃ r, s'.pc = .settling r) → s'.disconnected = false → After s' := by
    intro s' ha hp hd
    obtain ⟨r, hp⟩ := hp
    exact ⟨.inl (by rw [hp]; trivial), fun _ => hd, (fun h1 => by rw [hp] at h1; cases h1),
      fun t ht => h.act t (ha t ht)⟩
  have id_ : ∀ t ∈ s.active, t ∈ s.active := fun _ h => h
  cases e with
  | op o => simp only [Stop.step]; split <;> exact ⟨⟨h.out, h.quiet, h.gath, h.act⟩, rfl⟩
  | signal pid => simp only [Stop.step]; split <;> exact ⟨⟨h.out, h.quiet, h.gath, h.act⟩, rfl⟩
  | stop => exact ⟨⟨h.out, h.quiet, h.gath, h.act⟩, rfl⟩
  | ends pid e =>
    simp only [Stop.step]; split
    · exact ⟨⟨h.out, h.quiet, h.gath, ended_act h.act (fun he => hn.1 pid (by rw [he]))⟩, rfl⟩
    · exact ⟨h, rfl⟩
  | go lapsed more delay =>
    simp only [Stop.step]
    unfold go
    cases hpc : s.pc with
    | cleanup =>
      have hd := h.quiet (.inl hpc)
      simp only
      split
      · rw [leave_over' hd]; exact ⟨ov _ id_ rfl, rfl⟩
      · exact ⟨⟨.inl trivial, (by rintro (h1 | ⟨_, h1⟩) <;> cases h1), (fun _ h1 => by rw [show _ = false from hd] at h1; cases h1), h.act⟩, rfl⟩
    | gathering =>
      simp only
      split
      · split
        · exact ⟨ov _ id_ rfl, rfl⟩
        · rename_i hg
          refine ⟨se _ id_ ⟨_, rfl⟩ ?_, rfl⟩
          cases hd : s.disconnected with
          | false => rfl
          | true => exact absurd (h.gath hpc hd) hg
      · exact ⟨h, rfl⟩
    | settling rest =>
      have hd := h.quiet (.inr ⟨_, hpc⟩)
      cases rest with
      | nil => simp only; rw [leave_over' hd]; exact ⟨ov _ id_ rfl, rfl⟩
      | cons u rest =>
        simp only [settle]
        split
        · exact ⟨se _ id_ ⟨_, rfl⟩ hd, rfl⟩
        · rename_i t hf
          split
          · rename_i hx
            exact absurd hx (h.act t (List.mem_of_find?_eq_some hf))
          · exact ⟨ov _ (popped_sub s u) rfl, rfl⟩
          · exact ⟨ov _ (popped_sub s u) rfl, rfl⟩
          · exact ⟨se _ (popped_sub s u) ⟨_, rfl⟩ hd, rfl⟩
    | over => exact ⟨h, rfl⟩
    | _ => rcases h.out with h1 | h1 <;> rw [hpc] at h1 <;> cases h1
  | exception lost =>
    simp only [Stop.step]
    unfold exception
    cases hpc : s.pc with
    | cleanup => exact ⟨h, rfl⟩
    | gathering => exact ⟨h, rfl⟩
    | settling rest =>
      cases rest with
      | nil => exact ⟨h, rfl⟩
      | cons u rest =>
        cases lost with
        | true => exact absurd (show WindingUp s.pc by rw [hpc]; trivial) (hn.2 rfl)
        | false => exact ⟨ov _ (popped_sub s u) rfl, rfl⟩
    | over => exact ⟨h, rfl⟩
    | _ => rcases h.out with h1 | h1 <;> rw [hpc] at h1 <;> cases h1
  | cancel =>
    refine After.begins ⟨fun _ => ?_, h.act⟩
    rcases h.out with h1 | h1
    · exact .inr (.inl h1)
    · exact .inr (.inr h1)

theorem After.runs {cfg : Cfg} (es : List Ev) : ∀ {s : St}, After s → Each cfg NoLost s es →
    After (runFrom cfg s es) ∧ (runFrom cfg s es).begun = s.begun := by
  induction es with
  | nil => intro s h _; exact ⟨h, rfl⟩
  | cons e es ih =>
    intro s h h1
    have h2 := After.step (cfg := cfg) h e h1.1
    have h3 := ih h2.1 h1.2
    exact ⟨h3.1, h3.2.trans h2.2⟩

theorem leave_out {s : St} (h : s.stopping = true ∨ s.disconnected = false) : leave s = { s with pc := .over } := by
  unfold leave; rcases h with h | h <;> simp [h]

/-- The worker was told to stop, or was cancelled and has not lost its connection. -/
def Told (s : St) (e : Ev) : Prop := s.stopping = true ∨ (After s ∧ NoLost s e)

theorem endRank_step {cfg : Cfg} {s : St} {e : Ev} (ht : Told s e) (h : Ending_ s) :
    Ending_ (step cfg s e) ∧ endRank (step cfg s e) ≤ endRank s ∧
    ((∃ l m d, e = .go l m d) → endRank (step cfg s e) ≤ endRank s - 1) := by
  have hov : ∀ s' : St, (∀ t ∈ s'.active, t.ending.isSome = true) → s'.pc = .over → ∀ n, Ending_ s' ∧ endRank s' ≤ n :=
    fun s' h1 h2 n => ⟨⟨.inr (.inr h2), h1⟩, by unfold endRank; rw [h2]; exact Nat.zero_le _⟩
  have hlv : ∀ s' : St, s'.stopping = true ∨ s'.disconnected = false → (∀ t ∈ s'.active, t.ending.isSome = true) →
      ∀ n, Ending_ (leave s') ∧ endRank (leave s') ≤ n :=
    fun s' h0 h1 n => by rw [leave_out h0]; exact hov _ (by exact h1) rfl n
  have hq : s.pc = .cleanup ∨ (∃ r, s.pc = .settling r) → s.stopping = true ∨ s.disconnected = false := fun h1 => by
    rcases ht with h2 | h2
    · exact .inl h2
    · exact .inr (h2.1.quiet h1)
  cases e with
  | op o => exact ⟨by simp only [step]; split <;> exact ⟨h.out, h.act⟩, by simp only [step]; split <;> exact Nat.le_refl _, fun ⟨_, _, _, h⟩ => (nomatch h)⟩
  | signal pid => exact ⟨by simp only [step]; split <;> exact ⟨h.out, h.act⟩, by simp only [step]; split <;> exact Nat.le_refl _, fun ⟨_, _, _, h⟩ => (nomatch h)⟩
  | stop => exact ⟨⟨h.out, h.act⟩, Nat.le_refl _, fun ⟨_, _, _, h⟩ => (nomatch h)⟩
  | ends pid e =>
    refine ⟨?_, ?_, fun ⟨_, _, _, h⟩ => (nomatch h)⟩
    · simp only [step]; split
      · refine ⟨h.out, fun t ht => ?_⟩
        obtain ⟨t', ht', rfl⟩ := List.mem_map.1 ht
        have := h.act t' ht'
        split
        · rfl
        · exact this
      · exact h
    · simp only [step]; split
      · simp [endRank, markEnded]
      · exact Nat.le_refl _
  | go lapsed more delay =>
    have key : Ending_ (step cfg s (.go lapsed more delay)) ∧ endRank (step cfg s (.go lapsed more delay)) ≤ endRank s - 1 := by
      simp only [step]
      unfold go
      cases hpc : s.pc with
      | leaving => exact ⟨⟨.inr (.inl trivial), h.act⟩, by simp [endRank, hpc]⟩
      | cleanup =>
        simp only
        split
        · exact hlv _ (hq (.inl hpc)) h.act _
        · exact ⟨⟨.inr (.inl trivial), h.act⟩, by simp [endRank, hpc]⟩
      | gathering =>
        have ha : s.active.all (fun t => t.ending.isSome) = true := List.all_eq_true.2 h.act
        simp only [ha, if_true]
        split
        · exact hov _ (by exact h.act) rfl _
        · exact ⟨⟨.inr (.inl trivial), h.act⟩, by simp [endRank, hpc]⟩
      | settling rest =>
        cases rest with
        | nil => exact hlv _ (hq (.inr ⟨_, hpc⟩)) h.act _
        | cons u rest =>
          simp only [settle]
          split
          · exact ⟨⟨.inr (.inl trivial), h.act⟩, by simp [endRank, hpc]⟩
          · rename_i t hf
            split
            · rename_i hx
              rcases ht with h2 | h2
              · exact hlv _ (by exact .inl h2) (by exact h.popped u) _
              · exact absurd hx (h2.1.act t (List.mem_of_find?_eq_some hf))
            · exact hov _ (by exact h.popped u) rfl _
            · exact hov _ (by exact h.popped u) rfl _
            · exact ⟨⟨.inr (.inl trivial), h.popped u⟩, by simp [endRank, hpc]⟩
      | over => exact hov _ h.act hpc _
      | _ => rcases h.out with h1 | h1 | h1 <;> rw [hpc] at h1 <;> cases h1
    exact ⟨key.1, Nat.le_trans key.2 (Nat.sub_le _ _), fun _ => key.2⟩
  | exception lost =>
    have key : Ending_ (step cfg s (.exception lost)) ∧ endRank (step cfg s (.exception lost)) ≤ endRank s := by
      simp only [step]
      unfold exception
      cases hpc : s.pc with
      | leaving => exact ⟨⟨.inr (.inl trivial), h.act⟩, by simp [endRank, hpc]⟩
      | cleanup => exact ⟨h, Nat.le_refl _⟩
      | gathering => exact ⟨h, Nat.le_refl _⟩
      | settling rest =>
        cases rest with
        | nil => exact ⟨h, Nat.le_refl _⟩
        | cons u rest =>
          simp only
          split
          · rename_i hx
            rcases ht with h2 | h2
            · exact hlv _ (by exact .inl h2) (by exact h.popped u) _
            · exact absurd (show WindingUp s.pc by rw [hpc]; trivial) (h2.2.2 (by rw [hx]))
          · exact hov _ (by exact h.popped u) rfl _
      | over => exact hov _ h.act hpc _
      | _ => rcases h.out with h1 | h1 | h1 <;> rw [hpc] at h1 <;> cases h1
    exact ⟨key.1, key.2, fun ⟨_, _, _, h⟩ => (nomatch h)⟩
  | cancel =>
    have key : Ending_ (step cfg s .cancel) ∧ endRank (step cfg s .cancel) ≤ endRank s := by
      simp only [step]
      unfold cancelled
      cases hpc : s.pc with
      | leaving => exact ⟨⟨.inr (.inl trivial), h.act⟩, by simp [endRank, hpc]⟩
      | cleanup => exact hov _ (by exact h.act) rfl _
      | gathering => exact ⟨⟨.inr (.inl (by simp only [hpc]; trivial)), h.act⟩, by simp [endRank, hpc]⟩
      | settling rest =>
        cases rest with
        | nil => exact hov _ (by exact h.act) rfl _
        | cons u rest => exact hov _ (by exact h.popped u) rfl _
      | over => exact hov _ h.act hpc _
      | _ => rcases h.out with h1 | h1 | h1 <;> rw [hpc] at h1 <;> cases h1
    exact ⟨key.1, key.2, fun ⟨_, _, _, h⟩ => (nomatch h)⟩

/-- The list of tasks to put away is not longer than the room. -/
theorem sett_step {cfg : Cfg} {s : St} (hr : Room cfg s) (h : ∀ rest, s.pc = .settling rest → rest.length ≤ cfg.concurrency) (e : Ev) :
    ∀ rest, (step cfg s e).pc = .settling rest → rest.length ≤ cfg.concurrency := by
  have hl : ∀ (s' : St) r, (leave s').pc ≠ .settling r := by
    intro s' r; unfold leave; split <;> exact fun h => (nomatch h)
  cases e with
  | op o => simp only [step]; split <;> exact h
  | signal pid => simp only [step]; split <;> exact h
  | stop => exact h
  | ends pid e => simp only [step]; split <;> exact h
  | go lapsed more delay =>
    intro rest hrest
    simp only [step] at hrest
    unfold go at hrest
    cases hpc : s.pc with
    | settling r =>
      have h1 := h _ hpc
      rw [hpc] at hrest
      cases r with
      | nil => exact absurd hrest (hl _ _)
      | cons u r =>
        simp only [List.length_cons] at h1
        simp only [settle] at hrest
        split at hrest
        · cases hrest; omega
        · split at hrest
          · exact absurd hrest (hl _ _)
          · cases hrest
          · cases hrest
          · cases hrest; omega
    | gathering =>
      simp only [hpc] at hrest
      split at hrest
      · split at hrest
        · cases hrest
        · cases hrest
          simp only [List.length_map]; exact hr.act
      · rw [hpc] at hrest; cases hrest
    | cleanup =>
      simp only [hpc] at hrest
      split at hrest
      · exact absurd hrest (hl _ _)
      · cases hrest
    | completing r =>
      rw [hpc] at hrest
      cases r with
      | nil => simp only at hrest; split at hrest <;> cases hrest
      | cons u r =>
        simp only [complete] at hrest
        split at hrest
        · cases hrest
        · split at hrest <;> cases hrest
    | starting o r =>
      rw [hpc] at hrest
      cases r with
      | nil => cases o <;> simp only at hrest <;> (try split at hrest) <;> cases hrest
      | cons b r => cases hrest
    | over => rw [hpc] at hrest; simp only at hrest; rw [hpc] at hrest; cases hrest
    | _ => simp only [hpc] at hrest; (try split at hrest) <;> cases hrest
  | exception lost =>
    intro rest hrest
    simp only [step] at hrest
    unfold exception at hrest
    cases hpc : s.pc with
    | settling r =>
      have h1 := h _ hpc
      cases r with
      | nil => simp only [hpc] at hrest; cases hrest; exact h1
      | cons u r =>
        simp only [hpc] at hrest
        split at hrest
        · exact absurd hrest (hl _ _)
        · cases hrest
    | completing r => cases r <;> simp only [hpc] at hrest <;> cases hrest
    | connecting =>
      simp only [hpc] at hrest
      split at hrest
      · split at hrest
        · cases hrest
        · rw [hpc] at hrest; cases hrest
      · cases hrest
    | askOld => simp only [hpc] at hrest; split at hrest <;> cases hrest
    | askNew => simp only [hpc] at hrest; split at hrest <;> cases hrest
    | starting o r => simp only [hpc] at hrest; split at hrest <;> cases hrest
    | leaving => simp only [hpc] at hrest; cases hrest
    | _ => simp only [hpc] at hrest; cases hrest
  | cancel =>
    intro rest hrest
    simp only [step] at hrest
    unfold cancelled at hrest
    cases hpc : s.pc with
    | settling r => cases r <;> simp only [hpc] at hrest <;> cases hrest
    | completing r => cases r <;> simp only [hpc] at hrest <;> cases hrest
    | gathering => simp only [hpc] at hrest; cases hrest
    | _ => simp only [hpc] at hrest; cases hrest

theorem sett_run (cfg : Cfg) (past : List Docket.Op) (es : List Ev) :
    ∀ rest, (run cfg past es).pc = .settling rest → rest.length ≤ cfg.concurrency :=
  (run_always (I := fun s => Room cfg s ∧ ∀ rest, s.pc = .settling rest → rest.length ≤ cfg.concurrency)
    (fun _ e h => ⟨Room.step h.1 e, sett_step h.1 h.2 e⟩) es (start cfg past)
    ⟨room_run cfg past [], (fun _ h => (nomatch h))⟩).2

theorem endRank_le {cfg : Cfg} {past : List Docket.Op} {es : List Ev} : endRank (run cfg past es) ≤ cfg.concurrency + 4 := by
  have h1 := (room_run cfg past es).act
  unfold endRank
  split <;> rename_i hpc <;> (try omega)
  have := sett_run cfg past es _ hpc
  omega

theorem endRank_zero {s : St} (h : Ending_ s) (h0 : endRank s = 0) : s.pc = .over := by
  unfold endRank at h0
  rcases h.out with h1 | h1 | h1
  · rw [h1] at h0; simp at h0
  · cases hpc : s.pc with
    | cleanup => rw [hpc] at h0; simp at h0
    | gathering => rw [hpc] at h0; simp at h0
    | settling r => rw [hpc] at h0; simp at h0
    | over => rfl
    | _ => rw [hpc] at h1; cases h1
  · exact h1

theorem run_append (cfg : Cfg) (past : List Docket.Op) (a b : List Ev) :
    run cfg past (a ++ b) = runFrom cfg (run cfg past a) b := List.foldl_append ..

theorem stopping_run {cfg : Cfg} (es : List Ev) {s : St} (h : s.stopping = true) : (runFrom cfg s es).stopping = true :=
  run_always (I := fun s => s.stopping = true) (fun _ e h => stopping_step h e) es s h

theorem each_true {cfg : Cfg} (es : List Ev) : ∀ s, Each cfg (fun _ _ => True) s es := by
  induction es with
  | nil => intro s; trivial
  | cons e es ih => intro s; exact ⟨trivial, ih _⟩

/-! ### C85 -/

/-- Every task that a worker has begun has ended when its run is over. -/
def C85_ends_statement : Prop :=
  ∀ (cfg : Cfg) (past : List Docket.Op) (es : List Ev), (run cfg past es).pc = .over →
    ∀ b ∈ (run cfg past es).begun, b.1 ∈ (run cfg past es).ended

/-- No task is interrupted because the run of its worker ends. -/
def C85_uninterrupted_statement : Prop :=
  ∀ (cfg : Cfg) (past : List Docket.Op) (es : List Ev), (run cfg past es).interrupted = []

/-- The message of every task that a worker has begun is gone from the docket when its run is
over: it is neither waiting nor held. -/
def C85_settled_statement : Prop :=
  ∀ (cfg : Cfg) (past : List Docket.Op) (es : List Ev), (run cfg past es).pc = .over →
    ∀ b ∈ (run cfg past es).begun,
      (∀ e ∈ (run cfg past es).sys.r.stream, e.1 ≠ b.2) ∧ ∀ p ∈ (run cfg past es).sys.r.pending, p.id ≠ b.2

/-- **C85**, the full statement. -/
def C85_statement : Prop := C85_ends_statement ∧ C85_uninterrupted_statement ∧ C85_settled_statement

/-- **C85** (part): the run of a worker ends only when every task that it has begun has ended,
whatever the tasks do, whatever exceptions Redis raises and however often the connection is
lost, if it is not cancelled a second time in the short time in which it takes its heartbeat
back. -/
theorem C85_waits_partial (cfg : Cfg) (past : List Docket.Op) (es : List Ev)
    (h : Each cfg (fun s e => e = .cancel → s.pc ≠ .cleanup) (start cfg past) es) (ho : (run cfg past es).pc = .over) :
    ∀ b ∈ (run cfg past es).begun, b.1 ∈ (run cfg past es).ended := by
  have hw := Waits.run cfg past es h
  intro b hb
  rcases hw.bg b hb with h1 | ⟨t, ht, hp⟩
  · exact h1
  · rw [← hp]; exact hw.act t ht (hw.over ho t ht)

/-- **C85** (part): no task is interrupted, if the run is not cancelled while it waits for its
tasks. -/
theorem C85_not_interrupted_partial (cfg : Cfg) (past : List Docket.Op) (es : List Ev)
    (h : Each cfg (fun s e => e = .cancel → s.pc ≠ .gathering) (start cfg past) es) :
    (run cfg past es).interrupted = [] :=
  each_run (I := fun s => s.interrupted = []) (fun _ e h h1 => interrupted_step h e h1) es (start cfg past) rfl h

/-- **C85** (part): when the run of a worker has ended, no task that it has begun is left on the
docket, if no task ended with an exception of its own and nothing went wrong while the worker
put its tasks away. -/
theorem C85_settled_partial (cfg : Cfg) (past : List Docket.Op) (es : List Ev) (h : Each cfg Smooth (start cfg past) es)
    (ho : (run cfg past es).pc = .over) :
    ∀ b ∈ (run cfg past es).begun,
      (∀ e ∈ (run cfg past es).sys.r.stream, e.1 ≠ b.2) ∧ ∀ p ∈ (run cfg past es).sys.r.pending, p.id ≠ b.2 := by
  have hs := Settles.run cfg past es h
  have ha : (run cfg past es).active = [] := by have := hs.2; unfold Place at this; rw [ho] at this; exact this
  intro b hb
  rcases (hs.1.bg b hb).2 with h1 | ⟨t, ht, _⟩
  · exact ⟨h1.stream, h1.pending⟩
  · rw [ha] at ht; cases ht

/-! ### C86 -/

/-- After the event the worker begins no further task. -/
def BeginsNone (e : Ev) : Prop :=
  ∀ (cfg : Cfg) (past : List Docket.Op) (es₁ es₂ : List Ev),
    (run cfg past (es₁ ++ e :: es₂)).begun = (run cfg past es₁).begun

/-- After the event, and once its tasks have ended, the run of the worker is soon over. -/
def Returns (e : Ev) : Prop :=
  ∀ (cfg : Cfg) (past : List Docket.Op) (es₁ es₂ es₃ : List Ev), 3 * cfg.concurrency + 6 ≤ goes es₂ →
    (∀ t ∈ (run cfg past (es₁ ++ e :: es₂)).active, t.ending.isSome = true) →
    cfg.concurrency + 4 ≤ goes es₃ → (run cfg past (es₁ ++ e :: es₂ ++ es₃)).pc = .over

/-- **C86**, the full statement.  A worker that is told to stop, by leaving its context or by
SIGTERM, begins no further task, and its run ends soon after its tasks have ended. -/
def C86_statement : Prop := (BeginsNone .stop ∧ Returns .stop) ∧ BeginsNone .cancel ∧ Returns .cancel

/-- **C86** (part): after its context has been left a worker begins at most as many further
tasks as it may run at the same time, whatever happens. -/
theorem C86_stop_few_partial (cfg : Cfg) (past : List Docket.Op) (es₁ es₂ : List Ev) :
    (run cfg past (es₁ ++ .stop :: es₂)).begun.length ≤ (run cfg past es₁).begun.length + cfg.concurrency := by
  rw [run_append]
  have hr := room_run cfg past es₁
  have h0 : Room cfg (step cfg (run cfg past es₁) .stop) := Room.step hr _
  have key : ∀ (es : List Ev) (s : St), Room cfg s → s.stopping = true →
      (runFrom cfg s es).begun.length + still cfg (runFrom cfg s es) ≤ s.begun.length + still cfg s := by
    intro es
    induction es with
    | nil => intro s _ _; exact Nat.le_refl _
    | cons e es ih =>
      intro s h1 h2
      exact Nat.le_trans (ih _ (Room.step h1 e) (stopping_step h2 e)) (few_step h1 h2 e)
  have h1 := key es₂ _ h0 rfl
  have h2 := still_le h0
  have h3 : (step cfg (run cfg past es₁) .stop).begun = (run cfg past es₁).begun := rfl
  rw [h3] at h1
  have h4 : runFrom cfg (run cfg past es₁) (.stop :: es₂) = runFrom cfg (step cfg (run cfg past es₁) .stop) es₂ := rfl
  rw [h4]
  omega

/-- **C86** (part): and none at all if it was then waiting at the top of its loop, connecting,
or winding up. -/
theorem C86_stop_none_partial (cfg : Cfg) (past : List Docket.Op) (es₁ es₂ : List Ev)
    (h : (run cfg past es₁).pc = .top ∨ (run cfg past es₁).pc = .connecting ∨ (run cfg past es₁).pc = .leaving ∨
      WindingUp (run cfg past es₁).pc) :
    (run cfg past (es₁ ++ .stop :: es₂)).begun.length ≤ (run cfg past es₁).begun.length := by
  rw [run_append]
  have hr := room_run cfg past es₁
  have key : ∀ (es : List Ev) (s : St), Room cfg s → s.stopping = true →
      (runFrom cfg s es).begun.length + still cfg (runFrom cfg s es) ≤ s.begun.length + still cfg s := by
    intro es
    induction es with
    | nil => intro s _ _; exact Nat.le_refl _
    | cons e es ih =>
      intro s h1 h2
      exact Nat.le_trans (ih _ (Room.step h1 e) (stopping_step h2 e)) (few_step h1 h2 e)
  have h1 := key es₂ _ (Room.step hr .stop) rfl
  have h2 : still cfg (step cfg (run cfg past es₁) .stop) = 0 := by
    unfold still
    have hp : (step cfg (run cfg past es₁) .stop).pc = (run cfg past es₁).pc := rfl
    rw [hp]
    rcases h with h | h | h | h
    · rw [h]
    · rw [h]
    · rw [h]
    · cases hpc : (run cfg past es₁).pc <;> rw [hpc] at h <;> first | rfl | cases h
  have h3 : (step cfg (run cfg past es₁) .stop).begun = (run cfg past es₁).begun := rfl
  rw [h2, h3] at h1
  have h4 : runFrom cfg (run cfg past es₁) (.stop :: es₂) = runFrom cfg (step cfg (run cfg past es₁) .stop) es₂ := rfl
  rw [h4]
  omega

/-- **C86** (part): a worker whose run is cancelled begins no further task, if neither Redis
while it winds up nor a task of its own raises `ConnectionError`. -/
theorem C86_cancel_none_partial (cfg : Cfg) (past : List Docket.Op) (es₁ es₂ : List Ev)
    (h : Each cfg NoLost (start cfg past) (es₁ ++ .cancel :: es₂)) :
    (run cfg past (es₁ ++ .cancel :: es₂)).begun = (run cfg past es₁).begun := by
  have h1 := (Each.append es₁ _).1 h
  rw [run_append]
  have h2 := After.begins (Steady.run cfg past es₁ h1.1)
  exact (After.runs es₂ h2.1 h1.2.2).2.trans h2.2

/-- After a stop a worker leaves its loop in a bounded number of steps. -/
theorem winds_up (cfg : Cfg) (past : List Docket.Op) (es₁ es₂ : List Ev) (h : 3 * cfg.concurrency + 6 ≤ goes es₂) :
    (run cfg past (es₁ ++ .stop :: es₂)).pc = .leaving ∨ WindingUp (run cfg past (es₁ ++ .stop :: es₂)).pc ∨
      (run cfg past (es₁ ++ .stop :: es₂)).pc = .over := by
  rw [run_append]
  have h0 : Room cfg (step cfg (run cfg past es₁) .stop) := Room.step (room_run cfg past es₁) _
  have h1 := rank_run (cfg := cfg) (I := fun s => Room cfg s ∧ s.stopping = true) (P := fun _ _ => True) (r := loopRank cfg)
    (fun s e hi _ => ⟨⟨Room.step hi.1 e, stopping_step hi.2 e⟩, loopRank_step hi.1 hi.2 e⟩) es₂ _ ⟨h0, rfl⟩ (each_true _ _)
  have h2 := loopRank_le h0
  exact loopRank_zero (cfg := cfg) (Nat.le_zero.1 (Nat.le_trans h1.2 (by omega)))

/-- **C86** (part): the run of a worker whose context was left ends: it has left its loop after
`3 * concurrency + 6` steps, and once all its tasks have ended it is over after
`concurrency + 4` steps more, whatever else happens. -/
theorem C86_stop_returns_partial (cfg : Cfg) (past : List Docket.Op) (es₁ es₂ es₃ : List Ev)
    (h2 : 3 * cfg.concurrency + 6 ≤ goes es₂)
    (ha : ∀ t ∈ (run cfg past (es₁ ++ .stop :: es₂)).active, t.ending.isSome = true)
    (h3 : cfg.concurrency + 4 ≤ goes es₃) :
    (run cfg past (es₁ ++ .stop :: es₂ ++ es₃)).pc = .over := by
  have h1 := winds_up cfg past es₁ es₂ h2
  rw [run_append cfg past _ es₃]
  have hst : (run cfg past (es₁ ++ .stop :: es₂)).stopping = true := by
    rw [run_append]; exact stopping_run (cfg := cfg) es₂ (s := step cfg (run cfg past es₁) .stop) rfl
  have h4 := rank_run (cfg := cfg) (I := fun s => Ending_ s ∧ s.stopping = true) (P := fun _ _ => True) (r := endRank)
    (fun s e hi _ =>
      have := endRank_step (cfg := cfg) (.inl hi.2) hi.1 (e := e)
      ⟨⟨this.1, stopping_step hi.2 e⟩, this.2⟩) es₃ _ ⟨⟨h1, ha⟩, hst⟩ (each_true _ _)
  have h5 := endRank_le (cfg := cfg) (past := past) (es := es₁ ++ .stop :: es₂)
  exact endRank_zero h4.1.1 (Nat.le_zero.1 (Nat.le_trans h4.2 (by omega)))

/-- **C86** (part): so does the run of a worker that was cancelled, if neither Redis while it
winds up nor a task raises `ConnectionError`. -/
theorem C86_cancel_returns_partial (cfg : Cfg) (past : List Docket.Op) (es₁ es₂ es₃ : List Ev)
    (h : Each cfg NoLost (start cfg past) (es₁ ++ .cancel :: es₂ ++ es₃))
    (ha : ∀ t ∈ (run cfg past (es₁ ++ .cancel :: es₂)).active, t.ending.isSome = true)
    (h3 : cfg.concurrency + 4 ≤ goes es₃) :
    (run cfg past (es₁ ++ .cancel :: es₂ ++ es₃)).pc = .over := by
  have h0 := (Each.append _ _).1 h
  have h1 := (Each.append es₁ _).1 h0.1
  have hf : After (run cfg past (es₁ ++ .cancel :: es₂)) := by
    rw [run_append]
    exact (After.runs es₂ (After.begins (Steady.run cfg past es₁ h1.1)).1 h1.2.2).1
  rw [run_append cfg past _ es₃]
  have hout : (run cfg past (es₁ ++ .cancel :: es₂)).pc = .leaving ∨ WindingUp (run cfg past (es₁ ++ .cancel :: es₂)).pc ∨
      (run cfg past (es₁ ++ .cancel :: es₂)).pc = .over := .inr hf.out
  have h4 := rank_run (cfg := cfg) (I := fun s => Ending_ s ∧ After s) (P := NoLost) (r := endRank)
    (fun s e hi hn =>
      have := endRank_step (cfg := cfg) (.inr ⟨hi.2, hn⟩) hi.1
      ⟨⟨this.1, (After.step hi.2 e hn).1⟩, this.2⟩) es₃ _ ⟨⟨hout, ha⟩, hf⟩ h0.2
  have h5 := endRank_le (cfg := cfg) (past := past) (es := es₁ ++ .cancel :: es₂)
  exact endRank_zero h4.1.1 (Nat.le_zero.1 (Nat.le_trans h4.2 (by omega)))

/-! ### Examples, and where the code does something else -/

namespace Example

def cfg : Cfg := ⟨⟨1000, 300⟩, "w", 2, true⟩
def past : List Docket.Op :=
  [.add "a" ⟨"f", "", "", 0, 1⟩ 0, .add "b" ⟨"f", "", "", 0, 1⟩ 0, .add "c" ⟨"f", "", "", 0, 1⟩ 0]
def g : Ev := .go [] true 5
/-- Two of the three tasks are begun, the run is at the top of its loop. -/
def begins : List Ev := [g, g, g, g, g, g, g, g, g, .op (.claim 0), .op (.claim 1)]
def done (pid : Nat) : List Ev := [.op (.finish pid .completed none false), .ends pid .returned]
/-- SIGTERM; the worker waits for its two tasks, puts them away and is over. -/
def goodEnd : List Ev := [.cancel, g, g] ++ done 0 ++ [g] ++ done 1 ++ [g, g, g, g]

end Example
open Example

instance : DecidablePred WindingUp := fun p => by unfold WindingUp; split <;> infer_instance
instance : DecidablePred PuttingAway := fun p => by unfold PuttingAway; split <;> infer_instance
instance (s : St) (e : Ev) : Decidable (Smooth s e) := by unfold Smooth; split <;> infer_instance
def lostOutside (s : St) (e : Ev) : Bool :=
  match e with
  | .ends _ (.raised true) => false
  | .exception true => !decide (WindingUp s.pc)
  | _ => true
theorem lostOutside_iff (s : St) (e : Ev) : lostOutside s e = true ↔ NoLost s e := by
  unfold lostOutside NoLost
  split <;> simp_all
instance (s : St) (e : Ev) : Decidable (NoLost s e) := decidable_of_iff _ (lostOutside_iff s e)
instance decEach {cfg : Cfg} {P : St → Ev → Prop} [∀ s e, Decidable (P s e)] : (es : List Ev) → (s : St) → Decidable (Each cfg P s es)
  | [], _ => isTrue trivial
  | e :: es, s => @instDecidableAnd _ _ _ (decEach es (step cfg s e))

/-- The tasks of a worker that gets SIGTERM end in peace, are settled, and the run is over. -/
example :
    Each cfg Smooth (start cfg past) (begins ++ goodEnd) ∧
    Each cfg (fun s e => e = .cancel → s.pc ≠ .cleanup) (start cfg past) (begins ++ goodEnd) ∧
    Each cfg (fun s e => e = .cancel → s.pc ≠ .gathering) (start cfg past) (begins ++ goodEnd) ∧
    Each cfg NoLost (start cfg past) (begins ++ goodEnd) ∧
    (run cfg past (begins ++ goodEnd)).pc = .over ∧
    (run cfg past (begins ++ goodEnd)).begun.map (·.1) = [1, 0] ∧
    (run cfg past (begins ++ goodEnd)).ended = [1, 0] ∧
    (run cfg past (begins ++ goodEnd)).sys.r.stream.length = 1 ∧
    (run cfg past (begins ++ goodEnd)).sys.r.pending = [] := by
  decide +kernel

/-- The hypotheses of `C86_stop_returns_partial`, with two tasks at work. -/
def stops : List Ev := [.stop, g, g, g] ++ done 0 ++ done 1 ++ List.replicate 9 (.go [] true 5)

example :
    3 * cfg.concurrency + 6 ≤ goes (stops.drop 1) ∧
    (run cfg past begins).begun.length = 2 ∧ (run cfg past begins).active.length = 2 ∧
    (run cfg past (begins ++ [g, .stop])).pc = .completing [] ∧
    (∀ t ∈ (run cfg past (begins ++ .stop :: stops.drop 1)).active, t.ending.isSome = true) ∧
    (run cfg past (begins ++ .stop :: stops.drop 1)).pc = .over ∧
    (run cfg past (begins ++ .stop :: [g, g, g, g, g])).pc = .gathering ∧
    (run cfg past (begins ++ .stop :: stops.drop 1)).begun.length = 2 := by
  decide +kernel

/-- The hypotheses of `C86_cancel_returns_partial`. -/
example :
    Each cfg NoLost (start cfg past) (begins ++ .cancel :: (done 0 ++ done 1) ++ [g, g, g, g, g, g]) ∧
    (∀ t ∈ (run cfg past (begins ++ .cancel :: (done 0 ++ done 1))).active, t.ending.isSome = true) ∧
    (run cfg past (begins ++ .cancel :: (done 0 ++ done 1))).pc = .cleanup ∧
    (run cfg past (begins ++ .cancel :: (done 0 ++ done 1))).active.length = 2 ∧
    cfg.concurrency + 4 ≤ goes [g, g, g, g, g, g] := by
  decide +kernel

/-- **Disagreement.**  A second SIGTERM (or Ctrl-C) while the worker waits for its tasks cancels
the `gather` (worker.py:843) and with it the tasks: their work is interrupted, `_execute` takes
that for a cancellation by a user and marks them as cancelled for good (worker.py:1166-1170), so
no other worker runs them. -/
theorem C85_violated_second_signal : ¬ C85_uninterrupted_statement := by
  intro h
  have := h cfg past (begins ++ [.cancel, g, .cancel])
  revert this
  decide +kernel

/-- What becomes of the two tasks. -/
example :
    let s := run cfg past (begins ++ [.cancel, g, .cancel, .op (.finish 0 .cancelled none false), .ends 0 .returned,
      .op (.finish 1 .cancelled none false), .ends 1 .returned, g])
    s.pc = .over ∧ s.interrupted = [0, 1] ∧ s.sys.r.pending = [] ∧
    (s.sys.r.runs "a").map (·.state) = some (some .cancelled) ∧
    (s.sys.r.runs "b").map (·.state) = some (some .cancelled) := by
  decide +kernel

/-- **Disagreement.**  A second SIGTERM while the worker takes its heartbeat back
(worker.py:839-841) ends the run at once, although its tasks have not ended: they are neither
waited for nor interrupted. -/
theorem C85_violated_orphans : ¬ C85_ends_statement := by
  intro h
  have := h cfg past (begins ++ [.cancel, .cancel])
  revert this
  decide +kernel

/-- **Disagreement.**  The last `process_completed_tasks` (worker.py:844) stops at the first task
that ended with an exception, and what it should have done for the others is left undone: a task
that was refused and should be scheduled again stays with a worker that is gone. -/
theorem C85_violated_unsettled : ¬ C85_settled_statement := by
  intro h
  have := h cfg past (begins ++ [.cancel, g, .ends 0 (.raised false), .ends 1 (.refused true), g, g])
  revert this
  decide +kernel

theorem C85_violated : ¬ C85_statement := fun h => C85_violated_orphans h.1

/-- **Disagreement.**  A worker that is told to stop while it asks Redis for new messages takes
what it gets and begins it (worker.py:759-805: `_worker_stopping` is looked at only at the top of
the loop). -/
theorem C86_violated_takes_more : ¬ BeginsNone .stop := by
  intro h
  have := h cfg past [g, g, g, g, g] [g, g, g, g]
  revert this
  decide +kernel

/-- SIGTERM, whose `CancelledError` is caught at worker.py:829; while the tasks are put away
the connection is lost. -/
def lostEnd : List Ev := [g] ++ done 0 ++ done 1 ++ [g, .exception true, g, g, g, g, g, g, g, g, g]

/-- **Disagreement.**  The `CancelledError` of SIGTERM is caught at worker.py:829 and forgotten.
If Redis then loses the connection while the worker puts its tasks away (worker.py:844), `_run`
sees only a `ConnectionError`, connects again and goes on taking tasks (worker.py:551-566). -/
theorem C86_violated_resumes : ¬ BeginsNone .cancel := by
  intro h
  have := h cfg past begins lostEnd
  revert this
  decide +kernel

/-- **Disagreement.**  And then the run does not end, although the worker was told to stop and
its tasks have ended. -/
theorem C86_violated_never_returns : ¬ Returns .cancel := by
  intro h
  have := h cfg past begins (lostEnd ++ [.op (.claim 2)] ++ done 2 ++ [g, g, g]) [g, g, g, g, g, g] (by decide +kernel) (by decide +kernel) (by decide +kernel)
  revert this
  decide +kernel

theorem C86_violated : ¬ C86_statement := fun h => C86_violated_takes_more h.1.1

end Docket.Stop
