import Verif.Cli.Tables
/-
C114: the tables of the command line show what there is.
-/
namespace Docket.Tables

/-! Specification -/

/-- No part of the text reads as the name of a picture between colons. -/
def NoPicture (r : Rich) (s : Text) : Prop :=
  ∀ a name b, s = a ++ ':' :: (name ++ ':' :: b) → r.emoji name = none

/-- No part of the text reads as a tag: brackets around something without brackets that
begins with a small letter, `#`, `/` or `@`. -/
def NoTag (s : Text) : Prop :=
  ∀ a c t b, s = a ++ '[' :: c :: (t ++ ']' :: b) → '[' ∉ t → startsTag c = false

/-- A text `rich` prints as it is. -/
def Plain (r : Rich) (s : Text) : Prop := NoPicture r s ∧ NoTag s

/-- The time meant by what is shown at time `now`. -/
def Shown.meant (now : Int) : Shown → Int
  | .atTime t => t
  | .ahead d => now + d
  | .ago d => now - d

/-- The full statement: whatever their keys, the tasks of a snapshot are listed, each with
its key. -/
def C114_statement (r : Rich) : Prop :=
  ∀ taken running future, ∃ rows, snapshotTable r taken running future = some rows ∧
    rows.map (·.key) = running.map (·.key) ++ future.map (·.key)

/-! Lemmas -/

theorem nameAt_eq : ∀ {s name rest : Text}, nameAt s = some (name, rest) → s = name ++ ':' :: rest
  | [], _, _, h => by simp [nameAt] at h
  | c :: s, name, rest, h => by
    simp only [nameAt] at h
    split at h
    · rename_i hc; injection h with h; injection h with h1 h2; subst h1 h2 hc; rfl
    · split at h
      · exact absurd h (by simp)
      · cases hn : nameAt s with
        | none => rw [hn] at h; exact absurd h (by simp)
        | some p =>
          rw [hn] at h
          simp only [Option.map_some, Option.some.injEq, Prod.mk.injEq] at h
          have := nameAt_eq (s := s) (name := p.1) (rest := p.2) hn
          rw [← h.1, ← h.2, this]; rfl

theorem NoPicture.suffix {r : Rich} {p s : Text} (h : NoPicture r (p ++ s)) : NoPicture r s := by
  intro a name b e
  exact h (p ++ a) name b (by rw [e, List.append_assoc])

theorem emojis_plain (r : Rich) : ∀ n (s : Text), NoPicture r s → emojis r n s = s
  | 0, _, _ => rfl
  | _ + 1, [], _ => rfl
  | n + 1, c :: s, h => by
    have hs : NoPicture r s := NoPicture.suffix (p := [c]) h
    simp only [emojis]
    split
    · rename_i hc
      split
      · rename_i name rest hn
        have e := nameAt_eq hn
        have : r.emoji name = none := h [] name rest (by rw [hc, e]; rfl)
        rw [this]
        have hr : NoPicture r rest := NoPicture.suffix (p := name ++ [':']) (by rw [e] at hs; simpa using hs)
        rw [emojis_plain r n rest hr, e, hc]; simp
      · rw [emojis_plain r n s hs]
    · rw [emojis_plain r n s hs]

theorem closing_eq : ∀ {s t rest : Text}, closing s = some (t, rest) → s = t ++ ']' :: rest ∧ '[' ∉ t
  | [], _, _, h => by simp [closing] at h
  | c :: s, t, rest, h => by
    simp only [closing] at h
    split at h
    · rename_i hc; injection h with h; injection h with h1 h2; subst h1 h2 hc; exact ⟨rfl, by simp⟩
    · split at h
      · exact absurd h (by simp)
      · rename_i hb
        cases hn : closing s with
        | none => rw [hn] at h; exact absurd h (by simp)
        | some p =>
          rw [hn] at h
          simp only [Option.map_some, Option.some.injEq, Prod.mk.injEq] at h
          have := closing_eq (s := s) (t := p.1) (rest := p.2) hn
          rw [← h.1, ← h.2]
          refine ⟨by rw [this.1]; rfl, ?_⟩
          simp only [List.mem_cons, not_or]
          exact ⟨fun e => hb e.symm, this.2⟩

theorem NoTag.suffix {p s : Text} (h : NoTag (p ++ s)) : NoTag s := by
  intro a c t b e
  exact h (p ++ a) c t b (by rw [e, List.append_assoc])

theorem NoTag.tagAt {s : Text} (h : NoTag ('[' :: s)) : tagAt s = none := by
  cases s with
  | nil => rfl
  | cons c s =>
    simp only [Tables.tagAt]
    split
    · rename_i hc
      cases hn : closing s with
      | none => rfl
      | some p =>
        have e := closing_eq (t := p.1) (rest := p.2) hn
        have := h [] c p.1 p.2 (by rw [← e.1]; rfl) e.2
        rw [this] at hc; cases hc
    · rfl

theorem render_plain (r : Rich) : ∀ n opened acc (s : Text), NoTag s →
    render r n opened acc s = some (pictures r (acc ++ s))
  | 0, _, _, _, _ => rfl
  | _ + 1, _, _, [], _ => by simp [render]
  | n + 1, opened, acc, c :: s, h => by
    have hs : NoTag s := NoTag.suffix (p := [c]) h
    simp only [render]
    split
    · rename_i hc
      rw [NoTag.tagAt (hc ▸ h)]
      simp only
      rw [render_plain r n opened _ s hs]; simp
    · rw [render_plain r n opened _ s hs]; simp

theorem cell_plain {r : Rich} {s : Text} (h : Plain r s) : cell r s = some s := by
  simp only [cell]
  rw [render_plain r _ _ _ _ h.2]
  simp only [List.nil_append, pictures]
  rw [emojis_plain r _ _ h.1]

theorem collect_some (f : β → Option α) (g : β → α) : ∀ (l : List β), (∀ b ∈ l, f b = some (g b)) →
    collect (l.map f) = some (l.map g)
  | [], _ => rfl
  | b :: l, h => by
    simp only [List.map_cons, h b List.mem_cons_self, collect]
    rw [collect_some f g l (fun x hx => h x (List.mem_cons_of_mem _ hx))]; rfl

theorem collect_append : ∀ (l m : List (Option α)) (a b : List α), collect l = some a → collect m = some b →
    collect (l ++ m) = some (a ++ b)
  | [], m, a, b, h, h' => by
    simp only [collect, Option.some.injEq] at h; subst h; simpa using h'
  | none :: l, m, a, b, h, _ => by simp [collect] at h
  | some x :: l, m, a, b, h, h' => by
    simp only [collect] at h
    cases hl : collect l with
    | none => rw [hl] at h; cases h
    | some a' =>
      rw [hl] at h
      simp only [Option.map_some, Option.some.injEq] at h; subst h
      simp only [List.cons_append, collect]
      rw [collect_append l m a' b hl h']; rfl

theorem collect_none : ∀ (l : List (Option α)), none ∈ l → collect l = none
  | [], h => by cases h
  | none :: _, _ => rfl
  | some a :: l, h => by
    have : none ∈ l := by simpa using h
    simp [collect, collect_none l this]

theorem insert_perm (f : α → α → Bool) (a : α) : ∀ l, (insert f a l).Perm (a :: l)
  | [] => .refl _
  | b :: l => by
    simp only [insert]
    split
    · exact ((insert_perm f a l).cons b).trans (.swap a b l)
    · exact .refl _

theorem foldl_insert_perm (f : α → α → Bool) : ∀ (l acc : List α),
    (l.foldl (fun acc a => insert f a acc) acc).Perm (acc ++ l)
  | [], acc => by simp
  | a :: l, acc => by
    simp only [List.foldl_cons]
    refine (foldl_insert_perm f l _).trans ?_
    refine ((insert_perm f a acc).append_right l).trans ?_
    exact (List.perm_middle (l₁ := acc) (l₂ := l) (a := a)).symm

theorem sorted_perm (f : α → α → Bool) (l : List α) : (sorted f l).Perm l :=
  foldl_insert_perm f l []

theorem insert_pairwise {f : α → α → Bool} (tot : ∀ a b, f a b = false → f b a = true)
    (tr : ∀ a b c, f a b = true → f b c = true → f a c = true) (a : α) :
    ∀ l, l.Pairwise (f · · = true) → (insert f a l).Pairwise (f · · = true)
  | [], _ => by simp [insert]
  | b :: l, h => by
    have h' := List.pairwise_cons.1 h
    simp only [insert]
    split
    · rename_i hb
      refine List.pairwise_cons.2 ⟨fun x hx => ?_, insert_pairwise tot tr a l h'.2⟩
      rcases List.mem_cons.1 ((insert_perm f a l).mem_iff.1 hx) with rfl | hx
      · exact hb
      · exact h'.1 x hx
    · rename_i hb
      have hab := tot b a (by simpa using hb)
      refine List.pairwise_cons.2 ⟨fun x hx => ?_, h⟩
      rcases List.mem_cons.1 hx with rfl | hx
      · exact hab
      · exact tr _ _ _ hab (h'.1 x hx)

theorem sorted_pairwise {f : α → α → Bool} (tot : ∀ a b, f a b = false → f b a = true)
    (tr : ∀ a b c, f a b = true → f b c = true → f a c = true) (l : List α) :
    (sorted f l).Pairwise (f · · = true) := by
  have : ∀ (l acc : List α), acc.Pairwise (f · · = true) →
      (l.foldl (fun acc a => insert f a acc) acc).Pairwise (f · · = true) := by
    intro l
    induction l with
    | nil => intro acc h; exact h
    | cons a l ih => intro acc h; exact ih _ (insert_pairwise tot tr a acc h)
  exact this l [] .nil

/-! Theorems -/

/-- **C114**: a time in the tables is the time meant; times within half an hour are shown as
a distance, ahead or ago, and others as they are. -/
theorem C114_times (now t : Int) :
    (relativeTime now t).meant now = t ∧
    (now - 1800000000 < t ∧ t ≤ now → relativeTime now t = .ago (now - t)) ∧
    (now < t ∧ t ≤ now + 1800000000 → relativeTime now t = .ahead (t - now)) ∧
    (t ≤ now - 1800000000 ∨ now + 1800000000 < t → relativeTime now t = .atTime t) := by
  have hh : halfHour = 1800000000 := rfl
  have key : ∀ d, (relativeTime now t = d) ↔
      ((if now - t < -halfHour then Shown.atTime t else if now - t < 0 then .ahead (-(now - t))
        else if now - t < halfHour then .ago (now - t) else .atTime t) = d) := fun d => Iff.rfl
  refine ⟨?_, fun h => (key _).2 ?_, fun h => (key _).2 ?_, fun h => (key _).2 ?_⟩
  · generalize hd : relativeTime now t = d
    rw [key] at hd
    split at hd
    · subst hd; rfl
    · split at hd
      · subst hd; simp only [Shown.meant]; omega
      · split at hd
        · subst hd; simp only [Shown.meant]; omega
        · subst hd; rfl
  · rw [if_neg (by omega), if_neg (by omega), if_pos (by omega)]
  · rw [if_neg (by omega), if_pos (by omega)]
    congr 1; omega
  · rcases h with h | h
    · rw [if_neg (by omega), if_neg (by omega), if_neg (by omega)]
    · rw [if_pos (by omega)]

/-- **C114, partial**: if nothing in the names, keys and workers reads as markup, `docket
snapshot` lists every task exactly once, the running ones first, each with its name, key and
time, and the running ones with their worker and when they started.  Missing: other names
and keys (`C114_violated_key`, `C114_violated_error`, `C114_violated_picture`). -/
theorem C114_rows_partial (r : Rich) (taken : Int) (running : List Running) (future : List Future)
    (hr : ∀ e ∈ running, Plain r e.function ∧ Plain r e.key ∧ Plain r e.worker)
    (hf : ∀ e ∈ future, Plain r e.function ∧ Plain r e.key) :
    ∃ a b, snapshotTable r taken running future = some (a ++ b) ∧
      a.map (fun w => (w.function, w.key, w.worker, w.when_.meant taken, w.started.map (·.meant taken)))
        = running.map (fun e => (e.function, e.key, e.worker, e.when_, some e.started)) ∧
      b.map (fun w => (w.function, w.key, w.worker, w.when_.meant taken, w.started))
        = future.map (fun e => (e.function, e.key, [], e.when_, none)) := by
  let g (e : Running) : Row :=
    ⟨relativeTime taken e.when_, e.function, e.key, e.worker, some (relativeTime taken e.started)⟩
  let k (e : Future) : Row := ⟨relativeTime taken e.when_, e.function, e.key, [], none⟩
  refine ⟨running.map g, future.map k, ?_, ?_, ?_⟩
  · refine collect_append _ _ _ _ (collect_some _ g _ fun e he => ?_) (collect_some _ k _ fun e he => ?_)
    · obtain ⟨h1, h2, h3⟩ := hr e he
      simp only [runningRow, cell_plain h1, cell_plain h2, cell_plain h3]; rfl
    · obtain ⟨h1, h2⟩ := hf e he
      simp only [futureRow, cell_plain h1, cell_plain h2]; rfl
  · rw [List.map_map]
    refine List.map_congr_left fun e _ => ?_
    simp only [g, Function.comp, Option.map_some, (C114_times taken _).1]
  · rw [List.map_map]
    refine List.map_congr_left fun e _ => ?_
    simp only [k, Function.comp, (C114_times taken _).1]

/-- **C114, violated**: the cells are given to `rich` as they are, so a key with a word in
brackets is shown without it, and two tasks look like one. -/
theorem C114_violated_key (r : Rich) :
    ¬ C114_statement r ∧
    ∃ a b : Future, a.key ≠ b.key ∧ futureRow r 0 a = futureRow r 0 b ∧ (futureRow r 0 a).isSome := by
  have h1 : futureRow r 0 ⟨0, t!"f", t!"order[eu]"⟩ = some ⟨.ago 0, t!"f", t!"order", [], none⟩ := rfl
  have h2 : futureRow r 0 ⟨0, t!"f", t!"order[us]"⟩ = some ⟨.ago 0, t!"f", t!"order", [], none⟩ := rfl
  refine ⟨fun h => ?_, ⟨_, _, _⟩, ⟨_, _, _⟩, ?_, h1.trans h2.symm, by rw [h1]; rfl⟩
  · obtain ⟨rows, hrows, hk⟩ := h 0 [] [⟨0, t!"f", t!"order[eu]"⟩]
    have : rows = [⟨.ago 0, t!"f", t!"order", [], none⟩] := by
      simp only [snapshotTable, List.map_nil, List.nil_append, List.map_cons, h1, collect, Option.map_some,
        Option.some.injEq] at hrows
      exact hrows.symm
    rw [this] at hk
    exact absurd hk (by decide)
  · decide

/-- **C114, violated**: one task whose key has a slash in brackets keeps the whole command
from listing anything, whatever else there is. -/
theorem C114_violated_error (r : Rich) (taken : Int) (running : List Running) (future : List Future)
    (e : Future) (he : e ∈ future) (hk : e.key = t!"path[/tmp]") :
    snapshotTable r taken running future = none := by
  refine collect_none _ (List.mem_append_right _ (List.mem_map.2 ⟨e, he, ?_⟩))
  have : cell r e.key = none := by rw [hk]; rfl
  simp only [futureRow, this]
  cases cell r e.function <;> rfl

/-- **C114, violated**: a part of a key between colons is replaced if `rich` has a picture of
that name, as it has of a `key`. -/
theorem C114_violated_picture (r : Rich) (p : Text) (hp : r.emoji t!"key" = some p) (hne : p ≠ t!":key:") :
    ∃ a : Future, ∃ row, futureRow r 0 a = some row ∧ a.key = t!"user:key:" ∧ row.key ≠ a.key := by
  have h : cell r t!"user:key:" = some (t!"user" ++ (p ++ [])) := by
    have : cell r t!"user:key:" = some (pictures r t!"user:key:") := rfl
    rw [this]
    simp only [pictures, List.length, emojis, nameAt, List.append_nil]
    simp only [show ¬ ('u' = ':') by decide, show ¬ ('s' = ':') by decide, show ¬ ('e' = ':') by decide,
      show ¬ ('r' = ':') by decide, if_false, if_true]
    simp [Char.isWhitespace, hp, emojis]
  refine ⟨⟨0, t!"f", t!"user:key:"⟩, ⟨.ago 0, t!"f", t!"user" ++ (p ++ []), [], none⟩, ?_, rfl, ?_⟩
  · have h2 : cell r t!"f" = some t!"f" := rfl
    simp only [futureRow, h, h2]; rfl
  · intro e
    apply hne
    simpa using e

/-- **C114**: `docket snapshot --stats` lists what was counted, every function once, those
with the most tasks first. -/
theorem C114_stats (running future : List (Text × Int)) :
    (statsTable running future).Perm (Stats.getTaskStats running future) ∧
    (statsTable running future).Pairwise (fun a b => b.2.total ≤ a.2.total) := by
  refine ⟨sorted_perm _ _, ?_⟩
  refine (sorted_pairwise ?_ ?_ _).imp (fun h => by simpa using h)
  · intro a b h; simp at *; omega
  · intro a b c h h'; simp at *; omega

theorem textLe_total : ∀ a b, textLe a b = false → textLe b a = true
  | [], _, h => by simp [textLe] at h
  | _ :: _, [], _ => rfl
  | a :: s, b :: t, h => by
    simp only [textLe] at *
    by_cases hab : a = b
    · subst hab; rw [if_pos rfl] at *; exact textLe_total s t h
    · rw [if_neg hab] at h
      rw [if_neg (Ne.symm hab)]
      simp only [decide_eq_false_iff_not, decide_eq_true_eq, Char.lt_def, UInt32.lt_iff_toNat_lt] at *
      have : a.val.toNat ≠ b.val.toNat := fun e => hab (Char.ext (UInt32.toNat_inj.1 e))
      omega

theorem textLe_trans : ∀ a b c, textLe a b = true → textLe b c = true → textLe a c = true
  | [], _, _, _, _ => by simp [textLe]
  | _ :: _, [], _, h, _ => by simp [textLe] at h
  | _ :: _, _ :: _, [], _, h => by simp [textLe] at h
  | a :: s, b :: t, c :: u, h, h' => by
    simp only [textLe] at *
    by_cases hab : a = b
    · subst hab
      rw [if_pos rfl] at h
      by_cases hac : a = c
      · subst hac; rw [if_pos rfl] at *; exact textLe_trans s t u h h'
      · rw [if_neg hac] at *; exact h'
    · rw [if_neg hab] at h
      by_cases hbc : b = c
      · subst hbc; rw [if_neg hab]; exact h
      · rw [if_neg hbc] at h'
        simp only [decide_eq_true_eq, Char.lt_def, UInt32.lt_iff_toNat_lt] at h h'
        have : a ≠ c := fun e => by subst e; omega
        rw [if_neg this]
        simp only [decide_eq_true_eq, Char.lt_def, UInt32.lt_iff_toNat_lt]; omega

/-- **C114**: `docket workers` lists every worker once, the one seen last first; each with
how long ago that was and with exactly its tasks, in the order of their names; and the task
asked for, and no other, is in bold face. -/
theorem C114_workers (now : Int) (highlight : Option Text) (ws : List WorkerInfo) :
    ∃ ws' : List WorkerInfo, ws'.Perm ws ∧ ws'.Pairwise (fun a b => b.lastSeen ≤ a.lastSeen) ∧
      (workersTable now highlight ws).map (fun w => (w.name, now - w.seenAgo)) = ws'.map (fun w => (w.name, w.lastSeen)) ∧
      ∀ row w, (row, w) ∈ (workersTable now highlight ws).zip ws' →
        (row.tasks.map (·.2)).Perm w.tasks ∧ (row.tasks.map (·.2)).Pairwise (textLe · · = true) ∧
        ∀ b t, (b, t) ∈ row.tasks → (b = true ↔ some t = highlight) := by
  refine ⟨sorted (fun a b => b.lastSeen ≤ a.lastSeen) ws, sorted_perm _ _, ?_, ?_, ?_⟩
  · refine (sorted_pairwise ?_ ?_ _).imp (fun h => by simpa using h)
    · intro a b h; simp at *; omega
    · intro a b c h h'; simp at *; omega
  · simp only [workersTable, List.map_map]
    refine List.map_congr_left fun w _ => ?_
    simp only [Function.comp, workerRow]
    congr 1; omega
  · simp only [workersTable]
    generalize sorted (fun a b : WorkerInfo => decide (b.lastSeen ≤ a.lastSeen)) ws = l
    intro row w hz
    have hrow : row = workerRow now highlight w := by
      induction l with
      | nil => cases hz
      | cons w' l ih =>
        simp only [List.map_cons, List.zip_cons_cons, List.mem_cons, Prod.mk.injEq] at hz
        rcases hz with ⟨h1, h2⟩ | hz
        · rw [h1, h2]
        · exact ih hz
    subst hrow
    refine ⟨?_, ?_, ?_⟩
    · simp only [workerRow, List.map_map, Function.comp_def, List.map_id']
      exact sorted_perm _ _
    · simp only [workerRow, List.map_map, Function.comp_def, List.map_id']
      exact sorted_pairwise textLe_total textLe_trans _
    · intro b t h
      simp only [workerRow, List.mem_map, Prod.mk.injEq] at h
      obtain ⟨t', _, hb, ht⟩ := h
      subst ht hb
      simp

/-- Keys such as `order[1]` are plain. -/
example (r : Rich) : Plain r t!"order" ∧ cell r t!"order[1]" = some t!"order[1]" := by
  refine ⟨⟨fun a name b e => ?_, fun a c t b e => ?_⟩, rfl⟩
  · have : ':' ∈ t!"order" := by rw [e]; simp
    exact absurd this (by decide)
  · have : '[' ∈ t!"order" := by rw [e]; simp
    exact absurd this (by decide)

end Docket.Tables
