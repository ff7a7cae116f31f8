import Verif.Text
import Verif.Cli.Stats
/-
The tables `docket snapshot` and `docket workers` print.  Cells are handed to the terminal
library `rich` as plain strings, which it reads as markup; the part of `rich` that matters
here is modelled too.
-/
namespace Docket.Tables

/-- `rich`'s names of pictures, such as `key`. -/
structure Rich where
  emoji : Text → Option Text

/-- The characters up to the next colon and the rest; none if a blank comes first. -/
def nameAt : Text → Option (Text × Text)
  | [] => none
  | c :: s =>
    if c = ':' then some ([], s)
    else if c.isWhitespace then none
    else (nameAt s).map (fun p => (c :: p.1, p.2))

/-- `rich._emoji_replace`, applied by `console.print(table)` (cli/__init__.py:595,
cli/_support.py:281-282): `:name:` becomes the picture of that name, and stays if there is
none.  Simplified: variants (`:name-text:`) and upper case are not modelled.  The number is
the length of the text. -/
def emojis (r : Rich) : Nat → Text → Text
  | 0, s => s
  | _ + 1, [] => []
  | n + 1, c :: s =>
    if c = ':' then
      match nameAt s with
      | some (name, rest) =>
        (match r.emoji name with
          | some e => e
          | none => ':' :: (name ++ [':'])) ++ emojis r n rest
      | none => c :: emojis r n s
    else c :: emojis r n s

def pictures (r : Rich) (s : Text) : Text := emojis r s.length s

/-- The characters a tag may begin with: `[a-z#/@]`. -/
def startsTag (c : Char) : Bool := ('a' ≤ c && c ≤ 'z') || c = '#' || c = '/' || c = '@'

/-- The characters up to the next `]` and the rest; none if a `[` comes first. -/
def closing : Text → Option (Text × Text)
  | [] => none
  | c :: s =>
    if c = ']' then some ([], s)
    else if c = '[' then none
    else (closing s).map (fun p => (c :: p.1, p.2))

/-- What follows a `[`, if it is a tag: `rich`'s `\[([a-z#/@][^[]*?)]`.  Simplified: escapes
by a backslash are not modelled. -/
def tagAt : Text → Option (Text × Text)
  | [] => none
  | c :: s => if startsTag c then (closing s).map (fun p => (c :: p.1, p.2)) else none

/-- A tag changes the list of open tags (newest first); none: `MarkupError`, a closing tag
for nothing open.  Simplified: parameters and spellings of styles are not modelled. -/
def useTag (opened : List Text) : Text → Option (List Text)
  | '/' :: name =>
    if name = [] then
      match opened with
      | [] => none
      | _ :: t => some t
    else if name ∈ opened then some (opened.erase name) else none
  | name => some (name :: opened)

/-- `rich.markup.render` as `console.print(table)` calls it for every cell
(cli/__init__.py:595, cli/_support.py:281-282): tags are taken out, the text between them
has its pictures put in.  `acc` is the text since the last tag. -/
def render (r : Rich) : Nat → List Text → Text → Text → Option Text
  | 0, _, acc, s => some (pictures r (acc ++ s))
  | _ + 1, _, acc, [] => some (pictures r acc)
  | n + 1, opened, acc, c :: s =>
    if c = '[' then
      match tagAt s with
      | some (tag, rest) =>
        match useTag opened tag with
        | none => none
        | some opened' => (render r n opened' [] rest).map (pictures r acc ++ ·)
      | none => render r n opened (acc ++ [c]) s
    else render r n opened (acc ++ [c]) s

/-- What a cell shows; none: the command ends with an error. -/
def cell (r : Rich) (s : Text) : Option Text := render r s.length [] [] s

/-- A point in time as the tables show it. -/
inductive Shown
  | atTime (t : Int)
  | ahead (d : Int)
  | ago (d : Int)
  deriving DecidableEq

/-- `timedelta(minutes=30)` in microseconds. -/
def halfHour : Int := 1800000000

/-- `relative_time`, cli/_support.py:184-193.  Simplified: the texts of times and durations
are not modelled. -/
def relativeTime (now when_ : Int) : Shown :=
  let delta := now - when_
  if delta < -halfHour then .atTime when_
  else if delta < 0 then .ahead (-delta)
  else if delta < halfHour then .ago delta
  else .atTime when_

/-- A running task of a snapshot. -/
structure Running where
  when_ : Int
  started : Int
  function : Text
  key : Text
  worker : Text

/-- A task of a snapshot that is not running yet. -/
structure Future where
  when_ : Int
  function : Text
  key : Text

/-- A row of the table. -/
structure Row where
  when_ : Shown
  function : Text
  key : Text
  worker : Text
  started : Option Shown
  deriving DecidableEq

/-- The row of a running task, cli/__init__.py:577-584. -/
def runningRow (r : Rich) (taken : Int) (e : Running) : Option Row := do
  let f ← cell r e.function
  let k ← cell r e.key
  let w ← cell r e.worker
  some ⟨relativeTime taken e.when_, f, k, w, some (relativeTime taken e.started)⟩

/-- The row of a task that is not running, cli/__init__.py:586-593. -/
def futureRow (r : Rich) (taken : Int) (e : Future) : Option Row := do
  let f ← cell r e.function
  let k ← cell r e.key
  some ⟨relativeTime taken e.when_, f, k, [], none⟩

/-- All of them or none: an exception ends the command. -/
def collect : List (Option α) → Option (List α)
  | [] => some []
  | none :: _ => none
  | some a :: l => (collect l).map (a :: ·)

/-- The table of `docket snapshot`, cli/__init__.py:556-595.  Simplified: the title and the
width of the terminal are not modelled. -/
def snapshotTable (r : Rich) (taken : Int) (running : List Running) (future : List Future) : Option (List Row) :=
  collect (running.map (runningRow r taken) ++ future.map (futureRow r taken))

/-- Puts an element in front of the first one it does not have to follow. -/
def insert (before : α → α → Bool) (a : α) : List α → List α
  | [] => [a]
  | b :: l => if before b a then b :: insert before a l else a :: b :: l

/-- Python's `sorted`: stable; `before b a` tells that `b` may stay in front of `a`. -/
def sorted (before : α → α → Bool) (l : List α) : List α :=
  l.foldl (fun acc a => insert before a acc) []

/-- The statistics of `docket snapshot --stats`, cli/__init__.py:599-634: the functions with
the most tasks first.  Simplified: cells as they are handed to `rich`. -/
def statsTable (running future : List (Text × Int)) : List (Text × Stats.TaskStats) :=
  sorted (fun a b => b.2.total ≤ a.2.total) (Stats.getTaskStats running future)

/-- A worker, `WorkerInfo`. -/
structure WorkerInfo where
  name : Text
  lastSeen : Int
  tasks : List Text

/-- A row of the table of workers; a task is shown with whether it is in bold face. -/
structure WorkerRow where
  name : Text
  seenAgo : Int
  tasks : List (Bool × Text)

/-- Texts in the order of their characters. -/
def textLe : Text → Text → Bool
  | [], _ => true
  | _ :: _, [] => false
  | a :: s, b :: t => if a = b then textLe s t else a < b

/-- A row of `print_workers`, cli/_support.py:267-279.  Simplified: the tasks of a cell are
kept apart, and markup in them is not modelled. -/
def workerRow (now : Int) (highlight : Option Text) (w : WorkerInfo) : WorkerRow :=
  ⟨w.name, now - w.lastSeen, (sorted textLe w.tasks).map (fun t => (decide (some t = highlight), t))⟩

/-- `print_workers`, cli/_support.py:252-282. -/
def workersTable (now : Int) (highlight : Option Text) (ws : List WorkerInfo) : List WorkerRow :=
  (sorted (fun a b => b.lastSeen ≤ a.lastSeen) ws).map (workerRow now highlight)

end Docket.Tables
