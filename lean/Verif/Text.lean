/-
Texts as lists of characters.  `t!"abc"` is notation for `['a', 'b', 'c']`, expanded when
the file is read.
-/
namespace Docket

/-- A text: its list of characters. -/
abbrev Text := List Char

open Lean in
/-- `t!"abc"` stands for `['a', 'b', 'c']`. -/
macro:max "t!" s:str : term => do
  let cs := s.getString.toList.toArray.map (fun c => (Syntax.mkCharLit c : TSyntax `term))
  `(([$cs,*] : List Char))

end Docket
