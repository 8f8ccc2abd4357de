import Verif.Log.Model
import Verif.Stringify.Spec

/-!
# Specification of the log

A log line `lo("title") << a << b << ... << std::endl;` and what it should write, to the log and on
a terminal (see `Verif.Stringify.Spec` for the text of values, and for the terminal).
-/

namespace Verif.Log.Spec

open Verif.Stringify

/-- A log line: perhaps a title, and at least one value. -/
structure Line where
  title : Option (List Char)
  first : Val
  rest : List Val

/-- The statement `lo(title) << first << ... << std::endl`. -/
def Line.ops (l : Line) : List Op :=
  (match l.title with
   | some t => [Op.title (.leaf .string t)]
   | none => []) ++ (l.first :: l.rest).map Op.val ++ [Op.endl]

/-- The title in brackets, filled up with blanks to 38 columns. -/
def column (t : List Char) : List Char :=
  let b := ['['] ++ t ++ [']', ' ']
  if b.length < 38 then b ++ List.replicate (38 - b.length) ' ' else b

/-- The title column of a line: nothing if there is no title or an empty one. -/
def Line.column (l : Line) : List Char :=
  match l.title with
  | none => []
  | some [] => []
  | some (c :: cs) => Spec.column (c :: cs)

/-- The text that a line adds to the log: the title column, the values, and a line break. (`w`
encloses the elements of containers, see `Stringify.text`.) -/
def Line.text (w null : List Char) (l : Line) : List Char :=
  l.column ++ ((l.first :: l.rest).map (Stringify.text w null)).flatten ++ ['\n']

/-- What a terminal should show for a line, `γ` being the colours of the titles: the title column in
bold and in the colour of the title, then the values, each with the formatting of its own. -/
def Line.shown (γ : List Char → Nat) (null : List Char) (l : Line) : List (Char × Attr) :=
  (match l.title with
   | none => []
   | some [] => []
   | some (c :: cs) => paint { bold := true, fg := γ (c :: cs) } (Spec.column (c :: cs))) ++
  ((l.first :: l.rest).map (styled null)).flatten ++ paint {} ['\n']

/-- The elements of a list in the order in which they first appear, after those of `seen`. -/
def firsts {α : Type} [DecidableEq α] (seen : List α) : List α → List α
  | [] => seen
  | x :: xs => if x ∈ seen then firsts seen xs else firsts (seen ++ [x]) xs

/-- The titles of the lines that have one. -/
def titles : List Line → List (List Char)
  | [] => []
  | l :: ls =>
    match l.title with
    | none => titles ls
    | some [] => titles ls
    | some (c :: cs) => (c :: cs) :: titles ls

/-- The colours of the titles: red (31), green (32), yellow (33), blue (34) and magenta (35) in turn,
in the order in which the titles first appear. -/
def colour (ts : List (List Char)) (t : List Char) : Nat := 31 + (firsts [] ts).idxOf t % 5

/-- No escape characters in the texts of a line. -/
def Line.Clean (l : Line) : Prop :=
  (∀ t, l.title = some t → NoEsc t) ∧ ∀ v ∈ l.first :: l.rest, Stringify.Clean v

end Verif.Log.Spec
