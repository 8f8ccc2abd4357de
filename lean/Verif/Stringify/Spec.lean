import Verif.Stringify.Model

/-!
# Specification of stringification

* `text w null v`: the text of a value, written down directly; `w` encloses every element of a
  container (the promise is `w = []`), `null` is how a null pointer is printed.
* a terminal: it obeys the sequences `ESC [ n ; ... m` and draws all the other characters with the
  current attributes.
* `styled v`: what a terminal should show for a value printed with formatting.

Nothing here refers to the definitions of the model other than the type of values.
-/

namespace Verif.Stringify

/-- The texts `ts` (of characters, or of painted characters) with `sep` between two of them. -/
def joined {α : Type} (sep : List α) : List (List α) → List α
  | [] => []
  | [t] => t
  | t :: t' :: ts => t ++ sep ++ joined sep (t' :: ts)

/-- The texts of the elements between braces, with `sep` between two of them; `{ EMPTY }` if there
are none. -/
def braces (sep : List Char) : List (List Char) → List Char
  | [] => ['{', ' ', 'E', 'M', 'P', 'T', 'Y', ' ', '}']
  | t :: ts => ['{'] ++ joined sep (t :: ts) ++ ['}']

mutual
/-- The text of a value: elements between braces, separated by `, `; keys and values are separated
by ` -> ` in maps; in bimaps they are separated by ` <-> ` and the entries by line breaks. -/
def text (w null : List Char) : Val → List Char
  | .leaf _ t => t
  | .ptr a => ['['] ++ a.getD null ++ [']']
  | .seq _ vs => braces [',', ' '] (texts w null vs)
  | .tuple v vs => braces [',', ' '] ((w ++ text w null v ++ w) :: texts w null vs)
  | .map _ es => braces [',', ' '] (entryTexts w null [' ', '-', '>', ' '] es)
  | .bimap es => braces ['\n'] (entryTexts w null [' ', '<', '-', '>', ' '] es)
/-- The texts of the elements. -/
def texts (w null : List Char) : List Val → List (List Char)
  | [] => []
  | v :: vs => (w ++ text w null v ++ w) :: texts w null vs
/-- The texts of the entries. -/
def entryTexts (w null sep : List Char) : List (Val × Val) → List (List Char)
  | [] => []
  | (k, v) :: es =>
    ((w ++ text w null k ++ w) ++ sep ++ (w ++ text w null v ++ w)) :: entryTexts w null sep es
end

/-- The sequence that resets the format of a terminal. -/
def resetSeq : List Char := ['\x1b', '[', '0', ';', '3', '9', ';', '4', '9', 'm']

/-! ### A terminal -/

/-- Attributes of a character cell; colours are given by their codes. -/
structure Attr where
  bold : Bool := false
  dim : Bool := false
  underline : Bool := false
  blink : Bool := false
  reverse : Bool := false
  hidden : Bool := false
  fg : Nat := 39
  bg : Nat := 49
  deriving DecidableEq, Repr

/-- Effect of one parameter of `ESC [ n ; ... m` (ECMA-48 "select graphic rendition"; 21 as in the
Linux console). -/
def sgr (a : Attr) (n : Nat) : Attr :=
  if n = 0 then {}
  else if n = 1 then { a with bold := true }
  else if n = 2 then { a with dim := true }
  else if n = 4 then { a with underline := true }
  else if n = 5 then { a with blink := true }
  else if n = 7 then { a with reverse := true }
  else if n = 8 then { a with hidden := true }
  else if n = 21 then { a with bold := false }
  else if n = 22 then { a with bold := false, dim := false }
  else if n = 24 then { a with underline := false }
  else if n = 25 then { a with blink := false }
  else if n = 27 then { a with reverse := false }
  else if n = 28 then { a with hidden := false }
  else if (30 ≤ n ∧ n ≤ 37) ∨ n = 39 ∨ (90 ≤ n ∧ n ≤ 97) then { a with fg := n }
  else if (40 ≤ n ∧ n ≤ 47) ∨ n = 49 ∨ (100 ≤ n ∧ n ≤ 107) then { a with bg := n }
  else a

/-- Where the terminal is: in plain text, after `ESC`, or within a sequence, with the parameters
read so far and the current one. -/
inductive Mode where
  | plain | esc | csi (params : List Nat) (cur : Nat)
  deriving DecidableEq, Repr

/-- One character: the attributes and mode afterwards, and whether the character is drawn. -/
def feed (m : Mode) (a : Attr) (c : Char) : Mode × Attr × Bool :=
  match m with
  | .plain => if c = '\x1b' then (.esc, a, false) else (.plain, a, true)
  | .esc => if c = '[' then (.csi [] 0, a, false) else (.plain, a, false)
  | .csi ps n =>
    if c.isDigit then (.csi ps (10 * n + (c.toNat - '0'.toNat)), a, false)
    else if c = ';' then (.csi (ps ++ [n]) 0, a, false)
    else if c = 'm' then (.plain, (ps ++ [n]).foldl sgr a, false)
    else (.plain, a, false)

/-- What the terminal draws for a text, and its mode and attributes afterwards. -/
def run (m : Mode) (a : Attr) : List Char → List (Char × Attr) × Mode × Attr
  | [] => ([], m, a)
  | c :: cs =>
    let r := feed m a c
    let q := run r.1 r.2.1 cs
    (if r.2.2 then ((c, a) :: q.1, q.2) else q)

/-- Characters with the same attributes. -/
def paint (a : Attr) (t : List Char) : List (Char × Attr) := t.map fun c => (c, a)

/-! ### What should be shown with formatting -/

/-- Attributes of the braces, commas and arrows: bold. -/
def punct : Attr := { bold := true }

/-- The painted elements between braces; `{ EMPTY }` if there are none. -/
def bracesP (sep : List Char) : List (List (Char × Attr)) → List (Char × Attr)
  | [] => paint punct ['{', ' ', 'E', 'M', 'P', 'T', 'Y', ' ', '}']
  | t :: ts =>
    paint punct ['{'] ++ joined (paint punct sep) (t :: ts) ++ paint punct ['}']

/-- What should be shown for a value of a basic type: numbers bold with a letter for their type —
light blue (94) for integers, light red (91) for floating-point numbers —, strings light yellow
(93), other values with no attributes. -/
def styledLeaf (t : List Char) : Leaf → List (Char × Attr)
  | .int => paint { bold := true, fg := 94 } t
  | .long => paint { bold := true, fg := 94 } (t ++ ['l'])
  | .uint => paint { bold := true, fg := 94 } (t ++ ['u'])
  | .ulong => paint { bold := true, fg := 94 } (t ++ ['u', 'l'])
  | .float => paint { bold := true, fg := 91 } (t ++ ['f'])
  | .double => paint { bold := true, fg := 91 } (t ++ ['d'])
  | .string => paint { fg := 93 } t
  | .other => paint {} t

/-- An address: underlined in cyan (36) between bold blue (34) brackets. -/
def styledPtr (a : List Char) : List (Char × Attr) :=
  paint { bold := true, fg := 34 } ['['] ++ paint { underline := true, fg := 36 } a ++
    paint { bold := true, fg := 34 } [']']

mutual
/-- What should be shown for a value. -/
def styled (null : List Char) : Val → List (Char × Attr)
  | .leaf l t => styledLeaf t l
  | .ptr a => styledPtr (a.getD null)
  | .seq _ vs => bracesP [',', ' '] (styleds null vs)
  | .tuple v vs => bracesP [',', ' '] (styled null v :: styleds null vs)
  | .map _ es => bracesP [',', ' '] (styledEntries null [' ', '-', '>', ' '] es)
  | .bimap es => bracesP ['\n'] (styledEntries null [' ', '<', '-', '>', ' '] es)
/-- The elements. -/
def styleds (null : List Char) : List Val → List (List (Char × Attr))
  | [] => []
  | v :: vs => styled null v :: styleds null vs
/-- The entries. -/
def styledEntries (null sep : List Char) : List (Val × Val) → List (List (Char × Attr))
  | [] => []
  | (k, v) :: es =>
    (styled null k ++ paint punct sep ++ styled null v) :: styledEntries null sep es
end

/-- The texts in a value: no escape character in them. -/
def NoEsc (t : List Char) : Prop := '\x1b' ∉ t

mutual
/-- No text in the value contains the escape character. -/
def Clean : Val → Prop
  | .leaf _ t => NoEsc t
  | .ptr a => ∀ t, a = some t → NoEsc t
  | .seq _ vs => Cleans vs
  | .tuple v vs => Clean v ∧ Cleans vs
  | .map _ es => CleanEntries es
  | .bimap es => CleanEntries es
/-- The same for the elements. -/
def Cleans : List Val → Prop
  | [] => True
  | v :: vs => Clean v ∧ Cleans vs
/-- The same for the entries. -/
def CleanEntries : List (Val × Val) → Prop
  | [] => True
  | (k, v) :: es => Clean k ∧ Clean v ∧ CleanEntries es
end

/-- The value is a container (or tuple) with an element. -/
def HasElems : Val → Prop
  | .seq _ vs => vs ≠ []
  | .tuple _ _ => True
  | .map _ es => es ≠ []
  | .bimap es => es ≠ []
  | _ => False

end Verif.Stringify
