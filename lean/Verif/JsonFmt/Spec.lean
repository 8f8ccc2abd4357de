import Verif.Json.Model
import Verif.IntStr.Spec
import Verif.Stringify.Spec

/-!
# Specification of the JSON writer's layout

A text is described as a list of lines, a line as an indentation and a list of tokens. `lines 0 v` is the layout
promised for the value `v`; `tokens v` is the compact form. Colours belong to the kinds of tokens. The terminal is the
one of `Verif/Stringify/Spec.lean`. Nothing here refers to the definitions of the model other than the type of values.
-/

namespace Verif.JsonFmt

open Verif.Json Verif.Stringify

variable {R : Type}

/-- Kinds of tokens. -/
inductive Kind where
  | punct | key | str | num | bln | nll
  deriving DecidableEq, Repr

/-- A piece of text of a given kind. -/
structure Tok where
  kind : Kind
  text : List Char
  deriving DecidableEq, Repr

/-- A line: number of indentation steps, then tokens. -/
structure Line where
  depth : Nat
  toks : List Tok
  deriving DecidableEq, Repr

/-- Text of a number: decimal notation; reals as `toText` has it. -/
def number (toText : R → List Char) : Num R → List Char
  | .intS n => IntStr.intText n
  | .intU n => IntStr.intText n
  | .real r => toText r

/-- Numbers that the integer conversion copes with (see C37) and of the right type. -/
def NumFits : Num R → Prop
  | .intS n => -(10 ^ 17 : Int) < n ∧ n < 10 ^ 18
  | .intU n => n < 10 ^ 18
  | .real _ => True

mutual
/-- All numbers in a value fit. -/
def Fits : Val R → Prop
  | .obj kvs => FitsObj kvs
  | .arr vs => FitsArr vs
  | .num n => NumFits n
  | _ => True

def FitsArr : List (Val R) → Prop
  | [] => True
  | v :: vs => Fits v ∧ FitsArr vs

def FitsObj : List (List Char × Val R) → Prop
  | [] => True
  | (_, v) :: kvs => Fits v ∧ FitsObj kvs
end

/-- The number is a `long`, an `unsigned long` or a real, as the C++ type has it. -/
def NumInRange : Num R → Prop
  | .intS n => -(2 ^ 63 : Int) ≤ n ∧ n < 2 ^ 63
  | .intU n => n < 2 ^ 64
  | .real _ => True

mutual
/-- All integers in a value are in the range of their type. -/
def InRange : Val R → Prop
  | .obj kvs => InRangeObj kvs
  | .arr vs => InRangeArr vs
  | .num n => NumInRange n
  | _ => True

def InRangeArr : List (Val R) → Prop
  | [] => True
  | v :: vs => InRange v ∧ InRangeArr vs

def InRangeObj : List (List Char × Val R) → Prop
  | [] => True
  | (_, v) :: kvs => InRange v ∧ InRangeObj kvs
end

/-- A string between quotes. -/
def quoted (s : List Char) : List Char := ['"'] ++ s ++ ['"']

/-- The token of a value that is neither an object nor an array. -/
def atom (toText : R → List Char) : Val R → Option Tok
  | .str s => some ⟨.str, quoted s⟩
  | .num n => some ⟨.num, number toText n⟩
  | .bln b => some ⟨.bln, if b then ['t', 'r', 'u', 'e'] else ['f', 'a', 'l', 's', 'e']⟩
  | .nll => some ⟨.nll, ['n', 'u', 'l', 'l']⟩
  | _ => none

/-- A punctuation token. -/
def pun (s : List Char) : Tok := ⟨.punct, s⟩

/-- A token put at the end of the last line. -/
def withLast (t : Tok) : List Line → List Line
  | [] => []
  | [l] => [{ l with toks := l.toks ++ [t] }]
  | l :: ls => l :: withLast t ls

/-- A list of lines, or an empty line if there are none. -/
def orBlank : List Line → List Line
  | [] => [⟨0, []⟩]
  | ls => ls

mutual
/-- The lines of a value at a depth: brackets on lines of their own, what is between them one step deeper. -/
def lines (toText : R → List Char) (d : Nat) : Val R → List Line
  | .obj kvs => [⟨d, [pun ['{']]⟩] ++ orBlank (members toText (d + 1) kvs) ++ [⟨d, [pun ['}']]⟩]
  | .arr vs => [⟨d, [pun ['[']]⟩] ++ orBlank (elements toText (d + 1) vs) ++ [⟨d, [pun [']']]⟩]
  | .str s => [⟨d, [⟨.str, quoted s⟩]⟩]
  | .num n => [⟨d, [⟨.num, number toText n⟩]⟩]
  | .bln b => [⟨d, [⟨.bln, if b then ['t', 'r', 'u', 'e'] else ['f', 'a', 'l', 's', 'e']⟩]⟩]
  | .nll => [⟨d, [⟨.nll, ['n', 'u', 'l', 'l']⟩]⟩]

/-- The elements of an array, with commas. -/
def elements (toText : R → List Char) (d : Nat) : List (Val R) → List Line
  | [] => []
  | [v] => lines toText d v
  | v :: vs => withLast (pun [',', ' ']) (lines toText d v) ++ elements toText d vs

/-- The members of an object, with commas: the key, and then the value, on the same line if it is neither an object nor
an array. -/
def members (toText : R → List Char) (d : Nat) : List (List Char × Val R) → List Line
  | [] => []
  | [(k, v)] =>
    match atom toText v with
    | some t => [⟨d, [⟨.key, quoted k⟩, pun [':', ' '], t]⟩]
    | none => ⟨d, [⟨.key, quoted k⟩, pun [':', ' ']]⟩ :: lines toText d v
  | (k, v) :: kvs =>
    (match atom toText v with
     | some t => [⟨d, [⟨.key, quoted k⟩, pun [':', ' '], t, ⟨t.kind, [',', ' ']⟩]⟩]
     | none => ⟨d, [⟨.key, quoted k⟩, pun [':', ' ']]⟩ :: withLast (pun [',', ' ']) (lines toText d v)) ++
      members toText d kvs
end

/-- Text of a line: four spaces for each step. -/
def Line.render (l : Line) : List Char := List.replicate (4 * l.depth) ' ' ++ (l.toks.map Tok.text).flatten

/-- The lines with line breaks between them. -/
def layout (ls : List Line) : List Char := joined ['\n'] (ls.map Line.render)

mutual
/-- The compact form of a value. -/
def tokens (toText : R → List Char) : Val R → List Tok
  | .obj kvs => [pun ['{']] ++ memberTokens toText kvs ++ [pun ['}']]
  | .arr vs => [pun ['[']] ++ elementTokens toText vs ++ [pun [']']]
  | .str s => [⟨.str, quoted s⟩]
  | .num n => [⟨.num, number toText n⟩]
  | .bln b => [⟨.bln, if b then ['t', 'r', 'u', 'e'] else ['f', 'a', 'l', 's', 'e']⟩]
  | .nll => [⟨.nll, ['n', 'u', 'l', 'l']⟩]

def elementTokens (toText : R → List Char) : List (Val R) → List Tok
  | [] => []
  | [v] => tokens toText v
  | v :: vs => tokens toText v ++ [pun [',']] ++ elementTokens toText vs

/-- The comma after a value that is neither object nor array is given the kind of that value: this is what the code does
(the kind `punct` would be expected; see `C121_commas_in_objects`). -/
def memberTokens (toText : R → List Char) : List (List Char × Val R) → List Tok
  | [] => []
  | [(k, v)] => [⟨.key, quoted k⟩, pun [':']] ++ tokens toText v
  | (k, v) :: kvs =>
    [⟨.key, quoted k⟩, pun [':']] ++ tokens toText v ++
      [⟨((atom toText v).map Tok.kind).getD .punct, [',']⟩] ++ memberTokens toText kvs
end

/-- The colours: punctuation bold and light gray (37), keys light gray, strings light yellow (93), numbers light red (91),
booleans light cyan (96), null light magenta (95). -/
def Kind.attr : Kind → Attr
  | .punct => { bold := true, fg := 37 }
  | .key => { fg := 37 }
  | .str => { fg := 93 }
  | .num => { fg := 91 }
  | .bln => { fg := 96 }
  | .nll => { fg := 95 }

/-- Spaces and line breaks, whose colour cannot be seen. -/
def visible (x : Char × Attr) : Bool := x.1 ≠ ' ' ∧ x.1 ≠ '\n'

/-- The tokens in their colours. -/
def painted (ts : List Tok) : List (Char × Attr) := (ts.map fun t => paint t.kind.attr t.text).flatten

mutual
/-- No string or key contains the escape character. -/
def CleanJ : Val R → Prop
  | .obj kvs => CleanObj kvs
  | .arr vs => CleanArr vs
  | .str s => NoEsc s
  | _ => True

def CleanArr : List (Val R) → Prop
  | [] => True
  | v :: vs => CleanJ v ∧ CleanArr vs

def CleanObj : List (List Char × Val R) → Prop
  | [] => True
  | (k, v) :: kvs => NoEsc k ∧ CleanJ v ∧ CleanObj kvs
end

end Verif.JsonFmt
