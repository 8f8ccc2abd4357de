import Verif.Console.Model
import Verif.Stringify.Spec

/-!
# Specification of console formatting

What a terminal (that of `Verif/Stringify/Spec.lean`) should show after a program sent formats and texts to it. Nothing here refers to the
functions of the model.
-/

namespace Verif.Console.Spec

open Verif.Stringify (Style Color Attr)

/-- The format functions called by a program, in order. -/
def calls (h : List Op) : List Fmt :=
  h.filterMap fun o => match o with
    | .send _ f => some f
    | .keep f => some f
    | _ => none

/-- A format string is written to stream `i`. -/
def FormatTo (i : Nat) (o : Op) : Prop := (∃ f, o = .send i f) ∨ o = .use i

/-- The texts written to stream `i`. -/
def textsTo (i : Nat) (h : List Op) : List Char :=
  (h.filterMap fun o => match o with
    | .text j t => if j = i then some t else none
    | _ => none).flatten

/-- No text contains the character that starts an escape sequence. -/
def CleanTexts (h : List Op) : Prop := ∀ i t, Op.text i t ∈ h → '\x1b' ∉ t

/-- What the last of the `l` for which `f` says something says, otherwise `d`. -/
def last {α β : Type} (f : α → Option β) (d : β) (l : List α) : β := ((l.filterMap f).getLast?).getD d

/-- Foreground colour asked for; a reset asks for the default one. -/
def asksFg : Fmt → Option Color
  | .fg k => some k
  | .reset => some .default
  | _ => none

/-- Background colour asked for. -/
def asksBg : Fmt → Option Color
  | .bg k => some k
  | .reset => some .default
  | _ => none

/-- The codes of foreground colours (ECMA-48, and 90 to 97 for the bright ones). -/
def fgNumber : Color → Nat
  | .default => 39 | .black => 30 | .red => 31 | .green => 32 | .yellow => 33 | .blue => 34 | .magenta => 35 | .cyan => 36 | .lightGray => 37
  | .darkGray => 90 | .lightRed => 91 | .lightGreen => 92 | .lightYellow => 93 | .lightBlue => 94 | .lightMagenta => 95 | .lightCyan => 96
  | .lightWhite => 97

/-- The codes of background colours. -/
def bgNumber : Color → Nat
  | .default => 49 | .black => 40 | .red => 41 | .green => 42 | .yellow => 43 | .blue => 44 | .magenta => 45 | .cyan => 46 | .lightGray => 47
  | .darkGray => 100 | .lightRed => 101 | .lightGreen => 102 | .lightYellow => 103 | .lightBlue => 104 | .lightMagenta => 105 | .lightCyan => 106
  | .lightWhite => 107

/-- The attributes of a character other than its colours. -/
inductive Part where
  | bold | dim | underline | blink | reverse | hidden
  deriving DecidableEq, Repr

/-- Whether a character has it. -/
def Part.on (a : Attr) : Part → Bool
  | .bold => a.bold
  | .dim => a.dim
  | .underline => a.underline
  | .blink => a.blink
  | .reverse => a.reverse
  | .hidden => a.hidden

/-- The style that switches it on. -/
def Part.style : Part → Style
  | .bold => .bold
  | .dim => .dim
  | .underline => .underline
  | .blink => .blink
  | .reverse => .reverseFGBG
  | .hidden => .hidden

/-- The styles that switch it off, besides `None`; `ResetDim` sets the normal intensity. -/
def Part.offStyles : Part → List Style
  | .bold => [.resetBold, .resetDim]
  | .dim => [.resetDim]
  | .underline => [.resetUnderline]
  | .blink => [.resetBlink]
  | .reverse => [.resetReverse]
  | .hidden => [.resetHidden]

/-- What a call says about it. -/
def Part.says (p : Part) : Fmt → Option Bool
  | .reset => some false
  | .style y => if y = p.style then some true else if y = .none ∨ y ∈ p.offStyles then some false else none
  | _ => none

/-- A program that writes to one stream only and writes each format string when it gets it. -/
def OneStream (i : Nat) (h : List Op) : Prop := ∀ o ∈ h, (∃ f, o = .send i f) ∨ o = .clear i ∨ ∃ t, o = .text i t

/-- What a terminal does besides changing attributes: drawing a character, moving the cursor (to the row and column given), erasing (2: everything). -/
inductive Event where
  | char (c : Char) | goto (at_ : List Nat) | erase (what : List Nat)
  deriving DecidableEq, Repr

/-- What the terminal does for a text (`ESC [ r ; c H` moves the cursor, `ESC [ n J` erases), and its mode afterwards. -/
def events (m : Stringify.Mode) : List Char → List Event × Stringify.Mode
  | [] => ([], m)
  | c :: cs =>
    let e : List Event := match m with
      | .plain => if c = '\x1b' then [] else [.char c]
      | .csi ps n => if c = 'H' then [.goto (ps ++ [n])] else if c = 'J' then [.erase (ps ++ [n])] else []
      | .esc => []
    let q := events (Stringify.feed m {} c).1 cs
    (e ++ q.1, q.2)

/-- What it should do: draw the texts and, for `clear`, erase everything and start in the upper left corner. -/
def expected (i : Nat) : Op → List Event
  | .text j t => if j = i then t.map .char else []
  | .clear j => if j = i then [.goto [1, 1], .erase [2]] else []
  | _ => []

/-! ### The size of the console -/

/-- Questions about the console. -/
inductive Query where
  | columns | rows | ruler | rulerOffset (n : Int) (c : Char)

/-- The answer, for a console with so many columns and rows. -/
def answer (columns rows : Nat) : Query → Outcome Nat ⊕ Outcome (List Char)
  | .columns => .inl (.ok columns)
  | .rows => .inl (.ok rows)
  | .ruler => .inr (.ok (List.replicate columns '_'))
  | .rulerOffset n c => .inr (if 0 ≤ columns + n then .ok (List.replicate (columns + n).toNat c) else .throw)

end Verif.Console.Spec
