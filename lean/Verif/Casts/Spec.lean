import Verif.Num.Spec

/-! # What the casts and random numbers should give -/

namespace Verif.Casts

open Verif Num

def IsDigit (c : Char) : Prop := '0' ≤ c ∧ c ≤ '9'

def IsBlank (c : Char) : Prop := c = ' ' ∨ c = '\t' ∨ c = '\n' ∨ c = '\x0b' ∨ c = '\x0c' ∨ c = '\r'

/-- The text starts with a decimal number, possibly after blanks: blanks, a sign or none, digits, and anything that does not
go on with a digit. -/
def StartsWith (s : List Char) (n : Int) : Prop :=
  ∃ ws sign ds rest, s = ws ++ sign ++ ds ++ rest ∧ (∀ c ∈ ws, IsBlank c) ∧ ds ≠ [] ∧ (∀ c ∈ ds, IsDigit c) ∧
    (∀ c r, rest = c :: r → ¬IsDigit c) ∧
    ((sign = ['-'] ∧ n = -(Nat.ofDigitChars 10 ds 0 : Int)) ∨
      ((sign = [] ∨ sign = ['+']) ∧ n = (Nat.ofDigitChars 10 ds 0 : Int)))

/-- Draws stay within the bounds. -/
def Bounded {G : Type} (draw : Int → Int → G → Int × G) : Prop :=
  ∀ a b g, a ≤ b → a ≤ (draw a b g).1 ∧ (draw a b g).1 ≤ b

/-- Every number within the bounds is drawn from some state of the engine. -/
def Covering {G : Type} (draw : Int → Int → G → Int × G) : Prop :=
  ∀ a b x, a ≤ x → x ≤ b → ∃ g, (draw a b g).1 = x

end Verif.Casts
