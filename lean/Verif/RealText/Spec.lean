import Verif.Ieee.Spec

/-!
# Decimal numerals and numbers with six digits

Independent of the functions in `Model.lean`.
-/

namespace Verif.RealText.Spec

/-- A non-empty row of decimal digits. -/
def Digits (ds : List Char) : Prop := ds ≠ [] ∧ ∀ c ∈ ds, c.isDigit = true

/-- `t` is nothing, or a point and the digits `ds`. -/
def Fraction (t ds : List Char) : Prop := (t = [] ∧ ds = []) ∨ (t = '.' :: ds ∧ Digits ds)

/-- `t` is nothing, or the letter `e` and an integer in decimal notation; `e` is the exponent. -/
def Exponent (t : List Char) (e : ℤ) : Prop :=
  (t = [] ∧ e = 0) ∨ ∃ c ds, (c = 'e' ∨ c = 'E') ∧ Digits ds ∧
    (((t = c :: ds ∨ t = c :: '+' :: ds) ∧ e = Nat.ofDigitChars 10 ds 0) ∨ (t = c :: '-' :: ds ∧ e = -(Nat.ofDigitChars 10 ds 0 : ℤ)))

/-- The text `t` is a decimal numeral for the number `q`: sign, digits, fraction, exponent. -/
def Numeral (t : List Char) (q : ℝ) : Prop :=
  ∃ (neg : Bool) (ip ft fp et : List Char) (e : ℤ), t = (if neg then ['-'] else []) ++ ip ++ ft ++ et ∧ Digits ip ∧ Fraction ft fp ∧
    Exponent et e ∧ q = (if neg then -1 else 1) * ((Nat.ofDigitChars 10 (ip ++ fp) 0 : ℕ) * 10 ^ (e - fp.length))

/-- A decimal number with at most six significant digits. -/
def Six (d : ℝ) : Prop := ∃ k j : ℤ, |k| < 10 ^ 6 ∧ d = k * 10 ^ j

/-- `d` is the decimal number with six digits nearest to `x`; if there are two, the one whose sixth digit is even. -/
def NearestSix (x d : ℝ) : Prop :=
  Six d ∧ (∀ d', Six d' → |d - x| ≤ |d' - x|) ∧
    ((∃ d', Six d' ∧ d' ≠ d ∧ |d' - x| = |d - x|) → ∃ k j : ℤ, 10 ^ 5 ≤ |k| ∧ |k| < 10 ^ 6 ∧ d = k * 10 ^ j ∧ Even k)

/-- Fixed notation for numbers from 0.0001 up to one million, otherwise scientific notation with one digit in front of the point, a
signed exponent and at least two digits of it; no superfluous zeros. -/
def Notation (d : ℝ) (t : List Char) : Prop :=
  ∃ sg ip ft et, t = sg ++ ip ++ ft ++ et ∧ Digits ip ∧ (sg = if d < 0 then ['-'] else []) ∧
    (ft = [] ∨ ∃ ds c, ft = '.' :: ds ++ [c] ∧ Digits (ds ++ [c]) ∧ c ≠ '0') ∧
    (ip.head? = some '0' → ip = ['0']) ∧
    if d = 0 ∨ (1 / 10 ^ 4 ≤ |d| ∧ |d| < 10 ^ 6) then et = []
    else ip.length = 1 ∧ ip ≠ ['0'] ∧ ∃ s ds, et = 'e' :: s :: ds ∧ (s = '-' ∨ s = '+') ∧ Digits ds ∧ 2 ≤ ds.length ∧
      (ds.head? = some '0' → ds.length = 2)

open Ieee

/-- `y` is what remains of the value `x` that is written with six digits and read back as a number of the format: the number nearest
to the decimal number nearest to `x`. Infinities and NaN become zero. -/
def Kept (F : Fmt) : FP → FP → Prop
  | .fin x, y => ∃ d, NearestSix x d ∧ y = .fin (F.fl d)
  | _, y => y = .fin 0

/-- What a client does with a variable: read it, assign to it, apply a compound assignment. -/
inductive Cmd where
  | read
  | assign (v : FP)
  | apply (f : FP → FP)

/-- The values returned by a variable which holds `a`; `keep` is applied to every value that is stored. -/
def play (keep : FP → FP) : FP → List Cmd → List (Option FP)
  | _, [] => []
  | a, .read :: l => some a :: play keep a l
  | _, .assign v :: l => none :: play keep (keep v) l
  | a, .apply f :: l => some (keep (f a)) :: play keep (keep (f a)) l

/-- All values that a plain variable takes during a history satisfy `P`. -/
def Always (P : FP → Prop) : FP → List Cmd → Prop
  | _, [] => True
  | a, .read :: l => Always P a l
  | _, .assign v :: l => P v ∧ Always P v l
  | a, .apply f :: l => P (f a) ∧ Always P (f a) l

end Verif.RealText.Spec
