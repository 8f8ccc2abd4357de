import Verif.Ieee.Model

/-! # The numbers of a format -/

namespace Verif.Ieee.Spec

/-- The finite numbers of a format: `m * 2 ^ e` with at most `p` binary digits. -/
def Num (F : Fmt) (x : ℝ) : Prop :=
  ∃ m e : ℤ, |m| < 2 ^ F.p ∧ F.qmin ≤ e ∧ e ≤ F.qmax ∧ x = m * 2 ^ e

/-- The values of a format. -/
def Val (F : Fmt) : FP → Prop
  | .fin x => Num F x
  | .inf _ => True
  | .nan => True

/-- An exact result overflows: it lies at least half a unit of the last digit beyond the largest number. -/
def Over (F : Fmt) (x : ℝ) : Prop := (2 ^ F.p - 1 / 2) * 2 ^ F.qmax ≤ |x|

/-- `y` is the number of the format nearest to `x`; if there are two, the one whose last digit is even. -/
def Nearest (F : Fmt) (x y : ℝ) : Prop :=
  Num F y ∧ (∀ u, Num F u → |y - x| ≤ |u - x|) ∧
    ((∃ u, Num F u ∧ u ≠ y ∧ |u - x| = |y - x|) →
      ∃ m e : ℤ, |m| < 2 ^ F.p ∧ F.qmin ≤ e ∧ e ≤ F.qmax ∧ (2 ^ (F.p - 1) ≤ |m| ∨ e = F.qmin) ∧ y = m * 2 ^ e ∧ Even m)

/-- Largest relative error of rounding. -/
noncomputable def unit (F : Fmt) : ℝ := 2 ^ (-(F.p : ℤ))

/-- A format has a digit and an exponent. -/
structure Good (F : Fmt) : Prop where
  p : 1 ≤ F.p
  q : F.qmin ≤ F.qmax

end Verif.Ieee.Spec
