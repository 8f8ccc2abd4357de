import Verif.Angle.Model

/-!
# Specification of angles and distances

Stated with real numbers only; nothing here refers to the definitions of the model, except for the
type of results.
-/

namespace Verif.Angle.Spec

noncomputable section

/-- Two angles are the same with respect to a full turn `p`. -/
def Same (p a b : ℝ) : Prop := ∃ k : ℤ, a - b = k * p

/-- `d` is the smallest distance between the angles `a` and `b`, the full turn being `p`: the
smallest absolute difference between an angle that is the same as `a` and one that is the same as
`b`. -/
def Dist (p a b d : ℝ) : Prop := IsLeast {x | ∃ a' b', Same p a' a ∧ Same p b' b ∧ x = |a' - b'|} d

/-- A rounding function: monotone, odd, and exact on the floating-point numbers `R`, to which it
rounds. This is what rounding to nearest and rounding towards zero have in common. -/
structure Rounding (fl : ℝ → ℝ) (R : Set ℝ) : Prop where
  mono : Monotone fl
  odd : ∀ x, fl (-x) = -fl x
  exact : ∀ x ∈ R, fl x = x
  into : ∀ x, fl x ∈ R

/-- Rounding with relative error at most `u`, as IEEE 754 arithmetic has it as long as nothing
overflows or underflows (`u = 2^-24` for `float`, `2^-53` for `double`). -/
def Precise (fl : ℝ → ℝ) (u : ℝ) : Prop := ∀ x, |fl x - x| ≤ u * |x|

/-- `y` is the number `x`, which is not negative, up to the relative errors of `e` roundings. -/
def Within (u : ℝ) (e : ℕ) (y x : ℝ) : Prop := (1 - u) ^ e * x ≤ y ∧ y ≤ (1 + u) ^ e * x

/-- Metric on the points of the plane. -/
structure Metric (d : ℝ → ℝ → ℝ → ℝ → ℝ) : Prop where
  nonneg : ∀ x1 y1 x2 y2, 0 ≤ d x1 y1 x2 y2
  zero : ∀ x1 y1 x2 y2, d x1 y1 x2 y2 = 0 ↔ x1 = x2 ∧ y1 = y2
  symm : ∀ x1 y1 x2 y2, d x1 y1 x2 y2 = d x2 y2 x1 y1
  triangle : ∀ x1 y1 x2 y2 x3 y3, d x1 y1 x3 y3 ≤ d x1 y1 x2 y2 + d x2 y2 x3 y3

end

end Verif.Angle.Spec
