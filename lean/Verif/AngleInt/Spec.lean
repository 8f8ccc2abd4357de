import Mathlib.Analysis.SpecialFunctions.Complex.Arg

/-! # Specification of the functions of the C library -/

namespace Verif.AngleInt.Spec

/-- `atan2 y x` is the angle of the direction `(x, y)` up to an error of `ε`. -/
def Atan2 (ε : ℝ) (atan2 : ℝ → ℝ → ℝ) : Prop := ∀ y x : ℝ, |atan2 y x - Complex.arg ⟨x, y⟩| ≤ ε

end Verif.AngleInt.Spec
