import Verif.EasingFp.Curves
import Verif.EasingFp.Spec

/-! # What is assumed of the mathematical functions -/

namespace Verif.EasingFp.Spec

open Verif.Ieee Verif.Ieee.Spec

/-- The exact cases that Annex F of the C standard demands: `pow(2, 0) = 1`, `sin(0) = 0` and `cos(0) = 1`. -/
structure Exact (L : Lib) : Prop where
  pow : L.pow (.fin 2) (.fin 0) = .fin 1
  sin : L.sin (.fin 0) = .fin 0
  cos : L.cos (.fin 0) = .fin 1

/-- `float` or `double`. -/
def Native (F : Fmt) : Prop := F = binary32 ∨ F = binary64

/-- `pow(2, x)` for the finite `x` that are not positive: a number from 0 to 1, which never falls when `x` grows. -/
def PowMono (L : Lib) : Prop :=
  ∃ w : ℝ → ℝ, (∀ x ≤ 0, L.pow (.fin 2) (.fin x) = .fin (w x) ∧ 0 ≤ w x ∧ w x ≤ 1) ∧ ∀ x y, x ≤ y → y ≤ 0 → w x ≤ w y

end Verif.EasingFp.Spec
