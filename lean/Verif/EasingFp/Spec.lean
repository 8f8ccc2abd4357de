import Verif.EasingFp.Model
import Verif.Ieee.Spec

/-! # Formats and order -/

namespace Verif.EasingFp.Spec

open Verif.Ieee Verif.Ieee.Spec

/-- A format with at least two digits in which 1 is a number with all its digits. -/
structure Std (F : Fmt) : Prop where
  digits : 2 ≤ F.p
  small : F.qmin + F.p ≤ 1
  large : 0 ≤ F.qmax

/-- `x ≤ y`; neither of them is NaN. -/
def Le : FP → FP → Prop
  | .fin x, .fin y => x ≤ y
  | .inf true, .fin _ => True
  | .inf true, .inf _ => True
  | .fin _, .inf false => True
  | .inf false, .inf false => True
  | _, _ => False

/-- Arguments of an easing function: numbers of the format, the duration positive. -/
structure Args (F : Fmt) (b c d : ℝ) : Prop where
  start : Num F b
  change : Num F c
  duration : Num F d
  pos : 0 < d

/-- Half of the duration and half of the change are numbers of the format too (true unless they are tiny). -/
def Halves (F : Fmt) (c d : ℝ) : Prop := Num F (c / 2) ∧ Num F (d / 2)

/-- The functions that never turn back: `In` of the polynomials, `Out` of all of them but `Quad`, `InOut` of `Quart` and `Quint`. -/
def Steady (F : Fmt) (c d : ℝ) (e : Ease) (k : Kind) : Prop :=
  (k = .inn ∧ e ≠ .linear) ∨ (k = .out ∧ e ≠ .linear ∧ e ≠ .quad) ∨ (k = .inOut ∧ (e = .quart ∨ e = .quint) ∧ Halves F c d)

end Verif.EasingFp.Spec
