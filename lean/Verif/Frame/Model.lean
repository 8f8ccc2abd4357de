import Verif.Num.Model
import Mathlib.Data.Real.Archimedean

/-!
# Model of the frametime conversions (`Core/Common/Frametime.hpp`)

Floating-point numbers are real numbers and `fl` rounds the exact result of an operation, as in
`Verif.Angle`. Overflow, underflow, infinities and NaN arguments are left out here; they are in `Verif.Frame.Ieee`.
-/

namespace Verif.Frame

open Verif Verif.Num

noncomputable section

/-- `secondsFTRatio`, Frametime.hpp:27. -/
def secondsFTRatio : ℝ := 60

/-- `getFTToSeconds` for floating-point types, Frametime.hpp:30-34. -/
def getFTToSeconds (fl : ℝ → ℝ) (ft : ℝ) : ℝ := fl (ft / secondsFTRatio)

/-- `getSecondsToFT` for floating-point types, Frametime.hpp:37-41. -/
def getSecondsToFT (fl : ℝ → ℝ) (seconds : ℝ) : ℝ := fl (seconds * secondsFTRatio)

/-- `getFTToFPS` for floating-point types, Frametime.hpp:44-48; `none` is an infinity. -/
def getFTToFPS (fl : ℝ → ℝ) (ft : ℝ) : Option ℝ := if ft = 0 then none else some (fl (secondsFTRatio / ft))

/-- Conversion of a `float` to an integer type: truncation, undefined if the result is not
representable. -/
def toInt (t : ITy) (x : ℝ) : Outcome Val :=
  let r := if 0 ≤ x then ⌊x⌋ else ⌈x⌉
  if fits t r then .ok ⟨t, r⟩ else .ub

/-- `getFTToSeconds` for an integer type, Frametime.hpp:30-34: the argument is converted to `float`,
which rounds, and the result is converted back. -/
def getFTToSecondsInt (fl : ℝ → ℝ) (ft : Val) : Outcome Val := toInt ft.ty (fl (fl ft.v / secondsFTRatio))

/-- `getSecondsToFT` for an integer type, Frametime.hpp:37-41. -/
def getSecondsToFTInt (fl : ℝ → ℝ) (seconds : Val) : Outcome Val :=
  toInt seconds.ty (fl (fl seconds.v * secondsFTRatio))

/-- `getFTToFPS` for an integer type, Frametime.hpp:44-48: the conversion of an infinity is
undefined. -/
def getFTToFPSInt (fl : ℝ → ℝ) (ft : Val) : Outcome Val :=
  if fl ft.v = 0 then .ub else toInt ft.ty (fl (secondsFTRatio / fl ft.v))

end

end Verif.Frame
