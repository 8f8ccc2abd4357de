import Verif.Frame.Model
import Verif.Angle.Model
import Verif.Ieee.Model

/-!
# The angle functions called with integers (`Core/Utils/Math.hpp`)

`std::fmod`, `std::atan2` and `std::abs` on integers: the first two convert integers to `double`, `std::abs` has overloads
for `int` and longer signed types. The constants of the library are `float`s, so that an integer combined with one of
them is converted to `float`. Results are converted back to the integer type, which truncates, and is undefined if the
truncated number is not representable (`Frame.toInt`). `getCycledValue` and `getRotatedDeg` do not compile with integers
(the initialisation of `result` narrows).
-/

namespace Verif.AngleInt

open Verif Verif.Num Verif.Ieee Verif.Frame Verif.Angle

noncomputable section

/-- `std::fmod(x, p)` for finite `x` and `p` not zero: exact. -/
def rem (x p : ℝ) : ℝ := x - p * (if 0 ≤ x / p then (⌊x / p⌋ : ℝ) else (⌈x / p⌉ : ℝ))

/-- `toRad` — `Math.hpp` 145-149. -/
def toRad (k : Consts) (x : Val) : Outcome Val := toInt x.ty (binary32.fl (binary32.fl x.v * k.ratio))

/-- `toDeg` — `Math.hpp` 155-159. -/
def toDeg (k : Consts) (x : Val) : Outcome Val := toInt x.ty (binary32.fl (binary32.fl x.v / k.ratio))

/-- `getWrapRad` — `Math.hpp` 165-170. -/
def getWrapRad (k : Consts) (x : Val) : Outcome Val := do
  let m ← toInt x.ty (rem (binary64.fl x.v) k.tau)
  toInt x.ty (if m.v < 0 then binary32.fl (binary32.fl m.v + k.tau) else binary32.fl m.v)

/-- `getWrapDeg` — `Math.hpp` 176-181. -/
def getWrapDeg (x : Val) : Outcome Val := do
  let m ← toInt x.ty (rem (binary64.fl x.v) 360)
  toInt x.ty (if m.v < 0 then binary32.fl (binary32.fl m.v + 360) else binary32.fl m.v)

/-- `std::abs`; for unsigned types the call is ambiguous and does not compile (`assertFail`). -/
def abs (x : Val) : Outcome Val :=
  if x.ty.signed then (if x.v < 0 then result x.ty (-x.v) else .ok x) else .assertFail

/-- `getRadTowards` — `Math.hpp` 380-385; `atan2` is the function of the C library. -/
def getRadTowards (atan2 : ℝ → ℝ → ℝ) (x1 y1 x2 y2 : Val) : Outcome Val := do
  let dy ← sub y2 y1
  let dx ← sub x2 x1
  toInt (commonType (commonType (commonType x1.ty y1.ty) x2.ty) y2.ty) (atan2 (binary64.fl dy.v) (binary64.fl dx.v))

/-- `getDegTowards` — `Math.hpp` 393-398. -/
def getDegTowards (atan2 : ℝ → ℝ → ℝ) (k : Consts) (x1 y1 x2 y2 : Val) : Outcome Val := do
  let r ← getRadTowards atan2 x1 y1 x2 y2
  toDeg k r

/-- `getDistRad` — `Math.hpp` 404-409. -/
def getDistRad (k : Consts) (a b : Val) : Outcome Val := do
  let d ← sub a b
  let d ← abs d
  toInt (commonType a.ty b.ty)
    (binary64.fl (k.pi - |binary64.fl (rem (binary64.fl d.v) (binary32.fl (k.pi * 2)) - k.pi)|))

/-- `getDistDeg` — `Math.hpp` 415-420. -/
def getDistDeg (a b : Val) : Outcome Val := do
  let d ← sub a b
  let d ← abs d
  toInt (commonType a.ty b.ty) (binary64.fl (180 - |binary64.fl (rem (binary64.fl d.v) 360 - 180)|))

end

end Verif.AngleInt
