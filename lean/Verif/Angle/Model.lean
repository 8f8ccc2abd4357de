import Mathlib.Analysis.SpecialFunctions.Complex.Arg
import Mathlib.Analysis.Real.Sqrt

/-!
# Angles, distances and interpolation

Model of the floating-point functions of `Core/Utils/Math.hpp`. (The integer functions of that file
are in `Verif.Num`.)

A floating-point number is a real number here, and `fl` rounds the exact result of an operation to a
floating-point number: `a - b` is `fl (a - b)`. `fmod` and comparisons are exact, as in IEEE 754.
With `fl = id` this is exact arithmetic. Infinities, overflow and NaN arguments are in `Verif.Angle.Ieee`;
a NaN that comes from `fmod(x, 0)` is `none`. All the arguments of a function have the same
floating-point type (the braced initialisers in `getCycledValue` reject most other combinations).
-/

namespace Verif.Angle

noncomputable section

/-- The constants of the file, `Math.hpp` 17-27: `float`s near pi, 2 * pi and pi / 180. -/
structure Consts where
  pi : ℝ
  tau : ℝ
  ratio : ℝ

/-- `std::fmod`: the remainder of the division truncated towards zero; NaN if the divisor is
zero. -/
def fmod (x y : ℝ) : Option ℝ :=
  if y = 0 then none
  else some (x - y * (if 0 ≤ x / y then (⌊x / y⌋ : ℝ) else (⌈x / y⌉ : ℝ)))

/-- `getCycledValue` — `Math.hpp` 131-139. -/
def getCycledValue (fl : ℝ → ℝ) (x min max : ℝ) : Option ℝ := do
  let delta := fl (max - min)
  let r ← fmod (fl (x - min)) delta
  let r := if r < 0 then fl (r + delta) else r
  pure (fl (min + r))

/-- `toRad` — `Math.hpp` 145-149. -/
def toRad (fl : ℝ → ℝ) (k : Consts) (x : ℝ) : ℝ := fl (x * k.ratio)

/-- `toDeg` — `Math.hpp` 155-159. -/
def toDeg (fl : ℝ → ℝ) (k : Consts) (x : ℝ) : ℝ := fl (x / k.ratio)

/-- `getWrapRad` — `Math.hpp` 165-170. -/
def getWrapRad (fl : ℝ → ℝ) (k : Consts) (x : ℝ) : Option ℝ := do
  let x ← fmod x k.tau
  pure (if x < 0 then fl (x + k.tau) else x)

/-- `getWrapDeg` — `Math.hpp` 176-181. -/
def getWrapDeg (fl : ℝ → ℝ) (x : ℝ) : Option ℝ := do
  let x ← fmod x 360
  pure (if x < 0 then fl (x + 360) else x)

/-- `getRotatedDeg` — `Math.hpp` 190-200. -/
def getRotatedDeg (fl : ℝ → ℝ) (start stop speed : ℝ) : Option ℝ := do
  let e ← getWrapDeg fl stop
  let s ← getWrapDeg fl start
  let diff ← getCycledValue fl (fl (e - s)) (-180) 180
  if diff < -speed then pure (fl (start - speed))
  else if diff > speed then pure (fl (start + speed))
  else pure stop

/-- `getRotatedRad` — `Math.hpp` 209-214. -/
def getRotatedRad (fl : ℝ → ℝ) (k : Consts) (start stop speed : ℝ) : Option ℝ :=
  getRotatedDeg fl (toDeg fl k start) (toDeg fl k stop) speed

/-- `getDistSquaredEuclidean` — `Math.hpp` 328-333. -/
def getDistSquaredEuclidean (fl : ℝ → ℝ) (x1 y1 x2 y2 : ℝ) : ℝ :=
  fl (fl (fl (x1 - x2) * fl (x1 - x2)) + fl (fl (y1 - y2) * fl (y1 - y2)))

/-- `getDistEuclidean` — `Math.hpp` 341-346. -/
def getDistEuclidean (fl : ℝ → ℝ) (x1 y1 x2 y2 : ℝ) : ℝ :=
  fl (Real.sqrt (getDistSquaredEuclidean fl x1 y1 x2 y2))

/-- `getDistManhattan` — `Math.hpp` 354-359. -/
def getDistManhattan (fl : ℝ → ℝ) (x1 y1 x2 y2 : ℝ) : ℝ :=
  fl (|fl (x1 - x2)| + |fl (y1 - y2)|)

/-- `getDistChebyshev` — `Math.hpp` 367-372. -/
def getDistChebyshev (fl : ℝ → ℝ) (x1 y1 x2 y2 : ℝ) : ℝ :=
  max |fl (x2 - x1)| |fl (y2 - y1)|

/-- `getRadTowards` — `Math.hpp` 380-385; `std::atan2(y, x)` is the argument of `x + y i`. -/
def getRadTowards (fl : ℝ → ℝ) (x1 y1 x2 y2 : ℝ) : ℝ :=
  fl (Complex.arg ⟨fl (x2 - x1), fl (y2 - y1)⟩)

/-- `getDegTowards` — `Math.hpp` 393-398. -/
def getDegTowards (fl : ℝ → ℝ) (k : Consts) (x1 y1 x2 y2 : ℝ) : ℝ :=
  toDeg fl k (getRadTowards fl x1 y1 x2 y2)

/-- `getDistRad` — `Math.hpp` 404-409. -/
def getDistRad (fl : ℝ → ℝ) (k : Consts) (a b : ℝ) : Option ℝ := do
  let m ← fmod |fl (a - b)| (fl (k.pi * 2))
  pure (fl (k.pi - |fl (m - k.pi)|))

/-- `getDistDeg` — `Math.hpp` 415-420. -/
def getDistDeg (fl : ℝ → ℝ) (a b : ℝ) : Option ℝ := do
  let m ← fmod |fl (a - b)| 360
  pure (fl (180 - |fl (m - 180)|))

/-- What `getMap` and `getLerp` give: a number, or a failed assertion, or a division by zero (an
infinity or NaN). -/
inductive Res where
  | num (x : ℝ)
  | assertFail
  | divZero

/-- `getMap` — `Math.hpp` 428-434. -/
def getMap (fl : ℝ → ℝ) (dbg : Bool) (i iMin iMax oMin oMax : ℝ) : Res :=
  if fl (iMax - iMin) = 0 then (if dbg then .assertFail else .divZero)
  else .num (fl (fl (fl (fl (i - iMin) * fl (oMax - oMin)) / fl (iMax - iMin)) + oMin))

/-- `getLerp` — `Math.hpp` 440-446. -/
def getLerp (fl : ℝ → ℝ) (dbg : Bool) (weight a b : ℝ) : Res :=
  if dbg ∧ ¬ (0 ≤ weight ∧ weight ≤ 1) then .assertFail
  else .num (fl (a + fl (weight * fl (b - a))))

end

end Verif.Angle
