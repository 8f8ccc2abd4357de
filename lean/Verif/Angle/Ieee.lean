import Verif.Ieee.Model
import Verif.Angle.Model

/-!
# Angles, distances and interpolation in IEEE 754 arithmetic

The functions of `Verif.Angle.Model` once more, for all values of `float` or `double`: numbers, infinities and NaN, with overflow
and underflow. All the arguments of a function have the same type `F`; the `float` constants of the file keep their values when they
are converted to `double`. `std::atan2` is not modelled here.
-/

namespace Verif.Angle.Fp

open Verif.Ieee

noncomputable section

open Classical

/-- `getCycledValue` — `Math.hpp` 131-139. -/
def getCycledValue (F : Fmt) (x min max : FP) : FP :=
  let delta := sub F max min
  let result := Ieee.fmod (sub F x min) delta
  let result := if lt result (.fin 0) then add F result delta else result
  add F min result

/-- `toRad` — `Math.hpp` 145-149. -/
def toRad (F : Fmt) (k : Consts) (x : FP) : FP := mul F x (.fin k.ratio)

/-- `toDeg` — `Math.hpp` 155-159. -/
def toDeg (F : Fmt) (k : Consts) (x : FP) : FP := div F false x (.fin k.ratio)

/-- `getWrapRad` — `Math.hpp` 165-170. -/
def getWrapRad (F : Fmt) (k : Consts) (x : FP) : FP :=
  let x := Ieee.fmod x (.fin k.tau)
  if lt x (.fin 0) then add F x (.fin k.tau) else x

/-- `getWrapDeg` — `Math.hpp` 176-181. -/
def getWrapDeg (F : Fmt) (x : FP) : FP :=
  let x := Ieee.fmod x (.fin 360)
  if lt x (.fin 0) then add F x (.fin 360) else x

/-- `getRotatedDeg` — `Math.hpp` 190-200. -/
def getRotatedDeg (F : Fmt) (start stop speed : FP) : FP :=
  let diff := getCycledValue F (sub F (getWrapDeg F stop) (getWrapDeg F start)) (neg (.fin 180)) (.fin 180)
  if lt diff (neg speed) then sub F start speed
  else if lt speed diff then add F start speed
  else stop

/-- `getDistSquaredEuclidean` — `Math.hpp` 328-333. -/
def getDistSquaredEuclidean (F : Fmt) (x1 y1 x2 y2 : FP) : FP :=
  add F (mul F (sub F x1 x2) (sub F x1 x2)) (mul F (sub F y1 y2) (sub F y1 y2))

/-- `getDistEuclidean` — `Math.hpp` 341-346. -/
def getDistEuclidean (F : Fmt) (x1 y1 x2 y2 : FP) : FP := sqrt F (getDistSquaredEuclidean F x1 y1 x2 y2)

/-- `getDistManhattan` — `Math.hpp` 354-359. -/
def getDistManhattan (F : Fmt) (x1 y1 x2 y2 : FP) : FP := add F (Ieee.abs (sub F x1 x2)) (Ieee.abs (sub F y1 y2))

/-- `getDistChebyshev` — `Math.hpp` 367-372. -/
def getDistChebyshev (F : Fmt) (x1 y1 x2 y2 : FP) : FP := Ieee.max (Ieee.abs (sub F x2 x1)) (Ieee.abs (sub F y2 y1))

/-- `getDistRad` — `Math.hpp` 404-409. The doubled constant is computed in `float`, where doubling is exact. -/
def getDistRad (F : Fmt) (k : Consts) (a b : FP) : FP :=
  sub F (.fin k.pi) (Ieee.abs (sub F (Ieee.fmod (Ieee.abs (sub F a b)) (.fin (k.pi * 2))) (.fin k.pi)))

/-- `getDistDeg` — `Math.hpp` 415-420. -/
def getDistDeg (F : Fmt) (a b : FP) : FP :=
  sub F (.fin 180) (Ieee.abs (sub F (Ieee.fmod (Ieee.abs (sub F a b)) (.fin 360)) (.fin 180)))

/-- `getMap` — `Math.hpp` 428-434; `none` if the assertion fails; `z` is the sign of the difference `mIMax - mIMin` if it is zero. -/
def getMap (F : Fmt) (dbg z : Bool) (i iMin iMax oMin oMax : FP) : Option FP :=
  let d := sub F iMax iMin
  if dbg ∧ d = .fin 0 then none
  else some (add F (div F z (mul F (sub F i iMin) (sub F oMax oMin)) d) oMin)

/-- `getLerp` — `Math.hpp` 440-446; `none` if the assertion fails. -/
def getLerp (F : Fmt) (dbg : Bool) (weight a b : FP) : Option FP :=
  if dbg ∧ ¬ ((lt (.fin 0) weight ∨ weight = .fin 0) ∧ (lt weight (.fin 1) ∨ weight = .fin 1)) then none
  else some (add F a (mul F weight (sub F b a)))

end

end Verif.Angle.Fp
