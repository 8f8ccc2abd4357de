import Verif.Num.Model
import Mathlib.Analysis.Real.Sqrt
import Mathlib.Algebra.Order.Floor.Ring

/-!
# Model of the distances of `Math.hpp` for integer coordinates

The arguments are values of integer types with C++ arithmetic (`Verif.Num`): the four coordinates may
have four types. What does not compile is `none`.
-/

namespace Verif.IDist

open Verif Verif.Num

/-- `std::common_type_t<T1, T2, T3, T4>`. -/
def commonType4 (a b c d : ITy) : ITy := commonType (commonType (commonType a b) c) d

/-- `std::abs` of a difference, which has been promoted: there are overloads for `int` and `long`; the
one for `unsigned` or `unsigned long` is ambiguous (checked by the callers). The absolute value of the
smallest number is not representable. -/
def abs (x : Val) : Outcome Val := result x.ty (if x.v < 0 then -x.v else x.v)

/-- `getDistSquaredEuclidean`, Math.hpp:328-333. -/
def getDistSquaredEuclidean (x1 y1 x2 y2 : Val) : Outcome Val := do
  let a ← sub x1 x2
  let b ← sub x1 x2
  let p ← mul a b
  let c ← sub y1 y2
  let d ← sub y1 y2
  let q ← mul c d
  let s ← add p q
  pure (conv (commonType4 x1.ty y1.ty x2.ty y2.ty) s)

/-- `getDistManhattan`, Math.hpp:354-359. -/
def getDistManhattan (x1 y1 x2 y2 : Val) : Option (Outcome Val) :=
  if (uac x1.ty x2.ty).signed && (uac y1.ty y2.ty).signed then some do
    let a ← sub x1 x2
    let p ← abs a
    let b ← sub y1 y2
    let q ← abs b
    let s ← add p q
    pure (conv (commonType4 x1.ty y1.ty x2.ty y2.ty) s)
  else none

/-- `getDistChebyshev`, Math.hpp:367-372: `std::max` wants two arguments of one type. -/
def getDistChebyshev (x1 y1 x2 y2 : Val) : Option (Outcome Val) :=
  if (uac x2.ty x1.ty).signed && uac x2.ty x1.ty == uac y2.ty y1.ty then some do
    let a ← sub x2 x1
    let p ← abs a
    let b ← sub y2 y1
    let q ← abs b
    pure (conv (commonType4 x1.ty y1.ty x2.ty y2.ty) (if lt p q then q else p))
  else none

/-- `getDistEuclidean`, Math.hpp:341-346. `std::sqrt` of an integer is computed in `double`: `fl` is
its rounding, also in the conversion of the argument. The square root of a negative number is NaN;
converting that, or a number out of range, to an integer type is undefined. The conversion truncates. -/
noncomputable def getDistEuclidean (fl : ℝ → ℝ) (x1 y1 x2 y2 : Val) : Outcome Val := do
  let s ← getDistSquaredEuclidean x1 y1 x2 y2
  if s.v < 0 then .ub
  else
    let r := ⌊fl (Real.sqrt (fl (s.v : ℝ)))⌋
    let t := commonType4 x1.ty y1.ty x2.ty y2.ty
    if fits t r then pure ⟨t, r⟩ else .ub

end Verif.IDist
