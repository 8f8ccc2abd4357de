import Verif.EasingFp.Model

/-!
# The other easing functions in floating-point arithmetic

`Sine`, `Back`, `Bounce`, `Circ`, `Elastic` and `Expo` of `include/SSVUtils/Easing/Inc/Easing.hpp` for `T = float` or `double`, with the
arithmetic of IEEE 754 (`Verif.Ieee`). `std::sqrt` is correctly rounded, as IEEE 754 demands; `std::pow`, `std::sin` and `std::cos` are
any functions (`Lib`). `z` is the sign of a duration that is zero. Where a modification and a use of `mT` are unsequenced the operands
are evaluated from left to right, except in `Circ::inOut`, where both orders are modelled.
-/

namespace Verif.EasingFp

open Verif.Ieee

noncomputable section

/-- `std::pow`, `std::sin` and `std::cos` for `T`. -/
structure Lib where
  pow : FP → FP → FP
  sin : FP → FP
  cos : FP → FP

/-- `T(x)` where `x` is a literal of type `double`: the literal is rounded to `double`, then to `T`. -/
def lit (F : Fmt) (x : ℝ) : FP :=
  match binary64.rnd x with
  | .fin y => F.rnd y
  | v => v

/-- `ssvu::pi`, a `float` also if `T` is `double`: include/SSVUtils/Core/Utils/Math.hpp:18. -/
def piF : FP := binary32.rnd (314159265359 / 100000000000)

/-- `a == b`: false if one of them is NaN. -/
def feq : FP → FP → Prop
  | .nan, _ => False
  | _, .nan => False
  | .inf s, .inf t => s = t
  | .fin a, .fin b => a = b
  | _, _ => False

/-- `Sine::in`: Easing.hpp:79-83. -/
def sineIn (L : Lib) (F : Fmt) (z : Bool) (t b c d : FP) : FP :=
  add F (add F (mul F (neg c) (L.cos (mul F (div F z t d) (div F z piF (.fin 2))))) c) b

/-- `Sine::out`: Easing.hpp:84-88. -/
def sineOut (L : Lib) (F : Fmt) (z : Bool) (t b c d : FP) : FP :=
  add F (mul F c (L.sin (mul F (div F z t d) (div F z piF (.fin 2))))) b

/-- `Sine::inOut`: Easing.hpp:89-93. -/
def sineInOut (L : Lib) (F : Fmt) (z : Bool) (t b c d : FP) : FP :=
  add F (mul F (div F z (neg c) (.fin 2)) (sub F (L.cos (div F z (mul F piF t) d)) (.fin 1))) b

/-- `Back::in`: Easing.hpp:99-104. -/
def backIn (F : Fmt) (z : Bool) (t b c d : FP) : FP :=
  let t := div F z t d
  let s := lit F (170158 / 100000)
  add F (mul F (mul F (mul F c t) t) (sub F (mul F (add F s (.fin 1)) t) s)) b

/-- `Back::out`: Easing.hpp:105-112. -/
def backOut (F : Fmt) (z : Bool) (t b c d : FP) : FP :=
  let s := lit F (170158 / 100000)
  let t := sub F (div F z t d) (.fin 1)
  add F (mul F c (add F (mul F (mul F t t) (add F (mul F (add F s (.fin 1)) t) s)) (.fin 1))) b

open Classical in
/-- `Back::inOut`: Easing.hpp:113-124. -/
def backInOut (F : Fmt) (z : Bool) (t b c d : FP) : FP :=
  let s := lit F (170158 / 100000)
  let t := div F z t (div F z d (.fin 2))
  if lt t (.fin 1) then
    let s := mul F s (lit F (1525 / 1000))
    add F (mul F (div F z c (.fin 2)) (mul F (mul F t t) (sub F (mul F (add F s (.fin 1)) t) s))) b
  else
    let t := sub F t (.fin 2)
    let s := mul F s (lit F (1525 / 1000))
    add F (mul F (div F z c (.fin 2)) (add F (mul F (mul F t t) (add F (mul F (add F s (.fin 1)) t) s)) (.fin 2))) b

open Classical in
/-- `Bounce::out`: Easing.hpp:157-175. The constants are numbers of both formats. -/
def bounceOut (F : Fmt) (z : Bool) (t b c d : FP) : FP :=
  let t := div F z t d
  if lt t (div F z (.fin 1) (.fin 2.75)) then add F (mul F c (mul F (mul F (.fin 7.5625) t) t)) b
  else if lt t (div F z (.fin 2) (.fin 2.75)) then
    let t := sub F t (div F z (.fin 1.5) (.fin 2.75))
    add F (mul F c (add F (mul F (mul F (.fin 7.5625) t) t) (.fin 0.75))) b
  else if lt t (div F z (.fin 2.5) (.fin 2.75)) then
    let t := sub F t (div F z (.fin 2.25) (.fin 2.75))
    add F (mul F c (add F (mul F (mul F (.fin 7.5625) t) t) (.fin 0.9375))) b
  else
    let t := sub F t (div F z (.fin 2.625) (.fin 2.75))
    add F (mul F c (add F (mul F (mul F (.fin 7.5625) t) t) (.fin 0.984375))) b

/-- `Bounce::in`: Easing.hpp:153-156. -/
def bounceIn (F : Fmt) (z : Bool) (t b c d : FP) : FP :=
  add F (sub F c (bounceOut F z (sub F d t) (.fin 0) c d)) b

open Classical in
/-- `Bounce::inOut`: Easing.hpp:176-180. -/
def bounceInOut (F : Fmt) (z : Bool) (t b c d : FP) : FP :=
  if lt t (div F z d (.fin 2)) then add F (mul F (bounceIn F z (mul F t (.fin 2)) (.fin 0) c d) (.fin 0.5)) b
  else
    add F (add F (mul F (bounceOut F z (sub F (mul F t (.fin 2)) d) (.fin 0) c d) (.fin 0.5)) (mul F c (.fin 0.5))) b

/-- `Circ::in`: Easing.hpp:186-190. -/
def circIn (F : Fmt) (z : Bool) (t b c d : FP) : FP :=
  let t := div F z t d
  add F (mul F (neg c) (sub F (Ieee.sqrt F (sub F (.fin 1) (mul F t t))) (.fin 1))) b

/-- `Circ::out`: Easing.hpp:191-195. -/
def circOut (F : Fmt) (z : Bool) (t b c d : FP) : FP :=
  let t := sub F (div F z t d) (.fin 1)
  add F (mul F c (Ieee.sqrt F (sub F (.fin 1) (mul F t t)))) b

open Classical in
/-- `Circ::inOut`: Easing.hpp:196-202. `mT * (mT -= T(2))` is unsequenced: `modFirst` says that `mT` is modified before the left
operand is read. -/
def circInOut (modFirst : Bool) (F : Fmt) (z : Bool) (t b c d : FP) : FP :=
  let t := div F z t (div F z d (.fin 2))
  if lt t (.fin 1) then
    add F (mul F (div F z (neg c) (.fin 2)) (sub F (Ieee.sqrt F (sub F (.fin 1) (mul F t t))) (.fin 1))) b
  else
    let left := if modFirst then sub F t (.fin 2) else t
    let t := sub F t (.fin 2)
    add F (mul F (div F z c (.fin 2)) (add F (Ieee.sqrt F (sub F (.fin 1) (mul F left t))) (.fin 1))) b

open Classical in
/-- `Elastic::in`: Easing.hpp:208-219 (`assert(p != 0)` not modelled). -/
def elasticIn (L : Lib) (F : Fmt) (z : Bool) (t b c d : FP) : FP :=
  if feq t (.fin 0) then b
  else
    let t := div F z t d
    if feq t (.fin 1) then add F b c
    else
      let p := mul F d (lit F (3 / 10))
      let s := div F z p (.fin 4)
      let t := sub F t (.fin 1)
      let f := mul F c (L.pow (.fin 2) (mul F (.fin 10) t))
      add F (neg (mul F f (L.sin (div F z (mul F (sub F (mul F t d) s) (mul F (.fin 2) piF)) p)))) b

open Classical in
/-- `Elastic::out`: Easing.hpp:220-232 (`assert(p != 0)` not modelled). -/
def elasticOut (L : Lib) (F : Fmt) (z : Bool) (t b c d : FP) : FP :=
  if feq t (.fin 0) then b
  else
    let t := div F z t d
    if feq t (.fin 1) then add F b c
    else
      let p := mul F d (lit F (3 / 10))
      let s := div F z p (.fin 4)
      add F (add F (mul F (mul F c (L.pow (.fin 2) (mul F (.fin (-10)) t)))
        (L.sin (div F z (mul F (sub F (mul F t d) s) (mul F (.fin 2) piF)) p))) c) b

open Classical in
/-- `Elastic::inOut`: Easing.hpp:233-253 (`assert(p != 0)` not modelled). `0.3 * 1.5` is multiplied in `double`. -/
def elasticInOut (L : Lib) (F : Fmt) (z : Bool) (t b c d : FP) : FP :=
  if feq t (.fin 0) then b
  else
    let t := div F z t (div F z d (.fin 2))
    if feq t (.fin 2) then add F b c
    else
      let p := mul F d (match mul binary64 (lit binary64 (3 / 10)) (.fin 1.5) with | .fin x => F.rnd x | v => v)
      let s := div F z p (.fin 4)
      if lt t (.fin 1) then
        let t := sub F t (.fin 1)
        let f := mul F c (L.pow (.fin 2) (mul F (.fin 10) t))
        add F (mul F (.fin (-0.5)) (mul F f (L.sin (div F z (mul F (sub F (mul F t d) s) (mul F (.fin 2) piF)) p)))) b
      else
        let t := sub F t (.fin 1)
        let f := mul F c (L.pow (.fin 2) (mul F (.fin (-10)) t))
        add F (add F (mul F (mul F f (L.sin (div F z (mul F (sub F (mul F t d) s) (mul F (.fin 2) piF)) p))) (.fin 0.5)) c) b

open Classical in
/-- `Expo::in`: Easing.hpp:259-265. -/
def expoIn (L : Lib) (F : Fmt) (z : Bool) (t b c d : FP) : FP :=
  if feq t (.fin 0) then b
  else add F (mul F c (L.pow (.fin 2) (mul F (.fin 10) (sub F (div F z t d) (.fin 1))))) b

open Classical in
/-- `Expo::out`: Easing.hpp:266-272. -/
def expoOut (L : Lib) (F : Fmt) (z : Bool) (t b c d : FP) : FP :=
  if feq t d then add F b c
  else add F (mul F c (add F (neg (L.pow (.fin 2) (div F z (mul F (.fin (-10)) t) d))) (.fin 1))) b

open Classical in
/-- `Expo::inOut`: Easing.hpp:273-281. -/
def expoInOut (L : Lib) (F : Fmt) (z : Bool) (t b c d : FP) : FP :=
  if feq t (.fin 0) then b
  else if feq t d then add F b c
  else
    let t := div F z t (div F z d (.fin 2))
    if lt t (.fin 1) then
      add F (mul F (div F z c (.fin 2)) (L.pow (.fin 2) (mul F (.fin 10) (sub F t (.fin 1))))) b
    else
      let t := sub F t (.fin 1)
      add F (mul F (div F z c (.fin 2)) (add F (neg (L.pow (.fin 2) (mul F (.fin (-10)) t))) (.fin 2))) b

/-- The families modelled here. -/
inductive Curve where
  | sine | back | bounce | circ | elastic | expo
  deriving DecidableEq

/-- `TKind<TEase<T>>::get()`. -/
def curve (L : Lib) (modFirst : Bool) (F : Fmt) (z : Bool) : Curve → Kind → FP → FP → FP → FP → FP
  | .sine, .inn => sineIn L F z
  | .sine, .out => sineOut L F z
  | .sine, .inOut => sineInOut L F z
  | .back, .inn => backIn F z
  | .back, .out => backOut F z
  | .back, .inOut => backInOut F z
  | .bounce, .inn => bounceIn F z
  | .bounce, .out => bounceOut F z
  | .bounce, .inOut => bounceInOut F z
  | .circ, .inn => circIn F z
  | .circ, .out => circOut F z
  | .circ, .inOut => circInOut modFirst F z
  | .elastic, .inn => elasticIn L F z
  | .elastic, .out => elasticOut L F z
  | .elastic, .inOut => elasticInOut L F z
  | .expo, .inn => expoIn L F z
  | .expo, .out => expoOut L F z
  | .expo, .inOut => expoInOut L F z

end

end Verif.EasingFp
