import Verif.Ieee.Model

/-!
# Easing functions in floating-point arithmetic

`Linear`, `Cubic`, `Quad`, `Quart` and `Quint` of `include/SSVUtils/Easing/Inc/Easing.hpp` for `T = float` or `double`, with the arithmetic of IEEE 754.
`z` is the sign of a duration that is zero (which an `assert` forbids). As in `Verif.Easing`, operands are evaluated from left to
right where the C++ standard leaves a modification and a use of `mT` unsequenced.
-/

namespace Verif.EasingFp

open Verif.Ieee

noncomputable section

/-- `Linear::in`, `out` and `inOut`: Easing.hpp:60-73. -/
def linear (F : Fmt) (z : Bool) (t b c d : FP) : FP := add F (div F z (mul F c t) d) b

/-- `Cubic::in`: Easing.hpp:130-134. -/
def cubicIn (F : Fmt) (z : Bool) (t b c d : FP) : FP :=
  let t := div F z t d
  add F (mul F (mul F (mul F c t) t) t) b

/-- `Cubic::out`: Easing.hpp:135-139. -/
def cubicOut (F : Fmt) (z : Bool) (t b c d : FP) : FP :=
  let t := sub F (div F z t d) (.fin 1)
  add F (mul F c (add F (mul F (mul F t t) t) (.fin 1))) b

open Classical in
/-- `Cubic::inOut`: Easing.hpp:140-147. -/
def cubicInOut (F : Fmt) (z : Bool) (t b c d : FP) : FP :=
  let t := div F z t (div F z d (.fin 2))
  if lt t (.fin 1) then add F (mul F (mul F (mul F (div F z c (.fin 2)) t) t) t) b
  else
    let p1 := mul F (div F z c (.fin 2)) t
    let t := sub F t (.fin 2)
    add F (add F (mul F (mul F p1 t) t) (.fin 2)) b

/-- `Quad::in`: Easing.hpp:287-291. -/
def quadIn (F : Fmt) (z : Bool) (t b c d : FP) : FP :=
  let t := div F z t d
  add F (mul F (mul F c t) t) b

/-- `Quad::out`: Easing.hpp:292-296. -/
def quadOut (F : Fmt) (z : Bool) (t b c d : FP) : FP :=
  let t := div F z t d
  add F (mul F (mul F (neg c) t) (sub F t (.fin 2))) b

open Classical in
/-- `Quad::inOut`: Easing.hpp:297-302. -/
def quadInOut (F : Fmt) (z : Bool) (t b c d : FP) : FP :=
  let t := div F z t (div F z d (.fin 2))
  if lt t (.fin 1) then add F (mul F (mul F (div F z c (.fin 2)) t) t) b
  else
    let t := sub F t (.fin 1)
    add F (mul F (div F z (neg c) (.fin 2)) (sub F (mul F t (sub F t (.fin 2))) (.fin 1))) b

/-- `Quart::in`: Easing.hpp:308-312. -/
def quartIn (F : Fmt) (z : Bool) (t b c d : FP) : FP :=
  let t := div F z t d
  add F (mul F (mul F (mul F (mul F c t) t) t) t) b

/-- `Quart::out`: Easing.hpp:313-317. -/
def quartOut (F : Fmt) (z : Bool) (t b c d : FP) : FP :=
  let t := sub F (div F z t d) (.fin 1)
  add F (mul F (neg c) (sub F (mul F (mul F (mul F t t) t) t) (.fin 1))) b

open Classical in
/-- `Quart::inOut`: Easing.hpp:318-323. -/
def quartInOut (F : Fmt) (z : Bool) (t b c d : FP) : FP :=
  let t := div F z t (div F z d (.fin 2))
  if lt t (.fin 1) then add F (mul F (mul F (mul F (mul F (div F z c (.fin 2)) t) t) t) t) b
  else
    let t := sub F t (.fin 2)
    add F (mul F (div F z (neg c) (.fin 2)) (sub F (mul F (mul F (mul F t t) t) t) (.fin 2))) b

/-- `Quint::in`: Easing.hpp:329-333. -/
def quintIn (F : Fmt) (z : Bool) (t b c d : FP) : FP :=
  let t := div F z t d
  add F (mul F (mul F (mul F (mul F (mul F c t) t) t) t) t) b

/-- `Quint::out`: Easing.hpp:334-338. -/
def quintOut (F : Fmt) (z : Bool) (t b c d : FP) : FP :=
  let t := sub F (div F z t d) (.fin 1)
  add F (mul F c (add F (mul F (mul F (mul F (mul F t t) t) t) t) (.fin 1))) b

open Classical in
/-- `Quint::inOut`: Easing.hpp:339-345. -/
def quintInOut (F : Fmt) (z : Bool) (t b c d : FP) : FP :=
  let t := div F z t (div F z d (.fin 2))
  if lt t (.fin 1) then add F (mul F (mul F (mul F (mul F (mul F (div F z c (.fin 2)) t) t) t) t) t) b
  else
    let t := sub F t (.fin 2)
    add F (mul F (div F z c (.fin 2)) (add F (mul F (mul F (mul F (mul F t t) t) t) t) (.fin 2))) b

/-- The families modelled here. -/
inductive Ease where
  | linear | cubic | quad | quart | quint
  deriving DecidableEq

/-- The kinds `In`, `Out` and `InOut`: Easing.hpp:18-41. -/
inductive Kind where
  | inn | out | inOut
  deriving DecidableEq

/-- `TKind<TEase<T>>::get()`. -/
def fn (F : Fmt) (z : Bool) : Ease → Kind → FP → FP → FP → FP → FP
  | .linear, _ => linear F z
  | .cubic, .inn => cubicIn F z
  | .cubic, .out => cubicOut F z
  | .cubic, .inOut => cubicInOut F z
  | .quad, .inn => quadIn F z
  | .quad, .out => quadOut F z
  | .quad, .inOut => quadInOut F z
  | .quart, .inn => quartIn F z
  | .quart, .out => quartOut F z
  | .quart, .inOut => quartInOut F z
  | .quint, .inn => quintIn F z
  | .quint, .out => quintOut F z
  | .quint, .inOut => quintInOut F z

/-- `getMapEased`, Easing.hpp:46-55, 373-380, all arguments of the same type. -/
def getMapEased (F : Fmt) (z : Bool) (e : Ease) (k : Kind) (i iMin iMax oMin oMax : FP) : FP :=
  fn F z e k (add F iMin i) oMin (sub F oMax oMin) (sub F iMax iMin)

end

end Verif.EasingFp
