import Mathlib.Analysis.SpecialFunctions.Pow.Real
import Mathlib.Analysis.SpecialFunctions.Trigonometric.Basic

/-!
# Easing functions

`ssvu::Easing` and `ssvu::getEased`, `ssvu::getMapEased`, for a floating-point `T`.

Simplification: `T` is the real numbers, arithmetic and the functions of `<cmath>` are
exact, and so are the literals.  The library's constant `pi`, a `float`, is a parameter, so
that its error can be talked about.  Integer instances (which truncate their divisions) are
not modelled.

Several functions modify `mT` and read it in the other operand of a multiplication, which
the C++ standard leaves undefined.  The model takes what compilers make of it: the operands
from left to right.  In `Circ::inOut` the modification is in the right operand, and
compilers differ; there the order is a parameter.
-/

namespace Verif.Easing

noncomputable section

/-- What a call gives: a number; something that is not a number; undefined behaviour (a
division by zero); a failed `assert`. -/
inductive Res where
  | num (x : ℝ)
  | nan
  | ub
  | assertFail

/-- What the calls depend on besides their arguments: whether `assert` is compiled in, the
constant `pi` (include/SSVUtils/Core/Utils/Math.hpp:18), and whether a modification in a
right operand is done before the left operand is read. -/
structure Cfg where
  dbg : Bool
  pi : ℝ
  modFirst : Bool

/-- `assert(mD != 0)`, and otherwise the division by `mD` that follows it. -/
def nonZero (g : Cfg) (d : ℝ) (r : Res) : Res :=
  if d = 0 then (if g.dbg then .assertFail else .ub) else r

/-- `std::sqrt(x)`, used by `k`. -/
def sqrtThen (x : ℝ) (k : ℝ → ℝ) : Res := if 0 ≤ x then .num (k (Real.sqrt x)) else .nan

/-- `Linear::in`, `out` and `inOut`: include/SSVUtils/Easing/Inc/Easing.hpp:61-73. -/
def linear (g : Cfg) (t b c d : ℝ) : Res := nonZero g d (.num (c * t / d + b))

/-- `Sine::in`: include/SSVUtils/Easing/Inc/Easing.hpp:79-83. -/
def sineIn (g : Cfg) (t b c d : ℝ) : Res :=
  nonZero g d (.num (-c * Real.cos (t / d * (g.pi / 2)) + c + b))

/-- `Sine::out`: include/SSVUtils/Easing/Inc/Easing.hpp:84-88. -/
def sineOut (g : Cfg) (t b c d : ℝ) : Res :=
  nonZero g d (.num (c * Real.sin (t / d * (g.pi / 2)) + b))

/-- `Sine::inOut`: include/SSVUtils/Easing/Inc/Easing.hpp:89-93. -/
def sineInOut (g : Cfg) (t b c d : ℝ) : Res :=
  nonZero g d (.num (-c / 2 * (Real.cos (g.pi * t / d) - 1) + b))

/-- The overshoot constant `1.70158`: include/SSVUtils/Easing/Inc/Easing.hpp:102, 108, 116. -/
def backS : ℝ := 1.70158

/-- `Back::in`: include/SSVUtils/Easing/Inc/Easing.hpp:99-104. -/
def backIn (g : Cfg) (t b c d : ℝ) : Res :=
  nonZero g d <|
    let t := t / d
    let postFix := t
    let s := backS
    .num (c * postFix * t * ((s + 1) * t - s) + b)

/-- `Back::out`: include/SSVUtils/Easing/Inc/Easing.hpp:105-112. -/
def backOut (g : Cfg) (t b c d : ℝ) : Res :=
  nonZero g d <|
    let s := backS
    let t := t / d - 1
    .num (c * (t * t * ((s + 1) * t + s) + 1) + b)

/-- `Back::inOut`: include/SSVUtils/Easing/Inc/Easing.hpp:113-124. -/
def backInOut (g : Cfg) (t b c d : ℝ) : Res :=
  nonZero g d <|
    let s := backS
    let t := t / (d / 2)
    if t < 1 then
      let s := s * 1.525
      .num (c / 2 * (t * t * ((s + 1) * t - s)) + b)
    else
      let t := t - 2
      let postFix := t
      let s := s * 1.525
      .num (c / 2 * (postFix * t * ((s + 1) * t + s) + 2) + b)

/-- `Cubic::in`: include/SSVUtils/Easing/Inc/Easing.hpp:130-134. -/
def cubicIn (g : Cfg) (t b c d : ℝ) : Res :=
  nonZero g d <|
    let t := t / d
    .num (c * t * t * t + b)

/-- `Cubic::out`: include/SSVUtils/Easing/Inc/Easing.hpp:135-139. -/
def cubicOut (g : Cfg) (t b c d : ℝ) : Res :=
  nonZero g d <|
    let t := t / d - 1
    .num (c * (t * t * t + 1) + b)

/-- `Cubic::inOut`: include/SSVUtils/Easing/Inc/Easing.hpp:140-147. -/
def cubicInOut (g : Cfg) (t b c d : ℝ) : Res :=
  nonZero g d <|
    let t := t / (d / 2)
    if t < 1 then .num (c / 2 * t * t * t + b)
    else
      let p1 := c / 2 * t
      let t := t - 2
      .num (p1 * t * t + 2 + b)

/-- The number `Bounce::out` computes once `mD` is known not to be zero:
include/SSVUtils/Easing/Inc/Easing.hpp:160-174. -/
def bounceVal (t b c d : ℝ) : ℝ :=
  let t := t / d
  if t < 1 / 2.75 then c * (7.5625 * t * t) + b
  else if t < 2 / 2.75 then
    let t := t - 1.5 / 2.75
    let postFix := t
    c * (7.5625 * postFix * t + 0.75) + b
  else if t < 2.5 / 2.75 then
    let t := t - 2.25 / 2.75
    let postFix := t
    c * (7.5625 * postFix * t + 0.9375) + b
  else
    let t := t - 2.625 / 2.75
    let postFix := t
    c * (7.5625 * postFix * t + 0.984375) + b

/-- `Bounce::out`: include/SSVUtils/Easing/Inc/Easing.hpp:157-175. -/
def bounceOut (g : Cfg) (t b c d : ℝ) : Res := nonZero g d (.num (bounceVal t b c d))

/-- `Bounce::in`: include/SSVUtils/Easing/Inc/Easing.hpp:153-156; the `assert` and the
division are those of `out`. -/
def bounceIn (g : Cfg) (t b c d : ℝ) : Res :=
  nonZero g d (.num (c - bounceVal (d - t) 0 c d + b))

/-- `Bounce::inOut`: include/SSVUtils/Easing/Inc/Easing.hpp:176-180. -/
def bounceInOut (g : Cfg) (t b c d : ℝ) : Res :=
  nonZero g d <|
    if t < d / 2 then .num ((c - bounceVal (d - t * 2) 0 c d + 0) * 0.5 + b)
    else .num (bounceVal (t * 2 - d) 0 c d * 0.5 + c * 0.5 + b)

/-- `Circ::in`: include/SSVUtils/Easing/Inc/Easing.hpp:186-190. -/
def circIn (g : Cfg) (t b c d : ℝ) : Res :=
  nonZero g d <|
    let t := t / d
    sqrtThen (1 - t * t) fun r => -c * (r - 1) + b

/-- `Circ::out`: include/SSVUtils/Easing/Inc/Easing.hpp:191-195. -/
def circOut (g : Cfg) (t b c d : ℝ) : Res :=
  nonZero g d <|
    let t := t / d - 1
    sqrtThen (1 - t * t) fun r => c * r + b

/-- `Circ::inOut`: include/SSVUtils/Easing/Inc/Easing.hpp:196-202. -/
def circInOut (g : Cfg) (t b c d : ℝ) : Res :=
  nonZero g d <|
    let t := t / (d / 2)
    if t < 1 then sqrtThen (1 - t * t) fun r => -c / 2 * (r - 1) + b
    else
      let left := if g.modFirst then t - 2 else t
      let t := t - 2
      sqrtThen (1 - left * t) fun r => c / 2 * (r + 1) + b

/-- `Elastic::in`: include/SSVUtils/Easing/Inc/Easing.hpp:208-219.  Without `assert`, time
zero is answered before the division. -/
def elasticIn (g : Cfg) (t b c d : ℝ) : Res :=
  if g.dbg ∧ d = 0 then .assertFail
  else if t = 0 then .num b
  else if d = 0 then .ub
  else
    let t := t / d
    if t = 1 then .num (b + c)
    else
      let p := d * 0.3
      let a := c
      let s := p / 4
      let t := t - 1
      let postFix := a * (2 : ℝ) ^ (10 * t)
      .num (-(postFix * Real.sin ((t * d - s) * (2 * g.pi) / p)) + b)

/-- `Elastic::out`: include/SSVUtils/Easing/Inc/Easing.hpp:220-232. -/
def elasticOut (g : Cfg) (t b c d : ℝ) : Res :=
  if g.dbg ∧ d = 0 then .assertFail
  else if t = 0 then .num b
  else if d = 0 then .ub
  else
    let t := t / d
    if t = 1 then .num (b + c)
    else
      let p := d * 0.3
      let a := c
      let s := p / 4
      .num (a * (2 : ℝ) ^ (-10 * t) * Real.sin ((t * d - s) * (2 * g.pi) / p) + c + b)

/-- `Elastic::inOut`: include/SSVUtils/Easing/Inc/Easing.hpp:233-253. -/
def elasticInOut (g : Cfg) (t b c d : ℝ) : Res :=
  if g.dbg ∧ d = 0 then .assertFail
  else if t = 0 then .num b
  else if d = 0 then .ub
  else
    let t := t / (d / 2)
    if t = 2 then .num (b + c)
    else
      let p := d * (0.3 * 1.5)
      let a := c
      let s := p / 4
      if t < 1 then
        let t := t - 1
        let postFix := a * (2 : ℝ) ^ (10 * t)
        .num (-0.5 * (postFix * Real.sin ((t * d - s) * (2 * g.pi) / p)) + b)
      else
        let t := t - 1
        let postFix := a * (2 : ℝ) ^ (-10 * t)
        .num (postFix * Real.sin ((t * d - s) * (2 * g.pi) / p) * 0.5 + c + b)

/-- `Expo::in`: include/SSVUtils/Easing/Inc/Easing.hpp:259-265. -/
def expoIn (g : Cfg) (t b c d : ℝ) : Res :=
  if g.dbg ∧ d = 0 then .assertFail
  else if t = 0 then .num b
  else if d = 0 then .ub
  else .num (c * (2 : ℝ) ^ (10 * (t / d - 1)) + b)

/-- `Expo::out`: include/SSVUtils/Easing/Inc/Easing.hpp:266-272. -/
def expoOut (g : Cfg) (t b c d : ℝ) : Res :=
  if g.dbg ∧ d = 0 then .assertFail
  else if t = d then .num (b + c)
  else if d = 0 then .ub
  else .num (c * (-(2 : ℝ) ^ (-10 * t / d) + 1) + b)

/-- `Expo::inOut`: include/SSVUtils/Easing/Inc/Easing.hpp:273-281. -/
def expoInOut (g : Cfg) (t b c d : ℝ) : Res :=
  if g.dbg ∧ d = 0 then .assertFail
  else if t = 0 then .num b
  else if t = d then .num (b + c)
  else if d = 0 then .ub
  else
    let t := t / (d / 2)
    if t < 1 then .num (c / 2 * (2 : ℝ) ^ (10 * (t - 1)) + b)
    else
      let t := t - 1
      .num (c / 2 * (-(2 : ℝ) ^ (-10 * t) + 2) + b)

/-- `Quad::in`: include/SSVUtils/Easing/Inc/Easing.hpp:287-291. -/
def quadIn (g : Cfg) (t b c d : ℝ) : Res :=
  nonZero g d <|
    let t := t / d
    .num (c * t * t + b)

/-- `Quad::out`: include/SSVUtils/Easing/Inc/Easing.hpp:292-296. -/
def quadOut (g : Cfg) (t b c d : ℝ) : Res :=
  nonZero g d <|
    let t := t / d
    .num (-c * t * (t - 2) + b)

/-- `Quad::inOut`: include/SSVUtils/Easing/Inc/Easing.hpp:297-302. -/
def quadInOut (g : Cfg) (t b c d : ℝ) : Res :=
  nonZero g d <|
    let t := t / (d / 2)
    if t < 1 then .num (c / 2 * t * t + b)
    else
      let t := t - 1
      .num (-c / 2 * (t * (t - 2) - 1) + b)

/-- `Quart::in`: include/SSVUtils/Easing/Inc/Easing.hpp:308-312. -/
def quartIn (g : Cfg) (t b c d : ℝ) : Res :=
  nonZero g d <|
    let t := t / d
    .num (c * t * t * t * t + b)

/-- `Quart::out`: include/SSVUtils/Easing/Inc/Easing.hpp:313-317. -/
def quartOut (g : Cfg) (t b c d : ℝ) : Res :=
  nonZero g d <|
    let t := t / d - 1
    .num (-c * (t * t * t * t - 1) + b)

/-- `Quart::inOut`: include/SSVUtils/Easing/Inc/Easing.hpp:318-323. -/
def quartInOut (g : Cfg) (t b c d : ℝ) : Res :=
  nonZero g d <|
    let t := t / (d / 2)
    if t < 1 then .num (c / 2 * t * t * t * t + b)
    else
      let t := t - 2
      .num (-c / 2 * (t * t * t * t - 2) + b)

/-- `Quint::in`: include/SSVUtils/Easing/Inc/Easing.hpp:329-333. -/
def quintIn (g : Cfg) (t b c d : ℝ) : Res :=
  nonZero g d <|
    let t := t / d
    .num (c * t * t * t * t * t + b)

/-- `Quint::out`: include/SSVUtils/Easing/Inc/Easing.hpp:334-338. -/
def quintOut (g : Cfg) (t b c d : ℝ) : Res :=
  nonZero g d <|
    let t := t / d - 1
    .num (c * (t * t * t * t * t + 1) + b)

/-- `Quint::inOut`: include/SSVUtils/Easing/Inc/Easing.hpp:339-345. -/
def quintInOut (g : Cfg) (t b c d : ℝ) : Res :=
  nonZero g d <|
    let t := t / (d / 2)
    if t < 1 then .num (c / 2 * t * t * t * t * t + b)
    else
      let t := t - 2
      .num (c / 2 * (t * t * t * t * t + 2) + b)

/-- The easings: the class templates of include/SSVUtils/Easing/Inc/Easing.hpp:58-346. -/
inductive Ease where
  | linear | sine | back | cubic | bounce | circ | elastic | expo | quad | quart | quint
  deriving DecidableEq

/-- The kinds `In`, `Out` and `InOut`: include/SSVUtils/Easing/Inc/Easing.hpp:18-41. -/
inductive Kind where
  | inn | out | inOut
  deriving DecidableEq

/-- `TKind<TEase<T>>::get()`: include/SSVUtils/Easing/Inc/Easing.hpp:18-41. -/
def fn (g : Cfg) : Ease → Kind → ℝ → ℝ → ℝ → ℝ → Res
  | .linear, _ => linear g
  | .sine, .inn => sineIn g
  | .sine, .out => sineOut g
  | .sine, .inOut => sineInOut g
  | .back, .inn => backIn g
  | .back, .out => backOut g
  | .back, .inOut => backInOut g
  | .cubic, .inn => cubicIn g
  | .cubic, .out => cubicOut g
  | .cubic, .inOut => cubicInOut g
  | .bounce, .inn => bounceIn g
  | .bounce, .out => bounceOut g
  | .bounce, .inOut => bounceInOut g
  | .circ, .inn => circIn g
  | .circ, .out => circOut g
  | .circ, .inOut => circInOut g
  | .elastic, .inn => elasticIn g
  | .elastic, .out => elasticOut g
  | .elastic, .inOut => elasticInOut g
  | .expo, .inn => expoIn g
  | .expo, .out => expoOut g
  | .expo, .inOut => expoInOut g
  | .quad, .inn => quadIn g
  | .quad, .out => quadOut g
  | .quad, .inOut => quadInOut g
  | .quart, .inn => quartIn g
  | .quart, .out => quartOut g
  | .quart, .inOut => quartInOut g
  | .quint, .inn => quintIn g
  | .quint, .out => quintOut g
  | .quint, .inOut => quintInOut g

/-- `Dispatcher::getMap`: include/SSVUtils/Easing/Inc/Easing.hpp:45-55. -/
def getMap (g : Cfg) (e : Ease) (k : Kind) (i iMin iMax oMin oMax : ℝ) : Res :=
  fn g e k (iMin + i) oMin (oMax - oMin) (iMax - iMin)

/-- `getEased`: include/SSVUtils/Easing/Inc/Easing.hpp:355-363. -/
def getEased (g : Cfg) (e : Ease) (k : Kind) (i iMin iMax : ℝ) : Res :=
  getMap g e k i iMin iMax iMin iMax

/-- `getMapEased`: include/SSVUtils/Easing/Inc/Easing.hpp:373-380. -/
def getMapEased (g : Cfg) (e : Ease) (k : Kind) (i iMin iMax oMin oMax : ℝ) : Res :=
  getMap g e k i iMin iMax oMin oMax

end

end Verif.Easing
