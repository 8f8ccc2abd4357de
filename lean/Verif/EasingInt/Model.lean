import Verif.Basic

/-!
# Easing functions with integers

`ssvu::Easing` and `ssvu::getMapEased`, `ssvu::getEased` for a signed integer type `T` not shorter than `int`
(`include/SSVUtils/Easing/Inc/Easing.hpp`). Integer division truncates, `T(x)` of a literal truncates, signed overflow and division by
zero are undefined. `Sine`, `Circ`, `Elastic` and `Expo` mix integers with `float` or `double` and are not modelled here.

As in `Verif.Easing`, operands are evaluated from left to right where the C++ standard leaves a modification and a use of `mT`
unsequenced.
-/

namespace Verif.EasingInt

open Verif

/-- What calls depend on: whether `assert` is compiled in, and the type, whose values are those from `-max` up to but not including `max` (2³¹ for
`int`). -/
structure Cfg where
  dbg : Bool
  max : Int

/-- The result of an operation: overflow is undefined. -/
def fit (g : Cfg) (x : Int) : Outcome Int := if -g.max ≤ x ∧ x < g.max then .ok x else .ub

/-- `a + b`. -/
def add (g : Cfg) (a b : Int) : Outcome Int := fit g (a + b)

/-- `a - b`. -/
def sub (g : Cfg) (a b : Int) : Outcome Int := fit g (a - b)

/-- `a * b`. -/
def mul (g : Cfg) (a b : Int) : Outcome Int := fit g (a * b)

/-- `-a`. -/
def neg (g : Cfg) (a : Int) : Outcome Int := fit g (-a)

/-- `a / b`. -/
def div (g : Cfg) (a b : Int) : Outcome Int := if b = 0 then .ub else fit g (a.tdiv b)

/-- `T(n / d)`, a decimal literal converted to an integer. -/
def lit (n d : Nat) : Int := (n / d : Nat)

/-- `assert(mD != 0)`. -/
def nonZero (g : Cfg) (d : Int) : Outcome Unit := if g.dbg && d = 0 then .assertFail else .ok ()

/-- `Linear::in`, `out` and `inOut`: Easing.hpp:60-73. -/
def linear (g : Cfg) (t b c d : Int) : Outcome Int := do
  nonZero g d
  let x ← mul g c t
  let x ← div g x d
  add g x b

/-- `Back::in`: Easing.hpp:99-104. -/
def backIn (g : Cfg) (t b c d : Int) : Outcome Int := do
  nonZero g d
  let t ← div g t d
  let s := lit 170158 100000
  let x ← mul g c t
  let x ← mul g x t
  let y ← add g s 1
  let y ← mul g y t
  let y ← sub g y s
  let x ← mul g x y
  add g x b

/-- `Back::out`: Easing.hpp:105-112. -/
def backOut (g : Cfg) (t b c d : Int) : Outcome Int := do
  nonZero g d
  let s := lit 170158 100000
  let q ← div g t d
  let t ← sub g q 1
  let x ← mul g t t
  let y ← add g s 1
  let y ← mul g y t
  let y ← add g y s
  let x ← mul g x y
  let x ← add g x 1
  let x ← mul g c x
  add g x b

/-- `Back::inOut`: Easing.hpp:113-124. -/
def backInOut (g : Cfg) (t b c d : Int) : Outcome Int := do
  nonZero g d
  let s := lit 170158 100000
  let h ← div g d 2
  let t ← div g t h
  let c2 ← div g c 2
  if t < 1 then
    let x ← mul g t t
    let s ← mul g s (lit 1525 1000)
    let y ← add g s 1
    let y ← mul g y t
    let y ← sub g y s
    let x ← mul g x y
    let x ← mul g c2 x
    add g x b
  else
    let t ← sub g t 2
    let x ← mul g t t
    let s ← mul g s (lit 1525 1000)
    let y ← add g s 1
    let y ← mul g y t
    let y ← add g y s
    let x ← mul g x y
    let x ← add g x 2
    let x ← mul g c2 x
    add g x b

/-- `Cubic::in`: Easing.hpp:130-134. -/
def cubicIn (g : Cfg) (t b c d : Int) : Outcome Int := do
  nonZero g d
  let t ← div g t d
  let x ← mul g c t
  let x ← mul g x t
  let x ← mul g x t
  add g x b

/-- `Cubic::out`: Easing.hpp:135-139. -/
def cubicOut (g : Cfg) (t b c d : Int) : Outcome Int := do
  nonZero g d
  let q ← div g t d
  let t ← sub g q 1
  let x ← mul g t t
  let x ← mul g x t
  let x ← add g x 1
  let x ← mul g c x
  add g x b

/-- `Cubic::inOut`: Easing.hpp:140-147. -/
def cubicInOut (g : Cfg) (t b c d : Int) : Outcome Int := do
  nonZero g d
  let h ← div g d 2
  let t ← div g t h
  let c2 ← div g c 2
  if t < 1 then
    let x ← mul g c2 t
    let x ← mul g x t
    let x ← mul g x t
    add g x b
  else
    let p1 ← mul g c2 t
    let t ← sub g t 2
    let x ← mul g p1 t
    let x ← mul g x t
    let x ← add g x 2
    add g x b

/-- `Bounce::out`: Easing.hpp:157-175. -/
def bounceOut (g : Cfg) (t b c d : Int) : Outcome Int := do
  nonZero g d
  let t ← div g t d
  let l1 ← div g 1 (lit 275 100)
  if t < l1 then
    let x ← mul g (lit 75625 10000) t
    let x ← mul g x t
    let x ← mul g c x
    add g x b
  else
    let l2 ← div g 2 (lit 275 100)
    if t < l2 then
      let o ← div g (lit 15 10) (lit 275 100)
      let t ← sub g t o
      let x ← mul g (lit 75625 10000) t
      let x ← mul g x t
      let x ← add g x (lit 75 100)
      let x ← mul g c x
      add g x b
    else
      let l3 ← div g (lit 25 10) (lit 275 100)
      if t < l3 then
        let o ← div g (lit 225 100) (lit 275 100)
        let t ← sub g t o
        let x ← mul g (lit 75625 10000) t
        let x ← mul g x t
        let x ← add g x (lit 9375 10000)
        let x ← mul g c x
        add g x b
      else
        let o ← div g (lit 2625 1000) (lit 275 100)
        let t ← sub g t o
        let x ← mul g (lit 75625 10000) t
        let x ← mul g x t
        let x ← add g x (lit 984375 1000000)
        let x ← mul g c x
        add g x b

/-- `Bounce::in`: Easing.hpp:153-156. -/
def bounceIn (g : Cfg) (t b c d : Int) : Outcome Int := do
  let r ← sub g d t
  let x ← bounceOut g r 0 c d
  let x ← sub g c x
  add g x b

/-- `Bounce::inOut`: Easing.hpp:176-180. -/
def bounceInOut (g : Cfg) (t b c d : Int) : Outcome Int := do
  let h ← div g d 2
  if t < h then
    let u ← mul g t 2
    let x ← bounceIn g u 0 c d
    let x ← mul g x (lit 5 10)
    add g x b
  else
    let u ← mul g t 2
    let u ← sub g u d
    let x ← bounceOut g u 0 c d
    let x ← mul g x (lit 5 10)
    let y ← mul g c (lit 5 10)
    let x ← add g x y
    add g x b

/-- `Quad::in`: Easing.hpp:287-291. -/
def quadIn (g : Cfg) (t b c d : Int) : Outcome Int := do
  nonZero g d
  let t ← div g t d
  let x ← mul g c t
  let x ← mul g x t
  add g x b

/-- `Quad::out`: Easing.hpp:292-296. -/
def quadOut (g : Cfg) (t b c d : Int) : Outcome Int := do
  nonZero g d
  let n ← neg g c
  let t ← div g t d
  let x ← mul g n t
  let y ← sub g t 2
  let x ← mul g x y
  add g x b

/-- `Quad::inOut`: Easing.hpp:297-302. -/
def quadInOut (g : Cfg) (t b c d : Int) : Outcome Int := do
  nonZero g d
  let h ← div g d 2
  let t ← div g t h
  if t < 1 then
    let c2 ← div g c 2
    let x ← mul g c2 t
    let x ← mul g x t
    add g x b
  else
    let n ← neg g c
    let c2 ← div g n 2
    let t ← sub g t 1
    let y ← sub g t 2
    let x ← mul g t y
    let x ← sub g x 1
    let x ← mul g c2 x
    add g x b

/-- `Quart::in`: Easing.hpp:308-312. -/
def quartIn (g : Cfg) (t b c d : Int) : Outcome Int := do
  nonZero g d
  let t ← div g t d
  let x ← mul g c t
  let x ← mul g x t
  let x ← mul g x t
  let x ← mul g x t
  add g x b

/-- `Quart::out`: Easing.hpp:313-317. -/
def quartOut (g : Cfg) (t b c d : Int) : Outcome Int := do
  nonZero g d
  let n ← neg g c
  let q ← div g t d
  let t ← sub g q 1
  let x ← mul g t t
  let x ← mul g x t
  let x ← mul g x t
  let x ← sub g x 1
  let x ← mul g n x
  add g x b

/-- `Quart::inOut`: Easing.hpp:318-323. -/
def quartInOut (g : Cfg) (t b c d : Int) : Outcome Int := do
  nonZero g d
  let h ← div g d 2
  let t ← div g t h
  if t < 1 then
    let c2 ← div g c 2
    let x ← mul g c2 t
    let x ← mul g x t
    let x ← mul g x t
    let x ← mul g x t
    add g x b
  else
    let n ← neg g c
    let c2 ← div g n 2
    let t ← sub g t 2
    let x ← mul g t t
    let x ← mul g x t
    let x ← mul g x t
    let x ← sub g x 2
    let x ← mul g c2 x
    add g x b

/-- `Quint::in`: Easing.hpp:329-333. -/
def quintIn (g : Cfg) (t b c d : Int) : Outcome Int := do
  nonZero g d
  let t ← div g t d
  let x ← mul g c t
  let x ← mul g x t
  let x ← mul g x t
  let x ← mul g x t
  let x ← mul g x t
  add g x b

/-- `Quint::out`: Easing.hpp:334-338. -/
def quintOut (g : Cfg) (t b c d : Int) : Outcome Int := do
  nonZero g d
  let q ← div g t d
  let t ← sub g q 1
  let x ← mul g t t
  let x ← mul g x t
  let x ← mul g x t
  let x ← mul g x t
  let x ← add g x 1
  let x ← mul g c x
  add g x b

/-- `Quint::inOut`: Easing.hpp:339-345. -/
def quintInOut (g : Cfg) (t b c d : Int) : Outcome Int := do
  nonZero g d
  let h ← div g d 2
  let t ← div g t h
  let c2 ← div g c 2
  if t < 1 then
    let x ← mul g c2 t
    let x ← mul g x t
    let x ← mul g x t
    let x ← mul g x t
    let x ← mul g x t
    add g x b
  else
    let t ← sub g t 2
    let x ← mul g t t
    let x ← mul g x t
    let x ← mul g x t
    let x ← mul g x t
    let x ← add g x 2
    let x ← mul g c2 x
    add g x b

/-- The families modelled here. -/
inductive Ease where
  | linear | back | cubic | bounce | quad | quart | quint
  deriving DecidableEq

/-- The kinds `In`, `Out` and `InOut`: Easing.hpp:18-41. -/
inductive Kind where
  | inn | out | inOut
  deriving DecidableEq

/-- `TKind<TEase<T>>::get()`. -/
def fn (g : Cfg) : Ease → Kind → Int → Int → Int → Int → Outcome Int
  | .linear, _ => linear g
  | .back, .inn => backIn g
  | .back, .out => backOut g
  | .back, .inOut => backInOut g
  | .cubic, .inn => cubicIn g
  | .cubic, .out => cubicOut g
  | .cubic, .inOut => cubicInOut g
  | .bounce, .inn => bounceIn g
  | .bounce, .out => bounceOut g
  | .bounce, .inOut => bounceInOut g
  | .quad, .inn => quadIn g
  | .quad, .out => quadOut g
  | .quad, .inOut => quadInOut g
  | .quart, .inn => quartIn g
  | .quart, .out => quartOut g
  | .quart, .inOut => quartInOut g
  | .quint, .inn => quintIn g
  | .quint, .out => quintOut g
  | .quint, .inOut => quintInOut g

/-- `getMapEased`, Easing.hpp:46-55, 373-380. -/
def getMapEased (g : Cfg) (e : Ease) (k : Kind) (i iMin iMax oMin oMax : Int) : Outcome Int := do
  let t ← add g iMin i
  let c ← sub g oMax oMin
  let d ← sub g iMax iMin
  fn g e k t oMin c d

/-- `getEased`, Easing.hpp:355-363. -/
def getEased (g : Cfg) (e : Ease) (k : Kind) (i iMin iMax : Int) : Outcome Int := getMapEased g e k i iMin iMax iMin iMax

end Verif.EasingInt
