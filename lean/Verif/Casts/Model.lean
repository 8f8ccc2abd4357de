import Verif.Num.Model

/-!
# Casts and random numbers

Source: `include/SSVUtils/Core/Common/Casts.hpp` and `include/SSVUtils/Core/Utils/Rnd.hpp`, integer types. `std::stoi`,
`std::stol` and `std::uniform_int_distribution` are standard library functions: the first two are written down from their
description (`strtol` in base 10 in the "C" locale, then range checks), the distribution is a parameter. The floating-point
functions (`sToFloat`, `sToDouble`, `getRndR`, `getRndRNormal`) are not modelled.
-/

namespace Verif.Casts

open Verif Num

/-- `toNum<TOut>(x)`, Casts.hpp:99-108; `toInt` 111-115, `toSizeT` 132-136. -/
def toNum (t : ITy) (x : Val) : Val := conv t x

/-- `castEnum(x)`, Casts.hpp:91-97: an enumerator is the value it has in the underlying type. -/
def castEnum (x : Val) : Val := x

/-- `toEnum<T>(x)`, Casts.hpp:165-171. `none`: does not compile, the type of `x` is not the underlying type `t`. -/
def toEnum (t : ITy) (x : Val) : Option Val := if x.ty = t then some x else none

/-- `isspace`. -/
def isSpace (c : Char) : Bool := c.toNat == 32 || (9 ≤ c.toNat && c.toNat ≤ 13)

def isDigit (c : Char) : Bool := 48 ≤ c.toNat && c.toNat ≤ 57

/-- The loop of `strtol` over the digits; also says if there was one. -/
def number : List Char → Int → Bool → Option Int
  | c :: s, acc, any => if isDigit c then number s (10 * acc + (c.toNat - 48)) true else if any then some acc else none
  | [], acc, any => if any then some acc else none

/-- `strtol(s, nullptr, 10)` without the range check: blanks, a sign, digits; the rest is ignored. `none`: no digits. -/
def strtol : List Char → Option Int
  | s => match s.dropWhile isSpace with
    | '-' :: r => (number r 0 false).map (fun n => -n)
    | '+' :: r => number r 0 false
    | r => number r 0 false

/-- `std::stoi`, `std::stol`: `std::invalid_argument` without digits, `std::out_of_range` if the result is not representable. -/
def sto (t : ITy) (s : List Char) : Outcome Val :=
  match strtol s with
  | none => .throw
  | some n => if fits t n then .ok ⟨t, n⟩ else .throw

/-- A function marked `noexcept`: an exception ends the program (`std::terminate`, here `assertFail`). -/
def noexcept {α : Type} : Outcome α → Outcome α
  | .throw => .assertFail
  | o => o

/-- `sToInt`, Casts.hpp:138-142. -/
def sToInt (s : List Char) : Outcome Val := noexcept (do
  let x ← sto .i32 s
  return toNum .i32 x)

/-- `sToSizeT`, Casts.hpp:156-160. -/
def sToSizeT (s : List Char) : Outcome Val := noexcept (do
  let x ← sto .i64 s
  return toNum .u64 x)

/-! ## Random numbers -/

/-- `std::uniform_int_distribution{a, b}(engine)`: the number drawn and the engine afterwards. `a ≤ b` is a precondition. -/
def uniform {G : Type} (draw : Int → Int → G → Int × G) (t : ITy) (a b : Val) (g : G) : Outcome (Val × G) :=
  if a.v ≤ b.v then .ok (⟨t, (draw a.v b.v g).1⟩, (draw a.v b.v g).2) else .ub

/-- `getRndI(min, max)`, Rnd.hpp:43-51. `none`: does not compile, because `max - 1` is an `int` and is narrowed inside braces. -/
def getRndI {G : Type} (draw : Int → Int → G → Int × G) (dbg : Bool) (mMin mMax : Val) (g : G) : Option (Outcome (Val × G)) :=
  let ct := commonType mMin.ty mMax.ty
  if uac ct .i32 = ct then some (do
    let min := conv ct mMin
    let max := conv ct mMax
    assert' dbg (lt min max)
    let top ← sub max (lit 1)
    uniform draw ct min top g)
  else none

/-- `getRndSign<T>()`, Rnd.hpp:82-86. -/
def getRndSign {G : Type} (draw : Int → Int → G → Int × G) (t : ITy) (g : G) : Outcome (Val × G) := do
  let (x, g) ← uniform draw t ⟨t, 0⟩ ⟨t, 1⟩ g
  return (conv t (if lt (lit 0) x then lit (-1) else lit 1), g)

end Verif.Casts
