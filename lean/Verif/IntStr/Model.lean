import Verif.Basic

/-!
# Model of the integer-to-string conversion behind `toStr`

Source: `include/SSVUtils/Core/String/Internal/FastIntToStr.hpp`, `include/SSVUtils/Core/String/ToStr.hpp`.

The thread-local conversion buffer is a list of characters of fixed length with arbitrary previous contents;
the pointer `it` is an integer offset into it, and reading or writing outside the buffer is UB. Values are
mathematical integers (no intermediate result of the code overflows; `-2 * val` and `val - div * 100` stay
below 200 in magnitude). C++ division truncates towards zero.
-/

namespace Verif.IntStr

open Verif

/-- `digits`, FastIntToStr.hpp:33-43. -/
def digits : List Char :=
  ("00010203040506070809" ++
   "10111213141516171819" ++
   "20212223242526272829" ++
   "30313233343536373839" ++
   "40414243444546474849" ++
   "50515253545556575859" ++
   "60616263646566676869" ++
   "70717273747576777879" ++
   "80818283848586878889" ++
   "90919293949596979899").toList

/-- `digits[i]`. -/
def digitAt (i : Int) : Outcome Char :=
  if i < 0 then .ub else
  match digits[i.toNat]? with
  | some c => .ok c
  | none => .ub

/-- `*(buf + i) = c`. -/
def store (buf : List Char) (i : Int) (c : Char) : Outcome (List Char) :=
  if i < 0 ∨ (buf.length : Int) ≤ i then .ub else .ok (buf.set i.toNat c)

/-- `memcpy(it, &digits[i], 2)`. -/
def memcpy2 (buf : List Char) (it : Int) (i : Int) : Outcome (List Char) := do
  let a ← digitAt i
  let b ← digitAt (i + 1)
  let buf ← store buf it a
  store buf (it + 1) b

/-- `(neg ? -2 : 2) * x`. -/
def scaled (neg : Bool) (x : Int) : Int := if neg then -2 * x else 2 * x

/-- The loop, FastIntToStr.hpp:57-65 (`neg = false`), 72-80 (`neg = true`), 102-110 (unsigned). -/
def loop (neg : Bool) (buf : List Char) (it val : Int) : Outcome (List Char × Int × Int) :=
  let div := val.tdiv 100
  if h : div = 0 then .ok (buf, it, val)
  else do
    let buf ← memcpy2 buf it (scaled neg (val - div * 100))
    loop neg buf (it - 2) div
termination_by val.natAbs
decreasing_by
  have h1 : val.natAbs / 100 = (val.tdiv 100).natAbs := by
    rw [Int.natAbs_tdiv]; rfl
  have h2 : (val.tdiv 100).natAbs ≠ 0 := by omega
  show (val.tdiv 100).natAbs < val.natAbs
  omega

/-- The string from `it` to the end of the buffer, FastIntToStr.hpp:87-88, 115-116. -/
def strFrom (buf : List Char) (it : Int) : Outcome (List Char) :=
  if it < 0 then .ub else .ok (buf.drop it.toNat)

/-- `Conv<T>::toStr` for an unsigned type or a non-negative value, FastIntToStr.hpp:50-69, 97-117. -/
def convNonneg (buf : List Char) (val : Int) : Outcome (List Char) := do
  let (buf, it, val) ← loop false buf (buf.length - 2) val
  let buf ← memcpy2 buf it (scaled false val)
  strFrom buf (if val < 10 then it + 1 else it)

/-- `Conv<T>::toStr` for a negative value, FastIntToStr.hpp:70-88. -/
def convNeg (buf : List Char) (val : Int) : Outcome (List Char) := do
  let (buf, it, val) ← loop true buf (buf.length - 2) val
  let buf ← memcpy2 buf it (scaled true val)
  let it := if val ≤ -10 then it - 1 else it
  let buf ← store buf it '-'
  strFrom buf it

/-- The integer types `toStr` is specialised for, ToStr.hpp:43-51. -/
inductive IntType where
  | short | int | long | longLong | ushort | uint | ulong | ulongLong
  deriving Repr, DecidableEq

/-- Number of value bits (LP64: `long` has 64 bits). -/
def IntType.bits : IntType → Nat
  | .short => 15 | .int => 31 | .long => 63 | .longLong => 63
  | .ushort => 16 | .uint => 32 | .ulong => 64 | .ulongLong => 64

def IntType.signed : IntType → Bool
  | .short | .int | .long | .longLong => true
  | _ => false

/-- `bufferSize = std::numeric_limits<T>::digits10`, FastIntToStr.hpp:48, 95. -/
def IntType.bufferSize : IntType → Nat
  | .short => 4 | .int => 9 | .long => 18 | .longLong => 18
  | .ushort => 4 | .uint => 9 | .ulong => 19 | .ulongLong => 19

/-- Values of the type. -/
def IntType.InRange (t : IntType) (v : Int) : Prop :=
  (if t.signed then -(2 ^ t.bits) else 0) ≤ v ∧ v < 2 ^ t.bits

/-- `toStr(x)`, ToStr.hpp:62-66; `buf` is the content of the conversion buffer before the call. -/
def toStr (t : IntType) (buf : List Char) (v : Int) : Outcome (List Char) :=
  if t.signed ∧ v < 0 then convNeg buf v else convNonneg buf v

end Verif.IntStr
