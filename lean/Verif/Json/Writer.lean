import Verif.Json.Model
import Verif.IntStr.Model

/-!
# Model of the JSON writer and of equality

Source: `include/SSVUtils/Json/Io/Writer.hpp`, `Writer.inl`, `Json/Num/Num.hpp`, `Json/Val/Val.hpp:338-357`.

The writer is modelled for the two settings without console colours, `WSPretty` (`pretty = true`) and `WSMinified`
(`pretty = false`); then `wFmt` does nothing.
-/

namespace Verif.Json

open Verif

variable {R : Type} (ops : RealOps R)

/-! ## Numbers -/

/-- Conversion between `long` and `unsigned long`: modulo 2^64. -/
def toS (n : Nat) : Int := if n % 2 ^ 64 < 2 ^ 63 then (n % 2 ^ 64 : Nat) else ((n % 2 ^ 64 : Nat) : Int) - 2 ^ 64
def toU (n : Int) : Nat := (n % 2 ^ 64).toNat

/-- `Num::getIntS`, Num.hpp:68-77. -/
def getIntS : Num R → Outcome Int
  | .intS n => .ok n
  | .intU n => .ok (toS n)
  | .real r => .ofOption (ops.toInt r)

/-- `Num::getIntU`, Num.hpp:81-90. -/
def getIntU : Num R → Outcome Nat
  | .intS n => .ok (toU n)
  | .intU n => .ok n
  | .real r => .ofOption (ops.toUInt r)

/-- `Num::getReal`, Num.hpp:94-103. -/
def getReal : Num R → R
  | .intS n => ops.ofInt n
  | .intU n => ops.ofInt n
  | .real r => r

/-- `Num::operator==`, Num.hpp:140-149. -/
def numEq (a b : Num R) : Outcome Bool :=
  match a with
  | .intS n => do let m ← getIntS ops b; return n == m
  | .intU n => do let m ← getIntU ops b; return n == m
  | .real r => .ok (ops.eq r (getReal ops b))

/-! ## Values -/

mutual
/-- `Val::operator==`, Val.hpp:339-353. -/
def valEq : Val R → Val R → Outcome Bool
  | .obj a, .obj b => if a.length = b.length then eqObj a b else .ok false
  | .arr a, .arr b => if a.length = b.length then eqArr a b else .ok false
  | .str a, .str b => .ok (a == b)
  | .num a, .num b => numEq ops a b
  | .bln a, .bln b => .ok (a == b)
  | .nll, .nll => .ok true
  | _, _ => .ok false

/-- `std::vector::operator==` after the size check: stops at the first difference. -/
def eqArr : List (Val R) → List (Val R) → Outcome Bool
  | [], _ => .ok true
  | _ :: _, [] => .ub
  | x :: xs, y :: ys => do
    let e ← valEq x y
    if e then eqArr xs ys else return false

/-- The same for the vector of pairs of an `Obj` (VecMapBase.hpp:113-118, `std::pair::operator==`). -/
def eqObj : List (List Char × Val R) → List (List Char × Val R) → Outcome Bool
  | [], _ => .ok true
  | _ :: _, [] => .ub
  | (k, x) :: xs, (k', y) :: ys =>
    if k == k' then do
      let e ← valEq x y
      if e then eqObj xs ys else return false
    else .ok false
end

/-! ## Writer -/

/-- Members of `Writer`, Writer.hpp:27-29. -/
structure W where
  out : List Char
  depth : Nat
  needIndent : Bool
  deriving Repr, DecidableEq

/-- `indent`, Writer.hpp:37-41. -/
def W.indent (w : W) : W :=
  { w with out := w.out ++ (List.replicate w.depth "    ".toList).flatten, needIndent := false }

/-- `wNL`, Writer.hpp:50-57. -/
def W.nl (pretty : Bool) (w : W) : W :=
  if pretty then { w with out := w.out ++ ['\n'], needIndent := true } else w

/-- `wWS`, Writer.hpp:58-64. -/
def W.ws (pretty : Bool) (w : W) : W := if pretty then { w with out := w.out ++ [' '] } else w

/-- `wOut`, Writer.hpp:66-74. -/
def W.put (pretty : Bool) (s : List Char) (w : W) : W :=
  let w := if pretty && w.needIndent then w.indent else w
  { w with out := w.out ++ s }

def W.deeper (w : W) : W := { w with depth := w.depth + 1 }
def W.shallower (w : W) : W := { w with depth := w.depth - 1 }

/-- Text of a number, Writer.hpp:165-170. The content of the conversion buffer of `toStr` before the call has no
influence (`IntStr.C37_independent_of_earlier_calls`). -/
def numText : Num R → Outcome (List Char)
  | .intS n => IntStr.toStr .long (List.replicate 18 ' ') n
  | .intU n => IntStr.toStr .ulong (List.replicate 19 ' ') n
  | .real r => .ok (ops.toText r)

/-- `isObjOrArr`, Writer.hpp:31-35. -/
def isObjOrArr : Val R → Bool
  | .obj _ => true
  | .arr _ => true
  | _ => false

mutual
/-- `write(const Val&)`, Writer.inl:19-32, with the `write` overloads for `Obj` (Writer.hpp:90-122), `Arr` (124-147), `Str`
(155-159), `Num` (161-171), `Bln` (173-177), `Nll` (179-183). -/
def writeVal (pretty : Bool) : Val R → W → Outcome W
  | .obj kvs, w => do
    let w ← writeObj pretty kvs ((w.put pretty ['{']).nl pretty).deeper
    return (w.shallower.nl pretty).put pretty ['}']
  | .arr vs, w => do
    let w ← writeArr pretty vs ((w.put pretty ['[']).nl pretty).deeper
    return (w.shallower.nl pretty).put pretty [']']
  | .str s, w => .ok (w.put pretty ('"' :: s ++ ['"']))
  | .num n, w => do
    let t ← numText ops n
    return w.put pretty t
  | .bln b, w => .ok (w.put pretty (if b then "true".toList else "false".toList))
  | .nll, w => .ok (w.put pretty "null".toList)

/-- `repeatWithSeparator` over the elements of an `Arr`, Writer.hpp:76-86, 132-140. -/
def writeArr (pretty : Bool) : List (Val R) → W → Outcome W
  | [], w => .ok w
  | [v], w => writeVal pretty v w
  | v :: vs, w => do
    let w ← writeVal pretty v w
    writeArr pretty vs (((w.put pretty [',']).ws pretty).nl pretty)

/-- `repeatWithSeparator` over the pairs of an `Obj`, Writer.hpp:76-86, 98-115. -/
def writeObj (pretty : Bool) : List (List Char × Val R) → W → Outcome W
  | [], w => .ok w
  | [(k, v)], w => do
    let w := ((w.put pretty ('"' :: k ++ ['"'])).put pretty [':']).ws pretty
    writeVal pretty v (if isObjOrArr v then w.nl pretty else w)
  | (k, v) :: kvs, w => do
    let w := ((w.put pretty ('"' :: k ++ ['"'])).put pretty [':']).ws pretty
    let w ← writeVal pretty v (if isObjOrArr v then w.nl pretty else w)
    writeObj pretty kvs (((w.put pretty [',']).ws pretty).nl pretty)
end

/-- `Val::getWriteToStr`, Val.hpp:376-382, `writeToStream`, Val.inl:52-58. -/
def write (pretty : Bool) (v : Val R) : Outcome (List Char) := do
  let w ← writeVal ops pretty v ⟨[], 0, false⟩
  return w.out

end Verif.Json
