/-! # `mkArray` (Core/Common/MakeArray.hpp) for arithmetic arguments -/

namespace Verif.MakeArray

/-- The arithmetic types (x86-64: `char` is signed, `long` has 64 bits). `bool`, `long long`, `long double` and the wide character
types are left out. -/
inductive Ar where
  | char | schar | uchar | short | ushort | int | uint | long | ulong | float | double
  deriving DecidableEq, Repr

/-- Integer promotion: types narrower than `int` become `int`. -/
def promote : Ar → Ar
  | .char | .schar | .uchar | .short | .ushort => .int
  | t => t

/-- The usual arithmetic conversions, which are the type of `b ? x : y` for `x`, `y` of different arithmetic types. -/
def arith (a b : Ar) : Ar :=
  if a = .double ∨ b = .double then .double
  else if a = .float ∨ b = .float then .float
  else
    let a := promote a; let b := promote b
    if a = b then a
    else if a = .ulong ∨ b = .ulong then .ulong
    else if a = .long ∨ b = .long then .long
    else .uint

/-- `std::common_type_t<A, B>`. -/
def common2 (a b : Ar) : Ar := if a = b then a else arith a b

/-- `std::decay_t<std::common_type_t<TArgs...>>`, MakeArray.hpp:19, 22: from left to right; there is none for no arguments. -/
def common : List Ar → Option Ar
  | [] => none
  | t :: ts => some (ts.foldl common2 t)

/-- A value: an integer, or a real number of the floating-point types (`R` is the type of these). -/
inductive Val (R : Type) where
  | int (z : Int)
  | real (x : R)

/-- Smallest value of an integer type. -/
def lo : Ar → Int
  | .char | .schar => -2 ^ 7
  | .short => -2 ^ 15
  | .int => -2 ^ 31
  | .long => -2 ^ 63
  | _ => 0

/-- Largest value of an integer type. -/
def hi : Ar → Int
  | .char | .schar => 2 ^ 7 - 1
  | .uchar => 2 ^ 8 - 1
  | .short => 2 ^ 15 - 1
  | .ushort => 2 ^ 16 - 1
  | .int => 2 ^ 31 - 1
  | .uint => 2 ^ 32 - 1
  | .long => 2 ^ 63 - 1
  | .ulong => 2 ^ 64 - 1
  | _ => 0

/-- Is it a floating-point type? -/
def isReal : Ar → Bool
  | .float | .double => true
  | _ => false

/-- Narrowing conversions of values that are not constants ([dcl.init.list]/7): they are not allowed in the braces of
MakeArray.hpp:22-23. -/
def narrowing (a t : Ar) : Bool :=
  if isReal a then !isReal t || (a == .double && t == .float)
  else isReal t || !(decide (lo t ≤ lo a) && decide (hi a ≤ hi t))

/-- The conversions that narrow, as the compiler would do them: to `float`, between integers and reals. -/
structure Conv (R : Type) where
  toFloat : R → R
  ofInt : Ar → Int → R
  toInt : Ar → R → Int

/-- Conversion of a value to an arithmetic type: integers wrap around. -/
def convert {R : Type} (k : Conv R) (t : Ar) : Val R → Val R
  | .int z => if isReal t then .real (k.ofInt t z) else .int (lo t + (z - lo t) % (hi t - lo t + 1))
  | .real x => if isReal t then (if t = .float then .real (k.toFloat x) else .real x) else .int (k.toInt t x)

/-- `mkArray(args...)`, MakeArray.hpp:16-24: the element type and the elements; `none` if the call does not compile. -/
def mkArray {R : Type} (k : Conv R) (args : List (Ar × Val R)) : Option (Ar × List (Val R)) :=
  match common (args.map (·.1)) with
  | none => none
  | some t => if args.any (fun a => narrowing a.1 t) then none else some (t, args.map fun a => convert k t a.2)

end Verif.MakeArray
