import Verif.Basic

/-!
# Integer helpers

Source: `include/SSVUtils/Core/Utils/Math.hpp` and `getByModIdx` of `include/SSVUtils/Core/Utils/Containers.hpp`,
instantiated with the integer types of the LP64 platforms (`int` 32 bits, `long`/`std::size_t` 64 bits). The arithmetic is
that of C++: operands are promoted and converted to a common type, signed overflow and division by zero are undefined,
unsigned arithmetic wraps. `dbg` says whether `assert` is active. The floating-point instances are in `Verif.Angle`
(idealised).
-/

namespace Verif.Num

open Verif

/-! ## C++ integer arithmetic -/

/-- The integer types (`long` and `long long` are identified, so are `unsigned long` and `unsigned long long`; `char` and
`bool` are left out). -/
inductive ITy where
  | i8 | u8 | i16 | u16 | i32 | u32 | i64 | u64
  deriving Repr, DecidableEq

def ITy.signed : ITy → Bool
  | .i8 | .i16 | .i32 | .i64 => true
  | .u8 | .u16 | .u32 | .u64 => false

/-- Smallest value. -/
def ITy.min : ITy → Int
  | .i8 => -128
  | .i16 => -32768
  | .i32 => -2147483648
  | .i64 => -9223372036854775808
  | .u8 | .u16 | .u32 | .u64 => 0

/-- Number of values. -/
def ITy.count : ITy → Int
  | .i8 | .u8 => 256
  | .i16 | .u16 => 65536
  | .i32 | .u32 => 4294967296
  | .i64 | .u64 => 18446744073709551616

/-- A value of an integer type. -/
structure Val where
  ty : ITy
  v : Int
  deriving Repr, DecidableEq

/-- Is the number representable? -/
def fits (t : ITy) (x : Int) : Bool := decide (t.min ≤ x ∧ x < t.min + t.count)

/-- Conversion to a type: reduction modulo the number of its values. -/
def wrap (t : ITy) (x : Int) : Int := (x - t.min) % t.count + t.min

def conv (t : ITy) (x : Val) : Val := ⟨t, wrap t x.v⟩

/-- Integral promotion. -/
def promote : ITy → ITy
  | .i8 | .u8 | .i16 | .u16 | .i32 => .i32
  | .u32 => .u32
  | .i64 => .i64
  | .u64 => .u64

/-- The usual arithmetic conversions: the type in which a binary operator computes. -/
def uac (a b : ITy) : ITy :=
  match promote a, promote b with
  | .u64, _ => .u64
  | _, .u64 => .u64
  | .i64, _ => .i64
  | _, .i64 => .i64
  | .u32, _ => .u32
  | _, .u32 => .u32
  | _, _ => .i32

/-- `std::common_type_t<A, B>`. -/
def commonType (a b : ITy) : ITy := if a = b then a else uac a b

/-- Result of an operation of type `t` whose mathematical value is `x`. -/
def result (t : ITy) (x : Int) : Outcome Val :=
  if t.signed then (if fits t x then .ok ⟨t, x⟩ else .ub) else .ok ⟨t, wrap t x⟩

def add (a b : Val) : Outcome Val :=
  let t := uac a.ty b.ty
  result t (wrap t a.v + wrap t b.v)

def sub (a b : Val) : Outcome Val :=
  let t := uac a.ty b.ty
  result t (wrap t a.v - wrap t b.v)

def mul (a b : Val) : Outcome Val :=
  let t := uac a.ty b.ty
  result t (wrap t a.v * wrap t b.v)

def div (a b : Val) : Outcome Val :=
  let t := uac a.ty b.ty
  if wrap t b.v = 0 then .ub else result t ((wrap t a.v).tdiv (wrap t b.v))

/-- `a % b`; undefined also when the quotient is not representable. -/
def mod (a b : Val) : Outcome Val :=
  let t := uac a.ty b.ty
  if wrap t b.v = 0 then .ub
  else if t.signed && !fits t ((wrap t a.v).tdiv (wrap t b.v)) then .ub
  else result t ((wrap t a.v).tmod (wrap t b.v))

def lt (a b : Val) : Bool :=
  let t := uac a.ty b.ty
  wrap t a.v < wrap t b.v

def le (a b : Val) : Bool := !lt b a

def eq (a b : Val) : Bool :=
  let t := uac a.ty b.ty
  wrap t a.v == wrap t b.v

/-- An `int` literal. -/
def lit (n : Int) : Val := ⟨.i32, n⟩

/-- `assert(b)`. -/
def assert' (dbg : Bool) (b : Bool) : Outcome Unit := if dbg then Outcome.check b else .ok ()

/-! ## Math.hpp -/

/-- `getSign`, Math.hpp:33-49, both overloads. -/
def getSign (x : Val) : Int :=
  if x.ty.signed then (if lt (lit 0) x then 1 else 0) - (if lt x (lit 0) then 1 else 0)
  else if lt (lit 0) x then 1 else 0

/-- `clampMin`, Math.hpp:54-58: the new value of `mX`. -/
def clampMin (x min : Val) : Val := if lt x min then conv x.ty min else x

/-- `clampMax`, Math.hpp:63-67. -/
def clampMax (x max : Val) : Val := if lt max x then conv x.ty max else x

/-- `clamp`, Math.hpp:73-81. -/
def clamp (dbg : Bool) (x min max : Val) : Outcome Val := do
  assert' dbg (le min max)
  pure (if lt x min then conv x.ty min else if lt max x then conv x.ty max else x)

/-- `getClampedMin`, Math.hpp:88-93. -/
def getClampedMin (x min : Val) : Val := conv (commonType x.ty min.ty) (if lt x min then min else x)

/-- `getClampedMax`, Math.hpp:100-105. -/
def getClampedMax (x max : Val) : Val := conv (commonType x.ty max.ty) (if lt max x then max else x)

/-- `getClamped`, Math.hpp:114-123. -/
def getClamped (dbg : Bool) (x min max : Val) : Outcome Val := do
  let ct := commonType (commonType x.ty min.ty) max.ty
  assert' dbg (le (conv ct min) (conv ct max))
  pure (if lt (conv ct x) (conv ct min) then conv ct min
    else if lt (conv ct max) (conv ct x) then conv ct max else conv ct x)

/-- `clampMin`, Math.hpp:54-58, for one arbitrary type with its operator `<`. -/
def clampMinBy {α : Type} (less : α → α → Bool) (x min : α) : α := if less x min then min else x

/-- `clampMax`, Math.hpp:63-67, for one arbitrary type; `a > b` is `less b a`. -/
def clampMaxBy {α : Type} (less : α → α → Bool) (x max : α) : α := if less max x then max else x

/-- `clamp` and `getClamped`, Math.hpp:73-81, 114-123, for one arbitrary type; `a <= b` is `!less b a`. -/
def clampBy {α : Type} (less : α → α → Bool) (dbg : Bool) (x min max : α) : Outcome α := do
  assert' dbg (!less max min)
  pure (if less x min then min else if less max x then max else x)

/-- `get1DIdxFrom2D`, Math.hpp:225-231. -/
def get1DIdxFrom2D (dbg : Bool) (x y cols : Val) : Outcome Val := do
  assert' dbg (le (lit 0) cols)
  let p ← mul y cols
  let s ← add x p
  pure (conv (commonType (commonType x.ty y.ty) cols.ty) s)

/-- `get1DIdxFrom3D`, Math.hpp:242-249. -/
def get1DIdxFrom3D (dbg : Bool) (x y z cols rows : Val) : Outcome Val := do
  assert' dbg (le (lit 0) cols && le (lit 0) rows)
  let p ← mul y cols
  let s ← add x p
  let q ← mul z cols
  let q ← mul q rows
  let s ← add s q
  pure (conv (commonType (commonType (commonType (commonType x.ty y.ty) z.ty) cols.ty) rows.ty) s)

/-- `get2DIdxFrom1D`, Math.hpp:258-264. (For two equal types narrower than `int` the initialisation of `y` narrows and does
not compile.) -/
def get2DIdxFrom1D (dbg : Bool) (idx cols : Val) : Outcome (Val × Val) := do
  assert' dbg (lt (lit 0) idx && !eq cols (lit 0))
  let y ← div idx cols
  let y := conv (commonType idx.ty cols.ty) y
  let p ← mul y cols
  let x ← sub idx p
  pure (x, y)

/-- `get3DIdxFrom1D`, Math.hpp:274-281. -/
def get3DIdxFrom1D (dbg : Bool) (idx cols rows : Val) : Outcome (Val × Val × Val) := do
  assert' dbg (lt (lit 0) idx && !eq rows (lit 0) && !eq cols (lit 0))
  let y ← div idx cols
  let y := conv (commonType (commonType idx.ty cols.ty) rows.ty) y
  let ym ← mod y rows
  let cr ← mul cols rows
  let z ← div idx cr
  pure (y, ym, z)

/-- `getMod(mVal, mUB)`, Math.hpp:291-298. -/
def getMod (dbg : Bool) (val ub : Val) : Outcome Val := do
  assert' dbg (lt (lit 0) ub)
  let m ← mod val ub
  let s ← add m ub
  let r ← mod s ub
  assert' dbg (le (lit 0) r && lt r ub)
  pure (conv (commonType val.ty ub.ty) r)

/-- The second `assert` of the three-argument `getMod`, Math.hpp:316; the sum is only evaluated when the assertion is
active. -/
def assertRange (dbg : Bool) (rangeSize : Val) : Outcome Unit :=
  if dbg then
    if lt (lit 0) rangeSize then do
      let s ← add rangeSize (lit 1)
      Outcome.check (!eq s (lit 0))
    else .assertFail
  else .ok ()

/-- The conditional adjustment of `mVal`, Math.hpp:318. -/
def liftVal (val lb rangeSize : Val) : Outcome Val :=
  if lt val lb then do
    let d ← sub lb val
    let q ← div d rangeSize
    let q ← add q (lit 1)
    let p ← mul rangeSize q
    let s ← add val p
    pure (conv val.ty s)
  else pure val

/-- `getMod(mVal, mLB, mUB)`, Math.hpp:309-320. -/
def getModRange (dbg : Bool) (val lb ub : Val) : Outcome Val := do
  assert' dbg (lt lb ub)
  let rangeSize ← sub ub lb
  assertRange dbg rangeSize
  let val ← liftVal val lb rangeSize
  let d ← sub val lb
  let m ← mod d rangeSize
  let s ← add lb m
  pure (conv (commonType (commonType val.ty lb.ty) ub.ty) s)

/-- `getMap`, Math.hpp:428-434. -/
def getMap (dbg : Bool) (i iMin iMax oMin oMax : Val) : Outcome Val := do
  let a ← sub iMax iMin
  assert' dbg (!eq a (lit 0))
  let b ← sub i iMin
  let c ← sub oMax oMin
  let p ← mul b c
  let q ← div p a
  let s ← add q oMin
  pure (conv (commonType (commonType (commonType (commonType i.ty iMin.ty) iMax.ty) oMin.ty) oMax.ty) s)

/-! ## Containers.hpp -/

/-- `mContainer.size()`. -/
def sizeOf {α : Type} (c : List α) : Val := ⟨.u64, c.length⟩

/-- `getByModIdx(TC&, const TIdx&)`, Containers.hpp:262-266. -/
def getByModIdx {α : Type} (dbg : Bool) (c : List α) (idx : Val) : Outcome α := do
  let i ← getMod dbg idx (sizeOf c)
  Outcome.ofOption c[i.v.toNat]?

/-- `getByModIdx(const TC&, const TIdx&)`, Containers.hpp:273-277 (`at` throws). -/
def getByModIdxConst {α : Type} (dbg : Bool) (c : List α) (idx : Val) : Outcome α := do
  let i ← getMod dbg idx (sizeOf c)
  match c[i.v.toNat]? with
  | some a => .ok a
  | none => .throw

end Verif.Num
