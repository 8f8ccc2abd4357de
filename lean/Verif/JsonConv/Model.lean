import Verif.Json.Access

/-!
# Model of the conversions between C++ objects and JSON values

Source: `include/SSVUtils/Json/Val/Internal/Cnv.hpp`, `Chk.hpp`, `AsHelper.hpp`, `CnvFuncs.hpp:17-31, 87-103`,
`Json/Num/Num.hpp:49-103`, `Num/NumHelper.hpp`, `Val/Val.inl:33-50`.

The templates are instantiated over all types built from the supported constructors: `Ty` is a syntax of those types,
`X` the objects of all of them together; functions called on an object of another type (which C++ excludes) are `ub`.
Values are accessed through the const overloads (`operator[]` on a const array is `std::vector::at`). `float` is not
distinguished from `double`. `dbg` selects whether assertions are checked. `moveIfRValue` (Core/Common/Aliases.hpp:33-45), through
which parts are handed on, is taken as what it means: applied to a part returned by value it returns an rvalue reference to its
parameter, which compiles only where a returned rvalue-reference parameter counts as an rvalue (C++23).
-/

namespace Verif.JsonConv

open Verif Json

/-- The integer types with a converter, Cnv.hpp:67-72. -/
inductive IntTy where
  | char | int | long | uchar | uint | ulong
  deriving DecidableEq, Repr

/-- Stored as `IntS` or as `IntU`, NumHelper.hpp:45-50. -/
def IntTy.signed : IntTy → Bool
  | .char => true
  | .int => true
  | .long => true
  | _ => false

/-- Width (LP64). -/
def IntTy.bits : IntTy → Nat
  | .char => 8
  | .uchar => 8
  | .int => 32
  | .uint => 32
  | .long => 64
  | .ulong => 64

/-- `static_cast` to the type: modulo 2^bits. -/
def IntTy.cast (t : IntTy) (n : Int) : Int :=
  let r := n % 2 ^ t.bits
  if t.signed ∧ 2 ^ (t.bits - 1) ≤ r then r - 2 ^ t.bits else r

/-- Types with converters. -/
inductive Ty where
  /-- `Val` itself -/
  | val
  | obj
  | arr
  /-- `std::string` -/
  | str
  | bln
  | nll
  | int (t : IntTy)
  | real
  | enum (t : IntTy)
  | pair (a b : Ty)
  | tuple (ts : List Ty)
  /-- `std::vector` -/
  | vec (t : Ty)
  /-- `T[n]` -/
  | carr (t : Ty) (n : Nat)
  /-- `std::map` and the like, in key order -/
  | map (k v : Ty)
  /-- `std::bitset<n>` -/
  | bits (n : Nat)
  /-- `char[n]` -/
  | chars (n : Nat)

/-- Objects. A bitset is listed from bit 0 on. -/
inductive X (R : Type) where
  | v (w : Val R)
  | s (t : List Char)
  | b (b : Bool)
  | u
  | i (n : Int)
  | r (r : R)
  | seq (xs : List (X R))
  | m (kvs : List (X R × X R))
  | bs (l : List Bool)

variable {R : Type}

/-- Apply `f` to the elements in order. -/
def mapO {α β : Type} (f : α → Outcome β) : List α → Outcome (List β)
  | [] => .ok []
  | x :: xs => do
    let y ← f x
    let ys ← mapO f xs
    return y :: ys

/-! ## Object to value -/

/-- `Num{mX}` for an integer, NumHelper.hpp:22-25, Num.hpp:50-59: `setIntS` takes its argument as `IntU`, `setIntU` as
`IntS`. -/
def mkNum (t : IntTy) (n : Int) : Num R := if t.signed then .intS (toS (toU n)) else .intU (toU (toS (toU n)))

mutual
/-- `Val{x}` for an object of type `t`: the `toVal` functions, Cnv.hpp (`int`, `real` 24-29; `obj`, `arr`, `str` 40-45; `bln`,
`nll` 57-60; `val` 94-100; `enum` 114-117; `chars` 128-131; `pair` 154-159; `tuple` 174-181; `vec` 203-211; `map` 232-238;
`carr` 256-264; `bits` 280-283). The value assigned to is fresh (see `JsonLife` for the others). -/
def toVal : Ty → X R → Outcome (Val R)
  | .val, .v w => .ok w
  | .obj, .v w => .ok w
  | .arr, .v w => .ok w
  | .str, .s t => .ok (.str t)
  | .bln, .b b => .ok (.bln b)
  | .nll, .u => .ok .nll
  | .int t, .i n => .ok (.num (mkNum t n))
  | .real, .r r => .ok (.num (.real r))
  | .enum t, .i n => .ok (.num (mkNum t n))
  | .pair a b, .seq [x, y] => do
    let v ← toVal a x
    let w ← toVal b y
    return .arr [v, w]
  | .tuple ts, .seq xs => do
    let vs ← toVals ts xs
    return .arr vs
  | .vec t, .seq xs => do
    let vs ← mapO (toVal t) xs
    return .arr vs
  | .carr t _, .seq xs => do
    let vs ← mapO (toVal t) xs
    return .arr vs
  | .map k v, .m kvs => do
    let vs ← mapO (fun p => do
      let a ← toVal k p.1
      let b ← toVal v p.2
      return .arr [a, b]) kvs
    return .arr vs
  | .bits _, .bs l => .ok (.str (l.reverse.map fun b => if b then '1' else '0'))
  | .chars _, .s t => if Char.ofNat 0 ∈ t then .ok (.str (t.takeWhile (· ≠ Char.ofNat 0))) else .ub
  | _, _ => .ub

def toVals : List Ty → List (X R) → Outcome (List (Val R))
  | [], [] => .ok []
  | t :: ts, x :: xs => do
    let v ← toVal t x
    let vs ← toVals ts xs
    return v :: vs
  | _, _ => .ub
end

/-! ## Type checks -/

def isNum : Val R → Bool
  | .num _ => true
  | _ => false

mutual
/-- `isNoNum<T>()`, Chk.hpp:57-72 and the specialisations (numbers 102-144; basic types 127-133; `Val` 151-158; `chars`
161-168; `pair` 180-188; `tuple` 191-200; `vec` 203-211; `carr` 214-222; `bits` 225-232). Enums and maps have no
specialisation: always true. The assertions inside hold because of the conjuncts before them. -/
def chkNN : Ty → Val R → Bool
  | .val, _ => true
  | .obj, .obj _ => true
  | .arr, .arr _ => true
  | .str, .str _ => true
  | .bln, .bln _ => true
  | .nll, .nll => true
  | .int _, v => isNum v
  | .real, v => isNum v
  | .enum _, _ => true
  | .pair a b, .arr [v, w] => chkNN a v && chkNN b w
  | .tuple ts, .arr vs => vs.length == ts.length && chkAll ts vs
  | .vec t, .arr vs => vs.all (chkNN t)
  | .carr t n, .arr vs => vs.length == n && vs.all (chkNN t)
  | .map _ _, _ => true
  | .bits n, .str s => s.length == n
  | .chars n, .str s => s.length == n
  | _, _ => false

/-- `TplIsHelper::isTpl`, Chk.hpp:30-41, after the size check. -/
def chkAll : List Ty → List (Val R) → Bool
  | [], _ => true
  | t :: ts, v :: vs => chkNN t v && chkAll ts vs
  | _ :: _, [] => false
end

/-- `is<T>()`, Val.hpp:233-238: for `long`, `unsigned long` and `double` the representation is checked too (Chk.hpp:80-89;
for the other number types it does not compile). -/
def chk : Ty → Val R → Bool
  | .int .long, .num (.intS _) => true
  | .int .long, _ => false
  | .int .ulong, .num (.intU _) => true
  | .int .ulong, _ => false
  | .real, .num (.real _) => true
  | .real, _ => false
  | t, v => chkNN t v

/-! ## Value to object -/

/-- `getStr`, `getNum`, `getBln`, `getNll`, Val.hpp:108-142. -/
def getStr (dbg : Bool) : Val R → Outcome (List Char)
  | .str s => .ok s
  | _ => if dbg then .assertFail else .ub

def getNum (dbg : Bool) : Val R → Outcome (Num R)
  | .num n => .ok n
  | _ => if dbg then .assertFail else .ub

def getBln (dbg : Bool) : Val R → Outcome Bool
  | .bln b => .ok b
  | _ => if dbg then .assertFail else .ub

def getNll (dbg : Bool) : Val R → Outcome Unit
  | .nll => .ok ()
  | _ => if dbg then .assertFail else .ok ()

/-- `Num::as<T>()` for an integer type, NumHelper.hpp:26-29. -/
def numAs (ops : RealOps R) (t : IntTy) (n : Num R) : Outcome Int :=
  if t.signed then do
    let i ← getIntS ops n
    return t.cast i
  else do
    let i ← getIntU ops n
    return t.cast i

/-- `m[k] = v` of a map ordered by `lt`. -/
def mapPut (lt : X R → X R → Bool) (k v : X R) : List (X R × X R) → List (X R × X R)
  | [] => [(k, v)]
  | (k', v') :: m =>
    if lt k k' then (k, v) :: (k', v') :: m
    else if lt k' k then (k', v') :: mapPut lt k v m
    else (k', v) :: m

/-- `std::bitset<n>{s}`: `s[0]` is the highest bit given; throws on other characters than `0` and `1`. -/
def bitsOf (n : Nat) (s : List Char) : Outcome (List Bool) :=
  let t := s.take n
  if t.all (fun c => c == '0' || c == '1') then
    .ok ((t.reverse.map (· == '1')) ++ List.replicate (n - t.length) false)
  else .throw

/-- `s[i]` for `i < n` of a `std::string`: the position after the last character holds `'\0'`. -/
def charsOf (n : Nat) (s : List Char) : Outcome (List Char) :=
  mapO (fun i => match s[i]? with
    | some c => .ok c
    | none => if i = s.length then .ok (Char.ofNat 0) else .ub) (List.range n)

/-- `assert(c)` in front of `k`. -/
def asserting {α : Type} (dbg : Bool) (c : Bool) (k : Outcome α) : Outcome α :=
  if dbg && !c then .assertFail else k

/-- The pair case of `fromVal`, Cnv.hpp:160-165, given the two component conversions. -/
def extrPair (dbg : Bool) (f g : Val R → Outcome (X R)) (w : Val R) : Outcome (X R × X R) := do
  let v0 ← getIdx dbg w 0
  let x ← f v0
  let v1 ← getIdx dbg w 1
  let y ← g v1
  return (x, y)

/-- `for(auto p : forArrAs<pair>()) mX[p.first] = p.second;`, Cnv.hpp:240-247. -/
def mapLoop (lt : X R → X R → Bool) (f : Val R → Outcome (X R × X R)) :
    List (Val R) → List (X R × X R) → Outcome (List (X R × X R))
  | [], m => .ok m
  | v :: vs, m => do
    let p ← f v
    mapLoop lt f vs (mapPut lt p.1 p.2 m)

mutual
/-- `extr(v, x)`: the `fromVal` functions, Cnv.hpp (30-33, 46-50, 61-64, 118-121, 132-135, 160-165, 182-194, 212-221, 240-247,
265-271, 284-288) and, for `val`, `AsHelper<Val>` (AsHelper.hpp:88-103); `old` is what `x` holds. Components are
extracted with `as`, that is, after the assertion `isNoNum` into a fresh object (Val.inl:33-50, AsHelper.hpp:20-32,
105-120). -/
def extr (ops : RealOps R) (lt : X R → X R → Bool) (dbg : Bool) : Ty → Val R → X R → Outcome (X R)
  | .val, w, _ => .ok (.v w)
  | .obj, w, _ => do
    let o ← getObj dbg w
    return .v (.obj o)
  | .arr, w, _ => do
    let a ← getArr dbg w
    return .v (.arr a)
  | .str, w, _ => do
    let s ← getStr dbg w
    return .s s
  | .bln, w, _ => do
    let b ← getBln dbg w
    return .b b
  | .nll, w, _ => do
    let _ ← getNll dbg w
    return .u
  | .int t, w, _ => do
    let n ← getNum dbg w
    let i ← numAs ops t n
    return .i i
  | .real, w, _ => do
    let n ← getNum dbg w
    return .r (getReal ops n)
  | .enum t, w, _ => asserting dbg (isNum w) (do
    let n ← getNum dbg w
    let i ← numAs ops t n
    return .i i)
  | .pair a b, w, _ => do
    let p ← extrPair dbg (fun v => asserting dbg (chkNN a v) (extr ops lt dbg a v (.m [])))
      (fun v => asserting dbg (chkNN b v) (extr ops lt dbg b v (.m []))) w
    return .seq [p.1, p.2]
  | .tuple ts, w, _ => do
    let xs ← extrs ops lt dbg ts w 0
    return .seq xs
  | .vec t, w, _ => do
    let vs ← getArr dbg w
    let xs ← mapO (fun v => asserting dbg (chkNN t v) (extr ops lt dbg t v (.m []))) vs
    return .seq xs
  | .carr t n, w, _ => do
    let vs ← getArr dbg w
    asserting dbg (decide (n ≤ vs.length)) (do
      let xs ← mapO (fun i => do
        let v ← getIdx dbg w i
        asserting dbg (chkNN t v) (extr ops lt dbg t v (.m []))) (List.range n)
      return .seq xs)
  -- the loop goes through `forArrAs` (Cnv.hpp), whose adaptor is `noexcept`: an exception thrown by a bitset of characters other
  -- than 0 and 1 inside a map ends the program; here it is `throw`
  | .map a b, w, old => match w, old with
    | .arr vs, .m kvs => do
      let m ← mapLoop lt (fun w => asserting dbg (chkNN (.pair a b) w)
        (extrPair dbg (fun v => asserting dbg (chkNN a v) (extr ops lt dbg a v (.m [])))
          (fun v => asserting dbg (chkNN b v) (extr ops lt dbg b v (.m []))) w)) vs kvs
      return .m m
    | _, .m kvs => .ok (.m kvs)
    | _, _ => .ub
  | .bits n, w, _ => asserting dbg (chkNN .str w) (do
    let s ← getStr dbg w
    let l ← bitsOf n s
    return .bs l)
  | .chars n, w, _ => do
    let s ← getStr dbg w
    let t ← charsOf n s
    return .s t

/-- The components of a tuple from index `i` on, Cnv.hpp:182-194. -/
def extrs (ops : RealOps R) (lt : X R → X R → Bool) (dbg : Bool) : List Ty → Val R → Nat → Outcome (List (X R))
  | [], _, _ => .ok []
  | t :: ts, w, i => do
    let vs ← getArr dbg w
    let v ← asserting dbg (decide (i < vs.length)) (getIdx dbg w i)
    let x ← asserting dbg (chkNN t v) (extr ops lt dbg t v (.m []))
    let xs ← extrs ops lt dbg ts w (i + 1)
    return x :: xs
end

/-- `v.as<T>()`, Val.inl:33-50. -/
def as (ops : RealOps R) (lt : X R → X R → Bool) (dbg : Bool) (t : Ty) (v : Val R) : Outcome (X R) :=
  asserting dbg (chkNN t v) (extr ops lt dbg t v (.m []))

end Verif.JsonConv
