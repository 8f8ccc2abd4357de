import Verif.JsonConv.Model

/-!
# Ranges and iterator adaptors

Source: `include/SSVUtils/Range/Internal/Base/Adaptor.hpp`, `Base/Range.hpp`, `Cast/Cast.hpp`, `Reverse/Reverse.hpp`,
`Json/Val/Internal/ItrHelper.hpp`, `Json/Val/Val.hpp:409-467`.

A container is the list of its elements; an iterator of the standard library is a position in it, and moving it out of
`[begin, end]` or reading it at the end is undefined. The three adaptor classes (forward, bidirectional, random access)
differ only in which operators they have; they are modelled together.
-/

namespace Verif.Range

open Verif Json JsonConv

variable {I α β S : Type}

/-- The operators of an iterator. -/
structure ItOps (I α : Type) where
  deref : I → Outcome α
  inc : I → Outcome I
  dec : I → Outcome I
  add : I → Int → Outcome I
  eq : I → I → Bool
  ne : I → I → Bool
  lt : I → I → Bool
  gt : I → I → Bool
  le : I → I → Bool
  ge : I → I → Bool

/-- The iterators of a standard container with elements `c`; `c.length` is `end`. -/
def plain (c : List α) : ItOps Nat α where
  deref p := Outcome.ofOption c[p]?
  inc p := if p < c.length then .ok (p + 1) else .ub
  dec p := if 0 < p then .ok (p - 1) else .ub
  add p k := if 0 ≤ (p : Int) + k ∧ (p : Int) + k ≤ c.length then .ok ((p : Int) + k).toNat else .ub
  eq p q := p == q
  ne p q := p != q
  lt p q := decide (p < q)
  gt p q := decide (p > q)
  le p q := decide (p ≤ q)
  ge p q := decide (p ≥ q)

/-- `std::reverse_iterator`, given by its base: it reads the element before the base. -/
def reverseIt (c : List α) : ItOps Nat α where
  deref p := if 0 < p then Outcome.ofOption c[p - 1]? else .ub
  inc p := (plain c).dec p
  dec p := (plain c).inc p
  add p k := (plain c).add p (-k)
  eq p q := p == q
  ne p q := p != q
  lt p q := decide (p > q)
  gt p q := decide (p < q)
  le p q := decide (p ≥ q)
  ge p q := decide (p ≤ q)

/-- `BaseAdaptorItrFwd`, `Bdr`, `Rnd`: the member `itr`, Adaptor.hpp:20-27. -/
structure Ad (I : Type) where
  itr : I
  deriving DecidableEq, Repr

/-- The operators of the adaptors, Adaptor.hpp:29-49 (prefix), 57-64, 75-79, 95-121. `get` is `TImpl::get`. -/
def adapt (o : ItOps I α) (get : I → Outcome β) : ItOps (Ad I) β where
  deref x := get x.itr
  inc x := do
    let i ← o.inc x.itr
    return ⟨i⟩
  dec x := do
    let i ← o.dec x.itr
    return ⟨i⟩
  add x k := do
    let i ← o.add x.itr k
    return ⟨i⟩
  eq x y := o.eq x.itr y.itr
  ne x y := o.ne x.itr y.itr
  lt x y := o.lt x.itr y.itr
  gt x y := o.gt x.itr y.itr
  le x y := o.le x.itr y.itr
  ge x y := o.ge x.itr y.itr

/-- A move of an adaptor. -/
inductive Op where
  /-- `++it` -/
  | inc
  /-- `it++` -/
  | postInc
  /-- `--it` -/
  | dec
  /-- `it--` -/
  | postDec
  /-- `it += k` -/
  | add (k : Int)
  /-- `it -= k` -/
  | sub (k : Int)

/-- A move: what the expression designates, and the iterator afterwards. All of them return a reference to the iterator,
the postfix ones too: Adaptor.hpp:45-54, 75-84, 96-105. The distance is an `int`, whose negation is computed as
`difference_type`. -/
def move (o : ItOps I α) (op : Op) (x : Ad I) : Outcome (Ad I × Ad I) := do
  let y ← match op with
    | .inc => (adapt o o.deref).inc x
    | .postInc => (adapt o o.deref).inc x
    | .dec => (adapt o o.deref).dec x
    | .postDec => (adapt o o.deref).dec x
    | .add k => (adapt o o.deref).add x k
    | .sub k => (adapt o o.deref).add x (-k)
  return (y, y)

/-- Moves one after the other. -/
def moves (o : ItOps I α) : List Op → Ad I → Outcome (Ad I)
  | [], x => .ok x
  | op :: ops, x => do
    let r ← move o op x
    moves o ops r.2

/-- `Range`, Base/Range.hpp:16-35. -/
structure Rng (I : Type) where
  itrBegin : I
  itrEnd : I

/-- `makeRange`, Base/Range.hpp:38-42. -/
def makeRange (b e : I) : Rng I := ⟨b, e⟩

/-- `for(auto&& x : range) f(x)`: `f` changes a state. -/
def forLoop (o : ItOps I α) (f : α → S → Outcome S) (e : I) : Nat → I → S → Outcome S
  | 0, _, _ => .diverge
  | n + 1, i, s =>
    if o.ne i e then do
      let x ← o.deref i
      let s ← f x s
      let i ← o.inc i
      forLoop o f e n i s
    else .ok s

/-- The loop over a range; `n` bounds the number of turns. -/
def forRange (o : ItOps I α) (n : Nat) (r : Rng I) (f : α → S → Outcome S) (s : S) : Outcome S :=
  forLoop o f r.itrEnd (n + 1) r.itrBegin s

/-- `asRange(c)`, Base/Range.hpp:45-58. -/
def asRange (c : List α) : Rng Nat := makeRange 0 c.length

/-- `asRangeReverse(c)`, Reverse.hpp:14-28: `rbegin` has the base `end`. -/
def asRangeReverse (c : List α) : Rng Nat := makeRange c.length 0

/-- An address, or the null pointer. -/
abbrev Ptr := Option Nat

/-- `AdaptorImplCastPtr<T>::get`, Cast.hpp:17-25: the address of the object that the result refers to.
`reinterpret_cast` keeps the address. -/
def castGet (c : List Ptr) (i : Nat) : Outcome Nat := do
  let p ← (plain c).deref i
  match p with
  | some a => .ok a
  | none => .ub

/-- `asRangeCastPtr<T>(c)`, Cast.hpp:50-69. -/
def asRangeCastPtr (c : List Ptr) : Rng (Ad Nat) := makeRange ⟨0⟩ ⟨c.length⟩

/-! ## Iteration over JSON values -/

variable {R : Type}

/-- A function declared `noexcept` that is left by an exception ends the program; the model does not tell this abort from
that of a failed assertion. -/
def noexcept : Outcome α → Outcome α
  | .throw => .assertFail
  | r => r

/-- `ImplAsArr<T>::get`, ItrHelper.hpp:53-60. -/
def arrGet (ops : RealOps R) (lt : X R → X R → Bool) (dbg : Bool) (t : Ty) (c : List (Val R)) (i : Nat) : Outcome (X R) :=
  noexcept (do
    let v ← (plain c).deref i
    as ops lt dbg t v)

/-- `ImplAsObj<T>::get`, ItrHelper.hpp:41-48: a key and a converted value. -/
def objGet (ops : RealOps R) (lt : X R → X R → Bool) (dbg : Bool) (t : Ty) (c : List (List Char × Val R)) (i : Nat) :
    Outcome (List Char × X R) :=
  noexcept (do
    let kv ← (plain c).deref i
    let x ← as ops lt dbg t kv.2
    return (kv.1, x))

/-- A loop over `forUncheckedArrAs<T>()`, Val.hpp:422-432. -/
def forUncheckedArrAs (ops : RealOps R) (lt : X R → X R → Bool) (dbg : Bool) (t : Ty) (v : Val R)
    (f : X R → S → Outcome S) (s : S) : Outcome S := do
  let a ← getArr dbg v
  forRange (adapt (plain a) (arrGet ops lt dbg t a)) a.length (makeRange ⟨0⟩ ⟨a.length⟩) f s

/-- A loop over `forUncheckedObjAs<T>()`, Val.hpp:410-420. -/
def forUncheckedObjAs (ops : RealOps R) (lt : X R → X R → Bool) (dbg : Bool) (t : Ty) (v : Val R)
    (f : List Char × X R → S → Outcome S) (s : S) : Outcome S := do
  let a ← getObj dbg v
  forRange (adapt (plain a) (objGet ops lt dbg t a)) a.length (makeRange ⟨0⟩ ⟨a.length⟩) f s

/-- A loop over `forArrAs<T>()`, Val.hpp:453-467: over the empty array that all calls share if `v` is not an array. -/
def forArrAs (ops : RealOps R) (lt : X R → X R → Bool) (dbg : Bool) (t : Ty) (v : Val R)
    (f : X R → S → Outcome S) (s : S) : Outcome S :=
  if chk .arr v then forUncheckedArrAs ops lt dbg t v f s
  else forRange (adapt (plain ([] : List (Val R))) (arrGet ops lt dbg t [])) 0 (makeRange ⟨0⟩ ⟨0⟩) f s

/-- A loop over `forObjAs<T>()`, Val.hpp:437-451. -/
def forObjAs (ops : RealOps R) (lt : X R → X R → Bool) (dbg : Bool) (t : Ty) (v : Val R)
    (f : List Char × X R → S → Outcome S) (s : S) : Outcome S :=
  if chk .obj v then forUncheckedObjAs ops lt dbg t v f s
  else forRange (adapt (plain ([] : List (List Char × Val R))) (objGet ops lt dbg t [])) 0 (makeRange ⟨0⟩ ⟨0⟩) f s

/-- A loop over `forArr()`, Val.inl:91-98. -/
def forArr (ops : RealOps R) (lt : X R → X R → Bool) (dbg : Bool) (v : Val R) (f : X R → S → Outcome S) (s : S) : Outcome S :=
  forArrAs ops lt dbg .val v f s

/-- A loop over `forObj()`, Val.inl:83-90. -/
def forObj (ops : RealOps R) (lt : X R → X R → Bool) (dbg : Bool) (v : Val R)
    (f : List Char × X R → S → Outcome S) (s : S) : Outcome S :=
  forObjAs ops lt dbg .val v f s

/-- `getSizeArr()`, Val.hpp:493-496. -/
def getSizeArr (dbg : Bool) (v : Val R) : Outcome Nat := do
  let a ← getArr dbg v
  return a.length

/-- `getSizeObj()`, Val.hpp:497-500. -/
def getSizeObj (dbg : Bool) (v : Val R) : Outcome Nat := do
  let a ← getObj dbg v
  return a.length

/-- `isEmptyArr()`, Val.hpp:503-506. -/
def isEmptyArr (dbg : Bool) (v : Val R) : Outcome Bool := do
  let n ← getSizeArr dbg v
  return n == 0

/-- `isEmptyObj()`, Val.hpp:507-510. -/
def isEmptyObj (dbg : Bool) (v : Val R) : Outcome Bool := do
  let n ← getSizeObj dbg v
  return n == 0

/-- `mkArr(xs...)`, Val.hpp:540-544: the braces choose the constructor from a list of values, of which there is one for
every argument (also for a single argument that is an array itself). -/
def mkArr (xs : List (Val R)) : Val R := .arr xs

end Verif.Range
