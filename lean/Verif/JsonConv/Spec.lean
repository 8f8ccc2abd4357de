import Verif.JsonConv.Model

/-! # Which objects belong to which type -/

namespace Verif.JsonConv

open Verif Json

variable {R : Type}

/-- The range of an integer type. -/
def IntTy.Range (t : IntTy) (n : Int) : Prop :=
  match t with
  | .char => -128 ≤ n ∧ n ≤ 127
  | .int => -2147483648 ≤ n ∧ n ≤ 2147483647
  | .long => -9223372036854775808 ≤ n ∧ n ≤ 9223372036854775807
  | .uchar => 0 ≤ n ∧ n ≤ 255
  | .uint => 0 ≤ n ∧ n ≤ 4294967295
  | .ulong => 0 ≤ n ∧ n ≤ 18446744073709551615

mutual
/-- `x` is an object of type `t`; the keys of maps are increasing in the order `lt`. -/
inductive HasTy {R : Type} (lt : X R → X R → Bool) : X R → Ty → Prop
  | val (w : Val R) : HasTy lt (.v w) .val
  | obj (kvs : List (List Char × Val R)) : HasTy lt (.v (.obj kvs)) .obj
  | arr (vs : List (Val R)) : HasTy lt (.v (.arr vs)) .arr
  | str (t : List Char) : HasTy lt (.s t) .str
  | bln (b : Bool) : HasTy lt (.b b) .bln
  | nll : HasTy lt .u .nll
  | int {t : IntTy} {n : Int} (h : t.Range n) : HasTy lt (.i n) (.int t)
  | real (r : R) : HasTy lt (.r r) .real
  | enum {t : IntTy} {n : Int} (h : t.Range n) : HasTy lt (.i n) (.enum t)
  | pair {a b x y} (hx : HasTy lt x a) (hy : HasTy lt y b) : HasTy lt (.seq [x, y]) (.pair a b)
  | tuple {ts xs} (h : HasTys lt xs ts) : HasTy lt (.seq xs) (.tuple ts)
  | vec {t xs} (h : ∀ x ∈ xs, HasTy lt x t) : HasTy lt (.seq xs) (.vec t)
  | carr {t n xs} (h : ∀ x ∈ xs, HasTy lt x t) (hn : xs.length = n) : HasTy lt (.seq xs) (.carr t n)
  | map {k v kvs} (hk : ∀ p ∈ kvs, HasTy lt p.1 k) (hv : ∀ p ∈ kvs, HasTy lt p.2 v)
      (ho : kvs.Pairwise (fun p q => lt p.1 q.1 = true)) : HasTy lt (.m kvs) (.map k v)
  | bits {n l} (h : l.length = n) : HasTy lt (.bs l) (.bits n)
  | chars {n t} (h : t.length = n) : HasTy lt (.s t) (.chars n)

inductive HasTys {R : Type} (lt : X R → X R → Bool) : List (X R) → List Ty → Prop
  | nil : HasTys lt [] []
  | cons {x t xs ts} (h : HasTy lt x t) (hs : HasTys lt xs ts) : HasTys lt (x :: xs) (t :: ts)
end

mutual
/-- The type contains no C array (whose extraction as a component does not compile). -/
def Ty.NoArrays : Ty → Prop
  | .pair a b => a.NoArrays ∧ b.NoArrays
  | .tuple ts => NoArraysAll ts
  | .vec t => t.NoArrays
  | .map k v => k.NoArrays ∧ v.NoArrays
  | .carr _ _ => False
  | .chars _ => False
  | _ => True

def NoArraysAll : List Ty → Prop
  | [] => True
  | t :: ts => t.NoArrays ∧ NoArraysAll ts
end

/-- Types that `extr` and `as` support: C arrays only at the outside. -/
def Ty.Extractable : Ty → Prop
  | .carr t _ => t.NoArrays
  | .chars _ => False
  | t => t.NoArrays

def Ty.IsMap : Ty → Prop
  | .map _ _ => True
  | _ => False

mutual
/-- Types whose check looks at everything the conversion needs: no enums, maps, bitsets and C arrays. -/
def Ty.Checked : Ty → Prop
  | .pair a b => a.Checked ∧ b.Checked
  | .tuple ts => CheckedAll ts
  | .vec t => t.Checked
  | .map _ _ => False
  | .carr _ _ => False
  | .chars _ => False
  | .enum _ => False
  | .bits _ => False
  | _ => True

def CheckedAll : List Ty → Prop
  | [] => True
  | t :: ts => t.Checked ∧ CheckedAll ts
end

mutual
/-- Every real number inside the value is within the range of `long` and of `unsigned long`. -/
inductive SmallReals {R : Type} (ops : RealOps R) : Val R → Prop
  | nll : SmallReals ops .nll
  | bln {b} : SmallReals ops (.bln b)
  | intS {n} : SmallReals ops (.num (.intS n))
  | intU {n} : SmallReals ops (.num (.intU n))
  | real {r} (h : (ops.toInt r).isSome) (hu : (ops.toUInt r).isSome) : SmallReals ops (.num (.real r))
  | str {s} : SmallReals ops (.str s)
  | arr {vs} (h : ∀ v ∈ vs, SmallReals ops v) : SmallReals ops (.arr vs)
  | obj {kvs} (h : ∀ p ∈ kvs, SmallReals ops p.2) : SmallReals ops (.obj kvs)
end

end Verif.JsonConv
