import Verif.Json.Spec
import Verif.Json.Writer
import Verif.IntStr.Spec

/-! # Specification side of the writer: which values come back, and as what -/

namespace Verif.Json

/-- What is assumed of `double` for integers up to 2^53: they are exact, and their decimal notation is read exactly. -/
structure IntLaws {R : Type} (ops : RealOps R) : Prop where
  strtod_int : ∀ n : Int, n.natAbs ≤ 2 ^ 53 → ∀ rest, Terminated rest →
    ops.strtod (IntStr.intText n ++ rest) = (ops.ofInt n, (IntStr.intText n).length)
  toInt_ofInt : ∀ n : Int, n.natAbs ≤ 2 ^ 53 → ops.toInt (ops.ofInt n) = some n
  eq_ofInt : ∀ n : Int, n.natAbs ≤ 2 ^ 53 → ops.eq (ops.ofInt n) (ops.ofInt n) = true
  eq_symm : ∀ a b, ops.eq a b = ops.eq b a

/-- `NumBack n m`: the number `n` can be written and is read as `m`. Integers come back as signed integers; a real
number whose text is read as that same real comes back as itself, or as a signed integer if it is one. -/
inductive NumBack {R : Type} (ops : RealOps R) : Num R → Num R → Prop
  | intS (n : Int) (h : n.natAbs ≤ 2 ^ 53) : NumBack ops (.intS n) (.intS n)
  | intU (n : Nat) (h : n ≤ 2 ^ 53) : NumBack ops (.intU n) (.intS n)
  | real {r m} (h : IsNumber ops (ops.toText r) r) (he : ops.eq r r = true) (hm : NumOf ops r m) :
      NumBack ops (.real r) m

/-- Text that needs no escaping. -/
def NoSpecial (s : List Char) : Prop := ∀ c ∈ s, c ≠ '"' ∧ c ≠ '\\'

mutual
/-- The value `v` can be written and is read as `v'`, which has the same structure; `NB` says as what the numbers are read. -/
inductive BackBy {R : Type} (NB : Num R → Num R → Prop) : Val R → Val R → Prop
  | nll : BackBy NB .nll .nll
  | bln (b : Bool) : BackBy NB (.bln b) (.bln b)
  | num {n m} (h : NB n m) : BackBy NB (.num n) (.num m)
  | str {s} (h : NoSpecial s) : BackBy NB (.str s) (.str s)
  | arr {vs vs'} (h : BackArrBy NB vs vs') : BackBy NB (.arr vs) (.arr vs')
  | obj {kvs kvs'} (h : BackObjBy NB kvs kvs') (hk : kvs.Pairwise (fun x y => strLt x.1 y.1 = true)) :
      BackBy NB (.obj kvs) (.obj kvs')

inductive BackArrBy {R : Type} (NB : Num R → Num R → Prop) : List (Val R) → List (Val R) → Prop
  | nil : BackArrBy NB [] []
  | cons {v v' vs vs'} (h : BackBy NB v v') (hs : BackArrBy NB vs vs') : BackArrBy NB (v :: vs) (v' :: vs')

inductive BackObjBy {R : Type} (NB : Num R → Num R → Prop) : List (List Char × Val R) → List (List Char × Val R) → Prop
  | nil : BackObjBy NB [] []
  | cons {k v v' vs vs'} (hk : NoSpecial k) (h : BackBy NB v v') (hs : BackObjBy NB vs vs') :
      BackObjBy NB ((k, v) :: vs) ((k, v') :: vs')
end

/-- `Back v v'`: the value `v` can be written and is read as `v'`, which has the same structure and the same numbers up to
representation. -/
abbrev Back {R : Type} (ops : RealOps R) : Val R → Val R → Prop := BackBy (NumBack ops)

abbrev BackArr {R : Type} (ops : RealOps R) : List (Val R) → List (Val R) → Prop := BackArrBy (NumBack ops)

abbrev BackObj {R : Type} (ops : RealOps R) : List (List Char × Val R) → List (List Char × Val R) → Prop := BackObjBy (NumBack ops)

end Verif.Json
