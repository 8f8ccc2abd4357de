import Verif.JsonConv.Model

/-!
# Model of user-defined conversions

Source: `include/SSVUtils/Json/Val/Internal/CnvFuncs.hpp`, `CnvMacros.hpp`, `Cnv.hpp:292-312`, `AsHelper.hpp:22-33`.

Classes whose converters are defined with `SSVJ_CNV_VAL`, `SSVJ_CNV_ARR` or `SSVJ_CNV_OBJ_AUTO`, that is, through `cnv`, `cnvArr` and
`cnvObj` on their members. Members are of the types of `Ty`, of such classes, or vectors of these. Objects are converted
from const lvalues and values are read through const lvalues: the overloads of `CnvImplSimple` for rvalues do not compile (a
named rvalue reference is passed where an rvalue is needed, Cnv.hpp:299-302, 307-310).
-/

namespace Verif.JsonConv

open Verif Json

variable {R : Type}

/-- Types with a converter, user-defined or not. -/
inductive UTy where
  | base (t : Ty)
  /-- `SSVJ_CNV_VAL(type, member)` -/
  | one (m : UTy)
  /-- `SSVJ_CNV_ARR(type, members...)` -/
  | arr (ms : List UTy)
  /-- `SSVJ_CNV_OBJ_AUTO(type, members...)`: the names of the members and their types -/
  | obj (keys : List (List Char)) (ms : List UTy)
  /-- `std::vector` -/
  | vec (t : UTy)

/-- Objects. -/
inductive U (R : Type) where
  | leaf (x : X R)
  /-- the members of an object, or the elements of a vector -/
  | node (xs : List (U R))

mutual
/-- Objects to values: `arch`, CnvFuncs.hpp:23-27; `archArr` 111-116 with `hArchArr` 48-59; `archObj` 130-135 with `hArchObj`
75-87; vectors Cnv.hpp:196-208. Without members these do not compile (`ub`). -/
def toValU (dbg : Bool) : UTy → U R → Outcome (Val R)
  | .base t, .leaf x => toVal t x
  | .one m, .node [x] => toValU dbg m x
  | .arr (m :: ms), .node xs => do
    let vs ← toValsU dbg (m :: ms) xs
    return .arr vs
  | .obj ks (m :: ms), .node xs => archObj dbg ks (m :: ms) xs (.obj [])
  | .vec t, .node xs => do
    let vs ← mapO (toValU dbg t) xs
    return .arr vs
  | _, _ => .ub

/-- `hArchArr`: the values emplaced. -/
def toValsU (dbg : Bool) : List UTy → List (U R) → Outcome (List (Val R))
  | [], [] => .ok []
  | m :: ms, x :: xs => do
    let v ← toValU dbg m x
    let vs ← toValsU dbg ms xs
    return v :: vs
  | _, _ => .ub

/-- `hArchObj`: `v[key] = member` for each of the members. -/
def archObj (dbg : Bool) : List (List Char) → List UTy → List (U R) → Val R → Outcome (Val R)
  | [], [], [], v => .ok v
  | k :: ks, m :: ms, x :: xs, v => do
    let y ← toValU dbg m x
    let v ← setKey dbg v k y
    archObj dbg ks ms xs v
  | _, _, _, _ => .ub
end

/-- `isNoNum<T>()`: true for types without a specialisation, Chk.hpp:57-72; vectors 203-211. -/
def chkU : UTy → Val R → Bool
  | .base t, v => chkNN t v
  | .vec t, .arr vs => vs.all (chkU t)
  | .vec _, _ => false
  | _, _ => true

mutual
/-- A default-constructed object, AsHelper.hpp:28. (What the members hold then does not matter; maps are empty.) -/
def fresh : UTy → U R
  | .base _ => .leaf (.m [])
  | .one m => .node [fresh m]
  | .arr ms => .node (freshs ms)
  | .obj _ ms => .node (freshs ms)
  | .vec _ => .node []

def freshs : List UTy → List (U R)
  | [] => []
  | m :: ms => fresh m :: freshs ms
end

/-- `is<Arr>()`, `is<Obj>()`. -/
def isArr : Val R → Bool
  | .arr _ => true
  | _ => false

def isObj : Val R → Bool
  | .obj _ => true
  | _ => false

mutual
/-- Values to objects: `extr`, CnvFuncs.hpp:17-22; `extrArr` 106-110; `extrObj` 125-129; vectors Cnv.hpp:212-221. The object
extracted into is given. -/
def extrU (ops : RealOps R) (lt : X R → X R → Bool) (dbg : Bool) : UTy → Val R → U R → Outcome (U R)
  | .base t, v, .leaf old => do
    let x ← extr ops lt dbg t v old
    return .leaf x
  | .one m, v, .node [old] => do
    let x ← extrU ops lt dbg m v old
    return .node [x]
  | .arr (m :: ms), v, .node olds => do
    let xs ← extrArr ops lt dbg (m :: ms) v 0 olds
    return .node xs
  | .obj ks (m :: ms), v, .node olds => do
    let xs ← extrObj ops lt dbg ks (m :: ms) v olds
    return .node xs
  | .vec t, v, _ => do
    let vs ← getArr dbg v
    let xs ← mapO (fun w => asserting dbg (chkU t w) (extrU ops lt dbg t w (fresh t))) vs
    return .node xs
  | _, _, _ => .ub

/-- `hExtrArr<i>`, CnvFuncs.hpp:33-47. -/
def extrArr (ops : RealOps R) (lt : X R → X R → Bool) (dbg : Bool) : List UTy → Val R → Nat → List (U R) → Outcome (List (U R))
  | [], _, _, [] => .ok []
  | m :: ms, v, i, old :: olds =>
    asserting dbg (isArr v) (do
      let a ← getArr dbg v
      asserting dbg (decide (a.length > i)) (do
        let w ← getIdx dbg v i
        asserting dbg (chkU m w) (do
          let x ← extrU ops lt dbg m w old
          let xs ← extrArr ops lt dbg ms v (i + 1) olds
          return x :: xs)))
  | _, _, _, _ => .ub

/-- `hExtrObj`, CnvFuncs.hpp:61-73. -/
def extrObj (ops : RealOps R) (lt : X R → X R → Bool) (dbg : Bool) :
    List (List Char) → List UTy → Val R → List (U R) → Outcome (List (U R))
  | [], [], _, [] => .ok []
  | k :: ks, m :: ms, v, old :: olds =>
    asserting dbg (isObj v) (do
      let b ← hasKey dbg v k
      asserting dbg b (do
        let w ← getKey dbg v k
        let x ← extrU ops lt dbg m w old
        let xs ← extrObj ops lt dbg ks ms v olds
        return x :: xs))
  | _, _, _, _ => .ub
end

/-- `getExtr<T>(v)`, CnvFuncs.hpp:91-97: extraction into a default-constructed object. -/
def getExtr (ops : RealOps R) (lt : X R → X R → Bool) (dbg : Bool) (t : UTy) (v : Val R) : Outcome (U R) :=
  extrU ops lt dbg t v (fresh t)

/-- `getArch(x)`, CnvFuncs.hpp:98-104. -/
def getArch (dbg : Bool) (t : UTy) (x : U R) : Outcome (Val R) := toValU dbg t x

end Verif.JsonConv
