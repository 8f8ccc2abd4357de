import Verif.Json.Writer

/-!
# Model of element access of JSON values

Source: `include/SSVUtils/Json/Val/Val.hpp:107-142` (getters), `270-336`, `434-467`, `485-510`.
`dbg` selects whether the `assert`s are checked; without them, reading the payload of another type is UB.
-/

namespace Verif.Json

open Verif

variable {R : Type}

/-- `getObj()`, Val.hpp:108-125: `assert(is<Obj>())`, then the stored object. -/
def getObj (dbg : Bool) : Val R → Outcome (List (List Char × Val R))
  | .obj kvs => .ok kvs
  | _ => if dbg then .assertFail else .ub

/-- `getArr()`, Val.hpp:108-126. -/
def getArr (dbg : Bool) : Val R → Outcome (List (Val R))
  | .arr vs => .ok vs
  | _ => if dbg then .assertFail else .ub

/-- `v[key] = x` on a non-const value, Val.hpp:271-278. -/
def setKey (dbg : Bool) (v : Val R) (k : List Char) (x : Val R) : Outcome (Val R) := do
  let d ← getObj dbg v
  let d ← Container.setIndex strLt .nll d k x
  return .obj d

/-- `v[key]` read on a non-const value, Val.hpp:271-278: inserts a null if the key is absent. -/
def getKeyMut (dbg : Bool) (v : Val R) (k : List Char) : Outcome (Val R × Val R) := do
  let d ← getObj dbg v
  let (d, x) ← Container.getIndex strLt .nll d k
  return (.obj d, x)

/-- `v[key]` on a const value, Val.hpp:279-282. -/
def getKey (dbg : Bool) (v : Val R) (k : List Char) : Outcome (Val R) := do
  let d ← getObj dbg v
  Container.atOrDefault strLt .nll d k

/-- `v.has(key)`, Val.hpp:298-301. -/
def hasKey (dbg : Bool) (v : Val R) (k : List Char) : Outcome Bool := do
  let d ← getObj dbg v
  Container.has strLt d k

/-- `v[idx]` on a const value, Val.hpp:289-292 (`std::vector::at` throws). -/
def getIdx (dbg : Bool) (v : Val R) (i : Nat) : Outcome (Val R) := do
  let d ← getArr dbg v
  match d[i]? with
  | some x => .ok x
  | none => .throw

/-- `v[idx] = x` on a non-const value, Val.hpp:285-288 (`std::vector::operator[]`: UB outside). -/
def setIdx (dbg : Bool) (v : Val R) (i : Nat) (x : Val R) : Outcome (Val R) := do
  let d ← getArr dbg v
  if i < d.length then .ok (.arr (d.set i x)) else .ub

/-- `v.has(idx)`, Val.hpp:307-310. -/
def hasIdx (dbg : Bool) (v : Val R) (i : Nat) : Outcome Bool := do
  let d ← getArr dbg v
  return decide (d.length > i)

/-- `v.emplace(x)`, Val.hpp:485-490. -/
def emplaceBack (dbg : Bool) (v : Val R) (x : Val R) : Outcome (Val R) := do
  let d ← getArr dbg v
  return .arr (d ++ [x])

/-- `v.getSizeArr()`, Val.hpp:493-496. -/
def getSizeArr (dbg : Bool) (v : Val R) : Outcome Nat := do
  let d ← getArr dbg v
  return d.length

/-- `v.isEmptyArr()`, Val.hpp:503-506. -/
def isEmptyArr (dbg : Bool) (v : Val R) : Outcome Bool := do
  let n ← getSizeArr dbg v
  return decide (n = 0)

/-- `v[idx]` read on a non-const value, Val.hpp:285-288 (`std::vector::operator[]`: UB outside). -/
def getIdxMut (dbg : Bool) (v : Val R) (i : Nat) : Outcome (Val R) := do
  let d ← getArr dbg v
  match d[i]? with
  | some x => .ok x
  | none => .ub

/-- `v.getIfHas(idx, def)`, Val.hpp:325-334, with `conv` for `as<T>()`. -/
def getIfHasIdx {T : Type} (conv : Val R → Outcome T) (dbg : Bool) (v : Val R) (i : Nat) (d : T) : Outcome T := do
  let b ← hasIdx dbg v i
  if b then
    let x ← getIdx dbg v i
    conv x
  else .ok d

/-- `v.getIfHas(key, def)`, Val.hpp:318-324. -/
def getIfHasKey {T : Type} (conv : Val R → Outcome T) (dbg : Bool) (v : Val R) (k : List Char) (d : T) : Outcome T := do
  let b ← hasKey dbg v k
  if b then
    let x ← getKey dbg v k
    conv x
  else .ok d

/-- `v.forObj()`, Val.hpp:436-451: the pairs in order of iteration; nothing for another type. -/
def forObj : Val R → List (List Char × Val R)
  | .obj kvs => kvs
  | _ => []

/-- `v.forArr()`, Val.hpp:452-467. -/
def forArr : Val R → List (Val R)
  | .arr vs => vs
  | _ => []

/-- `mkObj(k1, v1, k2, v2, ...)`, Val.hpp:525-535. -/
def mkObjLoop (d : List (List Char × Val R)) : List (List Char × Val R) → Outcome (Val R)
  | [] => .ok (.obj d)
  | (k, v) :: kvs => do
    let d ← Container.setIndex strLt .nll d k v
    mkObjLoop d kvs

def mkObj (kvs : List (List Char × Val R)) : Outcome (Val R) := mkObjLoop [] kvs

end Verif.Json
