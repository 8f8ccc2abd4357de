import Verif.Json.LemmasEq
import Verif.Json.Access

/-!
# Assignment between two parts of one JSON value

Source: `include/SSVUtils/Json/Val/Val.hpp:71-105, 144-182, 219-227, 258-292`, `Val/Internal/Cnv.hpp:92-101`,
`Container/Inc/VecMap.hpp:66-72, 86-96`.

`v["a"]["b"]` is a reference into the vectors inside of `v` and is modelled by the list of the indices that lead to it. The statement
`v["c"] = v["a"]["b"]` forms two references, one after the other, and then assigns. A key that is not there is inserted when its reference
is formed, which moves the elements behind it. A `std::vector` with spare memory moves them one place on; the vectors inside of an element
keep their memory then (Val.hpp:163-182, VecMap.hpp:69-72; simplification: this is what GCC's library does, the standard would allow
copies). A full vector gets new memory, and since the move constructor of `Val` (Val.hpp:199-202) is not `noexcept`, all elements are
copied and the old ones destroyed. Whether a vector is full is a parameter.
-/

namespace Verif.Json.Part

open Verif

variable {R : Type}

/-- One `[...]`: with a key or with an index. -/
inductive Step where
  | key (k : List Char)
  | idx (n : Nat)
  deriving DecidableEq, Repr

/-- The element with index `i` of the vector inside of a value. -/
def child : Val R → Nat → Option (Val R)
  | .obj kvs, i => kvs[i]?.map (·.2)
  | .arr vs, i => vs[i]?
  | _, _ => none

/-- The element with index `i` is another one. -/
def setChild : Val R → Nat → Val R → Val R
  | .obj kvs, i, w => match kvs[i]? with
    | some x => .obj (kvs.set i (x.1, w))
    | none => .obj kvs
  | .arr vs, i, w => .arr (vs.set i w)
  | v, _, _ => v

/-- A new pair is inserted before index `i`, VecMap.hpp:94-95. -/
def insertChild : Val R → List Char → Nat → Val R → Val R
  | .obj kvs, k, i, w => .obj (Container.emplace kvs i (k, w))
  | v, _, _, _ => v

/-- The index `[...]` leads to, and the key if it must be inserted there: `operator[]`, Val.hpp:271-278, 285-288, VecMap.hpp:90-96. -/
def here (dbg : Bool) (v : Val R) : Step → Outcome (Nat × Option (List Char))
  | .key k => do
    let kvs ← getObj dbg v
    let i ← Container.lookup strLt kvs k
    return (i, if Container.isAt kvs i k then none else some k)
  | .idx n => do
    let vs ← getArr dbg v
    if n < vs.length then return (n, none) else .ub

/-- `v[...]...[...]`: the value afterwards, the reference, and if something was inserted: into which vector (the indices that lead to
it), before which index, and whether the vector was full. `done` is the path so far. -/
def walk (dbg : Bool) (full : List Step → Bool) :
    (done : List Step) → Val R → List Step → Outcome (Val R × List Nat × Option (List Nat × Nat × Bool))
  | _, v, [] => .ok (v, [], none)
  | done, v, s :: p => do
    let (i, new) ← here dbg v s
    match new with
    | none => match child v i with
      | some c => do
        let (w, a, ins) ← walk dbg full (done ++ [s]) c p
        return (setChild v i w, i :: a, ins.map (fun (b, j, f) => (i :: b, j, f)))
      | none => .ub
    | some k => do
      let (w, a, _) ← walk dbg full (done ++ [s]) .nll p
      return (insertChild v k i w, i :: a, some ([], i, full done))

/-- What becomes of a reference when something is inserted before index `i` of the vector at `a`. The reference to an element that is
moved is lost; one to something inside of that element is not, unless all elements are copied to new memory. -/
def afterInsert (f : Bool) (i : Nat) : (a r : List Nat) → Option (List Nat)
  | [], j :: r => if f then none else if j < i then some (j :: r) else if r = [] then none else some ((j + 1) :: r)
  | x :: a, j :: r => if x = j then (afterInsert f i a r).map (j :: ·) else some (j :: r)
  | _, [] => some []

/-- What becomes of a reference when another one is formed. -/
def kept (ins : Option (List Nat × Nat × Bool)) (r : List Nat) : Option (List Nat) :=
  match ins with
  | some (a, i, f) => afterInsert f i a r
  | none => some r

/-- Strings, arrays and objects have destructors. -/
def owning : Val R → Bool
  | .obj _ => true
  | .arr _ => true
  | .str _ => true
  | _ => false

/-- `init(mV)`, Val.hpp:163-182, where `mV` is at `r` and the payload of the target, at `d`, has been destroyed: the copy of `mV`. If `mV`
is the target, only null and what has no destructor can be read. If `mV` is inside of the target it has been destroyed too. If the target
is inside of `mV`, it is read by the copy: its tag is that of `mV` already (Val.hpp:73-84), its payload does not exist yet. -/
def copyOut : Val R → (r d : List Nat) → Outcome (Val R)
  | v, [], [] => if owning v then .ub else .ok v
  | _, [], _ :: _ => .ub
  | _, _ :: _, [] => .ub
  | v, i :: r, j :: d =>
    match child v i with
    | none => .ub
    | some c => if i = j then copyOut c r d else whole c r
where
  /-- The value at `r`, outside of which the target is. -/
  whole : Val R → List Nat → Outcome (Val R)
  | v, [] => .ok v
  | v, i :: r => match child v i with
    | none => .ub
    | some c => whole c r

/-- The value at `l` is another one. -/
def setAt : Val R → List Nat → Val R → Outcome (Val R)
  | _, [], w => .ok w
  | v, i :: l, w => match child v i with
    | none => .ub
    | some c => do
      let c ← setAt c l w
      return setChild v i c

/-- `l = r` for two references, Val.hpp:219-227, 262-268. -/
def copyTo (v : Val R) (l r : Option (List Nat)) : Outcome (Val R) :=
  match l, r with
  | some l, some r => do
    let w ← copyOut v r l
    setAt v l w
  | _, _ => .ub

/-- The references `v x` and then `v y` are formed; then the first is assigned to the second (`v y = v x`, in the order C++17 prescribes),
or the second to the first. -/
def assign (dbg : Bool) (full : List Step → Bool) (v : Val R) (x y : List Step) (toSecond : Bool) : Outcome (Val R) := do
  let (v1, a, _) ← walk dbg full [] v x
  let (v2, b, ins) ← walk dbg full [] v1 y
  if toSecond then copyTo v2 (some b) (kept ins a) else copyTo v2 (kept ins a) (some b)

namespace Spec

/-- What one sees at a place of a value: which kind of value, how many elements an array has, and what it is if it is not made of other
values. -/
inductive Node (R : Type) where
  | obj | arr (n : Nat) | str (s : List Char) | num (n : Num R) | bln (b : Bool) | nll

def node : Val R → Node R
  | .obj _ => .obj
  | .arr vs => .arr vs.length
  | .str s => .str s
  | .num n => .num n
  | .bln b => .bln b
  | .nll => .nll

/-- What is at the end of a path, if it exists. -/
def look : Val R → List Step → Option (Node R)
  | v, [] => some (node v)
  | .obj kvs, .key k :: p => (kvs.find? (fun x => decide (x.1 = k))).bind (fun x => look x.2 p)
  | .arr vs, .idx n :: p => vs[n]?.bind (fun x => look x p)
  | _, _ => none

/-- The path exists, or only its last key is not there. -/
def Reach (v : Val R) (p : List Step) : Prop :=
  look v p ≠ none ∨ ∃ p' k, p = p' ++ [.key k] ∧ look v p' = some .obj

/-- The reference to `x` is lost when the one to `y` is formed: the last key of `y` is new, `x` is in the same object (or in something
inside of it), and either the vector is full or `x` is an entry of that object behind the new one. -/
def Lost (full : List Step → Bool) (v : Val R) (x y : List Step) : Prop :=
  x ≠ y ∧ look v y = none ∧ ∃ o k j rest, y = o ++ [.key k] ∧ x = o ++ .key j :: rest ∧
    (full o = true ∨ (rest = [] ∧ strLt k j = true))

/-- One of the two is part of the other; or they are the same and a string, array or object. -/
def Overlap (v : Val R) (x y : List Step) : Prop :=
  if x = y then (∃ s, look v x = some (.str s)) ∨ (∃ n, look v x = some (.arr n)) ∨ look v x = some .obj
  else x <+: y ∨ y <+: x

/-- `w` is `v` after `p` has become a copy of `q`: at `p` is what was at `q` (null, if that did not exist), and all the rest is as before,
except that `q` exists. -/
def Copied (v : Val R) (p q : List Step) (w : Val R) : Prop :=
  (∀ t, look w (p ++ t) = if look v q = none then (if t = [] then some .nll else none) else look v (q ++ t)) ∧
  ∀ s, ¬ p <+: s → look w s = if s = q ∧ look v q = none then some .nll else look v s

end Spec

end Verif.Json.Part
