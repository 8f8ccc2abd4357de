import Verif.Args.Model

/-!
# Container utilities

Model of the functions of `include/SSVUtils/Core/Utils/Containers.hpp` that search, test, erase and fill
containers. A container is a list of its elements. The algorithms of the standard library they are built
on (`std::find_if`, `std::remove_if`) are written out as loops, because what they do with a value that
lies inside the container depends on the order of their steps.
-/

namespace Verif.Util

variable {α β κ τ : Type}

/-- `std::find_if(begin, end, p)`: the position of the first element that satisfies `p`, or the size. Used
by `find` and `findIf` — `Containers.hpp` 58-62, 80-85. -/
def findIf (p : α → Bool) : List α → Nat
  | [] => 0
  | x :: xs => if p x then 0 else findIf p xs + 1

/-- The loop of `std::remove_if`: elements that do not satisfy the predicate are move-assigned to
`result`. `p` sees the container, because the value compared with may lie in it; `moved` is what is left
of an element that has been moved from. -/
def removeLoop (p : List α → α → Bool) (moved : α → α) (c : List α) (result first : Nat) :
    List α × Nat :=
  match _h : c[first]? with
  | none => (c, result)
  | some x =>
    if p c x then removeLoop p moved c result (first + 1)
    else removeLoop p moved ((c.set result x).set first (moved x)) (result + 1) (first + 1)
termination_by c.length - first
decreasing_by
  all_goals
    have := (List.getElem?_eq_some_iff.mp _h).1
    try simp only [List.length_set]
    omega

/-- `std::remove_if` — used by `remove` and `removeIf`, `Containers.hpp` 87-105: the container and
the new end. -/
def removeIf (p : List α → α → Bool) (moved : α → α) (c : List α) : List α × Nat :=
  let first := findIf (p c) c
  if first = c.length then (c, first) else removeLoop p moved c first (first + 1)

/-- `eraseRemoveIf` — `Containers.hpp` 251-255. -/
def eraseRemoveIf (p : α → Bool) (moved : α → α) (c : List α) : List α :=
  let (c, e) := removeIf (fun _ => p) moved c
  c.take e

/-- `eraseRemove(c, v)` — `Containers.hpp` 193-197, where `v` is a value outside the container. -/
def eraseRemove (eq : α → β → Bool) (moved : α → α) (c : List α) (v : β) : List α :=
  let (c, e) := removeIf (fun _ x => eq x v) moved c
  c.take e

/-- `eraseRemove(c, c[i])` — `Containers.hpp` 193-197, where the value is a reference to the element
number `i` of the container. The reference is undefined if there is no such element. -/
def eraseRemoveElem [BEq α] (moved : α → α) (c : List α) (i : Nat) : Outcome (List α) :=
  if i < c.length then
    let (c, e) := removeIf (fun c x => some x == c[i]?) moved c
    .ok (c.take e)
  else .ub

/-- `idxOf` — `Containers.hpp` 173-177. -/
def idxOf (eq : α → β → Bool) (c : List α) (v : β) : Nat := findIf (fun x => eq x v) c

/-- `containsAnyIf` — `Containers.hpp` 184-188. -/
def containsAnyIf (p : α → Bool) (c : List α) : Bool := findIf p c != c.length

/-- `contains` — `Containers.hpp` 203-207. -/
def contains (eq : α → β → Bool) (c : List α) (v : β) : Bool := findIf (fun x => eq x v) c != c.length

/-- `containsAnyOf` — `Containers.hpp` 215-221. -/
def containsAnyOf (eq : α → β → Bool) (c : List α) : List β → Bool
  | [] => false
  | v :: vs => if contains eq c v then true else containsAnyOf eq c vs

/-- `containsAllOf` — `Containers.hpp` 229-235. -/
def containsAllOf (eq : α → β → Bool) (c : List α) : List β → Bool
  | [] => true
  | v :: vs => if !contains eq c v then false else containsAllOf eq c vs

/-- `getKeys` — `Containers.hpp` 240-246: the entries of a map in the order of its iteration. -/
def getKeys (m : List (κ × β)) : List κ := m.foldl (fun result p => result ++ [p.1]) []

/-! ## Maps -/

/-- `emplace` of the standard maps: the map, the entry with the key, and whether the pair
was inserted. -/
def emplace [BEq κ] (m : List (κ × β)) (k : κ) (v : β) : List (κ × β) × β × Bool :=
  match m.find? (fun p => p.1 == k) with
  | some p => (m, p.2, false)
  | none => (m ++ [(k, v)], v, true)

/-- Objects owned by a map of `std::unique_ptr`: the entries (key and object), the type of each
object, the objects destroyed, and the number of the next object. -/
structure Owner (κ τ : Type) where
  entries : List (κ × Nat)
  typeOf : Nat → Option τ
  destroyed : List Nat
  next : Nat

/-- `getEmplaceUPtrMap<T>` — `Containers.hpp` 363-371, 400-405: the new object is made first; if `emplace`
does not insert, its pointer dies with the temporary pair. `castUp<T>` of an object that is not
a `T` is undefined. The result is the object referred to. -/
def getEmplaceUPtrMap [BEq κ] [DecidableEq τ] (t : τ) (o : Owner κ τ) (k : κ) :
    Outcome (Nat × Owner κ τ) :=
  let new := o.next
  let types := fun i => if i = new then some t else o.typeOf i
  let (entries, obj, inserted) := emplace o.entries k new
  let o := ⟨entries, types, if inserted then o.destroyed else new :: o.destroyed, new + 1⟩
  if types obj = some t then .ok (obj, o) else .ub

/-- The lambda of `mkUnorderedMap` — `Containers.hpp` 469-471. Keys and values of one type. -/
def emplacePair [BEq α] (g : List α) (m : List (α × α)) : Outcome (List (α × α)) :=
  match g with
  | [k, v] => .ok (emplace m k v).1
  | _ => .ub

/-- `mkUnorderedMap` — `Containers.hpp` 441-475; `none` if it does not compile. -/
def mkUnorderedMap [BEq α] (xs : List α) : Option (Outcome (List (α × α))) :=
  (Args.forArgs 2 emplacePair xs).map (fun f => f [])

/-- `mkVector` — `Containers.hpp` 428-437: the comma fold emplaces from left to right. -/
def mkVector (xs : List α) : List α := xs.foldl (fun result x => result ++ [x]) []

end Verif.Util
