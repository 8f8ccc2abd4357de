import Verif.Recycler.Model

/-!
# Model of the recycling vectors (`MonoRecVector`, `PolyRecVector`, `PolyFixedRecVector`)

Source: `include/SSVUtils/MemoryManager/Internal/ManagerImpl.hpp:66-185` (`BaseRecVector`),
`RecyclerImpl.hpp:66-88` (`getCreateEmplace`, `getCreateEmplaceAt`).

A vector has a recycler and a `std::vector` of `unique_ptr`s. Vector number `v` has recycler number `v` of `Verif.Recycler`.
The `unique_ptr`s can be reached through iterators and `operator[]`: resetting one and swapping two (sorting) are modelled;
moving one out of the vector is not. `std::vector::clear` destroys front to back.
-/

namespace Verif.RecVec

open Verif Verif.Recycler

/-- A `unique_ptr` in the vector: the number of the object it owns and its dynamic type, or null. -/
abbrev Entry := Option (Nat × Ty)

/-- Memory and recyclers, and the `items` of every vector (`none` once destroyed). -/
structure VState where
  st : State
  vecs : List (Option (List Entry))
  deriving Repr, DecidableEq

def VState.init : VState := ⟨State.init, []⟩

/-- What a program can do. -/
inductive VOp where
  | newMono
  | newPoly
  | newFixed (sizes : List Nat)
  | create (v : Nat) (t : Ty)
  | createAt (v i : Nat) (t : Ty)
  | createThrow (v : Nat) (t : Ty)
  | reset (v i : Nat)
  | swap (v i j : Nat)
  | clear (v : Nat)
  | move (v : Nat)
  | destroy (v : Nat)
  deriving Repr, DecidableEq

/-- Destruction of `unique_ptr`s, front to back. -/
def deleteAll (cfg : Cfg) (st : State) : List Entry → Outcome State
  | [] => .ok st
  | none :: es => deleteAll cfg st es
  | some (i, t) :: es => do
    let st ← st.delete cfg i t
    deleteAll cfg st es

/-- The items of a vector; using a destroyed one is undefined. -/
def VState.items (s : VState) (v : Nat) : Outcome (List Entry) :=
  match s.vecs[v]? with
  | some (some es) => .ok es
  | _ => .ub

/-- One operation. -/
def vstep (cfg : Cfg) (s : VState) : VOp → Outcome VState
  -- the constructor, ManagerImpl.hpp:88-91
  | .newMono => do
    let st ← step cfg s.st .newMono
    return ⟨st, s.vecs ++ [some []]⟩
  | .newPoly => do
    let st ← step cfg s.st .newPoly
    return ⟨st, s.vecs ++ [some []]⟩
  | .newFixed sizes => do
    let st ← step cfg s.st (.newFixed sizes)
    return ⟨st, s.vecs ++ [some []]⟩
  -- `create`, ManagerImpl.hpp:99-103, `getCreateEmplace`, RecyclerImpl.hpp:69-74
  | .create v t => do
    let es ← s.items v
    let st ← s.st.create cfg v t
    return ⟨st, s.vecs.set v (some (es ++ [some (s.st.ptrs.length, t)]))⟩
  -- `createAt`, ManagerImpl.hpp:105-110, `getCreateEmplaceAt`, RecyclerImpl.hpp:81-88
  | .createAt v i t => do
    let es ← s.items v
    let st ← s.st.create cfg v t
    if es.length < i then .ub
    else return ⟨st, s.vecs.set v (some (es.insertIdx i (some (s.st.ptrs.length, t))))⟩
  -- `create` or `createAt` when the constructor throws: the vector is not touched
  | .createThrow v t => do
    let _ ← s.items v
    let st ← s.st.createThrow cfg v t
    return ⟨st, s.vecs⟩
  -- `v[i].reset()`, ManagerImpl.hpp:112-115
  | .reset v i => do
    let es ← s.items v
    match es[i]? with
    | some (some (id, t)) =>
      let st ← s.st.delete cfg id t
      return ⟨st, s.vecs.set v (some (es.set i none))⟩
    | some none => return s
    | none => .ub
  -- `std::swap(v[i], v[j])`
  | .swap v i j => do
    let es ← s.items v
    match es[i]?, es[j]? with
    | some a, some b => return ⟨s.st, s.vecs.set v (some ((es.set i b).set j a))⟩
    | _, _ => .ub
  -- `clear`, ManagerImpl.hpp:122-125
  | .clear v => do
    let es ← s.items v
    let st ← deleteAll cfg s.st es
    return ⟨st, s.vecs.set v (some [])⟩
  -- the defaulted move constructor, ManagerImpl.hpp:92
  | .move v => do
    let es ← s.items v
    let st ← s.st.moveRec v
    return ⟨st, (s.vecs.set v (some [])) ++ [some es]⟩
  -- the destructor, ManagerImpl.hpp:94-97, and those of the members
  | .destroy v => do
    let es ← s.items v
    let st ← deleteAll cfg s.st es
    let st ← st.destroyRec v
    return ⟨st, s.vecs.set v none⟩

def vrun (cfg : Cfg) (s : VState) : List VOp → Outcome VState
  | [] => .ok s
  | o :: os => do
    let s ← vstep cfg s o
    vrun cfg s os

end Verif.RecVec
