import Verif.Container.Lemmas

/-!
# References into a `VecMap`

`operator[]` and `at` return references to the values in the vector (VecMap.hpp:90-106). A `std::vector` invalidates the references at and
behind the place of an insertion, and all of them if it must allocate new memory. Here a program binds references and uses them later. How
much memory a full vector of `n` elements gets is a parameter, `grow n`.
-/

namespace Verif.Container

open Verif

variable {K V : Type} [DecidableEq K] (lt : K → K → Bool) (grow : Nat → Nat) (dflt : V)

/-- A statement of the program. References are numbered in the order in which they are bound. -/
inductive ROp (K V : Type) where
  /-- `auto& r = m[k];` -/
  | bind (k : K)
  /-- `const auto& r = m.at(k);` -/
  | bindAt (k : K)
  /-- `r = v;` -/
  | store (r : Nat) (v : V)
  /-- `r = q;` -/
  | copy (r q : Nat)
  /-- The value of `r` is used. -/
  | read (r : Nat)
  /-- `m.reserve(n);` -/
  | reserve (n : Nat)
  /-- `m.clear();` -/
  | clear
  deriving Repr, DecidableEq

/-- The vector, its capacity, and for each reference the index of the pair it refers to, if it is still valid. -/
structure RSt (K V : Type) where
  items : List (K × V)
  cap : Nat
  refs : List (Option Nat)
  deriving Repr, DecidableEq

/-- An empty map, VecMap.hpp:58. -/
def RSt.init : RSt K V := ⟨[], 0, []⟩

/-- What becomes of a reference at an insertion before index `i` (`full`: new memory is allocated). -/
def moved (full : Bool) (i : Nat) : Option Nat → Option Nat
  | some j => if !full && j < i then some j else none
  | none => none

/-- `auto& r = m[k]`, VecMap.hpp:90-96. -/
def RSt.bind (s : RSt K V) (k : K) : Outcome (RSt K V) := do
  let i ← lookup lt s.items k
  if isAt s.items i k then return { s with refs := s.refs ++ [some i] }
  else
    let full := s.cap ≤ s.items.length
    return ⟨emplace s.items i (k, dflt), if full then grow s.items.length else s.cap, s.refs.map (moved full i) ++ [some i]⟩

/-- `const auto& r = m.at(k)`, VecMap.hpp:100-106. -/
def RSt.bindAt (s : RSt K V) (k : K) : Outcome (RSt K V) := do
  let i ← lookup lt s.items k
  if isAt s.items i k then return { s with refs := s.refs ++ [some i] } else .throw

/-- The index behind a reference that is used. -/
def RSt.deref (s : RSt K V) (r : Nat) : Outcome Nat :=
  match s.refs[r]? with
  | some (some i) => .ok i
  | _ => .ub

/-- `r = v`. -/
def RSt.store (s : RSt K V) (r : Nat) (v : V) : Outcome (RSt K V) := do
  let i ← s.deref r
  match s.items[i]? with
  | some x => .ok { s with items := s.items.set i (x.1, v) }
  | none => .ub

/-- The value of `r`. -/
def RSt.value (s : RSt K V) (r : Nat) : Outcome V := do
  let i ← s.deref r
  secondAt s.items i

/-- One statement; what it reads. `reserve` and `clear`: VecMapBase.hpp:47-54. -/
def rstep (s : RSt K V) : ROp K V → Outcome (RSt K V × List V)
  | .bind k => do let s ← s.bind lt grow dflt k; return (s, [])
  | .bindAt k => do let s ← s.bindAt lt k; return (s, [])
  | .store r v => do let s ← s.store r v; return (s, [])
  | .copy r q => do let v ← s.value q; let s ← s.store r v; return (s, [])
  | .read r => do let v ← s.value r; return (s, [v])
  | .reserve n => .ok (if s.cap < n then { s with cap := n, refs := s.refs.map (fun _ => none) } else s, [])
  | .clear => .ok ({ s with items := [], refs := s.refs.map (fun _ => none) }, [])

/-- A program and everything it reads. -/
def rrun (s : RSt K V) : List (ROp K V) → Outcome (RSt K V × List V)
  | [] => .ok (s, [])
  | o :: os => do
    let (s, out) ← rstep lt grow dflt s o
    let (s, outs) ← rrun s os
    return (s, out ++ outs)

namespace Spec

/-- What the programmer thinks of: a map, the number of its keys and for how many there is memory; each reference is to the value of a
key, and valid or not. -/
structure RMap (K V : Type) where
  map : K → Option V
  size : Nat
  cap : Nat
  refs : List (K × Bool)

def RMap.init : RMap K V := ⟨fun _ => none, 0, 0, []⟩

/-- The key behind a reference that is used: it must be valid. -/
def RMap.key (s : RMap K V) (r : Nat) : Outcome K :=
  match s.refs[r]? with
  | some (k, true) => .ok k
  | _ => .ub

def RMap.set (s : RMap K V) (k : K) (v : V) : RMap K V := { s with map := fun k' => if k' = k then some v else s.map k' }

/-- A new key makes the references to all larger keys invalid, and those to all keys if there is no memory left. -/
def RMap.step (s : RMap K V) : ROp K V → Outcome (RMap K V × List V)
  | .bind k =>
    if (s.map k).isSome then .ok ({ s with refs := s.refs ++ [(k, true)] }, [])
    else .ok ({ s.set k dflt with
      size := s.size + 1
      cap := if s.cap ≤ s.size then grow s.size else s.cap
      refs := s.refs.map (fun x => (x.1, x.2 && s.size < s.cap && lt x.1 k)) ++ [(k, true)] }, [])
  | .bindAt k => if (s.map k).isSome then .ok ({ s with refs := s.refs ++ [(k, true)] }, []) else .throw
  | .store r v => do let k ← s.key r; return (s.set k v, [])
  | .copy r q => do
    let j ← s.key q
    let k ← s.key r
    match s.map j with
    | some v => .ok (s.set k v, [])
    | none => .ub
  | .read r => do
    let k ← s.key r
    match s.map k with
    | some v => .ok (s, [v])
    | none => .ub
  | .reserve n => .ok (if s.cap < n then { s with cap := n, refs := s.refs.map (fun x => (x.1, false)) } else s, [])
  | .clear => .ok (⟨fun _ => none, 0, s.cap, s.refs.map (fun x => (x.1, false))⟩, [])

def RMap.run (s : RMap K V) : List (ROp K V) → Outcome (RMap K V × List V)
  | [] => .ok (s, [])
  | o :: os => do
    let (s, out) ← RMap.step lt grow dflt s o
    let (s, outs) ← RMap.run s os
    return (s, out ++ outs)

end Spec

end Verif.Container
