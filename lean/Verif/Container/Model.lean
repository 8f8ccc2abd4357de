import Verif.Basic

/-!
# Model of `VecMap` and `VecSorted`

Source: `include/SSVUtils/Container/Inc/VecMap.hpp`, `VecSorted.hpp`, `VecMapBase.hpp`.

A container is its `std::vector`, a `List`; iterators are indices. The key type is any type with a
comparison `lt` (`operator<`) and, for `VecMap`, `==`. The laws of a total order are hypotheses of the
theorems, not part of the model. `VecSorted::is` (VecSorted.hpp:48-51) compares an iterator with a value
and does not compile when `has` or `atItr` are used, so these are not modelled for `VecSorted`.
-/

namespace Verif.Container

open Verif

variable {K V T : Type}

/-- `std::lower_bound` as libstdc++ implements it: `p x` is "`x` is before the value". Dereferencing
outside the vector would be UB. -/
def lowerBoundLoop (p : T → Bool) (d : List T) (first len : Nat) : Outcome Nat :=
  if h : len = 0 then .ok first
  else
    let half := len / 2
    match d[first + half]? with
    | none => .ub
    | some x => if p x then lowerBoundLoop p d (first + half + 1) (len - half - 1)
                else lowerBoundLoop p d first half
termination_by len

/-- `lowerBound(container, value, cmp)`, Core/Utils/Containers.hpp: whole range. -/
def lowerBound (p : T → Bool) (d : List T) : Outcome Nat := lowerBoundLoop p d 0 d.length

/-- `std::vector::emplace(itr, x)`: inserts before the position. -/
def emplace (d : List T) (i : Nat) (x : T) : List T := d.take i ++ x :: d.drop i

section VecMap

variable [DecidableEq K] (lt : K → K → Bool)

/-- `VecMap::lookup`, VecMap.hpp:35-49. -/
def lookup (d : List (K × V)) (k : K) : Outcome Nat := lowerBound (fun x => lt x.1 k) d

/-- `VecMap::is`, VecMap.hpp:52-56. -/
def isAt (d : List (K × V)) (i : Nat) (k : K) : Bool :=
  match d[i]? with
  | some x => x.1 == k
  | none => false

/-- `itr->second` of a valid iterator. -/
def secondAt (d : List (K × V)) (i : Nat) : Outcome V :=
  match d[i]? with
  | some x => .ok x.2
  | none => .ub

/-- `VecMapBase::has`, VecMapBase.hpp:31-35. -/
def has (d : List (K × V)) (k : K) : Outcome Bool := do
  let i ← lookup lt d k
  return isAt d i k

/-- `VecMap::count`, VecMap.hpp:83-86. -/
def count (d : List (K × V)) (k : K) : Outcome Nat := do
  let i ← lookup lt d k
  return if isAt d i k then 1 else 0

/-- `VecMap::operator[]`, VecMap.hpp:90-96; returns the new vector and the index of the pair whose
`second` the result refers to. `dflt` is `TV{}`. -/
def index (dflt : V) (d : List (K × V)) (k : K) : Outcome (List (K × V) × Nat) := do
  let i ← lookup lt d k
  return if isAt d i k then (d, i) else (emplace d i (k, dflt), i)

/-- `m[k]` read as a value. -/
def getIndex (dflt : V) (d : List (K × V)) (k : K) : Outcome (List (K × V) × V) := do
  let (d, i) ← index lt dflt d k
  let v ← secondAt d i
  return (d, v)

/-- `m[k] = v`: assignment through the reference returned by `operator[]`. -/
def setIndex (dflt : V) (d : List (K × V)) (k : K) (v : V) : Outcome (List (K × V)) := do
  let (d, i) ← index lt dflt d k
  match d[i]? with
  | some x => .ok (d.set i (x.1, v))
  | none => .ub

/-- `VecMap::at`, VecMap.hpp:100-106. -/
def at' (d : List (K × V)) (k : K) : Outcome V := do
  let i ← lookup lt d k
  if isAt d i k then secondAt d i else .throw

/-- `VecMap::atOrDefault`, VecMap.hpp:110-117. -/
def atOrDefault (dflt : V) (d : List (K × V)) (k : K) : Outcome V := do
  let i ← lookup lt d k
  if isAt d i k then secondAt d i else .ok dflt

/-- `VecMap::atItr`, VecMap.hpp:121-126 (an index; `d.length` is `end`). -/
def atItr (d : List (K × V)) (k : K) : Outcome Nat := do
  let i ← lookup lt d k
  return if isAt d i k then i else d.length

/-- Result of the initializer-list constructor, VecMap.hpp:66-70: the items sorted by key with `std::sort`,
which is not stable, so any sorted permutation is possible. -/
def CtorResult (il d : List (K × V)) : Prop :=
  d.Perm il ∧ d.Pairwise (fun x y => lt y.1 x.1 = false)

/-- Mutating calls. -/
inductive Op (K V : Type) where
  | write (k : K) (v : V)   -- m[k] = v
  | touch (k : K)           -- m[k]
  | clear
  deriving Repr, DecidableEq

def step (dflt : V) (d : List (K × V)) : Op K V → Outcome (List (K × V))
  | .write k v => setIndex lt dflt d k v
  | .touch k => do let (d, _) ← getIndex lt dflt d k; return d
  | .clear => .ok []

def run (dflt : V) (d : List (K × V)) : List (Op K V) → Outcome (List (K × V))
  | [] => .ok d
  | o :: os => do let d ← step lt dflt d o; run dflt d os

end VecMap

section VecSorted

/-- `VecSorted::insert`, VecSorted.hpp:79-84. -/
def sortedInsert (cmp : T → T → Bool) (d : List T) (x : T) : Outcome (List T) := do
  let i ← lowerBound (fun y => cmp y x) d
  return emplace d i x

def sortedInserts (cmp : T → T → Bool) (d : List T) : List T → Outcome (List T)
  | [] => .ok d
  | x :: xs => do let d ← sortedInsert cmp d x; sortedInserts cmp d xs

/-- Result of the initializer-list constructor, VecSorted.hpp:61-64 (`std::sort`). -/
def SortedCtorResult (cmp : T → T → Bool) (il d : List T) : Prop :=
  d.Perm il ∧ d.Pairwise (fun x y => cmp y x = false)

end VecSorted

end Verif.Container
