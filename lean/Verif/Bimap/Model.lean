import Verif.Basic

/-!
# Model of `Bimap` and of the `FatEnum` manager built on it

Source: `include/SSVUtils/Bimap/Inc/Bimap.hpp`, `Internal.hpp`, `include/SSVUtils/FatEnum/FatEnum.hpp`.

The storage is a vector of `unique_ptr<pair>`; a pointer to a pair, or to one of its members, is a number.
`set1` and `set2` are `std::set`s of pointers ordered by what they point to (Internal.hpp:16-28), modelled as
lists in set order. Every operation of such a set dereferences pointers: dereferencing a pointer whose
pair is gone is UB, and so is any operation on a set whose elements are not in order any more (which can
only happen when a key is changed in place). The key types `A`, `B` are any types with a comparison.
`dbg` says whether `assert` is active.

Simplification: keys are passed by value (a key that refers into the pair being erased: `Ref.lean`).
-/

namespace Verif.Bimap

open Verif

variable {A B : Type}

section PtrSet
/-! ### `PtrSet<T>`, Internal.hpp:16-28 -/

variable (lt : A → A → Bool) (deref : Nat → Option A)

/-- Elements of the set with the values they point to. -/
def derefAll : List Nat → Outcome (List (A × Nat))
  | [] => .ok []
  | p :: s =>
    match deref p with
    | none => .ub
    | some x => do
      let l ← derefAll s
      return (x, p) :: l

/-- In strictly increasing order? -/
def inOrder : List (A × Nat) → Bool
  | [] => true
  | x :: l => l.all (fun y => lt x.1 y.1) && inOrder l

def view (s : List Nat) : Outcome (List (A × Nat)) := do
  let l ← derefAll deref s
  if inOrder lt l then return l else .ub

/-- Neither is less than the other. -/
def equiv (x y : A) : Bool := !lt x y && !lt y x

/-- `set.find(&k)`: the pointer to an equivalent value, `none` for `end`. -/
def setFind (s : List Nat) (k : A) : Outcome (Option Nat) := do
  let l ← view lt deref s
  return (l.find? (fun x => equiv lt x.1 k)).map (·.2)

/-- `set.emplace(p)`: nothing happens if an equivalent value is there. -/
def setEmplace (s : List Nat) (p : Nat) : Outcome (List Nat) := do
  let l ← view lt deref s
  match deref p with
  | none => .ub
  | some x =>
    if l.any (fun y => equiv lt y.1 x) then return s
    else return (l.takeWhile (fun y => lt y.1 x)).map (·.2) ++ p :: (l.dropWhile (fun y => lt y.1 x)).map (·.2)

/-- `set.erase(&k)`: removes the pointer to the equivalent value, if any. -/
def setErase (s : List Nat) (k : A) : Outcome (List Nat) := do
  let l ← view lt deref s
  return (l.filter (fun x => !equiv lt x.1 k)).map (·.2)

end PtrSet

/-- A bimap: Bimap.hpp:42-51. `next` is the address of the next pair allocated. -/
structure Bm (A B : Type) where
  storage : List (Nat × A × B)
  set1 : List Nat
  set2 : List Nat
  next : Nat
  deriving Repr, DecidableEq

def Bm.empty : Bm A B := { storage := [], set1 := [], set2 := [], next := 0 }

/-- The pair at an address (`getPair`, Bimap.hpp:54-71). -/
def Bm.pairAt (m : Bm A B) (p : Nat) : Option (A × B) := (m.storage.find? (fun x => x.1 == p)).map (·.2)
def Bm.deref1 (m : Bm A B) (p : Nat) : Option A := (m.pairAt p).map (·.1)
def Bm.deref2 (m : Bm A B) (p : Nat) : Option B := (m.pairAt p).map (·.2)

section
variable (ltA : A → A → Bool) (ltB : B → B → Bool)

/-- `find`, Bimap.hpp:288-298. -/
def Bm.find1 (m : Bm A B) (a : A) : Outcome (Option Nat) := setFind ltA m.deref1 m.set1 a
def Bm.find2 (m : Bm A B) (b : B) : Outcome (Option Nat) := setFind ltB m.deref2 m.set2 b

/-- `has`, Bimap.hpp:300-310. -/
def Bm.has1 (m : Bm A B) (a : A) : Outcome Bool := do return (← m.find1 ltA a).isSome
def Bm.has2 (m : Bm A B) (b : B) : Outcome Bool := do return (← m.find2 ltB b).isSome

/-- `count`, Bimap.hpp:276-286. -/
def Bm.count1 (m : Bm A B) (a : A) : Outcome Nat := do return if (← m.find1 ltA a).isSome then 1 else 0
def Bm.count2 (m : Bm A B) (b : B) : Outcome Nat := do return if (← m.find2 ltB b).isSome then 1 else 0

/-- Dereferencing what `find` returned: the end iterator, or a dangling pointer, is UB. -/
def Bm.pairOf (m : Bm A B) (p : Option Nat) : Outcome (A × B) :=
  match p with
  | none => .ub
  | some p => match m.pairAt p with
    | none => .ub
    | some x => .ok x

/-- `at`, Bimap.hpp:102-110, 186-198. -/
def Bm.at1 (m : Bm A B) (a : A) : Outcome B := do
  let p ← m.find1 ltA a
  if p.isNone then .throw else return (← m.pairOf p).2
def Bm.at2 (m : Bm A B) (b : B) : Outcome A := do
  let p ← m.find2 ltB b
  if p.isNone then .throw else return (← m.pairOf p).1

/-- `assert(c)` if assertions are on. -/
def assertDbg (dbg : Bool) (c : Outcome Bool) : Outcome Unit :=
  if dbg then do Outcome.check (← c) else .ok ()

/-- `get`, Bimap.hpp:223-236. -/
def Bm.get1 (m : Bm A B) (dbg : Bool) (a : A) : Outcome B := do
  assertDbg dbg (m.has1 ltA a)
  return (← m.pairOf (← m.find1 ltA a)).2
def Bm.get2 (m : Bm A B) (dbg : Bool) (b : B) : Outcome A := do
  assertDbg dbg (m.has2 ltB b)
  return (← m.pairOf (← m.find2 ltB b)).1

/-- `emplace`, Bimap.hpp:149-159 (`insert`, 163-166, is the same). -/
def Bm.emplace (m : Bm A B) (dbg : Bool) (a : A) (b : B) : Outcome (Bm A B) := do
  assertDbg dbg (do
    let h1 ← m.has1 ltA a
    if h1 then return false else return !(← m.has2 ltB b))
  let m := { m with storage := m.storage ++ [(m.next, a, b)], next := m.next + 1 }
  let s1 ← setEmplace ltA m.deref1 m.set1 (m.next - 1)
  let s2 ← setEmplace ltB m.deref2 m.set2 (m.next - 1)
  return { m with set1 := s1, set2 := s2 }

/-- Initializer-list constructor, Bimap.hpp:139-142. -/
def Bm.ofList (dbg : Bool) (m : Bm A B) : List (A × B) → Outcome (Bm A B)
  | [] => .ok m
  | x :: l => do let m ← m.emplace ltA ltB dbg x.1 x.2; Bm.ofList dbg m l

/-- `eraseImpl`, Bimap.hpp:115-129, once the pair has been found at `p`. -/
def Bm.erasePair (m : Bm A B) (p : Option Nat) : Outcome (Bm A B) := do
  let pair ← m.pairOf p
  let s1 ← setErase ltA m.deref1 m.set1 pair.1
  let s2 ← setErase ltB m.deref2 m.set2 pair.2
  return { m with set1 := s1, set2 := s2, storage := m.storage.filter (fun x => some x.1 != p) }

def Bm.erase1 (m : Bm A B) (dbg : Bool) (a : A) : Outcome (Bm A B) := do
  assertDbg dbg (m.has1 ltA a)
  let p ← m.find1 ltA a
  let m ← m.erasePair ltA ltB p
  assertDbg dbg (do return !(← m.has1 ltA a))
  return m

def Bm.erase2 (m : Bm A B) (dbg : Bool) (b : B) : Outcome (Bm A B) := do
  assertDbg dbg (m.has2 ltB b)
  let p ← m.find2 ltB b
  let m ← m.erasePair ltA ltB p
  assertDbg dbg (do return !(← m.has2 ltB b))
  return m

/-- `clear`, Bimap.hpp:257-262. -/
def Bm.clear (m : Bm A B) : Bm A B := { m with storage := [], set1 := [], set2 := [] }

/-- Non-const `operator[]`, Bimap.hpp:204-218: the new bimap and the value of the result. `dB`, `dA` are
`T2{}`, `T1{}`. -/
def Bm.index1 (m : Bm A B) (dbg : Bool) (dB : B) (a : A) : Outcome (Bm A B × B) := do
  if ← m.has1 ltA a then return (m, ← m.get1 ltA dbg a)
  else return (← m.emplace ltA ltB dbg a dB, dB)
def Bm.index2 (m : Bm A B) (dbg : Bool) (dA : A) (b : B) : Outcome (Bm A B × A) := do
  if ← m.has2 ltB b then return (m, ← m.get2 ltB dbg b)
  else return (← m.emplace ltA ltB dbg dA b, dA)

/-- Assignment `bm[a] = b` through the reference returned by `operator[]`: the pair is changed in place,
the sets are not told. -/
def Bm.assign1 (m : Bm A B) (dbg : Bool) (dB : B) (a : A) (b : B) : Outcome (Bm A B) := do
  let (m, _) ← m.index1 ltA ltB dbg dB a
  let p ← m.find1 ltA a
  return { m with storage := m.storage.map (fun x => if some x.1 = p then (x.1, x.2.1, b) else x) }

/-- Iteration, `size()`: over the storage. -/
def Bm.pairs (m : Bm A B) : List (A × B) := m.storage.map (·.2)

inductive Op (A B : Type) where
  | emplace (a : A) (b : B)
  | erase1 (a : A)
  | erase2 (b : B)
  | clear
  deriving Repr, DecidableEq

def step (dbg : Bool) (m : Bm A B) : Op A B → Outcome (Bm A B)
  | .emplace a b => m.emplace ltA ltB dbg a b
  | .erase1 a => m.erase1 ltA ltB dbg a
  | .erase2 b => m.erase2 ltA ltB dbg b
  | .clear => .ok m.clear

def run (dbg : Bool) (m : Bm A B) : List (Op A B) → Outcome (Bm A B)
  | [] => .ok m
  | o :: os => do let m ← step ltA ltB dbg m o; run dbg m os

end

/-! ### FatEnum, FatEnum.hpp:83-147. `A` is the name type, `B` the enum; `es` lists name and enumerator in
declaration order (`VRM_PP_FOREACH_REVERSE` keeps the order of its arguments; it counts indices down).
The functions are `noexcept`, so a missing key ends the program: in a debug build in `assert`, otherwise in
`at`, whose exception cannot leave (both are `assertFail` here). Enumerators with equal values do not compile: `getAsStrImpl` would be
specialised twice for the same value (FatEnum.hpp:52-58). -/

section
variable (ltA : A → A → Bool) (ltB : B → B → Bool)

/-- `getBimap`, FatEnum.hpp:122-129. -/
def fatBimap (dbg : Bool) (es : List (A × B)) : Outcome (Bm A B) := Bm.ofList ltA ltB dbg Bm.empty es

/-- An exception leaving a `noexcept` function terminates. -/
def noexcept {α : Type} : Outcome α → Outcome α
  | .throw => .assertFail
  | o => o

/-- `getAsStr(value)`, FatEnum.hpp:95-99. -/
def getAsStr (dbg : Bool) (es : List (A × B)) (v : B) : Outcome A := noexcept do
  let m ← fatBimap ltA ltB dbg es
  assertDbg dbg (m.has2 ltB v)
  m.at2 ltB v

/-- `getFromStr(name)`, FatEnum.hpp:100-104. -/
def getFromStr (dbg : Bool) (es : List (A × B)) (s : A) : Outcome B := noexcept do
  let m ← fatBimap ltA ltB dbg es
  assertDbg dbg (m.has1 ltA s)
  m.at1 ltA s

/-- `getValues`, `getElementNames`, `getSize`, FatEnum.hpp:86-89, 130-143. -/
def getValues (es : List (A × B)) : List B := es.map (·.2)
def getElementNames (es : List (A × B)) : List A := es.map (·.1)
def getSize (es : List (A × B)) : Nat := es.length

end

end Verif.Bimap
