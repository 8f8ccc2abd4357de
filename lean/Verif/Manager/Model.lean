import Verif.Basic

/-!
# Model of the memory manager (`MonoManager`/`PolyManager`) and of `Impl::refreshImpl`

Source: `include/SSVUtils/Internal/SharedFuncs.hpp`,
`include/SSVUtils/MemoryManager/Internal/ManagerImpl.hpp`,
`include/SSVUtils/GrowableArray/GrowableArray.hpp`,
`include/SSVUtils/MemoryManager/Internal/LayoutImpl.hpp`.

Simplifications.
* Every `create` yields a new object identity (`Nat`), and a `unique_ptr` stored in a slot is modelled
  by the identity of its pointee. Which address the recycler picks is the business of
  `Verif/Recycler`, where distinct live objects are shown to have distinct addresses.
* `GrowableArray::grow` relocates `unique_ptr`s bytewise (GrowableArray.hpp:38-45 on aligned storage).
  The model treats this as relocating the pointer.
* `size_t` arithmetic is `Nat`, except the decrement of `iA` in the refresh loop, where wrap-around of
  `0 - 1` is modelled. The `unsigned int` loop counters are assumed not to overflow (fewer than 2^32
  slots).
-/

namespace Verif.Manager

open Verif

/-- State of the memory behind an object identity: a constructed object with its alive flag
(LayoutImpl.hpp:28-38, `storageBool`), or an object whose destructor has run. -/
inductive Cell where
  | live (alive : Bool)
  | destroyed
  deriving Repr, DecidableEq

/-- `BaseManager`'s data members, ManagerImpl.hpp:199-202. `slots` is the `GrowableArrayAS` buffer:
`slots.length` is the number of raw slots allocated, `none` is raw storage in which no `unique_ptr`
lives, `some id` is a `unique_ptr` owning object `id`. `heap[id]` is the object. -/
structure Mgr where
  slots : List (Option Nat)
  msize : Nat
  sizeNext : Nat
  capacity : Nat
  heap : List Cell
  deriving Repr, DecidableEq

/-- `items[i]` where a live `unique_ptr` is required (GrowableArray.hpp:124-131): out of the buffer or
on raw storage it is undefined behaviour. -/
def Mgr.slotAt (m : Mgr) (i : Nat) : Outcome Nat :=
  match m.slots[i]? with
  | some (some id) => .ok id
  | _ => .ub

/-- `LayoutType::getBool` on object `id`, LayoutImpl.hpp:105-108; reading a destroyed object is UB. -/
def Mgr.getBool (m : Mgr) (id : Nat) : Outcome Bool :=
  match m.heap[id]? with
  | some (.live b) => .ok b
  | _ => .ub

/-- `isAliveAt(i)`, ManagerImpl.hpp:204-207. -/
def Mgr.isAliveAt (m : Mgr) (i : Nat) : Outcome Bool := do
  let id ← m.slotAt i
  m.getBool id

/-- Running the deleter on object `id` (StorageImpl.hpp:134-139): destroying an object that is not
constructed is UB. -/
def Mgr.destroy (m : Mgr) (id : Nat) : Outcome Mgr :=
  match m.heap[id]? with
  | some (.live _) => .ok { m with heap := m.heap.set id .destroyed }
  | _ => .ub

/-- `items.deinitAt(i)`, GrowableArray.hpp:105-109: destroys the `unique_ptr` in slot `i`, and with it
the object it owns. -/
def Mgr.deinitAt (m : Mgr) (i : Nat) : Outcome Mgr := do
  let id ← m.slotAt i
  let m ← m.destroy id
  return { m with slots := m.slots.set i none }

/-- `swap(items[d], items[a])`, ManagerImpl.hpp:260-263. -/
def Mgr.swapAt (m : Mgr) (d a : Nat) : Outcome Mgr := do
  let x ← m.slotAt d
  let y ← m.slotAt a
  return { m with slots := (m.slots.set d (some y)).set a (some x) }

/-- `items.initAt(i, std::move(uPtr))`, GrowableArray.hpp:97-102: outside the buffer it is UB; on a
slot already holding a `unique_ptr` the old one would be overwritten without being destroyed, which we
also count as UB so that it can never be hidden. -/
def Mgr.initAt (m : Mgr) (i id : Nat) : Outcome Mgr :=
  match m.slots[i]? with
  | some none => .ok { m with slots := m.slots.set i (some id) }
  | _ => .ub

/-- `size_t` decrement, with wrap-around at zero. -/
def decSize (i : Nat) : Nat := if i = 0 then 2 ^ 64 - 1 else i - 1

/-- First inner loop of `refreshImplLoop`, SharedFuncs.hpp:24-35: find a dead item from the left.
Returns `(true, iD)` when `iD > iA` (the function returns `iD`), `(false, iD)` when `iD` is dead. -/
def findDead (m : Mgr) : (fuel : Nat) → (iD iA : Nat) → Outcome (Bool × Nat)
  | 0, _, _ => .diverge
  | fuel + 1, iD, iA =>
    if iD > iA then .ok (true, iD)
    else do
      let alive ← m.isAliveAt iD
      if !alive then return (false, iD)
      findDead m fuel (iD + 1) iA

/-- Second inner loop, SharedFuncs.hpp:37-49: find an alive item from the right, destroying the dead
ones on the way. Returns `(m, true, _)` when there is none (the function returns `iD`). -/
def findAlive : (fuel : Nat) → Mgr → (iD iA : Nat) → Outcome (Mgr × Bool × Nat)
  | 0, _, _, _ => .diverge
  | fuel + 1, m, iD, iA => do
    let alive ← m.isAliveAt iA
    if alive then return (m, false, iA)
    let m ← m.deinitAt iA
    if iA ≤ iD then return (m, true, iA)
    findAlive fuel m iD (decSize iA)

/-- `refreshImplLoop` main loop, SharedFuncs.hpp:22-58. -/
def refreshLoop : (fuel : Nat) → Mgr → (iD iA : Nat) → Outcome (Mgr × Nat)
  | 0, _, _, _ => .diverge
  | fuel + 1, m, iD, iA => do
    let (done, iD) ← findDead m (fuel + 1) iD iA
    if done then return (m, iD)
    let (m, done, iA) ← findAlive (fuel + 1) m iD iA
    if done then return (m, iD)
    -- SharedFuncs.hpp:51
    let bD ← m.isAliveAt iD
    let bA ← m.isAliveAt iA
    Outcome.check (!bD && bA)
    let m ← m.swapAt iD iA
    let m ← m.deinitAt iA
    refreshLoop fuel m (iD + 1) (decSize iA)

/-- The `SSVU_DEBUG` check at the end of `refreshImpl`, SharedFuncs.hpp:76-81. -/
def checkAllAlive (m : Mgr) : Nat → Outcome Unit
  | 0 => .ok ()
  | n + 1 => do
    checkAllAlive m n
    let b ← m.isAliveAt n
    Outcome.check b

/-- `BaseManager::refresh` = `refreshImpl`, ManagerImpl.hpp:256-265 and SharedFuncs.hpp:63-82
(with the debug check). Fuel: `sizeNext + 1` iterations; the theorems show that this is enough. -/
def Mgr.refresh (m : Mgr) : Outcome Mgr :=
  if m.sizeNext = 0 then .ok { m with msize := 0 }
  else do
    let (m, iD) ← refreshLoop (m.sizeNext + 1) m 0 (m.sizeNext - 1)
    let m := { m with msize := iD, sizeNext := iD }
    checkAllAlive m iD
    return m

/-- `BaseManager::reserve`, ManagerImpl.hpp:249-254, with `GrowableArray::grow`,
GrowableArray.hpp:38-45: a new raw buffer, the old slots moved to the same indices. -/
def Mgr.reserve (m : Mgr) (n : Nat) : Outcome Mgr := do
  Outcome.check (m.capacity < n)
  Outcome.check (m.capacity ≤ n)
  if m.slots.length < m.capacity then .ub  -- `data[i]` for `i < mCapacityOld`
  else return { m with
    slots := m.slots.take m.capacity ++ List.replicate (n - m.capacity) none
    capacity := n }

/-- `BaseManager::create`, ManagerImpl.hpp:228-237. The new object is constructed alive
(LayoutImpl.hpp:92-99). Returns the reference to it (its identity). -/
def Mgr.create (m : Mgr) : Outcome (Mgr × Nat) := do
  let id := m.heap.length
  let m := { m with heap := m.heap ++ [Cell.live true] }
  let m ← if m.capacity ≤ m.sizeNext then m.reserve (m.capacity * 3) else .ok m
  let m ← m.initAt m.sizeNext id
  return ({ m with sizeNext := m.sizeNext + 1 }, id)

/-- The loop of `BaseManager::clear`, ManagerImpl.hpp:241, starting at index `i` with `n` to go. -/
def clearLoop (m : Mgr) (i : Nat) : (n : Nat) → Outcome Mgr
  | 0 => .ok m
  | n + 1 => do
    let m ← m.deinitAt i
    clearLoop m (i + 1) n

/-- `BaseManager::clear`, ManagerImpl.hpp:239-243; also all the destructor does (214-217). -/
def Mgr.clear (m : Mgr) : Outcome Mgr := do
  let m ← clearLoop m 0 m.sizeNext
  return { m with msize := 0, sizeNext := 0 }

/-- `BaseManager::del`, ManagerImpl.hpp:244-247; through a reference to a destroyed object it is UB. -/
def Mgr.del (m : Mgr) (id : Nat) : Outcome Mgr :=
  match m.heap[id]? with
  | some (.live _) => .ok { m with heap := m.heap.set id (.live false) }
  | _ => .ub

/-- `BaseManager::BaseManager`, ManagerImpl.hpp:210-213: no slots, then `reserve(25)`. -/
def Mgr.init : Outcome Mgr :=
  Mgr.reserve { slots := [], msize := 0, sizeNext := 0, capacity := 0, heap := [] } 25

/-- What iterating the manager visits, ManagerImpl.hpp:276-295: the slots `0 .. msize-1` in order. -/
def iterFrom (m : Mgr) (i : Nat) : (n : Nat) → Outcome (List Nat)
  | 0 => .ok []
  | n + 1 => do
    let x ← m.slotAt i
    let xs ← iterFrom m (i + 1) n
    return x :: xs

/-- The objects visited by `for(auto& x : manager)`. -/
def Mgr.iter (m : Mgr) : Outcome (List Nat) := iterFrom m 0 m.msize

/-- The public operations of a manager. `del id`/`create` take and return references. -/
inductive Op where
  | create
  | del (id : Nat)
  | refresh
  | clear
  | reserve (n : Nat)
  deriving Repr, DecidableEq

/-- One call. -/
def step (m : Mgr) : Op → Outcome Mgr
  | .create => do let (m, _) ← m.create; return m
  | .del id => m.del id
  | .refresh => m.refresh
  | .clear => m.clear
  | .reserve n => m.reserve n

/-- A history of calls. -/
def run (m : Mgr) : List Op → Outcome Mgr
  | [] => .ok m
  | o :: os => do let m ← step m o; run m os

/-- A history starting with the constructor. -/
def runFresh (os : List Op) : Outcome Mgr := do let m ← Mgr.init; run m os

end Verif.Manager
