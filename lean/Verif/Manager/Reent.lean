import Verif.Manager.Sim
import Mathlib.Algebra.BigOperators.Group.Finset.Basic
import Mathlib.Algebra.Order.BigOperators.Group.Finset

/-!
# Destructors that use the manager

`refresh` and `clear` run destructors of objects, which are user code and may call `create` and `del` of
the same manager. This file models such runs (ManagerImpl.hpp:228-265, SharedFuncs.hpp:17-82 with
destructors that act) and gives the abstract manager they are compared with.

Simplifications, besides those of `Verif.Manager.Model`:
* a destructor is the list of calls it makes on the manager; `refresh`, `clear` and `reserve` from inside a
  destructor are not modelled;
* storage that has to grow while `~unique_ptr` runs on one of its slots is undefined behaviour, since
  `~unique_ptr` (libstdc++) assigns to the slot, which is freed by then, when the destructor returns;
* `initAt` on a slot that still holds a `unique_ptr` overwrites it without destroying it (placement new).
-/

namespace Verif.Manager

open Verif

/-- A call a destructor makes on the manager. -/
inductive Act where
  | create
  | del (id : Nat)
  deriving Repr, DecidableEq

/-- `items.initAt`, GrowableArray.hpp:97-102, on raw storage or on a slot holding a `unique_ptr`, which is
overwritten without running its destructor. -/
def Mgr.initAtR (m : Mgr) (i id : Nat) : Outcome Mgr :=
  match m.slots[i]? with
  | some _ => .ok { m with slots := m.slots.set i (some id) }
  | none => .ub

/-- `BaseManager::create`, ManagerImpl.hpp:228-237, as `Mgr.create`, with the overwriting `initAt`. -/
def Mgr.createR (m : Mgr) : Outcome Mgr := do
  let id := m.heap.length
  let m := { m with heap := m.heap ++ [Cell.live true] }
  let m ← if m.capacity ≤ m.sizeNext then m.reserve (m.capacity * 3) else .ok m
  let m ← m.initAtR m.sizeNext id
  return { m with sizeNext := m.sizeNext + 1 }

/-- A call from inside a destructor run by `deinitAt`, ManagerImpl.hpp:228-247. -/
def Mgr.act (m : Mgr) : Act → Outcome Mgr
  | .create => if m.capacity ≤ m.sizeNext then .ub else m.createR
  | .del id => m.del id

/-- The calls of one destructor. -/
def Mgr.acts (m : Mgr) : List Act → Outcome Mgr
  | [] => .ok m
  | x :: xs => do let m ← m.act x; m.acts xs

/-- `items.deinitAt(i)`, GrowableArray.hpp:105-109, with the destructor `scr id` of the object owned by the
slot. -/
def Mgr.deinitAtR (scr : Nat → List Act) (m : Mgr) (i : Nat) : Outcome Mgr := do
  let id ← m.slotAt i
  match m.heap[id]? with
  | some (.live _) =>
    let m ← m.acts (scr id)
    return { m with heap := m.heap.set id .destroyed, slots := m.slots.set i none }
  | _ => .ub

/-- Second inner loop of `refreshImplLoop`, SharedFuncs.hpp:37-49. -/
def findAliveR (scr : Nat → List Act) : (fuel : Nat) → Mgr → (iD iA : Nat) → Outcome (Mgr × Bool × Nat)
  | 0, _, _, _ => .diverge
  | fuel + 1, m, iD, iA => do
    let alive ← m.isAliveAt iA
    if alive then return (m, false, iA)
    let m ← m.deinitAtR scr iA
    if iA ≤ iD then return (m, true, iA)
    findAliveR scr fuel m iD (decSize iA)

/-- `refreshImplLoop`, SharedFuncs.hpp:22-58; the bound `iA` is computed once from the size at the start. The
`assert` of line 51 is checked in debug builds only. -/
def refreshLoopR (dbg : Bool) (scr : Nat → List Act) : (fuel : Nat) → Mgr → (iD iA : Nat) → Outcome (Mgr × Nat)
  | 0, _, _, _ => .diverge
  | fuel + 1, m, iD, iA => do
    let (done, iD) ← findDead m (fuel + 1) iD iA
    if done then return (m, iD)
    let (m, done, iA) ← findAliveR scr (fuel + 1) m iD iA
    if done then return (m, iD)
    let bD ← m.isAliveAt iD
    let bA ← m.isAliveAt iA
    Outcome.check (!dbg || (!bD && bA))
    let m ← m.swapAt iD iA
    let m ← m.deinitAtR scr iA
    refreshLoopR dbg scr fuel m (iD + 1) (decSize iA)

/-- `BaseManager::refresh`, ManagerImpl.hpp:256-265 and SharedFuncs.hpp:63-82. -/
def Mgr.refreshR (dbg : Bool) (scr : Nat → List Act) (m : Mgr) : Outcome Mgr :=
  if m.sizeNext = 0 then .ok { m with msize := 0 }
  else do
    let (m, iD) ← refreshLoopR dbg scr (m.sizeNext + 1) m 0 (m.sizeNext - 1)
    let m := { m with msize := iD, sizeNext := iD }
    if dbg then checkAllAlive m iD
    return m

/-- The loop of `BaseManager::clear`, ManagerImpl.hpp:241: `sizeNext` is read again in every round. -/
def clearLoopR (scr : Nat → List Act) : (fuel : Nat) → Mgr → (i : Nat) → Outcome Mgr
  | 0, _, _ => .diverge
  | fuel + 1, m, i =>
    if i < m.sizeNext then do
      let m ← m.deinitAtR scr i
      clearLoopR scr fuel m (i + 1)
    else .ok m

/-- `BaseManager::clear`, ManagerImpl.hpp:239-243. The loop ends after at most `capacity` rounds. -/
def Mgr.clearR (scr : Nat → List Act) (m : Mgr) : Outcome Mgr := do
  let m ← clearLoopR scr (m.capacity + 1) m 0
  return { m with msize := 0, sizeNext := 0 }

/-- One call from outside. -/
def stepR (dbg : Bool) (scr : Nat → List Act) (m : Mgr) : Op → Outcome Mgr
  | .create => m.createR
  | .del id => m.del id
  | .refresh => m.refreshR dbg scr
  | .clear => m.clearR scr
  | .reserve n => m.reserve n

/-- A history of calls. -/
def runR (dbg : Bool) (scr : Nat → List Act) (m : Mgr) : List Op → Outcome Mgr
  | [] => .ok m
  | o :: os => do let m ← stepR dbg scr m o; runR dbg scr m os

/-- A history starting with the constructor. -/
def runFreshR (dbg : Bool) (scr : Nat → List Act) (os : List Op) : Outcome Mgr := do
  let m ← Mgr.init
  runR dbg scr m os

/-! ## Specification -/

namespace Spec

/-- Destructors that only create: the destructor of object `id` creates `spawn id` objects. -/
def creating (spawn : Nat → Nat) (id : Nat) : List Act := List.replicate (spawn id) .create

/-- Destroying the queue of objects `q`, each adding the objects it creates to the end of the queue, ends when
`n'` objects have been created in all, of which `n` before. -/
inductive Drains (spawn : Nat → Nat) : List Nat → Nat → Nat → Prop
  | nil (n) : Drains spawn [] n n
  | cons (id q n n') : Drains spawn (q ++ List.range' n (spawn id)) (n + spawn id) n' →
      Drains spawn (id :: q) n n'

/-- The abstract manager, and the objects nobody owns any more. -/
structure AbsR extends Abs where
  lost : List Nat

def AbsR.init : AbsR := { Abs.init with lost := [] }

/-- The objects the next refresh has to destroy. -/
def AbsR.doomed (a : AbsR) : List Nat := a.existing.filter (fun id => id ∈ a.dead)

/-- One call, for destructors that create objects. A refresh gives the objects created by destructors to
nobody; clearing destroys them too. -/
inductive Step (spawn : Nat → Nat) : AbsR → Op → AbsR → Prop
  | create (a) : Step spawn a .create { a with
      next := a.next + 1, pending := a.pending ++ [a.next],
      cap := if a.cap ≤ a.existing.length then a.cap * 3 else a.cap }
  | del (a id) : id ∈ a.existing → Step spawn a (.del id) { a with dead := id :: a.dead }
  | delLost (a id) : id ∈ a.lost → Step spawn a (.del id) a
  | refresh (a) : a.existing.length + (a.doomed.map spawn).sum ≤ a.cap → Step spawn a .refresh { a with
      visible := a.existing.filter (fun id => id ∉ a.dead), pending := [], dead := [],
      next := a.next + (a.doomed.map spawn).sum,
      lost := a.lost ++ List.range' a.next (a.doomed.map spawn).sum }
  | clear (a n') : Drains spawn a.existing a.next n' →
      a.existing.length + (n' - a.next) ≤ a.cap →
      Step spawn a .clear { a with visible := [], pending := [], dead := [], next := n' }
  | reserve (a n) : a.cap < n → Step spawn a (.reserve n) { a with cap := n }

/-- The calls `os` on a manager in state `a` are legal and lead to `a'`. -/
inductive Steps (spawn : Nat → Nat) : AbsR → List Op → AbsR → Prop
  | nil (a) : Steps spawn a [] a
  | cons (a b c o os) : Step spawn a o b → Steps spawn b os c → Steps spawn a (o :: os) c

/-- The history `os`, started on a fresh manager, is legal and leads to `a`. -/
def LegalR (spawn : Nat → Nat) (os : List Op) (a : AbsR) : Prop := Steps spawn AbsR.init os a

end Spec
end Verif.Manager
