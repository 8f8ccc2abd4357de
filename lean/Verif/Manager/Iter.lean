import Verif.Manager.Sim

/-!
# Loops over a manager whose body uses the manager

`for(const auto& p : manager) { ... }`, ManagerImpl.hpp:22-65 and 280-295: the iterators are indices, `end()` is
read once, and `p` is a reference to the slot, that is to memory that `create` replaces when the storage grows.
`TimelineManager::update` (TimelineManager.cpp:12-21) is such a loop: it uses the loop variable, lets actions of the
timeline run, and uses the loop variable again.
-/

namespace Verif.Manager

open Verif

/-- What the body of a loop does. -/
inductive BStep where
  /-- Looks at the object through the loop variable. -/
  | use
  | create
  | del (id : Nat)
  deriving Repr, DecidableEq

/-- One step in the round of slot `i`; the flag says whether the storage was replaced since the loop variable was
bound. Using a reference into replaced storage is undefined. -/
def bstep (i : Nat) (m : Mgr) (grown : Bool) : BStep → Outcome (Mgr × Bool)
  | .use =>
    if grown then .ub
    else do
      let id ← m.slotAt i
      let _ ← m.getBool id
      return (m, grown)
  | .create => do
    let (m', _) ← m.create
    return (m', grown || decide (m.capacity ≤ m.sizeNext))
  | .del id => do
    let m ← m.del id
    return (m, grown)

/-- The steps of one round. -/
def bsteps (i : Nat) (m : Mgr) (grown : Bool) : List BStep → Outcome Mgr
  | [] => .ok m
  | s :: ss => do
    let (m, grown) ← bstep i m grown s
    bsteps i m grown ss

/-- The rounds from index `i` on, `n` of them; returns the objects visited. -/
def forFrom (body : Nat → List BStep) (m : Mgr) (i : Nat) : (n : Nat) → Outcome (Mgr × List Nat)
  | 0 => .ok (m, [])
  | n + 1 => do
    let id ← m.slotAt i
    let m ← bsteps i m false (body id)
    let (m, ids) ← forFrom body m (i + 1) n
    return (m, id :: ids)

/-- `for(const auto& p : manager) body`, ManagerImpl.hpp:280-295: `end()` is `msize` at the start. -/
def Mgr.forEach (m : Mgr) (body : Nat → List BStep) : Outcome (Mgr × List Nat) := forFrom body m 0 m.msize

/-- The same with a body that looks at the object first and then makes any calls on the manager, also `refresh` and `clear`. -/
def opsFrom (body : Nat → List Op) (m : Mgr) (i : Nat) : (n : Nat) → Outcome (Mgr × List Nat)
  | 0 => .ok (m, [])
  | n + 1 => do
    let id ← m.slotAt i
    let _ ← m.getBool id
    let m ← run m (body id)
    let (m, ids) ← opsFrom body m (i + 1) n
    return (m, id :: ids)

/-- `for(const auto& p : manager) { look at *p; calls }`, ManagerImpl.hpp:280-295. -/
def Mgr.forEachOps (m : Mgr) (body : Nat → List Op) : Outcome (Mgr × List Nat) := opsFrom body m 0 m.msize

namespace Spec

/-- How a loop ends. -/
inductive LoopEnd where
  /-- It visited these objects and left the manager so. -/
  | done (s : Seq) (visited : List Nat)
  /-- The next place had no object any more. -/
  | noObject
  /-- A call broke its precondition. -/
  | notAllowed
  deriving Repr, DecidableEq

/-- A loop that goes on to the place `n`, starting with the place `i`: it visits whatever object is there. -/
def loop (body : Nat → List Op) (s : Seq) (i : Nat) : (n : Nat) → LoopEnd
  | 0 => .done s []
  | n + 1 =>
    match s.places[i]? with
    | none => .noObject
    | some id =>
      match s.run (body id) with
      | none => .notAllowed
      | some s =>
        match loop body s (i + 1) n with
        | .done s ids => .done s (id :: ids)
        | r => r

/-- The calls on the manager made by the steps of a body. -/
def calls : List BStep → List Op
  | [] => []
  | .use :: ss => calls ss
  | .create :: ss => .create :: calls ss
  | .del id :: ss => .del id :: calls ss

/-- Somewhere in the loop over `visited`, the loop variable is used after creations of the same round made the
storage grow. -/
def Stale (body : Nat → List BStep) (a : Abs) (visited : List Nat) : Prop :=
  ∃ before id after pre post b c, visited = before ++ id :: after ∧ body id = pre ++ .use :: post ∧
    a.run (before.flatMap (fun id => calls (body id))) = some b ∧ b.run (calls pre) = some c ∧ c.cap ≠ b.cap

end Spec
end Verif.Manager
