import Verif.Manager.Sim

/-!
# Constructors that use their manager, and constructors that throw

`create` runs the constructor of the object, user code that may call every function of the same manager (a game object that makes its
parts, or that removes itself again), and may throw. Source: ManagerImpl.hpp:228-237, StorageImpl.hpp:113-121, LayoutImpl.hpp:90-99.

The constructor runs after the memory of the object has been taken and its flag been set, and before the manager looks for a place. When it
throws, the object does not exist any more; its memory is never used again (C06), so that the flag must not be touched.
-/

namespace Verif.Manager.Ctor

open Verif

/-- A statement. `make body throws caught` is a `create` of an object whose constructor executes `body` and then throws or not; `caught`:
an exception that leaves this `create` is caught there (`try { ... } catch(...) { }`), otherwise it leaves the surrounding code too. -/
inductive Act where
  | make (body : List Act) (throws caught : Bool)
  | del (id : Nat)
  | refresh
  | clear
  | reserve (n : Nat)

mutual
/-- One statement; `true`: an exception leaves it. -/
def act (m : Mgr) : Act → Outcome (Mgr × Bool)
  | .make body throws caught => do
    -- StorageImpl.hpp:115-119: memory, flag, constructor
    let id := m.heap.length
    let m := { m with heap := m.heap ++ [Cell.live true] }
    let (m, e) ← acts m body
    if e || throws then return ({ m with heap := m.heap.set id .destroyed }, !caught)
    -- ManagerImpl.hpp:233-236
    let m ← if m.capacity ≤ m.sizeNext then m.reserve (m.capacity * 3) else .ok m
    let m ← m.initAt m.sizeNext id
    return ({ m with sizeNext := m.sizeNext + 1 }, false)
  | .del id => do let m ← m.del id; return (m, false)
  | .refresh => do let m ← m.refresh; return (m, false)
  | .clear => do let m ← m.clear; return (m, false)
  | .reserve n => do let m ← m.reserve n; return (m, false)

/-- Statements, up to the first that an exception leaves. -/
def acts (m : Mgr) : List Act → Outcome (Mgr × Bool)
  | [] => .ok (m, false)
  | a :: as => do
    let (m, e) ← act m a
    if e then return (m, true)
    acts m as
end

/-- A program that starts with a new manager. -/
def runFresh (as : List Act) : Outcome (Mgr × Bool) := do
  let m ← Mgr.init
  acts m as

namespace Spec

mutual
/-- One statement of the user's view, where `making` are the objects whose constructors are running: they have a number already, and can be
deleted, but no place. An object gets its place when its constructor ends. -/
def act (making : List Nat) (s : Seq) : Act → Option (Seq × Bool)
  | .make body throws caught =>
    match acts (s.next :: making) { s with next := s.next + 1 } body with
    | none => none
    | some (s', e) =>
      if e || throws then some ({ s' with dead := s'.dead.filter (fun id => id ≠ s.next) }, !caught)
      else some ({ s' with
        pending := s'.pending ++ [s.next]
        cap := if s'.cap ≤ s'.places.length then s'.cap * 3 else s'.cap }, false)
  | .del id => if id ∈ s.places ∨ id ∈ making then some ({ s with dead := id :: s.dead }, false) else none
  | .refresh => some ({ s with
      visible := refill (fun id => id ∉ s.dead) s.places, pending := [], dead := s.dead.filter (fun id => id ∈ making) }, false)
  | .clear => some ({ s with visible := [], pending := [], dead := s.dead.filter (fun id => id ∈ making) }, false)
  | .reserve n => if s.cap < n then some ({ s with cap := n }, false) else none

def acts (making : List Nat) (s : Seq) : List Act → Option (Seq × Bool)
  | [] => some (s, false)
  | a :: as =>
    match act making s a with
    | none => none
    | some (s', true) => some (s', true)
    | some (s', false) => acts making s' as
end

mutual
/-- For programs that only create: the numbers of the objects that come to exist, in the order in which their constructors end, where `n` is
the number of the first. -/
def ended (n : Nat) : Act → List Nat
  | .make body throws _ => if throws || leaves body then endeds (n + 1) body else endeds (n + 1) body ++ [n]
  | _ => []

def endeds (n : Nat) : List Act → List Nat
  | [] => []
  | a :: as => if leave a then ended n a else ended n a ++ endeds (n + begun a) as

/-- How many constructors begin. -/
def begun : Act → Nat
  | .make body _ _ => 1 + beguns body
  | _ => 0

def beguns : List Act → Nat
  | [] => 0
  | a :: as => if leave a then begun a else begun a + beguns as

/-- An exception leaves the statement. -/
def leave : Act → Bool
  | .make body throws caught => (throws || leaves body) && !caught
  | _ => false

def leaves : List Act → Bool
  | [] => false
  | a :: as => leave a || leaves as
end

mutual
/-- The program only creates. -/
def Creates : Act → Prop
  | .make body _ _ => AllCreate body
  | _ => False

def AllCreate : List Act → Prop
  | [] => True
  | a :: as => Creates a ∧ AllCreate as
end

end Spec

end Verif.Manager.Ctor
