import Verif.Basic

/-!
# Recycling vectors whose objects' constructors use the vector

`create` and `createAt` of a recycling vector run the constructor of the object, user code that may use the same vector. Source:
`BaseRecVector`, ManagerImpl.hpp:83-140, `getCreateEmplace` and `getCreateEmplaceAt`, RecyclerImpl.hpp:66-88.

`createAt` calls `mContainer.emplace(std::begin(mContainer) + mIdx, create<T>(...))`: the position and the object are two arguments of
one call, and C++ does not say which is computed first. Both orders are modelled. What `std::vector` does to iterators is modelled as the
standard words it: growing beyond the capacity and `clear` invalidate all of them, inserting without growing those at or behind the
place, which includes the end. Memory is the subject of C06 and C126 and is left out; so are destructors with effects.
-/

namespace Verif.RecVec.Ctor

open Verif

/-- A statement. `make pos body throws caught` is `create` (`pos = none`) or `createAt(pos)` of an object whose constructor executes
`body` and then throws or not; `caught`: an exception that leaves this statement is caught there. -/
inductive Act where
  | make (pos : Option Nat) (body : List Act) (throws caught : Bool)
  | reset (i : Nat)
  | clear
  | reserve (n : Nat)

/-- A vector: its items (an object or null), its capacity, the positions held by the `createAt` calls in progress, innermost first (`none`:
the iterator is not valid any more), the number of the next object, and the objects destroyed, last first. -/
structure V where
  items : List (Option Nat)
  cap : Nat
  its : List (Option Nat)
  next : Nat
  gone : List Nat
  deriving Repr, DecidableEq

/-- The constructor, ManagerImpl.hpp:88-91. -/
def V.init : V := ⟨[], 25, [], 0, []⟩

/-- `std::vector::emplace` at a position, and `emplace_back` at the end; `grow` is the growth policy of the library. -/
def V.emplace (grow : Nat → Nat) (v : V) (p id : Nat) : Outcome V :=
  if v.items.length < p then .ub
  else
    .ok { v with
      items := v.items.insertIdx p (some id)
      cap := if v.items.length < v.cap then v.cap else grow v.cap
      its := if v.items.length < v.cap then v.its.map (Option.bind · (fun i => if p ≤ i then none else some i))
        else v.its.map (fun _ => none) }

mutual
/-- One statement; `true`: an exception leaves it. `first`: the position is computed before the object. -/
def act (grow : Nat → Nat) (first : Bool) (v : V) : Act → Outcome (V × Bool)
  -- `create`, ManagerImpl.hpp:99-103, RecyclerImpl.hpp:69-74
  | .make none body throws caught => do
    let id := v.next
    let (v, e) ← acts grow first { v with next := v.next + 1 } body
    if e || throws then return (v, !caught)
    let v ← v.emplace grow v.items.length id
    return (v, false)
  -- `createAt`, ManagerImpl.hpp:105-110, RecyclerImpl.hpp:81-88
  | .make (some i) body throws caught => do
    let id := v.next
    if first then
      if v.items.length < i then .ub
      else do
        let (v, e) ← acts grow first { v with next := v.next + 1, its := some i :: v.its } body
        let pos := v.its.head?
        let v := { v with its := v.its.tail }
        if e || throws then return (v, !caught)
        match pos with
        | some (some i) =>
          let v ← v.emplace grow i id
          return (v, false)
        | _ => .ub
    else do
      let (v, e) ← acts grow first { v with next := v.next + 1 } body
      if e || throws then return (v, !caught)
      let v ← v.emplace grow i id
      return (v, false)
  -- `v[i].reset()`, ManagerImpl.hpp:112-115
  | .reset i =>
    match v.items[i]? with
    | none => .ub
    | some none => .ok (v, false)
    | some (some id) => .ok ({ v with items := v.items.set i none, gone := id :: v.gone }, false)
  -- `clear`, ManagerImpl.hpp:122-125
  | .clear => .ok ({ v with
      items := [], its := v.its.map (fun _ => none), gone := (v.items.filterMap id).reverse ++ v.gone }, false)
  -- `reserve`, ManagerImpl.hpp:118-121
  | .reserve n => .ok (if v.cap < n then { v with cap := n, its := v.its.map (fun _ => none) } else v, false)

/-- Statements, up to the first that an exception leaves. -/
def acts (grow : Nat → Nat) (first : Bool) (v : V) : List Act → Outcome (V × Bool)
  | [] => .ok (v, false)
  | a :: as => do
    let (v, e) ← act grow first v a
    if e then return (v, true)
    acts grow first v as
end

/-- A program that starts with a new vector. -/
def runFresh (grow : Nat → Nat) (first : Bool) (as : List Act) : Outcome (V × Bool) := acts grow first V.init as

namespace Spec

/-- What can happen to the storage of a vector: an insertion at a place, `clear`, a `reserve` beyond the capacity. -/
inductive Ev where
  | ins (p : Nat)
  | wipe
  | moved
  deriving DecidableEq, Repr

/-- The user's view of a vector: a sequence; and the events so far. -/
structure Seq where
  items : List (Option Nat)
  cap : Nat
  next : Nat
  gone : List Nat
  log : List Ev
  deriving DecidableEq, Repr

def Seq.init : Seq := ⟨[], 25, 0, [], []⟩

/-- A position `i` computed when the vector had `n` items and the capacity `c` can still be used after the events `es`: nothing has happened,
or it is not the end and there were only insertions, all behind it, and there was room for all of them. -/
def Survives (i n c : Nat) (es : List Ev) : Prop :=
  es = [] ∨ (i < n ∧ n + es.length ≤ c ∧ ∀ e ∈ es, ∃ p, e = .ins p ∧ i < p)

instance (i n c : Nat) (es : List Ev) : Decidable (Survives i n c es) := by
  have : DecidablePred (fun e : Ev => ∃ p, e = .ins p ∧ i < p) := fun e =>
    match e with
    | .ins p => if h : i < p then .isTrue ⟨p, rfl, h⟩ else .isFalse (by rintro ⟨q, hq, h'⟩; cases hq; exact h h')
    | .wipe => .isFalse (by rintro ⟨q, hq, -⟩; cases hq)
    | .moved => .isFalse (by rintro ⟨q, hq, -⟩; cases hq)
  unfold Survives; infer_instance

/-- The object gets its place `p`. -/
def Seq.insert (grow : Nat → Nat) (s : Seq) (p id : Nat) : Seq :=
  { s with
    items := s.items.take p ++ some id :: s.items.drop p
    cap := if s.items.length < s.cap then s.cap else grow s.cap
    log := s.log ++ [.ins p] }

mutual
/-- One statement. An object is put into the sequence when its constructor ends: at the end as it is then, or at the place asked for, which
must exist then. If the position is computed first, it must exist before the constructor too and survive it. -/
def act (grow : Nat → Nat) (first : Bool) (s : Seq) : Act → Option (Seq × Bool)
  | .make pos body throws caught =>
    if first = true ∧ pos.any (s.items.length < ·) then none
    else
      match acts grow first { s with next := s.next + 1 } body with
      | none => none
      | some (s', e) =>
        if e || throws then some (s', !caught)
        else
          match pos with
          | none => some (s'.insert grow s'.items.length s.next, false)
          | some i =>
            if i ≤ s'.items.length ∧ (first = true → Survives i s.items.length s.cap (s'.log.drop s.log.length)) then
              some (s'.insert grow i s.next, false)
            else none
  | .reset i =>
    match s.items[i]? with
    | none => none
    | some none => some (s, false)
    | some (some id) => some ({ s with items := s.items.set i none, gone := id :: s.gone }, false)
  | .clear => some ({ s with items := [], gone := (s.items.filterMap id).reverse ++ s.gone, log := s.log ++ [.wipe] }, false)
  | .reserve n => some (if s.cap < n then { s with cap := n, log := s.log ++ [.moved] } else s, false)

def acts (grow : Nat → Nat) (first : Bool) (s : Seq) : List Act → Option (Seq × Bool)
  | [] => some (s, false)
  | a :: as =>
    match act grow first s a with
    | none => none
    | some (s', true) => some (s', true)
    | some (s', false) => acts grow first s' as
end

end Spec

end Verif.RecVec.Ctor
