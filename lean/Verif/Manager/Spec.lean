import Verif.Manager.Model

/-!
# What a user of a memory manager may rely on

An abstract manager: three duplicate-free lists of object identities. It knows nothing about slots,
indices or the compaction loop.
-/

namespace Verif.Manager

/-- Abstract manager.
* `next`    - number of objects created so far; the next object gets identity `next`;
* `visible` - objects visited by iteration;
* `pending` - objects created since the last refresh;
* `dead`    - objects passed to `del` since the last refresh;
* `cap`     - storage capacity (only matters as precondition of `reserve`). -/
structure Abs where
  next : Nat
  visible : List Nat
  pending : List Nat
  dead : List Nat
  cap : Nat
  deriving Repr, DecidableEq

def Abs.init : Abs := { next := 0, visible := [], pending := [], dead := [], cap := 25 }

/-- All objects that exist (have been constructed and not yet destroyed). -/
def Abs.existing (a : Abs) : List Nat := a.visible ++ a.pending

/-- One call on the abstract manager; `none` means the caller broke a precondition: `del` of an
object that does not exist (any more), or `reserve` to a capacity that is not larger. -/
def Abs.step (a : Abs) : Op → Option Abs
  | .create => some { a with
      next := a.next + 1, pending := a.pending ++ [a.next],
      cap := if a.cap ≤ a.existing.length then a.cap * 3 else a.cap }
  | .del id => if id ∈ a.existing then some { a with dead := id :: a.dead } else none
  | .refresh => some { a with
      visible := a.existing.filter (fun id => id ∉ a.dead), pending := [], dead := [] }
  | .clear => some { a with visible := [], pending := [], dead := [] }
  | .reserve n => if a.cap < n then some { a with cap := n } else none

def Abs.run (a : Abs) : List Op → Option Abs
  | [] => some a
  | o :: os => (a.step o).bind (·.run os)

/-- The history `os`, started on a fresh manager, respects the preconditions and leads to `a`. -/
def Legal (os : List Op) (a : Abs) : Prop := Abs.init.run os = some a

/-! ## The order of the objects -/

/-- Fills the places of the objects without `f` with the objects `ys`, in order. -/
def fillGaps (f : Nat → Bool) : (xs ys : List Nat) → List Nat
  | [], _ => []
  | x :: xs, ys =>
    if f x then x :: fillGaps f xs ys
    else match ys with
      | [] => fillGaps f xs []
      | y :: ys => y :: fillGaps f xs ys

/-- The objects that stay, in their new order: as many places as objects stay; those with a place among them keep it, the others fill the
gaps, the last one first. -/
def refill (f : Nat → Bool) (l : List Nat) : List Nat :=
  let n := (l.filter f).length
  fillGaps f (l.take n) ((l.drop n).filter f).reverse

/-- The same manager with the order of the objects: `visible` in the order of iteration. -/
structure Seq where
  next : Nat
  visible : List Nat
  pending : List Nat
  dead : List Nat
  cap : Nat
  deriving Repr, DecidableEq

def Seq.init : Seq := { next := 0, visible := [], pending := [], dead := [], cap := 25 }

/-- All objects, in the order of their places. -/
def Seq.places (s : Seq) : List Nat := s.visible ++ s.pending

/-- One call; `none` means the caller broke a precondition, as above. -/
def Seq.step (s : Seq) : Op → Option Seq
  | .create => some { s with
      next := s.next + 1, pending := s.pending ++ [s.next],
      cap := if s.cap ≤ s.places.length then s.cap * 3 else s.cap }
  | .del id => if id ∈ s.places then some { s with dead := id :: s.dead } else none
  | .refresh => some { s with visible := refill (fun id => id ∉ s.dead) s.places, pending := [], dead := [] }
  | .clear => some { s with visible := [], pending := [], dead := [] }
  | .reserve n => if s.cap < n then some { s with cap := n } else none

def Seq.run (s : Seq) : List Op → Option Seq
  | [] => some s
  | o :: os => (s.step o).bind (·.run os)

end Verif.Manager
