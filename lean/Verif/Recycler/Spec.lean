import Verif.Recycler.Model

/-!
# Specification side of the recyclers: which histories are legal

The user sees recyclers and objects. `owner i` is the recycler that owns object `i` (`none` after its
destruction); moving a recycler moves ownership. The documented rule (RecyclerImpl.hpp:34-35) is that a
recycler is destroyed after all its objects.
-/

namespace Verif.Recycler

/-- `PolyFixedRecycler<TBase, Ts...>` lists the types it can make; `fixed` has their sizes. -/
inductive Kind where
  | mono
  | poly
  | fixed (sizes : List Nat)
  deriving Repr, DecidableEq

/-- Which types a recycler can make. -/
def Kind.makes (base : Ty) (t : Ty) : Kind → Bool
  | .mono => t = base
  | .poly => true
  | .fixed sizes => t.size ∈ sizes

/-- Recyclers that keep their free blocks in members of their own, not in nodes elsewhere. -/
def Kind.inPlace : Kind → Bool
  | .mono => true
  | .poly => false
  | .fixed _ => true

/-- `recs[r]` is the kind of recycler `r`, `none` once destroyed. `objs[i]` is owner and dynamic type of
object `i`, `none` once destroyed. -/
structure Abs where
  recs : List (Option Kind)
  objs : List (Option (Nat × Ty))
  deriving Repr, DecidableEq

def Abs.init : Abs := { recs := [], objs := [] }

/-- Recycler `r` owns no object. -/
def Abs.unused (a : Abs) (r : Nat) : Bool :=
  a.objs.all fun o => match o with | some (r', _) => r' != r | none => true

/-- Replace owner `r` by `n`. -/
def Abs.reown (a : Abs) (r n : Nat) : List (Option (Nat × Ty)) :=
  a.objs.map fun o => o.map fun (r', t) => (if r' = r then n else r', t)

/-- Legal use, independent of how memory is organised. A monomorphic recycler only creates `TBase`, one with a fixed list the
types listed; a `delete` names the dynamic type of the object; recyclers are destroyed or move-assigned to only when
they own nothing. -/
def Abs.step (base : Ty) (a : Abs) : Op → Option Abs
  | .newMono => some { a with recs := a.recs ++ [some .mono] }
  | .newPoly => some { a with recs := a.recs ++ [some .poly] }
  | .newFixed sizes => some { a with recs := a.recs ++ [some (.fixed sizes)] }
  | .create r t =>
    match a.recs[r]? with
    | some (some k) => if k.makes base t then some { a with objs := a.objs ++ [some (r, t)] } else none
    | _ => none
  | .delete i t =>
    match a.objs[i]? with
    | some (some (_, t')) => if t = t' then some { a with objs := a.objs.set i none } else none
    | _ => none
  | .move r =>
    match a.recs[r]? with
    | some (some k) => some { recs := a.recs ++ [some k], objs := a.reown r a.recs.length }
    | _ => none
  | .moveAssign d r =>
    match a.recs[d]?, a.recs[r]? with
    | some (some k), some (some k') =>
      if d ≠ r ∧ k = k' ∧ a.unused d then some { a with objs := a.reown r d } else none
    | _, _ => none
  | .destroyRec r =>
    match a.recs[r]? with
    | some (some _) => if a.unused r then some { a with recs := a.recs.set r none } else none
    | _ => none
  | .createThrow r t =>
    match a.recs[r]? with
    | some (some k) => if k.makes base t then some { a with objs := a.objs ++ [none] } else none
    | _ => none

def Abs.run (base : Ty) (a : Abs) : List Op → Option Abs
  | [] => some a
  | o :: os => (a.step base o).bind (·.run base os)

/-- The history `os` is legal and leads to `a`. -/
def Legal (cfg : Cfg) (os : List Op) (a : Abs) : Prop := Abs.init.run cfg.base os = some a

/-! ### Moving recyclers that work in place

A deleter refers to the recycler its object was created by. Moving a recycler that is monomorphic or has a fixed list of types
does not change that, so the rule above (ownership moves along) is only kept when there is nothing to own; what the code does
is described by `stepStay`. -/

/-- Recycler `r` exists and works in place. -/
def Abs.inPlace (a : Abs) (r : Nat) : Bool :=
  match a.recs[r]? with
  | some (some k) => k.inPlace
  | _ => false

/-- This operation does not move from a recycler that works in place and owns live objects. -/
def Abs.movesEmpty (a : Abs) : Op → Bool
  | .move r => !a.inPlace r || a.unused r
  | .moveAssign _ r => !a.inPlace r || a.unused r
  | _ => true

/-- In this history a recycler that works in place owns no live object whenever it is moved from. -/
def Abs.movedEmpty (base : Ty) (a : Abs) : List Op → Bool
  | [] => true
  | o :: os => a.movesEmpty o &&
    match a.step base o with
    | some a' => a'.movedEmpty base os
    | none => true

/-- Legal use when objects stay with the recycler that made them if it works in place: moving one moves its spare blocks
only. -/
def Abs.stepStay (base : Ty) (a : Abs) (o : Op) : Option Abs :=
  match o with
  | .move r =>
    if a.inPlace r then some { a with recs := a.recs ++ [(a.recs[r]?).join] } else a.step base (.move r)
  | .moveAssign d r =>
    if a.inPlace r ∧ a.recs[d]? = a.recs[r]? then some a else a.step base (.moveAssign d r)
  | o => a.step base o

def Abs.runStay (base : Ty) (a : Abs) : List Op → Option Abs
  | [] => some a
  | o :: os => (a.stepStay base o).bind (·.runStay base os)

def LegalStay (cfg : Cfg) (os : List Op) (a : Abs) : Prop := Abs.init.runStay cfg.base os = some a

/-- This operation is not a move assignment from a recycler that works in place. -/
def Abs.notAssign (a : Abs) : Op → Bool
  | .moveAssign _ r => !a.inPlace r
  | _ => true

/-- In this history no recycler that works in place is assigned to by moving another one. -/
def Abs.noAssign (base : Ty) (a : Abs) : List Op → Bool
  | [] => true
  | o :: os => a.notAssign o &&
    match a.stepStay base o with
    | some a' => a'.noAssign base os
    | none => true

end Verif.Recycler
