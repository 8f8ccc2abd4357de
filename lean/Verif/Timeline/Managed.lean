import Verif.Timeline.Model
import Verif.Manager.Model

/-!
# Timeline managers

Source: `include/SSVUtils/Timeline/Inc/TimelineManager.hpp`, `Src/TimelineManager.cpp`. The manager of the timelines is the
one of `Verif.Manager`; the timeline behind an identity is kept beside it. Actions that use the manager itself are not modelled.
-/

namespace Verif.Timeline

open Verif Verif.Manager

variable {F : Type} (o : Ops F) (env : List Event → Nat → Bool)

/-- A manager with its timelines, and everything that happened. -/
structure TM (F : Type) where
  mgr : Mgr
  tl : Nat → TL F
  log : List Event

/-- Changes one timeline. -/
def setTL (tl : Nat → TL F) (id : Nat) (t : TL F) : Nat → TL F := fun j => if j = id then t else tl j

/-- `if(t->isFinished()) timelines.del(*t)`, TimelineManager.cpp:19. -/
def delIf (m : Mgr) (b : Bool) (id : Nat) : Outcome Mgr := if b then m.del id else .ok m

/-- The range-for of `update`, TimelineManager.cpp:16-20, from position `i`, `n` positions to go. -/
def visit (fuel : Nat) (ft : F) : (i n : Nat) → TM F → Outcome (TM F)
  | _, 0, tm => .ok tm
  | i, n + 1, tm => do
    let id ← tm.mgr.slotAt i
    let _ ← tm.mgr.getBool id
    let (t, log) ← update o env fuel (tm.tl id) tm.log ft
    let tm := { tm with tl := setTL tm.tl id t, log := log }
    let mgr ← delIf tm.mgr t.finished id
    visit fuel ft (i + 1) n { tm with mgr := mgr }

/-- `update`, TimelineManager.cpp:12-21. -/
def TM.update (fuel : Nat) (tm : TM F) (ft : F) : Outcome (TM F) := do
  let mgr ← tm.mgr.refresh
  visit o env fuel ft 0 mgr.msize { tm with mgr := mgr }

/-- `create`, TimelineManager.cpp:22-25: a started timeline. -/
def TM.create (tm : TM F) : Outcome (TM F × Nat) := do
  let (mgr, id) ← tm.mgr.create
  pure ({ tm with mgr := mgr, tl := setTL tm.tl id (TL.init o true) }, id)

/-- `clear`, TimelineManager.cpp:26-29. -/
def TM.clear (tm : TM F) : Outcome (TM F) := do
  let mgr ← tm.mgr.clear
  pure { tm with mgr := mgr }

/-- The user changes a timeline through the reference `create` returned. -/
def TM.edit (tm : TM F) (id : Nat) (f : TL F → TL F) : Outcome (TM F) := do
  let _ ← tm.mgr.getBool id
  pure { tm with tl := setTL tm.tl id (f (tm.tl id)) }

/-- What a user does. -/
inductive TOp (F : Type) where
  | create
  | edit (id : Nat) (f : TL F → TL F)
  | update (ft : F)
  | clear

def tstep (fuel : Nat) (tm : TM F) : TOp F → Outcome (TM F)
  | .create => do let (tm, _) ← tm.create o; pure tm
  | .edit id f => tm.edit id f
  | .update ft => tm.update o env fuel ft
  | .clear => tm.clear

def trun (fuel : Nat) (tm : TM F) : List (TOp F) → Outcome (TM F)
  | [] => .ok tm
  | x :: xs => do let tm ← tstep o env fuel tm x; trun fuel tm xs

/-- A history that starts with a new manager. -/
def trunFresh (fuel : Nat) (xs : List (TOp F)) : Outcome (TM F) := do
  let mgr ← Mgr.init
  trun o env fuel ⟨mgr, fun _ => TL.init o true, []⟩ xs

end Verif.Timeline
