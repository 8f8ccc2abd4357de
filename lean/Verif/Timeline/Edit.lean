import Verif.Timeline.Model

/-!
# Timelines whose actions change the timeline

Source: as in `Model.lean`; `append`, `insert` and `clear` (Timeline.hpp:44-68, Timeline.cpp:41-46) called by the action of a `Do`
of the same timeline (Do.cpp:21-25).

Here a `Do` holds the name of its action. What the action does may depend on the timeline (an action can ask for its size and
position) and on everything that happened before; it is given by `prog` as a list of steps. So actions can add commands with
the same action again, which finite lists of steps could not. The commands are owned by pointers: adding one never moves
the command that is running. The other simplifications are those of `Model.lean`.
-/

namespace Verif.Timeline.Edit

open Verif

/-- Commands; `act` holds the name of the action. -/
inductive ECmd (F : Type) where
  | act (name : Nat)
  | wait (time cur : F)
  | waitLoop (while_ : Bool) (pred : Nat)
  | go (target : Int) (times cur : Nat)
  deriving Repr, DecidableEq

/-- A step of an action. -/
inductive EAct (F : Type) where
  | emit (n : Nat)
  | stop | start
  | jumpTo (i : Int)
  | reset
  | append (c : ECmd F)
  | insert (i : Int) (c : ECmd F)
  | clear
  deriving Repr, DecidableEq

/-- What happens: events as in `Model.lean`, and `ran a` when an action starts. -/
inductive EEvent where
  | ev (e : Event)
  | ran (name : Nat)
  deriving Repr, DecidableEq

/-- The members, Timeline.hpp:39-42. `alive` says whether the command that is running has not been destroyed. -/
structure ETL (F : Type) where
  cmds : List (ECmd F)
  cIdx : Int
  remainder : F
  ready : Bool
  finished : Bool
  alive : Bool
  deriving Repr, DecidableEq

variable {F : Type} (o : Ops F) (env : List EEvent → Nat → Bool) (prog : ETL F → List EEvent → Nat → List (EAct F))

/-- `stop`, Timeline.cpp:47-51. -/
def ETL.stop (t : ETL F) : ETL F := { t with finished := true, ready := false }

/-- `start`, Timeline.cpp:36-40. -/
def ETL.start (t : ETL F) : ETL F := { t with finished := false, ready := true }

/-- The constructor, Timeline.cpp:27-30. -/
def ETL.init (start : Bool) : ETL F :=
  let t : ETL F := ⟨[], -1, o.zero, true, false, true⟩
  if !start then t.stop else t

/-- `jumpTo`, Timeline.cpp:32-35. -/
def ETL.jumpTo (t : ETL F) (i : Int) : ETL F := { t with cIdx := i }

/-- `clear`, Timeline.cpp:41-46: all commands are destroyed, the running one too. -/
def ETL.clear (t : ETL F) : ETL F := { t with cmds := [], cIdx := -1, finished := true, alive := false }

/-- `next`, Timeline.cpp:18-25. -/
def ETL.next (t : ETL F) : Outcome (ETL F) :=
  if t.cIdx = -1 then .ok t
  else
    let i := t.cIdx + 1
    if i < 0 ∨ (t.cmds.length : Int) < i then .ub
    else .ok { t with cIdx := if i = t.cmds.length then -1 else i }

/-- `reset` of a command: Command.cpp:18-20, Wait.cpp:26-29, Go.hpp:40-43. -/
def ECmd.reset : ECmd F → ECmd F
  | .act a => .act a
  | .wait time _ => .wait time time
  | .waitLoop w p => .waitLoop w p
  | .go target times _ => .go target times times

/-- `reset`, Timeline.cpp:70-75. -/
def ETL.reset (t : ETL F) : ETL F :=
  let t := t.start
  { t with cmds := t.cmds.map ECmd.reset, cIdx := if t.cmds.isEmpty then -1 else 0 }

/-- `insert` / `insertImpl`, Timeline.hpp:44-52, 64-68. -/
def ETL.insert (t : ETL F) (i : Int) (c : ECmd F) : Outcome (ETL F) :=
  if i < 0 ∨ (t.cmds.length : Int) < i then .ub
  else
    let t := { t with cmds := t.cmds.insertIdx i.toNat c }
    .ok (if t.cIdx = -1 then { t with cIdx := i } else t)

/-- `append`, Timeline.hpp:59-63. -/
def ETL.append (t : ETL F) (c : ECmd F) : Outcome (ETL F) := t.insert t.cmds.length c

/-- The steps of an action. -/
def runSteps : ETL F → List EEvent → List (EAct F) → Outcome (ETL F × List EEvent)
  | t, log, [] => .ok (t, log)
  | t, log, .emit n :: as => runSteps t (log ++ [.ev (.emit n)]) as
  | t, log, .stop :: as => runSteps t.stop log as
  | t, log, .start :: as => runSteps t.start log as
  | t, log, .jumpTo i :: as => runSteps (t.jumpTo i) log as
  | t, log, .reset :: as => runSteps t.reset log as
  | t, log, .clear :: as => runSteps t.clear log as
  | t, log, .append c :: as => do
    let t ← t.append c
    runSteps t log as
  | t, log, .insert i c :: as => do
    let t ← t.insert i c
    runSteps t log as

/-- `commands[cIdx]`. -/
def ETL.current (t : ETL F) : Outcome (Nat × ECmd F) :=
  if t.cIdx < 0 then .ub
  else match t.cmds[t.cIdx.toNat]? with
    | none => .ub
    | some c => .ok (t.cIdx.toNat, c)

/-- `commands[cIdx]->update(ft)`: Do.cpp:21-25 (the member `timeline` of the command is used after the action: undefined if the command
has been destroyed), Wait.cpp:14-24, Wait.hpp:39-43, Go.hpp:23-39. -/
def exec (t : ETL F) (log : List EEvent) (ft : F) : Outcome (ETL F × List EEvent) := do
  let (i, c) ← t.current
  match c with
  | .act a =>
    let (t, log) ← runSteps { t with alive := true } (log ++ [.ran a]) (prog t log a)
    if !t.alive then .ub
    else do
      let t ← t.next
      pure (t, log)
  | .wait time cur =>
    let t := { t with ready := false }
    let cur := o.sub cur ft
    if o.pos cur then pure ({ t with cmds := t.cmds.set i (.wait time cur) }, log)
    else
      let t := { t with remainder := cur }
      let t ← t.next
      pure ({ t with cmds := t.cmds.set i (.wait time time) }, log)
  | .waitLoop w p =>
    let t := { t with ready := false }
    let answer := env log p
    let log := log ++ [.ev (.asked p)]
    if answer ≠ w then
      let t ← t.next
      pure (t, log)
    else pure (t, log)
  | .go target times cur =>
    if cur = 0 then
      let t ← t.next
      pure (t, log ++ [.ev (.passed i)])
    else
      let t := { t with cmds := t.cmds.set i (.go target times (cur - 1)) }
      pure (t.jumpTo target, log ++ [.ev (.jumped i)])

/-- The loop of `update`, Timeline.cpp:58-67, at most `fuel` commands. -/
def loop : Nat → ETL F → List EEvent → F → Outcome (ETL F × List EEvent)
  | 0, _, _, _ => .diverge
  | fuel + 1, t, log, ft =>
    if t.cIdx = -1 then .ok (t.stop, log)
    else do
      let (t, log) ← exec o env prog t log (o.add ft t.remainder)
      let t := { t with remainder := o.zero }
      if t.ready then loop fuel t log ft else .ok (t, log)

/-- `update`, Timeline.cpp:53-68. -/
def update (fuel : Nat) (t : ETL F) (log : List EEvent) (ft : F) : Outcome (ETL F × List EEvent) :=
  if t.finished then .ok (t, log) else loop o env prog fuel { t with ready := true } log ft

end Verif.Timeline.Edit
