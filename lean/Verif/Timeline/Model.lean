import Verif.Basic

/-!
# Timelines

Source: `include/SSVUtils/Timeline/Inc/*.hpp`, `Src/*.cpp`.

`FT` is `float`: the model is written for any type with the operations the code uses. Indices (`int`) are unbounded. A `Do`
action is a list of steps: visible effects, and calls of the timeline it belongs to (`stop`, `start`, `jumpTo`, `reset`; actions
that add or clear commands are in `Edit.lean`). Predicates of `WaitWhile`/`WaitUntil` are answered by an environment that knows
everything that happened before. The recycling vector that owns the commands is a list here (`Verif.Recycler` models it); `TimelineManager` is in `Managed.lean`.
-/

namespace Verif.Timeline

open Verif

/-- The operations on `FT`: `0.f`, `a + b`, `a - b`, `a > 0`. -/
structure Ops (F : Type) where
  zero : F
  add : F → F → F
  sub : F → F → F
  pos : F → Bool

/-- A step of an action. -/
inductive Act where
  | emit (n : Nat)
  | stop | start
  | jumpTo (i : Int)
  | reset
  deriving Repr, DecidableEq

/-- Commands: `Do` (Do.hpp:16-25), `Wait` with `time` and `currentTime` (Wait.hpp:17-28), `WaitWhile`/`WaitUntil`
(Wait.hpp:32-56), `Go` with `target`, `times`, `currentTimes` (Go.hpp:16-50). -/
inductive Cmd (F : Type) where
  | act (as : List Act)
  | wait (time cur : F)
  | waitLoop (while_ : Bool) (pred : Nat)
  | go (target : Int) (times cur : Nat)
  deriving Repr, DecidableEq

/-- What happens while a timeline runs: effects of actions, calls of predicates; `jumped g`/`passed g` record what the `Go` at
position `g` did. -/
inductive Event where
  | emit (n : Nat)
  | asked (pred : Nat)
  | jumped (g : Nat)
  | passed (g : Nat)
  deriving Repr, DecidableEq

/-- The members, Timeline.hpp:39-42; `nullIdx` is `-1`. -/
structure TL (F : Type) where
  cmds : List (Cmd F)
  cIdx : Int
  remainder : F
  ready : Bool
  finished : Bool
  deriving Repr, DecidableEq

variable {F : Type} (o : Ops F) (env : List Event → Nat → Bool)

/-- `stop`, Timeline.cpp:47-51. -/
def TL.stop (t : TL F) : TL F := { t with finished := true, ready := false }

/-- `start`, Timeline.cpp:36-40. -/
def TL.start (t : TL F) : TL F := { t with finished := false, ready := true }

/-- The constructor, Timeline.cpp:27-30. -/
def TL.init (start : Bool) : TL F :=
  let t : TL F := ⟨[], -1, o.zero, true, false⟩
  if !start then t.stop else t

/-- `jumpTo`, Timeline.cpp:32-35. -/
def TL.jumpTo (t : TL F) (i : Int) : TL F := { t with cIdx := i }

/-- `clear`, Timeline.cpp:41-46. -/
def TL.clear (t : TL F) : TL F := { t with cmds := [], cIdx := -1, finished := true }

/-- `next`, Timeline.cpp:18-25. An iterator outside the vector is undefined. -/
def TL.next (t : TL F) : Outcome (TL F) :=
  if t.cIdx = -1 then .ok t
  else
    let i := t.cIdx + 1
    if i < 0 ∨ (t.cmds.length : Int) < i then .ub
    else .ok { t with cIdx := if i = t.cmds.length then -1 else i }

/-- `reset` of a command: Command.cpp:18-20, Wait.cpp:26-29, Go.hpp:40-43. -/
def Cmd.reset : Cmd F → Cmd F
  | .act as => .act as
  | .wait time _ => .wait time time
  | .waitLoop w p => .waitLoop w p
  | .go target times _ => .go target times times

/-- `reset`, Timeline.cpp:70-75. -/
def TL.reset (t : TL F) : TL F :=
  let t := t.start
  { t with cmds := t.cmds.map Cmd.reset, cIdx := if t.cmds.isEmpty then -1 else 0 }

/-- The steps of an action. -/
def runActs (t : TL F) (log : List Event) : List Act → TL F × List Event
  | [] => (t, log)
  | .emit n :: as => runActs t (log ++ [.emit n]) as
  | .stop :: as => runActs t.stop log as
  | .start :: as => runActs t.start log as
  | .jumpTo i :: as => runActs (t.jumpTo i) log as
  | .reset :: as => runActs t.reset log as

/-- `commands[cIdx]`. -/
def TL.current (t : TL F) : Outcome (Nat × Cmd F) :=
  if t.cIdx < 0 then .ub
  else match t.cmds[t.cIdx.toNat]? with
    | none => .ub
    | some c => .ok (t.cIdx.toNat, c)

/-- `commands[cIdx]->update(ft)`: Do.cpp:21-25, Wait.cpp:14-24, Wait.hpp:39-43, Go.hpp:23-39 (the branch for negative counts is
never taken, the count is unsigned). -/
def exec (t : TL F) (log : List Event) (ft : F) : Outcome (TL F × List Event) := do
  let (i, c) ← t.current
  match c with
  | .act as =>
    let (t, log) := runActs t log as
    let t ← t.next
    pure (t, log)
  | .wait time cur =>
    let t := { t with ready := false }
    let cur := o.sub cur ft
    if o.pos cur then pure ({ t with cmds := t.cmds.set i (.wait time cur) }, log)
    else
      let t := { t with remainder := cur }
      let t ← t.next
      pure ({ t with cmds := t.cmds.set i (.wait time time) }, log)
  | .waitLoop w p =>
    let t := { t with ready := false }
    let answer := env log p
    let log := log ++ [.asked p]
    if answer ≠ w then
      let t ← t.next
      pure (t, log)
    else pure (t, log)
  | .go target times cur =>
    if cur = 0 then
      let t ← t.next
      pure (t, log ++ [.passed i])
    else
      let t := { t with cmds := t.cmds.set i (.go target times (cur - 1)) }
      pure (t.jumpTo target, log ++ [.jumped i])

/-- The loop of `update`, Timeline.cpp:58-67, at most `fuel` commands. -/
def loop : Nat → TL F → List Event → F → Outcome (TL F × List Event)
  | 0, _, _, _ => .diverge
  | fuel + 1, t, log, ft =>
    if t.cIdx = -1 then .ok (t.stop, log)
    else do
      let (t, log) ← exec o env t log (o.add ft t.remainder)
      let t := { t with remainder := o.zero }
      if t.ready then loop fuel t log ft else .ok (t, log)

/-- `update`, Timeline.cpp:53-68. -/
def update (fuel : Nat) (t : TL F) (log : List Event) (ft : F) : Outcome (TL F × List Event) :=
  if t.finished then .ok (t, log) else loop o env fuel { t with ready := true } log ft

/-- Several updates. -/
def updates (fuel : Nat) : TL F → List Event → List F → Outcome (TL F × List Event)
  | t, log, [] => .ok (t, log)
  | t, log, ft :: fts => do
    let (t, log) ← update o env fuel t log ft
    updates fuel t log fts

/-- `insert` / `insertImpl`, Timeline.hpp:44-52, 64-68. -/
def TL.insert (t : TL F) (i : Int) (c : Cmd F) : Outcome (TL F) :=
  if i < 0 ∨ (t.cmds.length : Int) < i then .ub
  else
    let t := { t with cmds := t.cmds.insertIdx i.toNat c }
    .ok (if t.cIdx = -1 then { t with cIdx := i } else t)

/-- `append`, Timeline.hpp:59-63. -/
def TL.append (t : TL F) (c : Cmd F) : Outcome (TL F) := t.insert t.cmds.length c

/-- Several `append`s. -/
def TL.appends (t : TL F) : List (Cmd F) → Outcome (TL F)
  | [] => .ok t
  | c :: cs => do
    let t ← t.append c
    t.appends cs

/-- `getCurrentIndex`, Timeline.cpp:85-89. -/
def TL.getCurrentIndex (t : TL F) : Int :=
  if t.cIdx = -1 then 0 else if t.cIdx < t.cmds.length then t.cIdx else -1

end Verif.Timeline
