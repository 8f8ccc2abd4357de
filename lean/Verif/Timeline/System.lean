import Verif.Timeline.Spec

/-!
# Timelines that drive other timelines

Source: as in `Model.lean`. Several timelines; the action of a `Do` (Do.cpp:21-25) may call `stop`, `start`, `jumpTo`, `reset` and
`update` of any of them, also of its own timeline while that is being updated.

The actions and commands are those of `Model.lean`. What is a visible effect there may now be calls of timelines: `react i n` is what
the effect `n` of timeline `i` calls. Simplifications: those of `Model.lean`; the predicates of a timeline know what happened to that
timeline (so they may give another answer every time they are asked, but the model does not say how it depends on other
timelines); no timeline is destroyed or moved, and no command added, while one is being updated.
-/

namespace Verif.Timeline.System

open Verif

/-- A call of a timeline. -/
inductive Call (F : Type) where
  | stop | start
  | jumpTo (i : Int)
  | reset
  | update (ft : F)
  deriving Repr, DecidableEq

/-- What is seen from outside: the effects of actions, and the calls. -/
inductive Ev (F : Type) where
  | effect (i n : Nat)
  | call (j : Nat) (c : Call F)
  deriving Repr, DecidableEq

/-- All timelines (Timeline.hpp:39-42), what happened to each, and all effects and calls in their order. -/
structure Sys (F : Type) where
  tl : Nat → TL F
  log : Nat → List Event
  trace : List (Ev F)

variable {F : Type} (o : Ops F) (env : Nat → List Event → Nat → Bool) (react : Nat → Nat → List (Nat × Call F))

/-- Timeline `i` becomes `t`, with `l` as what happened to it. -/
def Sys.put (s : Sys F) (i : Nat) (t : TL F) (l : List Event) : Sys F :=
  { s with tl := fun j => if j = i then t else s.tl j, log := fun j => if j = i then l else s.log j }

/-- A call, recorded; `upd` is `update`. Timeline.cpp:32-40, 47-51, 70-75. -/
def call (upd : Nat → Sys F → F → Outcome (Sys F)) (s : Sys F) (j : Nat) (c : Call F) : Outcome (Sys F) :=
  let s := { s with trace := s.trace ++ [.call j c] }
  match c with
  | .stop => .ok (s.put j (s.tl j).stop (s.log j))
  | .start => .ok (s.put j (s.tl j).start (s.log j))
  | .jumpTo i => .ok (s.put j ((s.tl j).jumpTo i) (s.log j))
  | .reset => .ok (s.put j (s.tl j).reset (s.log j))
  | .update ft => upd j s ft

/-- Calls one after the other. -/
def calls (upd : Nat → Sys F → F → Outcome (Sys F)) : Sys F → List (Nat × Call F) → Outcome (Sys F)
  | s, [] => .ok s
  | s, (j, c) :: cs => do
    let s ← call upd s j c
    calls upd s cs

/-- The steps of an action of timeline `i`. -/
def runActs (upd : Nat → Sys F → F → Outcome (Sys F)) (i : Nat) : Sys F → List Act → Outcome (Sys F)
  | s, [] => .ok s
  | s, .emit n :: as => do
    let s := s.put i (s.tl i) (s.log i ++ [.emit n])
    let s ← calls upd { s with trace := s.trace ++ [.effect i n] } (react i n)
    runActs upd i s as
  | s, .stop :: as => runActs upd i (s.put i (s.tl i).stop (s.log i)) as
  | s, .start :: as => runActs upd i (s.put i (s.tl i).start (s.log i)) as
  | s, .jumpTo k :: as => runActs upd i (s.put i ((s.tl i).jumpTo k) (s.log i)) as
  | s, .reset :: as => runActs upd i (s.put i (s.tl i).reset (s.log i)) as

/-- `commands[cIdx]->update(ft)` of timeline `i`: Do.cpp:21-25; the other commands as in `Model.lean`. -/
def exec (upd : Nat → Sys F → F → Outcome (Sys F)) (i : Nat) (s : Sys F) (ft : F) : Outcome (Sys F) := do
  let (_, c) ← (s.tl i).current
  match c with
  | .act as =>
    let s ← runActs react upd i s as
    let t ← (s.tl i).next
    .ok (s.put i t (s.log i))
  | _ =>
    let (t, l) ← Timeline.exec o (env i) (s.tl i) (s.log i) ft
    .ok (s.put i t l)

/-- The loop of `update` of timeline `i`, Timeline.cpp:58-67. -/
def loop : Nat → Nat → Sys F → F → Outcome (Sys F)
  | 0, _, _, _ => .diverge
  | fuel + 1, i, s, ft =>
    if (s.tl i).cIdx = -1 then .ok (s.put i (s.tl i).stop (s.log i))
    else do
      let s ← exec o env react (fun j s ft =>
        if (s.tl j).finished then .ok s else loop fuel j (s.put j { s.tl j with ready := true } (s.log j)) ft) i s (o.add ft (s.tl i).remainder)
      let s := s.put i { s.tl i with remainder := o.zero } (s.log i)
      if (s.tl i).ready then loop fuel i s ft else .ok s

/-- `update` of timeline `i`, Timeline.cpp:53-68. -/
def update (fuel : Nat) (i : Nat) (s : Sys F) (ft : F) : Outcome (Sys F) :=
  if (s.tl i).finished then .ok s else loop o env react fuel i (s.put i { s.tl i with ready := true } (s.log i)) ft

/-- A program that calls timelines. -/
def run (fuel : Nat) (s : Sys F) (cs : List (Nat × Call F)) : Outcome (Sys F) := calls (update o env react fuel) s cs

/-! ## What should happen -/

namespace Spec

/-- The calls of timeline `j`. -/
def callsOf (j : Nat) (es : List (Ev F)) : List (Call F) :=
  es.filterMap (fun e => match e with | .call k c => if k = j then some c else none | _ => none)

/-- The effects of timeline `j`. -/
def effectsOf (j : Nat) (es : List (Ev F)) : List Nat :=
  es.filterMap (fun e => match e with | .effect k n => if k = j then some n else none | _ => none)

/-- A timeline alone in the world gets some calls; its effects call nothing. -/
def alone (env : List Event → Nat → Bool) (fuel : Nat) : TL F → List Event → List (Call F) → Outcome (TL F × List Event)
  | t, l, [] => .ok (t, l)
  | t, l, .stop :: cs => alone env fuel t.stop l cs
  | t, l, .start :: cs => alone env fuel t.start l cs
  | t, l, .jumpTo i :: cs => alone env fuel (t.jumpTo i) l cs
  | t, l, .reset :: cs => alone env fuel t.reset l cs
  | t, l, .update ft :: cs => do
    let (t, l) ← Timeline.update o env fuel t l ft
    alone env fuel t l cs

mutual
  /-- Calls one after the other; during an update the timeline has effects. -/
  inductive Calls : List (Nat × Call F) → List (Ev F) → Prop
    | nil : Calls [] []
    | other {j c cs es} : (∀ ft, c ≠ .update ft) → Calls cs es → Calls ((j, c) :: cs) (.call j c :: es)
    | update {j ft cs ds es} : Effects j ds → Calls cs es → Calls ((j, .update ft) :: cs) (.call j (.update ft) :: ds ++ es)
  /-- Effects of one timeline; every effect makes its calls at once. -/
  inductive Effects : Nat → List (Ev F) → Prop
    | nil {i} : Effects i []
    | cons {i n ds es} : Calls (react i n) ds → Effects i es → Effects i (.effect i n :: ds ++ es)
end

/-- Timelines of higher rank drive those of lower rank. -/
def Layered (rank : Nat → Nat) : Prop := ∀ i n, ∀ c ∈ react i n, rank c.1 < rank i

end Spec

end Verif.Timeline.System
