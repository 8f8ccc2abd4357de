import Verif.Timeline.Spec

/-!
# Timelines whose actions and predicates throw

Source: as in `Model.lean`. The functions held by `Do` (Do.cpp:21-25) and by `WaitWhile`/`WaitUntil` (Wait.hpp:39-43) may throw; the
exception leaves `update` (Timeline.cpp:53-68, no `try`), is caught by the caller, and the timeline is updated again later.

`thr r log n` says whether the effect `n` throws instead of happening, in the `r`-th update after `log` has happened; `thrP` is the same for
predicates, `env` gives their answers. (Inside one update `log` differs from question to question.) The result says whether the
update was left by an exception. Simplifications: those of `Model.lean`.
-/

namespace Verif.Timeline.Throw

open Verif

variable {F : Type} (o : Ops F) (env : List Event → Nat → Bool) (thr thrP : List Event → Nat → Bool)

/-- The steps of an action, up to the first that throws. -/
def runActs (t : TL F) (log : List Event) : List Act → TL F × List Event × Bool
  | [] => (t, log, false)
  | .emit n :: as => if thr log n then (t, log, true) else runActs t (log ++ [.emit n]) as
  | .stop :: as => runActs t.stop log as
  | .start :: as => runActs t.start log as
  | .jumpTo i :: as => runActs (t.jumpTo i) log as
  | .reset :: as => runActs t.reset log as

/-- `commands[cIdx]->update(ft)`: Do.cpp:21-25 (`next` is not called if the action throws), Wait.hpp:39-43 (`ready` is `false` by the
time the predicate throws); `Wait` and `Go` as in `Model.lean`. -/
def exec (t : TL F) (log : List Event) (ft : F) : Outcome (TL F × List Event × Bool) := do
  let (_, c) ← t.current
  match c with
  | .act as =>
    let (t, log, x) := runActs thr t log as
    if x then .ok (t, log, true)
    else
      let t ← t.next
      .ok (t, log, false)
  | .waitLoop w p =>
    let t := { t with ready := false }
    if thrP log p then .ok (t, log, true)
    else
      let answer := env log p
      let log := log ++ [.asked p]
      if answer ≠ w then
        let t ← t.next
        .ok (t, log, false)
      else .ok (t, log, false)
  | _ =>
    let (t, log) ← Timeline.exec o env t log ft
    .ok (t, log, false)

/-- The loop of `update`, Timeline.cpp:58-67. -/
def loop : Nat → TL F → List Event → F → Outcome (TL F × List Event × Bool)
  | 0, _, _, _ => .diverge
  | fuel + 1, t, log, ft =>
    if t.cIdx = -1 then .ok (t.stop, log, false)
    else do
      let (t, log, x) ← exec o env thr thrP t log (o.add ft t.remainder)
      if x then .ok (t, log, true)
      else
        let t := { t with remainder := o.zero }
        if t.ready then loop fuel t log ft else .ok (t, log, false)

/-- `update`, Timeline.cpp:53-68. -/
def update (fuel : Nat) (t : TL F) (log : List Event) (ft : F) : Outcome (TL F × List Event × Bool) :=
  if t.finished then .ok (t, log, false) else loop o env thr thrP fuel { t with ready := true } log ft

/-- Several updates, from the `r`-th on; exceptions are caught. The flags say which were left by one. -/
def updates (env thr thrP : Nat → List Event → Nat → Bool) (fuel : Nat) : Nat → TL F → List Event → List F → Outcome (TL F × List Event × List Bool)
  | _, t, log, [] => .ok (t, log, [])
  | r, t, log, ft :: fts => do
    let (t, log, x) ← update o (env r) (thr r) (thrP r) fuel t log ft
    let (t, log, xs) ← updates env thr thrP fuel (r + 1) t log fts
    .ok (t, log, x :: xs)

namespace Spec

/-- `Tried emits k es a`: the commands `0, …, k - 1` have been completed in this order, and `es` are the effects so far. Each command, also the
`k`-th, has been tried and given up any number of times before, `a` times in all; an attempt given up had some of the effects
of the command, from the first on, but not all. -/
inductive Tried (emits : Nat → List Nat) : Nat → List Nat → Nat → Prop
  | start : Tried emits 0 [] 0
  | done {k es a} : Tried emits k es a → Tried emits (k + 1) (es ++ emits k) a
  | failed {k es a} (p : List Nat) : Tried emits k es a → p <+: emits k → p ≠ emits k → Tried emits k (es ++ p) (a + 1)

end Spec

end Verif.Timeline.Throw
