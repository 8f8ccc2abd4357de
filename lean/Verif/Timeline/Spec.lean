import Verif.Timeline.Model
import Mathlib.Algebra.Order.Field.Rat
import Mathlib.Algebra.BigOperators.Group.List.Basic
import Mathlib.Data.List.Infix

/-!
# What timelines should do
-/

namespace Verif.Timeline

variable {F : Type}

/-- Exact arithmetic. -/
def exact : Ops ℚ := ⟨0, (· + ·), (· - ·), fun a => decide (0 < a)⟩

/-- The visible effects of a command, when it is a `Do`. -/
def Cmd.emits : Cmd F → List Nat
  | .act as => as.filterMap (fun a => match a with | .emit n => some n | _ => none)
  | _ => []

def Cmd.isDo : Cmd F → Bool
  | .act _ => true
  | _ => false

/-- The visible effects so far. -/
def emitted (log : List Event) : List Nat :=
  log.filterMap (fun e => match e with | .emit n => some n | _ => none)

/-- An action that leaves the timeline alone. -/
def Act.isEmit : Act → Bool
  | .emit _ => true
  | _ => false

/-- A command that neither jumps nor controls the timeline from an action. -/
def Cmd.Simple : Cmd F → Prop
  | .act as => ∀ a ∈ as, a.isEmit = true
  | .go _ _ _ => False
  | _ => True

/-- Does not reset the timeline from an action. -/
def Cmd.NoReset : Cmd F → Prop
  | .act as => ∀ a ∈ as, a ≠ .reset
  | _ => True

/-- Actions leave the timeline alone, and jumps lead to one of `n` commands. -/
def Cmd.Tame (n : Nat) : Cmd F → Prop
  | .act as => ∀ a ∈ as, a.isEmit = true
  | .go target _ _ => 0 ≤ target ∧ target < n
  | _ => True

/-- As constructed: Wait.hpp:24-27, Go.hpp:44-47. -/
def Cmd.Fresh : Cmd F → Prop
  | .wait time cur => cur = time
  | .go _ times cur => cur = times
  | _ => True

/-- Jumps a command may still make. -/
def Cmd.jumps : Cmd F → Nat
  | .go _ _ cur => cur
  | _ => 0

/-- How often something happened. -/
def times (e : Event) (log : List Event) : Nat := log.count e

/-- The current index when `k` of `n` commands are done. -/
def indexAt (n k : Nat) : Int := if k = n then -1 else k

end Verif.Timeline
