import Verif.Ticker.Model
import Mathlib.Algebra.Order.Field.Rat
import Mathlib.Algebra.BigOperators.Group.List.Basic

/-!
# What a ticker should report, in terms of the calls seen so far
-/

namespace Verif.Ticker

variable {F : Type}

/-- Exact arithmetic. -/
def exact : Ops ℚ := ⟨0, (· + ·), fun a b => if b then a else 0, fun a b => decide (a < b)⟩

/-- Did the call report a tick? -/
def Seen.ticked (s : Seen F) : Bool := s.result == some true

/-- The frame time that counts for a call: that of an update while the ticker was running. -/
def Seen.time (s : Seen ℚ) : ℚ :=
  match s.op with
  | .update ft => if s.wasRunning then ft else 0
  | .updateTo ft _ => if s.wasRunning then ft else 0
  | _ => 0

/-- Does the time to the next tick start over with this call? -/
def Seen.restarts (s : Seen F) : Bool :=
  s.ticked ||
  match s.op with
  | .stop | .restart | .restartTo _ | .resetCurrent | .resetAll => true
  | _ => false

def Seen.clearsTicks (s : Seen F) : Bool :=
  match s.op with
  | .resetTicks | .resetAll => true
  | _ => false

def Seen.clearsTotal (s : Seen F) : Bool :=
  match s.op with
  | .resetTotal | .resetAll => true
  | _ => false

/-- The calls after the last one with the property (all calls if there is none). -/
def since (p : Seen F → Bool) (h : List (Seen F)) : List (Seen F) := (h.reverse.takeWhile (fun s => !p s)).reverse

/-- The target in force after the calls. -/
def targetAfter (first : F) (h : List (Seen F)) : F :=
  h.foldl (fun t s => match s.op with | .updateTo _ t' => t' | .restartTo t' => t' | _ => t) first

/-- The loop flag in force after the calls. -/
def loopAfter (h : List (Seen F)) : Bool :=
  h.foldl (fun b s => match s.op with | .setLoop b' => b' | _ => b) true

end Verif.Ticker
