import Verif.Range.Model

/-! # What iterating means -/

namespace Verif.Range

open Verif

variable {α S : Type}

/-- `f` on the elements of a list one after the other; the first failure ends it. -/
def visit (f : α → S → Outcome S) : List α → S → Outcome S
  | [], s => .ok s
  | x :: xs, s => (f x s).bind (visit f xs)

/-- How far a move goes. -/
def dist : Op → Int
  | .inc => 1
  | .postInc => 1
  | .dec => -1
  | .postDec => -1
  | .add k => k
  | .sub k => -k

/-- Where the moves lead. -/
def total (ops : List Op) : Int := (ops.map dist).sum

/-- No move leaves a container with `n` elements. -/
def Inside (n : Nat) (p : Nat) (ops : List Op) : Prop :=
  ∀ k, k ≤ ops.length → 0 ≤ (p : Int) + total (ops.take k) ∧ (p : Int) + total (ops.take k) ≤ n

/-- Writes down what it is called with. -/
def note (x : α) (l : List α) : Outcome (List α) := .ok (l ++ [x])

end Verif.Range
