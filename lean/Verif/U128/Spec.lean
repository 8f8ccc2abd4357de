import Verif.U128.Model

/-!
# Specification of the wide integers

A `uint_x4` stands for the number `v0 + 2^w v1 + 2^(2w) v2 + 2^(3w) v3`, where every word is below `2^w`. Every operation is compared
with the arithmetic of natural numbers modulo `2^(4w)`.
-/

namespace Verif.U128.Spec

open Verif.U128

/-- The number meant. -/
def val (w : Nat) (v : X4) : Nat := v.v0 + 2 ^ w * v.v1 + 2 ^ (2 * w) * v.v2 + 2 ^ (3 * w) * v.v3

/-- Every word fits in `w` bits. -/
def Valid (w : Nat) (v : X4) : Prop := v.v0 < 2 ^ w ∧ v.v1 < 2 ^ w ∧ v.v2 < 2 ^ w ∧ v.v3 < 2 ^ w

instance (w : Nat) (v : X4) : Decidable (Valid w v) := by unfold Valid; infer_instance

/-- `v` is the number `n` of `4w` bits. -/
def Is (w : Nat) (v : X4) (n : Nat) : Prop := Valid w v ∧ val w v = n

instance (w : Nat) (v : X4) (n : Nat) : Decidable (Is w v n) := by unfold Is; infer_instance

/-- `k` is the number of zero bits below the lowest one of `n`. -/
def Trailing (n k : Nat) : Prop := 2 ^ k ∣ n ∧ ¬ 2 ^ (k + 1) ∣ n

/-- `k` is the logarithm of `n` rounded down, and rounded up. -/
def FloorLog (n k : Nat) : Prop := 2 ^ k ≤ n ∧ n < 2 ^ (k + 1)

def CeilLog (n k : Nat) : Prop := n ≤ 2 ^ k ∧ ∀ j, n ≤ 2 ^ j → k ≤ j

end Verif.U128.Spec
