import Verif.Pcg.Spec
import Mathlib.Data.Set.Card
import Mathlib.Algebra.BigOperators.Intervals

/-!
# Specification of drawing below a bound and of shuffling

A source that delivers given values, and the sets of sequences of draws that lead to a result.
-/

namespace Verif.Pcg.Spec

/-- The source that delivers the values of a list, one after the other. When they are used up, it
delivers zeros and its state is `none`. -/
def pop : Option (List (BitVec x)) → BitVec x × Option (List (BitVec x))
  | some (v :: vs) => (v, some vs)
  | _ => (0#x, none)

/-- The `n`-th value of a source, counted from 0. -/
def value (rng : S → BitVec x × S) (s : S) (n : Nat) : BitVec x :=
  (rng ((fun t => (rng t).2)^[n] s)).1

/-- The state of a source after `n` values. -/
def after (rng : S → BitVec x × S) (s : S) (n : Nat) : S := (fun t => (rng t).2)^[n] s

/-- The sequences of `m` draws that are used up exactly by `run`, which then returns `a`. -/
def leading (run : Option (List (BitVec x)) → Outcome (α × Option (List (BitVec x)))) (m : Nat)
    (a : α) : Set (List (BitVec x)) :=
  {ds | ds.length = m ∧ run (some ds) = .ok (a, some [])}

/-- From the state `s` on, the source delivers a value from the upper half of its range in every `fuel`
draws. -/
def Fair (rng : S → BitVec x × S) (fuel : Nat) (s : S) : Prop :=
  ∀ k, ∃ n < fuel, 2 ^ x ≤ 2 * (value rng s (k + n)).toNat

end Verif.Pcg.Spec
