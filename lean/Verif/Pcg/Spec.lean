import Verif.Pcg.Model
import Mathlib.Logic.Function.Iterate
import Mathlib.Data.Fintype.Card

/-!
# Specification of the random-number engine

Stated on natural numbers, with the iteration of one step of the recurrence.
-/

namespace Verif.Pcg.Spec

/-- One step of the linear congruential recurrence `s ↦ a s + c (mod m)`. -/
def step (a c m s : Nat) : Nat := (a * s + c) % m

/-- `n` steps. -/
def steps (a c m n s : Nat) : Nat := (step a c m)^[n] s

/-- The parameters of an engine that the code uses: a multiplier that is 5 modulo 8, and either an odd
increment, or no increment with `mcg` set. -/
structure Good {w : Nat} (p : Par w) : Prop where
  mult : p.mult.toNat % 8 = 5
  inc : if p.mcg then p.inc.toNat = 0 else p.inc.toNat % 2 = 1

/-- The states the engine can be in: all of them, or those that end in two one bits. -/
def Reach {w : Nat} (p : Par w) (s : BitVec w) : Prop := p.mcg = true → s.toNat % 4 = 3

/-- The number of states of an engine. -/
def period {w : Nat} (p : Par w) : Nat := if p.mcg then 2 ^ (w - 2) else 2 ^ w

end Verif.Pcg.Spec
