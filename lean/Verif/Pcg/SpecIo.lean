import Verif.Pcg.Spec

/-!
# Specification of seeding
-/

namespace Verif.Pcg.Spec

/-- The number whose little-endian 32-bit words are `words`. -/
def number : List (BitVec 32) → Nat
  | [] => 0
  | v :: vs => v.toNat + 2 ^ 32 * number vs

/-- The `i`-th group of `d` bits of a number, from the low end. -/
def piece (d i n : Nat) : Nat := n / 2 ^ (d * i) % 2 ^ d

/-- A seed sequence: it delivers as many words as it is asked for. -/
def SeedSeq (gen : Nat → List (BitVec 32)) : Prop := ∀ k, (gen k).length = k

/-- The sizes of the integer types. -/
def IntSize (d : Nat) : Prop := d = 8 ∨ d = 16 ∨ d = 32 ∨ d = 64 ∨ d = 128

end Verif.Pcg.Spec
