import Verif.PcgExt.Model
import Verif.Pcg.Spec

/-!
# Specification of the extended generators

A generator that is called again and again; the parameters for which the library is written.
-/

namespace Verif.PcgExt.Spec

open Verif Verif.Pcg Verif.Pcg.Spec

variable {w x : Nat}

/-- The number of bits at the low end of the state that never change: two for engines without an increment. -/
def fixedBits (p : Par w) : Nat := if p.mcg then 2 else 0

/-- The parameters of an extended generator that the code is written for: engines with proper multipliers and increments, for the
table an engine with an increment whose output function can be undone and keeps zero, and sizes that fit into the state. -/
structure WellFormed (c : Cfg w x) : Prop where
  base : Good c.base
  ext : Good c.ext
  lcg : c.ext.mcg = false
  unout : ∀ v, c.eunout (c.eout v) = .ok v
  zero : c.eout 0#x = 0#x
  table : c.tablePow2 + fixedBits c.base ≤ w
  tick : c.mayTick = true → c.advancePow2 + fixedBits c.base ≤ w
  top : c.kdd = false → 0 < c.tablePow2 ∧ 0 < c.advancePow2

/-- The objects: a state of the base engine and a full table. -/
structure Valid (c : Cfg w x) (g : Gen w x) : Prop where
  state : Reach c.base g.s
  size : g.data.length = c.tableSize

/-- The states in which a call advances the table: the low `advance_pow2` bits, not counting those that never change, are zero. -/
def OnTick (c : Cfg w x) (s : BitVec w) : Prop := s.toNat / 2 ^ fixedBits c.base % 2 ^ c.advancePow2 = 0

/-- The state in which all bits that can change are zero. -/
def OnZero (c : Cfg w x) (s : BitVec w) : Prop := s.toNat / 2 ^ fixedBits c.base = 0

/-- The generator after `n` calls. -/
def afterCalls (c : Cfg w x) : Nat → Gen w x → Outcome (Gen w x)
  | 0, g => .ok g
  | n + 1, g => do let (_, g) ← call c g; afterCalls c n g

/-- What `n` calls return. -/
def results (c : Cfg w x) : Nat → Gen w x → Outcome (List (BitVec x))
  | 0, _ => .ok []
  | n + 1, g => do let (y, g) ← call c g; let ys ← results c n g; return y :: ys

/-- The period is `2 ^ p`: after `n` calls the generator is as it was exactly if `2 ^ p` divides `n`. -/
def HasPeriod (c : Cfg w x) (p : Nat) : Prop := ∀ g, Valid c g → ∀ n, afterCalls c n g = .ok g ↔ 2 ^ p ∣ n

/-- Calling `set` with each of the values. -/
def sets (c : Cfg w x) : List (BitVec x) → Gen w x → Outcome (Gen w x)
  | [], g => .ok g
  | y :: ys, g => do let g ← set c y g; sets c ys g

/-- A call in state `s` leaves the table alone. -/
def Quiet (c : Cfg w x) (s : BitVec w) : Prop := (c.mayTick = true → ¬ OnTick c s) ∧ (w < 64 → ¬ OnZero c s)

end Verif.PcgExt.Spec
