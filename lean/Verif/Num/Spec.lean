import Verif.Num.Model

/-!
# What the integer helpers should do
-/

namespace Verif.Num

/-- The range of a type, as numbers. -/
def Between : ITy → Int → Prop
  | .i8, x => -128 ≤ x ∧ x ≤ 127
  | .u8, x => 0 ≤ x ∧ x ≤ 255
  | .i16, x => -32768 ≤ x ∧ x ≤ 32767
  | .u16, x => 0 ≤ x ∧ x ≤ 65535
  | .i32, x => -2147483648 ≤ x ∧ x ≤ 2147483647
  | .u32, x => 0 ≤ x ∧ x ≤ 4294967295
  | .i64, x => -9223372036854775808 ≤ x ∧ x ≤ 9223372036854775807
  | .u64, x => 0 ≤ x ∧ x ≤ 18446744073709551615

instance (t : ITy) (x : Int) : Decidable (Between t x) := by
  cases t <;> (simp only [Between]; infer_instance)

/-- A value that some variable of its type can have. -/
def Val.Valid (x : Val) : Prop := Between x.ty x.v

instance (x : Val) : Decidable x.Valid := by unfold Val.Valid; infer_instance

/-- The type in which C++ computes with operands of these two types. -/
def arith (a b : ITy) : ITy :=
  if a = .u64 ∨ b = .u64 then .u64
  else if a = .i64 ∨ b = .i64 then .i64
  else if a = .u32 ∨ b = .u32 then .u32
  else .i32

/-- The types that are not promoted. -/
def Wide (t : ITy) : Prop := t = .i32 ∨ t = .u32 ∨ t = .i64 ∨ t = .u64

instance (t : ITy) : Decidable (Wide t) := by unfold Wide; infer_instance

/-- `x` is representable in every type in which an expression over three operands of these types is computed. -/
def Everywhere (t₁ t₂ t₃ : ITy) (x : Int) : Prop :=
  Between (arith t₁ t₂) x ∧ Between (arith t₂ t₃) x ∧ Between (arith (arith t₁ t₂) t₃) x

instance (t₁ t₂ t₃ : ITy) (x : Int) : Decidable (Everywhere t₁ t₂ t₃ x) := by unfold Everywhere; infer_instance

/-- `r` is the residue of `x` in the window of `n` numbers starting at `lo`. -/
def IsResidue (r x lo n : Int) : Prop := lo ≤ r ∧ r < lo + n ∧ ∃ k : Int, x = r + k * n

/-- `r` is the point of `[lo, hi]` nearest to `x`. -/
def IsNearest (r x lo hi : Int) : Prop :=
  lo ≤ r ∧ r ≤ hi ∧ (lo ≤ x → x ≤ hi → r = x) ∧
    ∀ y : Int, lo ≤ y → y ≤ hi → (x - r).natAbs ≤ (x - y).natAbs

end Verif.Num
