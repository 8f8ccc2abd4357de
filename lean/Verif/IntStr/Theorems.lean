import Verif.IntStr.Lemmas
import Mathlib.Tactic.ByContra
import Mathlib.Tactic.Common

/-!
# C37: `toStr` of integers

The full property (every value of every integer type gives its decimal notation) is false: the conversion
buffer has `digits10` characters, which is one digit and a sign too few. `C37_toStr_partial` gives the result for
*every* value: the decimal notation within `safeLo .. safeHi`, and a write outside the buffer otherwise.
-/

namespace Verif.IntStr

open Verif

/-- The values for which the conversion stays inside its buffer. -/
def safeLo : IntType → Int
  | .short => -999
  | .int => -99999999
  | .long | .longLong => -99999999999999999
  | _ => 0

def safeHi : IntType → Int
  | .short | .ushort => 9999
  | .int | .uint => 99999999
  | .long | .longLong | .ulong | .ulongLong => 999999999999999999

theorem natText_length_le {n k : Nat} (h : 0 < k) : (natText n).length ≤ k ↔ n < 10 ^ k :=
  Nat.length_toDigits_le_iff (by omega) h

/-- C37: for every type, every value and every previous content of the buffer, `toStr` gives the decimal notation
of the value if it lies in the safe range, and writes outside the buffer if it does not. -/
theorem C37_toStr_partial (t : IntType) (buf : List Char) (hb : buf.length = t.bufferSize) (v : Int)
    (hv : t.InRange v) :
    toStr t buf v = if safeLo t ≤ v ∧ v ≤ safeHi t then .ok (intText v) else .ub := by
  obtain ⟨hlo, hhi⟩ := hv
  have l1 := @natText_length_le v.natAbs
  have hpos : 0 < (natText v.natAbs).length := Nat.length_toDigits_pos
  by_cases hneg : v < 0
  · have hs : t.signed = true := by
      by_contra hs
      rw [if_neg hs] at hlo; omega
    rw [toStr, if_pos ⟨hs, hneg⟩, intText, if_pos hneg]
    have e : v = -(v.natAbs : Int) := by omega
    conv_lhs => rw [e]
    rw [convNeg_eq _ _ (by omega), hb]
    congr 1
    have l3 := l1 (k := 3) (by omega)
    have l8 := l1 (k := 8) (by omega)
    have l17 := l1 (k := 17) (by omega)
    cases t <;> first
      | (exfalso; revert hs; simp [IntType.signed]; done)
      | (simp only [IntType.bufferSize, safeLo, safeHi, eq_iff_iff]; omega)
  · rw [toStr, if_neg (by simp [hneg]), intText, if_neg hneg]
    have e : v = (v.natAbs : Int) := by omega
    conv_lhs => rw [e]
    rw [convNonneg_eq, hb]
    congr 1
    have l4 := l1 (k := 4) (by omega)
    have l8 := l1 (k := 8) (by omega)
    have l18 := l1 (k := 18) (by omega)
    cases t <;> simp only [IntType.bufferSize, safeLo, safeHi, eq_iff_iff] <;> omega

/-- C37: the texts identify the numbers: reading one back as a decimal numeral gives the value. -/
theorem C37_text_parses_back (v : Int) : parse (intText v) = v := by
  have h := @Nat.ofDigitChars_ten_toDigits v.natAbs
  unfold intText natText
  split
  · simp only [parse, h]; omega
  · rename_i hn
    have : ∀ ds : List Char, (∀ r, ds ≠ '-' :: r) → parse ds = Nat.ofDigitChars 10 ds 0 := by
      intro ds hds
      unfold parse
      split
      · rename_i r; exact absurd rfl (hds r)
      · rfl
    rw [this, h]
    · omega
    · intro r e
      have hm : '-' ∈ Nat.toDigits 10 v.natAbs := by rw [e]; exact List.mem_cons_self
      have := Nat.isDigit_of_mem_toDigits (by omega) (by omega) hm
      exact absurd this (by decide)

/-- C37: within the safe range the result does not depend on what earlier calls left in the buffer. -/
theorem C37_independent_of_earlier_calls (t : IntType) (b₁ b₂ : List Char) (h₁ : b₁.length = t.bufferSize)
    (h₂ : b₂.length = t.bufferSize) (v : Int) (hv : t.InRange v) : toStr t b₁ v = toStr t b₂ v := by
  rw [C37_toStr_partial t b₁ h₁ v hv, C37_toStr_partial t b₂ h₂ v hv]

/-- The property is false of the code: each type has values whose conversion writes outside the buffer. -/
theorem C37_every_type_overruns (t : IntType) (buf : List Char) (hb : buf.length = t.bufferSize) :
    ∃ v, t.InRange v ∧ toStr t buf v = .ub := by
  refine ⟨2 ^ t.bits - 1, ?_, ?_⟩
  · cases t <;> simp [IntType.InRange, IntType.signed, IntType.bits]
  · rw [C37_toStr_partial t buf hb _ (by cases t <;> simp [IntType.InRange, IntType.signed, IntType.bits])]
    cases t <;> simp [safeLo, safeHi, IntType.bits]

/-! Concrete cases meeting the hypotheses. -/

example : toStr .int (List.replicate 9 'x') (-1234567) = .ok "-1234567".toList := by
  rw [C37_toStr_partial .int _ (by rfl) _ (by simp [IntType.InRange, IntType.signed, IntType.bits])]
  decide +kernel

example : toStr .long (List.replicate 18 'x') 100 = .ok "100".toList := by decide +kernel
example : toStr .int (List.replicate 9 'x') 100000000 = .ub := by decide +kernel
example : toStr .short (List.replicate 4 'x') (-1000) = .ub := by decide +kernel
example : toStr .short (List.replicate 4 'x') (-999) = .ok "-999".toList := by decide +kernel

end Verif.IntStr
