import Verif.Angle.Spec
import Mathlib.Data.Int.Log
import Mathlib.Algebra.Order.Round

/-!
# Rounding to the nearest number with `p` binary digits

The rounding of IEEE 754 binary formats without overflow and underflow (ties are rounded up here). It
shows that the hypotheses of the theorems about rounding are met.
-/

namespace Verif.Angle

open Spec

noncomputable section

/-- Rounding to the nearest number with `p` binary digits. -/
def nearest (p : ℕ) (x : ℝ) : ℝ :=
  (round (x / 2 ^ (Int.log 2 |x| + 1 - p : ℤ)) : ℝ) * 2 ^ (Int.log 2 |x| + 1 - p : ℤ)

/-- Rounding to the nearest number with `p` binary digits is `Precise` with `u = 2^-p`. -/
theorem nearest_precise (p : ℕ) : Precise (nearest p) ((2 : ℝ) ^ (-(p : ℤ))) := by
  intro x
  by_cases hx : x = 0
  · subst hx; simp [nearest]
  · have hpos : 0 < |x| := abs_pos.mpr hx
    have hlog : (2 : ℝ) ^ (Int.log 2 |x|) ≤ |x| := by
      have := Int.zpow_log_le_self (b := 2) (by norm_num) hpos
      exact_mod_cast this
    unfold nearest
    set e : ℤ := Int.log 2 |x| + 1 - p with he
    have h2 : (0 : ℝ) < 2 ^ e := by positivity
    have h := abs_sub_round (x / 2 ^ e)
    have e1 : (round (x / 2 ^ e) : ℝ) * 2 ^ e - x = -((x / 2 ^ e - round (x / 2 ^ e)) * 2 ^ e) := by
      field_simp; ring
    rw [e1, abs_neg, abs_mul, abs_of_pos h2]
    calc |x / 2 ^ e - round (x / 2 ^ e)| * 2 ^ e ≤ 1 / 2 * 2 ^ e :=
          mul_le_mul_of_nonneg_right h h2.le
      _ = 2 ^ (-(p : ℤ)) * 2 ^ (Int.log 2 |x|) := by
          rw [he, show (Int.log 2 |x| + 1 - (p : ℤ)) = 1 + (-(p : ℤ)) + Int.log 2 |x| by ring,
            zpow_add₀ (by norm_num), zpow_add₀ (by norm_num), zpow_one]
          ring
      _ ≤ 2 ^ (-(p : ℤ)) * |x| := mul_le_mul_of_nonneg_left hlog (by positivity)

/-- It does round: with two digits, 5 becomes 6. -/
theorem nearest_rounds : nearest 2 5 ≠ 5 := by
  have h : Int.log 2 |(5 : ℝ)| = 2 := by
    rw [abs_of_pos (by norm_num)]
    have := Int.log_natCast (R := ℝ) 2 5
    have e : Nat.log 2 5 = 2 := by decide +kernel
    rw [e] at this
    exact_mod_cast this
  unfold nearest
  rw [h]
  intro hc
  norm_num at hc

theorem round_mono {a b : ℝ} (h : a ≤ b) : round a ≤ round b := by
  rw [round_eq, round_eq]
  exact Int.floor_mono (by linarith)

theorem nearest_zero (p : ℕ) : nearest p 0 = 0 := by simp [nearest]

/-- The binade of a positive number. -/
theorem nearest_binade {p : ℕ} (hp : 1 ≤ p) {x : ℝ} (hx : x ≠ 0) :
    (0 < x → (2 : ℝ) ^ (Int.log 2 |x|) ≤ nearest p x ∧ nearest p x ≤ 2 ^ (Int.log 2 |x| + 1)) ∧
    (x < 0 → -(2 : ℝ) ^ (Int.log 2 |x| + 1) ≤ nearest p x ∧ nearest p x ≤ -2 ^ (Int.log 2 |x|)) := by
  have hpos : 0 < |x| := abs_pos.mpr hx
  have l1 : (2 : ℝ) ^ (Int.log 2 |x|) ≤ |x| := by
    have := Int.zpow_log_le_self (b := 2) (by norm_num) hpos
    exact_mod_cast this
  have l2 : |x| ≤ (2 : ℝ) ^ (Int.log 2 |x| + 1) := by
    have := (Int.lt_zpow_succ_log_self (b := 2) (by norm_num) |x|).le
    exact_mod_cast this
  unfold nearest
  generalize Int.log 2 |x| = l at *
  have h2 : (0 : ℝ) < 2 ^ (l + 1 - p : ℤ) := by positivity
  have e1 : (2 : ℝ) ^ l = ((2 ^ (p - 1) : ℤ) : ℝ) * 2 ^ (l + 1 - p : ℤ) := by
    push_cast
    rw [← zpow_natCast, ← zpow_add₀ (by norm_num)]
    congr 1
    push_cast [Nat.cast_sub hp]
    ring
  have e2 : (2 : ℝ) ^ (l + 1) = ((2 ^ p : ℤ) : ℝ) * 2 ^ (l + 1 - p : ℤ) := by
    push_cast
    rw [← zpow_natCast, ← zpow_add₀ (by norm_num)]
    congr 1
    ring
  rw [e1] at l1 ⊢
  rw [e2] at l2 ⊢
  rw [← le_div_iff₀ h2] at l1
  rw [← div_le_iff₀ h2] at l2
  generalize (2 : ℝ) ^ (l + 1 - p : ℤ) = e at *
  constructor
  · intro h
    rw [abs_of_pos h] at l1 l2
    have r1 := round_mono l1
    have r2 := round_mono l2
    rw [round_intCast] at r1 r2
    exact ⟨mul_le_mul_of_nonneg_right (by exact_mod_cast r1) h2.le,
      mul_le_mul_of_nonneg_right (by exact_mod_cast r2) h2.le⟩
  · intro h
    rw [abs_of_neg h, neg_div] at l1 l2
    have r1 := round_mono (show x / e ≤ ((-2 ^ (p - 1) : ℤ) : ℝ) by push_cast at l1 ⊢; linarith)
    have r2 := round_mono (show ((-2 ^ p : ℤ) : ℝ) ≤ x / e by push_cast at l2 ⊢; linarith)
    rw [round_intCast] at r1 r2
    have r1' : (round (x / e) : ℝ) ≤ ((-2 ^ (p - 1) : ℤ) : ℝ) := by exact_mod_cast r1
    have r2' : ((-2 ^ p : ℤ) : ℝ) ≤ round (x / e) := by exact_mod_cast r2
    have s1 := mul_le_mul_of_nonneg_right r1' h2.le
    have s2 := mul_le_mul_of_nonneg_right r2' h2.le
    push_cast at s1 s2 ⊢
    constructor <;> linarith

/-- Rounding keeps the order. -/
theorem nearest_mono {p : ℕ} (hp : 1 ≤ p) : Monotone (nearest p) := by
  intro x y hxy
  have pow_mono : ∀ {i j : ℤ}, i ≤ j → (2 : ℝ) ^ i ≤ 2 ^ j := fun h => zpow_le_zpow_right₀ (by norm_num) h
  have pos : ∀ i : ℤ, (0 : ℝ) < 2 ^ i := fun i => by positivity
  by_cases hx0 : x = 0
  · by_cases hy0 : y = 0
    · rw [hx0, hy0]
    · rw [hx0, nearest_zero]
      have := (nearest_binade hp hy0).1 (lt_of_le_of_ne (hx0 ▸ hxy) (Ne.symm hy0))
      linarith [pos (Int.log 2 |y|)]
  · by_cases hy0 : y = 0
    · rw [hy0, nearest_zero]
      have := (nearest_binade hp hx0).2 (lt_of_le_of_ne (hy0 ▸ hxy) hx0)
      linarith [pos (Int.log 2 |x|)]
    · obtain ⟨bx1, bx2⟩ := nearest_binade hp hx0
      obtain ⟨by1, by2⟩ := nearest_binade hp hy0
      -- in the same binade
      have same : Int.log 2 |x| = Int.log 2 |y| → nearest p x ≤ nearest p y := by
        intro h
        unfold nearest
        rw [h]
        have h2 : (0 : ℝ) < 2 ^ (Int.log 2 |y| + 1 - p : ℤ) := by positivity
        refine mul_le_mul_of_nonneg_right ?_ h2.le
        exact_mod_cast round_mono (div_le_div_of_nonneg_right hxy h2.le)
      rcases lt_or_gt_of_ne hx0 with hx | hx
      · rcases lt_or_gt_of_ne hy0 with hy | hy
        · have hl : Int.log 2 |y| ≤ Int.log 2 |x| := by
            apply Int.log_mono_right (abs_pos.mpr hy0)
            rw [abs_of_neg hx, abs_of_neg hy]; linarith
          rcases hl.eq_or_lt with h | h
          · exact same h.symm
          · have := pow_mono (show Int.log 2 |y| + 1 ≤ Int.log 2 |x| by omega)
            linarith [(bx2 hx).2, (by2 hy).1]
        · linarith [(bx2 hx).2, (by1 hy).1, pos (Int.log 2 |x|), pos (Int.log 2 |y|)]
      · have hy : 0 < y := lt_of_lt_of_le hx hxy
        have hl : Int.log 2 |x| ≤ Int.log 2 |y| := by
          apply Int.log_mono_right (abs_pos.mpr hx0)
          rw [abs_of_pos hx, abs_of_pos hy]; exact hxy
        rcases hl.eq_or_lt with h | h
        · exact same h
        · have := pow_mono (show Int.log 2 |x| + 1 ≤ Int.log 2 |y| by omega)
          linarith [(bx1 hx).2, (by1 hy).1]

/-- Integers up to `2^p` are not rounded. -/
theorem nearest_int {p : ℕ} (hp : 1 ≤ p) (k : ℤ) (hk : |k| ≤ 2 ^ p) : nearest p k = k := by
  by_cases h0 : k = 0
  · subst h0; simp [nearest]
  · have hpos : (0 : ℝ) < |(k : ℝ)| := abs_pos.mpr (by exact_mod_cast h0)
    have l1 : (2 : ℝ) ^ (Int.log 2 |(k : ℝ)|) ≤ |(k : ℝ)| := by
      have := Int.zpow_log_le_self (b := 2) (by norm_num) hpos
      exact_mod_cast this
    have hk' : |(k : ℝ)| ≤ 2 ^ (p : ℤ) := by
      rw [zpow_natCast]; exact_mod_cast hk
    have hl : Int.log 2 |(k : ℝ)| ≤ p := by
      by_contra hc
      have : (2 : ℝ) ^ (p : ℤ) < 2 ^ (Int.log 2 |(k : ℝ)|) :=
        zpow_lt_zpow_right₀ (by norm_num) (not_le.mp hc)
      linarith
    -- the number is a multiple of the unit in the last place
    have key : ∃ m : ℤ, (k : ℝ) / 2 ^ (Int.log 2 |(k : ℝ)| + 1 - p : ℤ) = m := by
      rcases hl.lt_or_eq with h | h
      · refine ⟨k * 2 ^ (p - 1 - Int.log 2 |(k : ℝ)|).toNat, ?_⟩
        push_cast
        rw [← zpow_natCast, Int.toNat_of_nonneg (by omega), div_eq_mul_inv, ← zpow_neg]
        congr 2
        ring
      · rw [h] at l1 ⊢
        have he : |(k : ℝ)| = 2 ^ (p : ℤ) := le_antisymm hk' l1
        rw [show (p : ℤ) + 1 - p = 1 by ring, zpow_one]
        obtain ⟨q, rfl⟩ : ∃ q, p = q + 1 := ⟨p - 1, by omega⟩
        rw [zpow_natCast, pow_succ] at he
        rcases abs_choice (k : ℝ) with ha | ha
        · refine ⟨2 ^ q, ?_⟩
          push_cast
          rw [ha] at he
          rw [he]; ring
        · refine ⟨-2 ^ q, ?_⟩
          push_cast
          rw [ha] at he
          have : (k : ℝ) = -(2 ^ q * 2) := by linarith
          rw [this]; ring
    obtain ⟨m, hm⟩ := key
    unfold nearest
    have h2 : (2 : ℝ) ^ (Int.log 2 |(k : ℝ)| + 1 - p : ℤ) ≠ 0 := by positivity
    rw [hm, round_intCast, ← hm, div_mul_cancel₀ _ h2]

end

end Verif.Angle
