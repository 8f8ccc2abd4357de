import Verif.Ieee.Nearest

/-! # Rounding near powers of two -/

namespace Verif.Clock

open Verif.Ieee Verif.Ieee.Spec

theorem pow_grid {F : Fmt} {k : ℤ} (hk : F.qmin ≤ k) : (2 : ℝ) ^ k ∈ Grid F := by
  refine ⟨1, k, ?_, hk, by simp⟩
  rw [abs_one]
  exact one_le_pow₀ (by norm_num)

theorem fl_pow {F : Fmt} (hp : 1 ≤ F.p) {k : ℤ} (hk : F.qmin ≤ k) : F.fl (2 ^ k) = 2 ^ k := fl_exact hp (pow_grid hk)

/-- Half a unit above a power of two is rounded down to it. -/
theorem fl_above {F : Fmt} (hp : 2 ≤ F.p) {k : ℤ} (hk : F.qmin + F.p ≤ k + 1) {x : ℝ} (hx : x ≤ 2 ^ k + 2 ^ (k - F.p)) :
    F.fl x ≤ 2 ^ k := by
  refine (fl_mono (by omega) hx).trans (le_of_eq ?_)
  have hlt : (2 : ℝ) ^ (k - (F.p : ℤ)) < 2 ^ k := zpow_lt_zpow_right₀ (by norm_num) (by omega)
  have hl : Int.log 2 |(2 : ℝ) ^ k + 2 ^ (k - (F.p : ℤ))| = k := by
    apply log_eq
    · linarith [two_pos (k - (F.p : ℤ))]
    · rw [zpow_add_one₀ (by norm_num)]; linarith
  have hu : F.ulpExp (2 ^ k + 2 ^ (k - (F.p : ℤ))) = k + 1 - F.p := by
    unfold Fmt.ulpExp
    rw [hl]
    omega
  obtain ⟨n, hn⟩ : ∃ n : ℕ, F.p = n + 2 := ⟨F.p - 2, by omega⟩
  have hd : ((2 : ℝ) ^ k + 2 ^ (k - (F.p : ℤ))) / 2 ^ (k + 1 - (F.p : ℤ)) = ((2 ^ (n + 1) : ℤ) : ℝ) + 1 / 2 := by
    rw [div_eq_iff (two_pos _).ne', add_mul, pow_cast]
    congr 1
    · congr 1; push_cast; omega
    · rw [show k + 1 - (F.p : ℤ) = (k - F.p) + 1 by ring, zpow_add_one₀ (by norm_num)]; ring
  have hr : rne (((2 ^ (n + 1) : ℤ) : ℝ) + 1 / 2) = 2 ^ (n + 1) := by
    have hf : ⌊((2 ^ (n + 1) : ℤ) : ℝ) + 1 / 2⌋ = 2 ^ (n + 1) := by
      rw [Int.floor_intCast_add]
      norm_num
    unfold rne
    rw [hf, if_neg (by linarith), if_neg (by linarith), if_pos (by rw [pow_succ]; exact even_two.mul_left _)]
  unfold Fmt.fl
  rw [hu, hd, hr, pow_cast]
  congr 1
  push_cast
  omega

/-- Half a unit below a power of two is rounded up to it. -/
theorem fl_below {F : Fmt} (hp : 1 ≤ F.p) {k : ℤ} (hk : F.qmin + F.p ≤ k) {x : ℝ} (hx : 2 ^ k - 2 ^ (k - F.p - 1) ≤ x) :
    2 ^ k ≤ F.fl x := by
  refine le_trans (le_of_eq ?_) (fl_mono hp hx)
  have hlt : (2 : ℝ) ^ (k - (F.p : ℤ) - 1) ≤ 2 ^ (k - 1) := two_mono (by omega)
  have h2 : (2 : ℝ) ^ k = 2 * 2 ^ (k - 1) := by
    rw [← zpow_one_add₀ (by norm_num)]; congr 1; ring
  have hl : Int.log 2 |(2 : ℝ) ^ k - 2 ^ (k - (F.p : ℤ) - 1)| = k - 1 := by
    apply log_eq
    · linarith [two_pos (k - (F.p : ℤ))]
    · rw [sub_add_cancel]; linarith [two_pos (k - (F.p : ℤ) - 1)]
  have hu : F.ulpExp (2 ^ k - 2 ^ (k - (F.p : ℤ) - 1)) = k - F.p := by
    unfold Fmt.ulpExp
    rw [hl]
    omega
  obtain ⟨n, hn⟩ : ∃ n : ℕ, F.p = n + 1 := ⟨F.p - 1, by omega⟩
  have hd : ((2 : ℝ) ^ k - 2 ^ (k - (F.p : ℤ) - 1)) / 2 ^ (k - (F.p : ℤ)) = ((2 ^ F.p - 1 : ℤ) : ℝ) + 1 / 2 := by
    rw [div_eq_iff (two_pos _).ne']
    have e1 : (2 : ℝ) ^ k = 2 ^ F.p * 2 ^ (k - (F.p : ℤ)) := by
      rw [← zpow_natCast, ← zpow_add₀ (by norm_num)]; congr 1; ring
    have e2 : (2 : ℝ) ^ (k - (F.p : ℤ)) = 2 * 2 ^ (k - (F.p : ℤ) - 1) := by
      rw [← zpow_one_add₀ (by norm_num)]; congr 1; ring
    rw [e1]
    push_cast
    rw [add_mul, sub_mul, e2]
    ring
  have hr : rne (((2 ^ F.p - 1 : ℤ) : ℝ) + 1 / 2) = 2 ^ F.p := by
    have hf : ⌊((2 ^ F.p - 1 : ℤ) : ℝ) + 1 / 2⌋ = 2 ^ F.p - 1 := by
      rw [Int.floor_intCast_add]
      norm_num
    unfold rne
    rw [hf, if_neg (by linarith), if_neg (by linarith), if_neg ?_]
    · ring
    · rw [hn, pow_succ, Int.not_even_iff_odd]
      exact ⟨2 ^ n - 1, by ring⟩
  unfold Fmt.fl
  rw [hu, hd, hr, pow_cast]
  congr 1
  ring

/-- The error near numbers smaller than a power of two. -/
theorem fl_err_below {F : Fmt} {k : ℤ} (hk : F.qmin + F.p ≤ k) {x : ℝ} (hx : |x| < 2 ^ k) : |F.fl x - x| ≤ 2 ^ (k - (F.p : ℤ)) / 2 := by
  by_cases h0 : x = 0
  · rw [h0, fl_zero, sub_self, abs_zero]
    linarith [two_pos (k - (F.p : ℤ))]
  refine (fl_half F x).trans ?_
  have : F.ulpExp x ≤ k - F.p := by
    unfold Fmt.ulpExp
    have h1 := log_le h0
    have h2 : Int.log 2 |x| < k := by
      by_contra hc
      exact absurd (two_mono (not_lt.1 hc)) (by linarith)
    omega
  have := two_mono this
  linarith

end Verif.Clock
