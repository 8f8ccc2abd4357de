import Verif.RealText.LemmasRead

/-! # There and back -/

namespace Verif.RealText

open Verif Ieee Spec Ieee.Spec

/-- What is used of the two formats: enough digits; the decimal number with six digits nearest to the largest number is below it, and
that nearest to the smallest normal number is below that one. -/
structure Dec (F : Fmt) : Prop where
  good : Good F
  digits : 2 * 10 ^ 6 < 2 ^ F.p
  zero : F.qmin + F.p + 13 ≤ 0
  qmax : 0 ≤ F.qmax
  low : -10 ^ 4 ≤ F.qmin
  high : F.qmax + F.p ≤ 10 ^ 4
  top : ∃ k j : ℤ, 10 ^ 5 ≤ k ∧ k ≤ 10 ^ 6 ∧ (k : ℝ) * 10 ^ j ≤ F.top ∧ F.top < (k + 1 / 2) * 10 ^ j
  tiny : ∃ k j : ℤ, 10 ^ 5 ≤ k ∧ k ≤ 10 ^ 6 ∧ (k : ℝ) * 10 ^ j ≤ (2 ^ (F.p - 1) - 1) * 2 ^ F.qmin ∧
    (2 : ℝ) ^ (F.qmin + F.p - 1) < (k + 1 / 2) * 10 ^ j

theorem zpow_lit (b : ℝ) (n : ℕ) : b ^ (-(n : ℤ)) = 1 / b ^ n := by rw [zpow_neg, zpow_natCast, one_div]

theorem dec32 : Dec binary32 where
  good := ⟨by decide, by decide⟩
  digits := by norm_num [binary32]
  zero := by norm_num [binary32]
  qmax := by norm_num [binary32]
  low := by norm_num [binary32]
  high := by norm_num [binary32]
  top := ⟨340282, 33, by norm_num, by norm_num, by norm_num [Fmt.top, binary32], by norm_num [Fmt.top, binary32]⟩
  tiny := ⟨117549, -43, by norm_num, by norm_num, by
    rw [show (-43 : ℤ) = -((43 : ℕ) : ℤ) by norm_num, show binary32.qmin = -((149 : ℕ) : ℤ) by norm_num [binary32], zpow_lit, zpow_lit]
    norm_num [binary32], by
    rw [show (-43 : ℤ) = -((43 : ℕ) : ℤ) by norm_num, show binary32.qmin + binary32.p - 1 = -((126 : ℕ) : ℤ) by norm_num [binary32],
      zpow_lit, zpow_lit]
    norm_num⟩

set_option exponentiation.threshold 2000 in
theorem dec64 : Dec binary64 where
  good := ⟨by decide, by decide⟩
  digits := by norm_num [binary64]
  zero := by norm_num [binary64]
  qmax := by norm_num [binary64]
  low := by norm_num [binary64]
  high := by norm_num [binary64]
  top := ⟨179769, 303, by norm_num, by norm_num, by norm_num [Fmt.top, binary64], by norm_num [Fmt.top, binary64]⟩
  tiny := ⟨222507, -313, by norm_num, by norm_num, by
    rw [show (-313 : ℤ) = -((313 : ℕ) : ℤ) by norm_num, show binary64.qmin = -((1074 : ℕ) : ℤ) by norm_num [binary64], zpow_lit, zpow_lit]
    norm_num [binary64], by
    rw [show (-313 : ℤ) = -((313 : ℕ) : ℤ) by norm_num, show binary64.qmin + binary64.p - 1 = -((1022 : ℕ) : ℤ) by norm_num [binary64],
      zpow_lit, zpow_lit]
    norm_num⟩

theorem six_odd (x : ℝ) : six (-x) = -six x := by
  unfold six
  by_cases hx : x = 0
  · simp [hx]
  · rw [if_neg hx, if_neg (neg_ne_zero.2 hx), abs_neg]
    rcases lt_or_gt_of_ne hx with h | h
    · rw [if_pos (decide_eq_true h), if_neg (by simp [h.le] : ¬ decide (-x < 0) = true)]; ring
    · rw [if_pos (by simp [h] : decide (-x < 0) = true), if_neg (by simp [h.le] : ¬ decide (x < 0) = true)]; ring

theorem six_nonneg {x : ℝ} (h : 0 ≤ x) : 0 ≤ six x := by
  unfold six
  split
  · exact le_rfl
  · rw [if_neg (by simpa using h)]; positivity

theorem six_le {b : ℝ} {k j : ℤ} (hk : 10 ^ 5 ≤ k) (hkk : k ≤ 10 ^ 6) (hk2 : (k : ℝ) * 10 ^ j ≤ b) (hb : b < (k + 1 / 2) * 10 ^ j) {x : ℝ} (hx : |x| ≤ b) :
    |six x| ≤ k * 10 ^ j := by
  wlog h0 : 0 ≤ x generalizing x
  · have := this (x := -x) (by rwa [abs_neg]) (by linarith)
    rwa [six_odd, abs_neg] at this
  rw [abs_of_nonneg h0] at hx
  rw [abs_of_nonneg (six_nonneg h0)]
  by_contra hlt
  push Not at hlt
  obtain ⟨h1, h2, -⟩ := six_nearest x
  have hkr : (10 ^ 5 : ℝ) ≤ k := by exact_mod_cast hk
  have hj := ten_pos j
  have h3 : (10 : ℝ) ^ (j + 5) ≤ |six x| := by
    rw [abs_of_nonneg (six_nonneg h0)]
    refine le_trans ?_ hlt.le
    rw [zpow_add₀ (by norm_num), mul_comm]
    exact mul_le_mul_of_nonneg_right (le_trans (by norm_num) hkr) hj.le
  obtain ⟨n, hn⟩ := six_mult h1 h3
  rw [show j + 5 - 5 = j by ring] at hn
  have h4 : k < n := by
    rw [hn] at hlt
    exact_mod_cast lt_of_mul_lt_mul_right hlt hj.le
  have h5 : ((k : ℝ) + 1) * 10 ^ j ≤ six x := by
    rw [hn]
    refine mul_le_mul_of_nonneg_right ?_ hj.le
    exact_mod_cast h4
  have h6 : Six ((k : ℝ) * 10 ^ j) := six_of (by rw [abs_of_nonneg (by omega)]; exact hkk)
  have h7 := h2 _ h6
  rw [abs_of_nonneg (by nlinarith : 0 ≤ six x - x)] at h7
  rcases le_total x ((k : ℝ) * 10 ^ j) with h8 | h8
  · rw [abs_of_nonneg (by linarith)] at h7; linarith
  · rw [abs_of_nonpos (by linarith)] at h7; linarith

theorem Dec.p {F : Fmt} (h : Dec F) : 1 ≤ F.p := h.good.p

theorem six_top {F : Fmt} (hF : Dec F) {x : ℝ} (hx : |x| ≤ F.top) : |six x| ≤ F.top := by
  obtain ⟨k, j, h1, h2, h3, h4⟩ := hF.top
  exact (six_le h1 h2 h3 h4 hx).trans h3

/-- The number read back. -/
noncomputable def back (F : Fmt) (x : ℝ) : ℝ := F.fl (six x)

theorem rnd_six {F : Fmt} (hF : Dec F) {x : ℝ} (hx : |x| ≤ F.top) : F.rnd (six x) = .fin (back F x) :=
  rnd_fin hF.good.p hF.good.q (six_top hF hx)

theorem back_num {F : Fmt} (hF : Dec F) {x : ℝ} (hx : |x| ≤ F.top) : Num F (back F x) := by
  rw [num_iff hF.good.p hF.good.q]
  exact ⟨fl_grid F _, fl_le_top hF.good.p hF.good.q (six_top hF hx)⟩

theorem rne_closer {d t : ℝ} (h : |t - rne d| ≤ |d - rne d|) : rne t = rne d := by
  by_contra hne
  have h1 := rne_abs d
  have h2 := rne_nearest t (rne d)
  rw [abs_sub_comm] at h1
  rw [abs_sub_comm t] at h
  have h4 : (1 : ℝ) ≤ |(rne t : ℝ) - rne d| := by exact_mod_cast Int.one_le_abs (sub_ne_zero.2 hne)
  have h5 : |(rne t : ℝ) - rne d| ≤ |(rne t : ℝ) - t| + |(rne d : ℝ) - t| := by
    have := abs_sub_le (rne t : ℝ) t (rne d)
    rwa [abs_sub_comm t] at this
  have h6 : |(rne d : ℝ) - t| = 1 / 2 := by linarith
  have h7 : |d - rne d| = 1 / 2 := by linarith
  have h8 : |(rne t : ℝ) - t| = 1 / 2 := by linarith
  have he1 : Even (rne t) := rne_tie (n := rne d) (fun h => hne h.symm) (by rw [h6, h8])
  have he2 : Even (rne d) := by
    rcases abs_eq (by norm_num : (0 : ℝ) ≤ 1 / 2) |>.1 h7 with h | h
    · refine rne_tie (n := rne d + 1) (by omega) ?_
      rw [abs_sub_comm (rne d : ℝ), h7]
      push_cast
      rw [show (rne d : ℝ) + 1 - d = 1 / 2 by linarith, abs_of_pos (by norm_num)]
    · refine rne_tie (n := rne d - 1) (by omega) ?_
      rw [abs_sub_comm (rne d : ℝ), h7]
      push_cast
      rw [show (rne d : ℝ) - 1 - d = -(1 / 2) by linarith, abs_neg, abs_of_pos (by norm_num)]
  have h9 : |(rne t : ℝ) - rne d| ≤ 1 := by linarith
  have h10 : |rne t - rne d| ≤ 1 := by exact_mod_cast h9
  have h11 : Even (rne t - rne d) := he1.sub he2
  obtain ⟨m, hm⟩ := h11
  rw [hm, abs_le] at h10
  have : rne t - rne d = 0 := by omega
  exact hne (by omega)

theorem fl_low {F : Fmt} {x : ℝ} (h : |x| < 2 ^ (F.qmin + F.p)) : F.fl x = rne (x / 2 ^ F.qmin) * 2 ^ F.qmin := by
  by_cases h0 : x = 0
  · rw [h0, fl_zero, zero_div, show ((0 : ℝ)) = ((0 : ℤ) : ℝ) by simp, rne_int]; simp
  · have h1 := (log_le h0).trans_lt h
    have := (zpow_lt_zpow_iff_right₀ (by norm_num : (1 : ℝ) < 2)).1 h1
    have h2 : F.ulpExp x = F.qmin := by
      unfold Fmt.ulpExp
      exact max_eq_right (by omega)
    unfold Fmt.fl
    rw [h2]

/-- Exactly the numbers nearest to a decimal number with six digits come back. -/
theorem back_of_six {F : Fmt} (hF : Dec F) {d : ℝ} (hd : Six d) : back F (F.fl d) = F.fl d := by
  unfold back
  obtain ⟨h1, h2, -⟩ := six_nearest (F.fl d)
  have h3 := h2 d hd
  by_cases ht : six (F.fl d) = d
  · rw [ht]
  by_cases hn : (2 : ℝ) ^ (F.qmin + F.p - 1) ≤ |d|
  · exfalso
    have h4 := fl_rel hn
    have h5 := six_gap h1 hd ht
    have h6 := abs_sub_le (six (F.fl d)) (F.fl d) d
    rw [abs_sub_comm d] at h3
    have hd0 : 0 < |d| := lt_of_lt_of_le (two_pos _) hn
    have h7 : |d| / 10 ^ 6 ≤ 2 * unit F * |d| := by linarith
    have h8 : (1 : ℝ) / 10 ^ 6 ≤ 2 * unit F := by
      rw [div_eq_mul_one_div, mul_comm] at h7
      exact le_of_mul_le_mul_right h7 hd0
    have h9 : (2 * 10 ^ 6 : ℝ) < 2 ^ F.p := by exact_mod_cast hF.digits
    unfold unit at h8
    rw [zpow_neg, zpow_natCast, ← div_eq_mul_inv, div_le_div_iff₀ (by norm_num) (by positivity)] at h8
    linarith
  · push Not at hn
    have hdl : |d| < 2 ^ (F.qmin + F.p) := hn.trans_le (two_mono (by omega))
    have hfd := fl_low hdl
    have hp := hF.p
    have hhalf : |F.fl d - d| ≤ 2 ^ F.qmin / 2 := by
      have hq := two_pos F.qmin
      have h1 := mul_le_mul_of_nonneg_right (rne_abs (d / 2 ^ F.qmin)) hq.le
      rw [← abs_of_pos hq, ← abs_mul, sub_mul, abs_of_pos hq, ← hfd, div_mul_cancel₀ _ hq.ne'] at h1
      linarith
    have hpow : (2 : ℝ) ^ (F.qmin + F.p) = 2 * 2 ^ (F.qmin + F.p - 1) := by
      rw [show F.qmin + F.p = 1 + (F.qmin + F.p - 1) by ring, zpow_add₀ (by norm_num) 1, zpow_one]; congr 2; ring
    have hle : (2 : ℝ) ^ F.qmin ≤ 2 ^ (F.qmin + F.p - 1) := two_mono (by omega)
    have hfl : |F.fl d| ≤ 2 ^ (F.qmin + F.p - 1) := by
      have hg : (2 : ℝ) ^ (F.qmin + F.p - 1) ∈ Grid F :=
        ⟨1, F.qmin + F.p - 1, by rw [abs_one]; exact_mod_cast Nat.one_le_two_pow, by omega, by simp⟩
      have hx1 := fl_mono hp (abs_le.1 hn.le).2
      have hx2 := fl_mono hp (abs_le.1 hn.le).1
      rw [fl_exact hp hg] at hx1
      rw [fl_odd, fl_exact hp hg] at hx2
      exact abs_le.2 ⟨hx2, hx1⟩
    have htl : |six (F.fl d)| < 2 ^ (F.qmin + F.p) := by
      have := abs_sub_abs_le_abs_sub (six (F.fl d)) (F.fl d)
      rw [abs_sub_comm d] at h3
      have hq := two_pos F.qmin
      linarith
    have hft := fl_low htl
    rw [hft]
    rw [hfd] at h3 ⊢
    congr 2
    have hq := two_pos F.qmin
    refine rne_closer ?_
    have hscale : ∀ y : ℝ, |y / 2 ^ F.qmin - rne (d / 2 ^ F.qmin)| = |y - rne (d / 2 ^ F.qmin) * 2 ^ F.qmin| / 2 ^ F.qmin := by
      intro y
      rw [← abs_of_pos hq, ← abs_div, abs_of_pos hq]
      congr 1
      field_simp
    rw [hscale, hscale]
    exact div_le_div_of_nonneg_right h3 hq.le

theorem six_is_six (x : ℝ) : Six (six x) := (six_nearest x).1

theorem back_iff {F : Fmt} (hF : Dec F) (x : ℝ) : back F x = x ↔ ∃ d, Six d ∧ F.fl d = x := by
  constructor
  · intro h; exact ⟨six x, six_is_six x, h⟩
  · rintro ⟨d, hd, rfl⟩; exact back_of_six hF hd

end Verif.RealText
