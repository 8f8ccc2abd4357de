import Verif.Frame.Ieee
import Verif.Angle.PropsIeee

/-! # C137 in IEEE 754 arithmetic -/

namespace Verif.Frame.Fp

open Verif.Ieee Verif.Ieee.Spec Verif.Angle.Fp

noncomputable section

/-- **C137 (IEEE 754).** Frametime in seconds is always finite; seconds in frametime are infinite exactly if the product
overflows. Otherwise each result is the number of the format nearest to the exact one. -/
theorem C137_ieee {F : Fmt} (hF : Good F) (x : ℝ) (hx : Num F x) :
    (∃ r, getFTToSeconds F (.fin x) = .fin r ∧ Num F r ∧ ∀ s, Num F s → |r - x / 60| ≤ |s - x / 60|) ∧
    (¬ Over F (x * 60) → ∃ r, getSecondsToFT F (.fin x) = .fin r ∧ Num F r ∧ ∀ s, Num F s → |r - x * 60| ≤ |s - x * 60|) ∧
    (Over F (x * 60) → getSecondsToFT F (.fin x) = .inf (decide (x < 0))) := by
  have hp1 := hF.p
  have ht : |x / 60| ≤ F.top := by
    rw [abs_div, abs_of_pos (show (0 : ℝ) < 60 by norm_num)]
    have := num_top hx
    have := abs_nonneg x
    linarith
  refine ⟨⟨F.fl (x / 60), ?_, (num_iff hp1 hF.q).mpr ⟨fl_grid F _, fl_le_top hp1 hF.q ht⟩, fun s hs => nearest_num hF _ s hs⟩,
    fun ho => ⟨F.fl (x * 60), ?_, (num_iff hp1 hF.q).mpr ⟨fl_grid F _, ?_⟩, fun s hs => nearest_num hF _ s hs⟩, fun ho => ?_⟩
  · unfold getFTToSeconds
    dsimp only [div]
    rw [if_neg (by norm_num), rnd_fin' hF (not_over ht)]
  · exact rnd_fin' hF ho
  · rwa [← over_iff hF, not_lt] at ho
  · unfold getSecondsToFT
    dsimp only [mul]
    rw [rnd_inf hF ho]
    congr 1
    rw [decide_eq_decide]
    constructor <;> intro h <;> linarith

/-- The number of frames per second of a frametime that is not zero: the nearest number, or an infinity if the quotient overflows. -/
theorem C137_ieee_fps {F : Fmt} (hF : Good F) (z : Bool) (x : ℝ) (h0 : x ≠ 0) :
    (¬ Over F (60 / x) → ∃ r, getFTToFPS F z (.fin x) = .fin r ∧ Num F r ∧ ∀ s, Num F s → |r - 60 / x| ≤ |s - 60 / x|) ∧
    (Over F (60 / x) → getFTToFPS F z (.fin x) = .inf (decide (x < 0))) := by
  have hp1 := hF.p
  refine ⟨fun ho => ⟨F.fl (60 / x), ?_, (num_iff hp1 hF.q).mpr ⟨fl_grid F _, ?_⟩, fun s hs => nearest_num hF _ s hs⟩, fun ho => ?_⟩
  · unfold getFTToFPS
    dsimp only [div]
    rw [if_neg h0, rnd_fin' hF ho]
  · rwa [← over_iff hF, not_lt] at ho
  · unfold getFTToFPS
    dsimp only [div]
    rw [if_neg h0, rnd_inf hF ho]
    congr 1
    rw [decide_eq_decide, div_neg_iff]
    constructor
    · rintro (⟨-, h⟩ | ⟨h, -⟩)
      · exact h
      · norm_num at h
    · exact fun h => Or.inl ⟨by norm_num, h⟩

/-- Zero, infinities and NaN. -/
theorem C137_ieee_special (F : Fmt) (z s : Bool) :
    getFTToFPS F z (.fin 0) = .inf z ∧ getFTToFPS F z (.inf s) = .fin 0 ∧ getFTToFPS F z .nan = .nan ∧
    getFTToSeconds F (.inf s) = .inf s ∧ getSecondsToFT F (.inf s) = .inf s ∧
    getFTToSeconds F .nan = .nan ∧ getSecondsToFT F .nan = .nan := by
  have h : ¬ (60 : ℝ) = 0 := by norm_num
  have h' : decide ((60 : ℝ) < 0) = false := decide_eq_false (by norm_num)
  refine ⟨?_, rfl, rfl, ?_, ?_, rfl, rfl⟩
  · simp only [getFTToFPS, div, if_true, if_neg h, h']
    cases z <;> rfl
  · simp only [getFTToSeconds, div, if_neg h, h']
    cases s <;> rfl
  · simp only [getSecondsToFT, mul, if_neg h, h']
    cases s <;> rfl

/-- A frametime that is zero or not too small survives the conversion to seconds and back up to two roundings. -/
theorem C137_ieee_round_trip {F : Fmt} (hF : Good F) (hp : 4 ≤ F.p) (x : ℝ) (hx : Num F x) (hn : NormalOk F (x / 60))
    (hn' : 2 * |x| ≤ F.top) :
    ∃ r, getSecondsToFT F (getFTToSeconds F (.fin x)) = .fin r ∧ Num F r ∧ |r - x| ≤ ((1 + unit F) ^ 2 - 1) * |x| := by
  have hp1 := hF.p
  have hu : unit F ≤ 1 / 16 := (two_mono (show -(F.p : ℤ) ≤ -4 by omega)).trans (by norm_num)
  have hu0 := u_pos F
  have nx := abs_nonneg x
  have ht : |x / 60| ≤ F.top := by
    rw [abs_div, abs_of_pos (show (0 : ℝ) < 60 by norm_num)]
    linarith
  have e1 := normal_rel hn (s := x / 60) (by linarith [abs_nonneg (x / 60)]) (by linarith [abs_nonneg (x / 60)])
  set q := F.fl (x / 60) with hq
  have ex : |x / 60| * 60 = |x| := by
    rw [abs_div, abs_of_pos (show (0 : ℝ) < 60 by norm_num)]
    field_simp
  have e2 : |q * 60 - x| ≤ unit F * |x| := by
    have : q * 60 - x = (q - x / 60) * 60 := by ring
    rw [this, abs_mul, abs_of_pos (show (0 : ℝ) < 60 by norm_num)]
    nlinarith
  have e3 : |q * 60| ≤ (1 + unit F) * |x| := by
    have := abs_add_le (q * 60 - x) x
    rw [sub_add_cancel] at this
    linarith
  have e4 : |x| ≤ 2 * |q * 60| := by
    have := abs_sub_abs_le_abs_sub x (q * 60)
    rw [abs_sub_comm] at this
    nlinarith
  have hn2 : NormalOk F x := by
    rcases hn with h | h
    · left
      linarith
    · right
      rw [abs_div, abs_of_pos (show (0 : ℝ) < 60 by norm_num)] at h
      linarith
  have e5 := normal_rel hn2 (s := q * 60) e4 (by nlinarith)
  have ht2 : |q * 60| ≤ F.top := by nlinarith
  refine ⟨F.fl (q * 60), ?_, (num_iff hp1 hF.q).mpr ⟨fl_grid F _, fl_le_top hp1 hF.q ht2⟩, ?_⟩
  · unfold getFTToSeconds
    dsimp only [div]
    rw [if_neg (by norm_num), rnd_fin' hF (not_over ht)]
    exact rnd_fin' hF (not_over ht2)
  · have e6 := abs_add_le (F.fl (q * 60) - q * 60) (q * 60 - x)
    rw [sub_add_sub_cancel] at e6
    have := mul_le_mul_of_nonneg_left e3 hu0.le
    nlinarith

/-- **C137 fails for tiny frametimes**: a frametime of the smallest number is 0 seconds. -/
theorem C137_ieee_underflow {F : Fmt} (hF : Good F) :
    Num F (2 ^ F.qmin) ∧ getFTToSeconds F (.fin (2 ^ F.qmin)) = .fin 0 := by
  have hp1 := hF.p
  have h2 := two_pos F.qmin
  have hn : Num F (2 ^ F.qmin) := ⟨1, F.qmin, by rw [abs_one]; exact one_lt_pow₀ (by norm_num) (by omega), le_refl _, hF.q, by simp⟩
  refine ⟨hn, ?_⟩
  obtain ⟨⟨r, h1, h3, h4⟩, -⟩ := C137_ieee hF _ hn
  rw [h1]
  congr 1
  have h5 := h4 0 ⟨0, F.qmin, by rw [abs_zero]; positivity, le_refl _, hF.q, by simp⟩
  obtain ⟨n, rfl⟩ := grid_mult (num_grid h3)
  rw [zero_sub, abs_neg, abs_of_pos (show (0 : ℝ) < 2 ^ F.qmin / 60 by positivity), abs_le] at h5
  have k1 : (n : ℝ) < 1 := by
    by_contra hc
    have := mul_le_mul_of_nonneg_right (not_lt.mp hc) h2.le
    linarith
  have k2 : (-1 : ℝ) < n := by
    by_contra hc
    have := mul_le_mul_of_nonneg_right (not_lt.mp hc) h2.le
    linarith
  have k1' : n < 1 := by exact_mod_cast k1
  have k2' : -1 < n := by exact_mod_cast k2
  rw [show n = 0 by omega]
  simp

theorem C137_ieee_example : NormalOk binary32 ((1 : ℝ) / 60) ∧ 2 * |(1 : ℝ)| ≤ binary32.top ∧ Num binary32 1 := by
  have h : (2 : ℝ) ^ (binary32.qmin + binary32.p - 1) ≤ 2 ^ (-10 : ℤ) :=
    two_mono (show binary32.qmin + binary32.p - 1 ≤ -10 by norm_num [binary32])
  have ht : (2 : ℝ) ^ (100 : ℤ) ≤ binary32.top := by
    unfold Fmt.top binary32
    norm_num
  refine ⟨Or.inr ?_, le_trans (by norm_num) ht, ⟨1, 0, by norm_num [binary32], by norm_num [binary32], by norm_num [binary32], by simp⟩⟩
  norm_num at h ⊢
  linarith

end

end Verif.Frame.Fp
