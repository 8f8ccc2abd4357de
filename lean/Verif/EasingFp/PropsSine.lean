import Verif.EasingFp.PropsCurves
import Mathlib.Analysis.Real.Pi.Bounds
import Mathlib.Analysis.SpecialFunctions.Trigonometric.Bounds

/-! # `Sine` in `double` with a `float` π -/

namespace Verif.EasingFp

open Verif.Ieee Verif.Ieee.Spec Spec Verif.Clock

/-- How far half of the `float` π is from half of π. -/
theorem delta : (4.37e-8 : ℝ) < 13176795 / 2 ^ 23 - Real.pi / 2 ∧ (13176795 / 2 ^ 23 - Real.pi / 2 : ℝ) < 4.38e-8 := by
  have h1 := Real.pi_gt_d20
  have h2 := Real.pi_lt_d20
  constructor
  · norm_num at h2 ⊢; linarith
  · norm_num at h1 ⊢; linarith

theorem cos_half : Real.cos (13176795 / 2 ^ 23) < -(4.36e-8) ∧ Real.cos (13176795 / 2 ^ 23) > -(4.38e-8) := by
  obtain ⟨h1, h2⟩ := delta
  have e : Real.cos (13176795 / 2 ^ 23) = -Real.sin (13176795 / 2 ^ 23 - Real.pi / 2) := by
    rw [Real.sin_sub_pi_div_two, neg_neg]
  rw [e]
  generalize (13176795 / 2 ^ 23 - Real.pi / 2 : ℝ) = x at *
  have hx : 0 < x := lt_trans (by norm_num) h1
  have a := Real.sin_gt_sub_cube hx
  have b := Real.sin_lt hx
  have : x ^ 3 / 6 < 1e-10 := by
    have : x ^ 3 ≤ (4.38e-8) ^ 3 := pow_le_pow_left₀ hx.le h2.le 3
    norm_num at this ⊢; linarith
  constructor
  · norm_num at *; linarith
  · norm_num at *; linarith

theorem sin_half : Real.sin (13176795 / 2 ^ 23) < 1 - 9 / 10 ^ 16 := by
  obtain ⟨h1, h2⟩ := cos_half
  have h3 := Real.sin_sq_add_cos_sq (13176795 / 2 ^ 23 : ℝ)
  generalize Real.cos (13176795 / 2 ^ 23) = u at *
  generalize Real.sin (13176795 / 2 ^ 23) = v at *
  by_contra hc
  rw [not_lt] at hc
  have a : (4.36e-8 : ℝ) ^ 2 ≤ u ^ 2 := by nlinarith
  have b : (1 - 9 / 10 ^ 16 : ℝ) ^ 2 ≤ v ^ 2 := pow_le_pow_left₀ (by norm_num) hc 2
  norm_num at a b h3
  linarith

/-- A product with a number of moderate size. -/
theorem prod64 {c r : ℝ} (hc : 2 ^ (-900 : ℤ) ≤ |c|) (hc' : |c| ≤ 2 ^ (900 : ℤ)) (hr : 1 / 2 ^ 30 ≤ |r|) (hr' : |r| ≤ 2) :
    binary64.rnd (c * r) = .fin (binary64.fl (c * r)) ∧ Num binary64 (binary64.fl (c * r)) ∧
      |binary64.fl (c * r) - c * r| ≤ 1 / 2 ^ 53 * |c * r| := by
  have h := C149_formats.2
  have ht : (2 : ℝ) ^ (901 : ℤ) ≤ binary64.top := by
    have := num_top (F := binary64) (x := 2 ^ (901 : ℤ)) (num64' 1 901 (by decide) (by decide) (by decide) (by simp))
    rwa [abs_of_pos (two_pos _)] at this
  have e1 : |c * r| ≤ binary64.top := by
    refine le_trans ?_ ht
    rw [abs_mul, show (901 : ℤ) = 900 + 1 by norm_num, zpow_add_one₀ (by norm_num)]
    exact mul_le_mul hc' hr' (abs_nonneg _) (two_pos _).le
  have e2 := rnd_fin h.good.p h.good.q e1
  have hv := rnd_val h.good.p h.good.q (F := binary64) (c * r)
  rw [e2] at hv
  refine ⟨e2, hv, ?_⟩
  have hu : unit binary64 = 1 / 2 ^ 53 := by unfold unit; norm_num [binary64]
  rw [← hu]
  apply fl_rel
  rw [abs_mul]
  have : (2 : ℝ) ^ (-900 : ℤ) * (1 / 2 ^ 30) ≤ |c| * |r| := mul_le_mul hc hr (by positivity) (abs_nonneg _)
  refine le_trans ?_ this
  rw [show (1 / 2 ^ 30 : ℝ) = 2 ^ (-30 : ℤ) by norm_num, ← zpow_add₀ (by norm_num)]
  exact two_mono (by norm_num [binary64])

/-- **C162 (`Sine::out` never arrives in `double`).** `ssvu::pi` is a `float`. However accurate the sine of the library, `Sine::out`
from 0 stops short of the change in `double`, whatever the change (unless it is tiny or huge). -/
theorem C162_sine_out_misses (L : Lib) (mf z : Bool) {c d r : ℝ} (ha : Args binary64 0 c d) (hc : 2 ^ (-900 : ℤ) ≤ |c|)
    (hc' : |c| ≤ 2 ^ (900 : ℤ)) (hr : L.sin (.fin (13176795 / 2 ^ 23)) = .fin r)
    (hr' : |r - Real.sin (13176795 / 2 ^ 23)| ≤ 1 / 2 ^ 52) :
    ∃ y, curve L mf binary64 z .sine .out (.fin d) (.fin 0) (.fin c) (.fin d) = .fin y ∧ |y| < |c| := by
  have h := C149_formats.2
  have hs := sin_half
  have hs' : (1 / 2 : ℝ) < Real.sin (13176795 / 2 ^ 23) := by
    have h1 := cos_half
    have h3 := Real.sin_sq_add_cos_sq (13176795 / 2 ^ 23 : ℝ)
    have h4 : 0 < Real.sin (13176795 / 2 ^ 23) := Real.sin_pos_of_pos_of_lt_pi (by norm_num) (by
      have := Real.pi_gt_d20
      norm_num at this ⊢; linarith)
    generalize Real.cos (13176795 / 2 ^ 23) = u at *
    generalize Real.sin (13176795 / 2 ^ 23) = v at *
    by_contra hx
    rw [not_lt] at hx
    have a : u ^ 2 ≤ 1 / 4 := by norm_num at h1; nlinarith
    nlinarith
  rw [abs_le] at hr'
  have r1 : 1 / 4 < r := by norm_num at *; linarith [hr'.1]
  have r2 : r < 1 - 6 / 10 ^ 16 := by
    have : (1 / 2 ^ 52 : ℝ) < 3 / 10 ^ 16 := by norm_num
    linarith [hr'.2]
  have ar : |r| = r := abs_of_pos (by linarith)
  obtain ⟨p1, p2, p3⟩ := prod64 hc hc' (r := r) (by rw [ar]; norm_num at *; linarith) (by rw [ar]; norm_num at *; linarith)
  refine ⟨binary64.fl (c * r), ?_, ?_⟩
  · have ph := pi_half (.inr rfl) z
    have e0 : mul binary64 (.fin 1) (.fin (pi32 / 2)) = .fin (13176795 / 2 ^ 23) := by
      rw [mul_one_left h ph.2]; norm_num [pi32]
    have e1 : mul binary64 (.fin c) (.fin r) = .fin (binary64.fl (c * r)) := p1
    simp only [curve, sineOut, div_self' h z ha.pos.ne', ph.1, e0, hr, e1, add_zero' h p2]
  · have hc0 : 0 < |c| := (two_pos _).trans_le hc
    rw [abs_mul, ar] at p3
    have := abs_sub_abs_le_abs_sub (binary64.fl (c * r)) (c * r)
    rw [abs_mul, ar] at this
    have h5 : |binary64.fl (c * r)| ≤ |c| * r * (1 + 1 / 2 ^ 53) := by nlinarith
    refine lt_of_le_of_lt h5 ?_
    have : r * (1 + 1 / 2 ^ 53) < 1 := by
      have : r * (1 + 1 / 2 ^ 53) < (1 - 6 / 10 ^ 16) * (1 + 1 / 2 ^ 53) := by nlinarith
      refine this.trans ?_
      norm_num
    nlinarith

/-- **C162 (`Sine::in` overshoots in `double`).** For the same reason `Sine::in` ends beyond the change. -/
theorem C162_sine_in_overshoots (L : Lib) (mf z : Bool) {c d r : ℝ} (ha : Args binary64 0 c d) (hc : 2 ^ (-900 : ℤ) ≤ |c|)
    (hc' : |c| ≤ 2 ^ (900 : ℤ)) (hr : L.cos (.fin (13176795 / 2 ^ 23)) = .fin r)
    (hr' : |r - Real.cos (13176795 / 2 ^ 23)| ≤ 1 / 2 ^ 40) :
    ∃ y, curve L mf binary64 z .sine .inn (.fin d) (.fin 0) (.fin c) (.fin d) = .fin y ∧ |c| < |y| := by
  have h := C149_formats.2
  obtain ⟨g1, g2⟩ := cos_half
  rw [abs_le] at hr'
  have r1 : r < -(1 / 2 ^ 25) := by norm_num at *; linarith [hr'.2]
  have r2 : -(1 / 2) < r := by norm_num at *; linarith [hr'.1]
  have ar : |r| = -r := abs_of_neg (by norm_num at *; linarith)
  obtain ⟨p1, p2, p3⟩ := prod64 (c := -c) (by rwa [abs_neg]) (by rwa [abs_neg]) (r := r) (by rw [ar]; norm_num at *; linarith)
    (by rw [ar]; norm_num at *; linarith)
  have hc0 : 0 < |c| := (two_pos _).trans_le hc
  have e1 : mul binary64 (.fin (-c)) (.fin r) = .fin (binary64.fl (-c * r)) := p1
  generalize binary64.fl (-c * r) = w at *
  -- the sum, as a multiple of the change
  obtain ⟨q, hq⟩ : ∃ q, w = c * q := ⟨w / c, by have : c ≠ 0 := abs_pos.mp hc0; field_simp⟩
  have hq1 : |q - -r| ≤ 1 / 2 ^ 53 * -r := by
    rw [hq, show c * q - -c * r = c * (q - -r) by ring, abs_mul, abs_mul, abs_neg, ar] at p3
    by_contra hx
    rw [not_le] at hx
    nlinarith
  rw [abs_le] at hq1
  have q1 : 1 / 2 ^ 26 < q := by
    have : (1 - 1 / 2 ^ 53) * -r ≤ q := by linarith [hq1.1]
    norm_num at *; nlinarith
  have q2 : q < 1 := by norm_num at *; linarith [hq1.2]
  have aq : |1 + q| = 1 + q := abs_of_pos (by norm_num at *; linarith)
  obtain ⟨s1, s2, s3⟩ := prod64 hc hc' (r := 1 + q) (by rw [aq]; norm_num at *; linarith) (by rw [aq]; norm_num at *; linarith)
  have e2 : add binary64 (.fin w) (.fin c) = .fin (binary64.fl (c * (1 + q))) := by
    show binary64.rnd (w + c) = _
    rw [hq, show c * q + c = c * (1 + q) by ring, s1]
  refine ⟨binary64.fl (c * (1 + q)), ?_, ?_⟩
  · have ph := pi_half (.inr rfl) z
    have e0 : mul binary64 (.fin 1) (.fin (pi32 / 2)) = .fin (13176795 / 2 ^ 23) := by
      rw [mul_one_left h ph.2]; norm_num [pi32]
    simp only [curve, sineIn, div_self' h z ha.pos.ne', ph.1, e0, hr, neg, e1, e2, add_zero' h s2]
  · rw [abs_mul, aq] at s3
    have := abs_sub_abs_le_abs_sub (c * (1 + q)) (binary64.fl (c * (1 + q)))
    rw [abs_sub_comm, abs_mul, aq] at this
    have h5 : |c| * ((1 + q) * (1 - 1 / 2 ^ 53)) ≤ |binary64.fl (c * (1 + q))| := by nlinarith
    refine lt_of_lt_of_le ?_ h5
    have : 1 < (1 + q) * (1 - 1 / 2 ^ 53) := by norm_num at *; nlinarith
    nlinarith

/-- Functions as good as `double` allows meet the conditions: the exact values, rounded. -/
theorem C162_sine_example :
    ∃ L : Lib, Exact L ∧ (∃ r, L.sin (.fin (13176795 / 2 ^ 23)) = .fin r ∧ |r - Real.sin (13176795 / 2 ^ 23)| ≤ 1 / 2 ^ 52) ∧
      ∃ r, L.cos (.fin (13176795 / 2 ^ 23)) = .fin r ∧ |r - Real.cos (13176795 / 2 ^ 23)| ≤ 1 / 2 ^ 40 := by
  have h := C149_formats.2
  let f (g : ℝ → ℝ) : FP → FP
    | .fin x => binary64.rnd (g x)
    | _ => .nan
  have hu : unit binary64 = 1 / 2 ^ 53 := by unfold unit; norm_num [binary64]
  have key : ∀ g : ℝ, |g| ≤ 1 → ∃ r, binary64.rnd g = .fin r ∧ |r - g| ≤ 1 / 2 ^ 52 := by
    intro g hg
    refine ⟨_, rnd1000 (.inr rfl) (hg.trans (by norm_num)), ?_⟩
    rcases fl_err binary64 g with he | he
    · rw [hu] at he
      refine he.trans ?_
      nlinarith [abs_nonneg g]
    · refine he.trans ?_
      have : (2 : ℝ) ^ binary64.qmin ≤ 2 ^ (-52 : ℤ) := two_mono (by norm_num [binary64])
      norm_num at this ⊢
      linarith
  refine ⟨⟨fun _ _ => .fin 1, f Real.sin, f Real.cos⟩, ⟨rfl, ?_, ?_⟩, ?_, ?_⟩
  · show binary64.rnd (Real.sin 0) = _
    rw [Real.sin_zero, rnd_num h h.zero]
  · show binary64.rnd (Real.cos 0) = _
    rw [Real.cos_zero, rnd_num h h.one]
  · exact key _ (Real.abs_sin_le_one _)
  · obtain ⟨r, h1, h2⟩ := key _ (Real.abs_cos_le_one (13176795 / 2 ^ 23))
    exact ⟨r, h1, h2.trans (by norm_num)⟩

end Verif.EasingFp
