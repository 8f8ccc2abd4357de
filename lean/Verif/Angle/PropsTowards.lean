import Verif.Angle.PropsRound

/-!
# Directions with rounding

How far one arrives from the second point when going from the first one in the direction and for the distance that the functions of `Math.hpp`
give with rounding.
-/

namespace Verif.Angle

open Spec

noncomputable section

/-- Going for the distance `d` in the direction `θ`, where both are almost right. -/
theorem arrive {u e r d θ : ℝ} {dx dy dx' dy' : ℝ} (hu : 0 ≤ u) (hr : r = Real.sqrt (dx ^ 2 + dy ^ 2)) (hd0 : 0 ≤ d) (hd : |d - r| ≤ ((1 + u) ^ 3 - 1) * r)
    (hx : |dx' - dx| ≤ u * |dx|) (hy : |dy' - dy| ≤ u * |dy|) (hθ : |θ - Complex.arg ⟨dx', dy'⟩| ≤ e) :
    |d * Real.cos θ - dx| ≤ ((1 + u) ^ 3 * (1 + e) - 1 + 2 * u) * r ∧ |d * Real.sin θ - dy| ≤ ((1 + u) ^ 3 * (1 + e) - 1 + 2 * u) * r := by
  have hr0 : 0 ≤ r := by rw [hr]; exact Real.sqrt_nonneg _
  have hrr : r ^ 2 = dx ^ 2 + dy ^ 2 := by rw [hr]; exact Real.sq_sqrt (by positivity)
  have hdx : |dx| ≤ r := abs_le_of_sq_le_sq (by nlinarith [sq_nonneg dy]) hr0
  have hdy : |dy| ≤ r := abs_le_of_sq_le_sq (by nlinarith [sq_nonneg dx]) hr0
  have hn : r = ‖(⟨dx, dy⟩ : ℂ)‖ := by rw [hr, Complex.norm_eq_sqrt_sq_add_sq]
  have hdiff : ‖(⟨dx', dy'⟩ : ℂ) - ⟨dx, dy⟩‖ ≤ u * r := by
    rw [Complex.norm_eq_sqrt_sq_add_sq]
    simp only [Complex.sub_re, Complex.sub_im]
    rw [Real.sqrt_le_left (by positivity)]
    have h1 : (dx' - dx) ^ 2 ≤ (u * dx) ^ 2 := by
      rw [sq_le_sq, abs_mul, abs_of_nonneg hu]; exact hx
    have h2 : (dy' - dy) ^ 2 ≤ (u * dy) ^ 2 := by
      rw [sq_le_sq, abs_mul, abs_of_nonneg hu]; exact hy
    calc _ ≤ (u * dx) ^ 2 + (u * dy) ^ 2 := add_le_add h1 h2
      _ = (u * r) ^ 2 := by rw [mul_pow u r, hrr]; ring
  have hr' : |‖(⟨dx', dy'⟩ : ℂ)‖ - r| ≤ u * r := by
    rw [hn] at hdiff ⊢
    exact (abs_norm_sub_norm_le _ _).trans hdiff
  have hdle : d ≤ (1 + u) ^ 3 * r := by have := (abs_le.1 hd).2; linarith
  have key : ∀ (c c' z z' : ℝ), |c' - c| ≤ e → |c| ≤ 1 → ‖(⟨dx', dy'⟩ : ℂ)‖ * c = z' → |z' - z| ≤ u * r →
      |d * c' - z| ≤ ((1 + u) ^ 3 * (1 + e) - 1 + 2 * u) * r := by
    intro c c' z z' hc hc1 hz hzz
    have he : 0 ≤ e := (abs_nonneg _).trans hc
    have hsplit : d * c' - z = d * (c' - c) + ((d - r) * c + (-(‖(⟨dx', dy'⟩ : ℂ)‖ - r)) * c + (z' - z)) := by rw [← hz]; ring
    rw [hsplit]
    have a1 : |d * (c' - c)| ≤ (1 + u) ^ 3 * r * e := by
      rw [abs_mul, abs_of_nonneg hd0]; exact mul_le_mul hdle hc (abs_nonneg _) (by positivity)
    have a2 : |(d - r) * c| ≤ ((1 + u) ^ 3 - 1) * r := by
      rw [abs_mul]; exact (mul_le_of_le_one_right (abs_nonneg _) hc1).trans hd
    have a3 : |(-(‖(⟨dx', dy'⟩ : ℂ)‖ - r)) * c| ≤ u * r := by
      rw [abs_mul, abs_neg]; exact (mul_le_of_le_one_right (abs_nonneg _) hc1).trans hr'
    have a4 := abs_add_le (d * (c' - c)) ((d - r) * c + (-(‖(⟨dx', dy'⟩ : ℂ)‖ - r)) * c + (z' - z))
    have a5 := abs_add_le ((d - r) * c + (-(‖(⟨dx', dy'⟩ : ℂ)‖ - r)) * c) (z' - z)
    have a6 := abs_add_le ((d - r) * c) ((-(‖(⟨dx', dy'⟩ : ℂ)‖ - r)) * c)
    nlinarith
  refine ⟨key (Real.cos (Complex.arg ⟨dx', dy'⟩)) _ dx dx' ?_ (Real.abs_cos_le_one _) (Complex.norm_mul_cos_arg _) (hx.trans ?_),
    key (Real.sin (Complex.arg ⟨dx', dy'⟩)) _ dy dy' ?_ (Real.abs_sin_le_one _) (Complex.norm_mul_sin_arg _) (hy.trans ?_)⟩
  · exact (Real.abs_cos_sub_cos_le _ _).trans hθ
  · exact mul_le_mul_of_nonneg_left hdx hu
  · exact (Real.abs_sin_sub_sin_le _ _).trans hθ
  · exact mul_le_mul_of_nonneg_left hdy hu

/-- The rounded distance. -/
theorem dist_near {fl : ℝ → ℝ} {u : ℝ} (hf : Precise fl u) (hu : u < 1) (x1 y1 x2 y2 : ℝ) :
    0 ≤ getDistEuclidean fl x1 y1 x2 y2 ∧
    |getDistEuclidean fl x1 y1 x2 y2 - Real.sqrt ((x2 - x1) ^ 2 + (y2 - y1) ^ 2)| ≤
      ((1 + u) ^ 3 - 1) * Real.sqrt ((x2 - x1) ^ 2 + (y2 - y1) ^ 2) := by
  have hu0 := hf.nonneg
  obtain ⟨h1, h2⟩ := (C91_error hf hu x1 y1 x2 y2).2.2.2
  rw [show (x1 - x2) ^ 2 + (y1 - y2) ^ 2 = (x2 - x1) ^ 2 + (y2 - y1) ^ 2 by ring] at h1 h2
  have hr := Real.sqrt_nonneg ((x2 - x1) ^ 2 + (y2 - y1) ^ 2)
  have h3 : 0 ≤ (1 - u) ^ 3 := pow_nonneg (by linarith) 3
  refine ⟨(mul_nonneg h3 hr).trans h1, abs_le.2 ⟨?_, by linarith⟩⟩
  have h4 : 2 - (1 + u) ^ 3 ≤ (1 - u) ^ 3 := by nlinarith [sq_nonneg u]
  have := mul_le_mul_of_nonneg_right h4 hr
  linarith

/-- **C93 (rounded directions).** Going from the first point in the direction of `getRadTowards` for the distance of `getDistEuclidean`, both
rounded, leads to the second point up to a fraction of the distance that is about 8.2 times the rounding error. The direction is at most half a
turn, up to a rounding error. (The arc tangent is rounded like the arithmetic operations.) -/
theorem C93_towards_rounded {fl : ℝ → ℝ} {u : ℝ} (hf : Precise fl u) (hu : u < 1) (x1 y1 x2 y2 : ℝ) :
    |x1 + getDistEuclidean fl x1 y1 x2 y2 * Real.cos (getRadTowards fl x1 y1 x2 y2) - x2| ≤
      ((1 + u) ^ 3 * (1 + u * Real.pi) - 1 + 2 * u) * Real.sqrt ((x2 - x1) ^ 2 + (y2 - y1) ^ 2) ∧
    |y1 + getDistEuclidean fl x1 y1 x2 y2 * Real.sin (getRadTowards fl x1 y1 x2 y2) - y2| ≤
      ((1 + u) ^ 3 * (1 + u * Real.pi) - 1 + 2 * u) * Real.sqrt ((x2 - x1) ^ 2 + (y2 - y1) ^ 2) ∧
    |getRadTowards fl x1 y1 x2 y2| ≤ (1 + u) * Real.pi := by
  have hu0 := hf.nonneg
  obtain ⟨hd0, hd⟩ := dist_near hf hu x1 y1 x2 y2
  have ha : |Complex.arg ⟨fl (x2 - x1), fl (y2 - y1)⟩| ≤ Real.pi := Complex.abs_arg_le_pi _
  have hθ : |getRadTowards fl x1 y1 x2 y2 - Complex.arg ⟨fl (x2 - x1), fl (y2 - y1)⟩| ≤ u * Real.pi :=
    (hf _).trans (mul_le_mul_of_nonneg_left ha hu0)
  obtain ⟨h1, h2⟩ := arrive hu0 rfl hd0 hd (hf _) (hf _) hθ
  refine ⟨?_, ?_, ?_⟩
  · rw [show ∀ a : ℝ, x1 + a - x2 = a - (x2 - x1) from fun a => by ring]; exact h1
  · rw [show ∀ a : ℝ, y1 + a - y2 = a - (y2 - y1) from fun a => by ring]; exact h2
  · have := abs_sub_abs_le_abs_sub (getRadTowards fl x1 y1 x2 y2) (Complex.arg ⟨fl (x2 - x1), fl (y2 - y1)⟩)
    linarith

/-- **C93 (rounded directions).** The same in degrees, when the constant of the file differs from pi / 180 by at most the fraction `δ`. -/
theorem C93_towards_deg_rounded {fl : ℝ → ℝ} {u δ : ℝ} (hf : Precise fl u) (hu : u < 1) (k : Consts)
    (hk : |k.ratio - Real.pi / 180| ≤ δ * (Real.pi / 180)) (hδ : δ < 1) (x1 y1 x2 y2 : ℝ) :
    |x1 + getDistEuclidean fl x1 y1 x2 y2 * Real.cos (getDegTowards fl k x1 y1 x2 y2 * (Real.pi / 180)) - x2| ≤
      ((1 + u) ^ 3 * (1 + ((1 + u) ^ 2 / (1 - δ) - 1) * Real.pi) - 1 + 2 * u) * Real.sqrt ((x2 - x1) ^ 2 + (y2 - y1) ^ 2) ∧
    |y1 + getDistEuclidean fl x1 y1 x2 y2 * Real.sin (getDegTowards fl k x1 y1 x2 y2 * (Real.pi / 180)) - y2| ≤
      ((1 + u) ^ 3 * (1 + ((1 + u) ^ 2 / (1 - δ) - 1) * Real.pi) - 1 + 2 * u) * Real.sqrt ((x2 - x1) ^ 2 + (y2 - y1) ^ 2) := by
  have hu0 := hf.nonneg
  have hpi := Real.pi_pos
  have hδ0 : 0 ≤ δ := by
    by_contra hn
    have : δ * (Real.pi / 180) < 0 := mul_neg_of_neg_of_pos (not_le.1 hn) (by positivity)
    exact absurd ((abs_nonneg _).trans hk) (not_le.2 this)
  obtain ⟨hd0, hd⟩ := dist_near hf hu x1 y1 x2 y2
  obtain ⟨_, _, ha'⟩ := C93_towards_rounded hf hu x1 y1 x2 y2
  have ha : |Complex.arg ⟨fl (x2 - x1), fl (y2 - y1)⟩| ≤ Real.pi := Complex.abs_arg_le_pi _
  have hr : |getRadTowards fl x1 y1 x2 y2 - Complex.arg ⟨fl (x2 - x1), fl (y2 - y1)⟩| ≤ u * Real.pi :=
    (hf _).trans (mul_le_mul_of_nonneg_left ha hu0)
  have he := (C93_error_rounded hf k hk hδ (getRadTowards fl x1 y1 x2 y2)).2
  generalize hR : getRadTowards fl x1 y1 x2 y2 = R at *
  have hε : 0 ≤ (1 + u) / (1 - δ) - 1 := by
    rw [sub_nonneg, le_div_iff₀ (by linarith)]; linarith
  have hdeg : |getDegTowards fl k x1 y1 x2 y2 * (Real.pi / 180) - R| ≤ ((1 + u) / (1 - δ) - 1) * |R| := by
    have e1 : getDegTowards fl k x1 y1 x2 y2 * (Real.pi / 180) - R = (toDeg fl k R - R * (180 / Real.pi)) * (Real.pi / 180) := by
      rw [getDegTowards, hR]; field_simp
    rw [e1, abs_mul, abs_of_pos (by positivity : 0 < Real.pi / 180)]
    refine (mul_le_mul_of_nonneg_right he (by positivity)).trans_eq ?_
    rw [abs_mul, abs_of_pos (by positivity : 0 < 180 / Real.pi)]
    field_simp
  have hθ : |getDegTowards fl k x1 y1 x2 y2 * (Real.pi / 180) - Complex.arg ⟨fl (x2 - x1), fl (y2 - y1)⟩| ≤
      ((1 + u) ^ 2 / (1 - δ) - 1) * Real.pi := by
    refine (abs_sub_le _ R _).trans ?_
    have h3 := mul_le_mul_of_nonneg_left ha' hε
    have h4 : ((1 + u) ^ 2 / (1 - δ) - 1) * Real.pi = ((1 + u) / (1 - δ) - 1) * ((1 + u) * Real.pi) + u * Real.pi := by ring
    rw [h4]; linarith
  obtain ⟨h1, h2⟩ := arrive hu0 rfl hd0 hd (hf _) (hf _) hθ
  refine ⟨?_, ?_⟩
  · rw [show ∀ a : ℝ, x1 + a - x2 = a - (x2 - x1) from fun a => by ring]; exact h1
  · rw [show ∀ a : ℝ, y1 + a - y2 = a - (y2 - y1) from fun a => by ring]; exact h2

/-- Rounding to 24 digits meets the conditions, with a constant that is not exact. -/
example : Precise (nearest 24) ((2 : ℝ) ^ (-(24 : ℕ) : ℤ)) ∧ (2 : ℝ) ^ (-(24 : ℕ) : ℤ) < 1 ∧
    ∃ k : Consts, k.ratio ≠ Real.pi / 180 ∧ |k.ratio - Real.pi / 180| ≤ 1 / 2 * (Real.pi / 180) :=
  ⟨nearest_precise 24, by norm_num, ⟨3.14, 6.28, Real.pi / 120⟩, by
    have := Real.pi_pos
    constructor
    · intro h; simp only at h; linarith
    · simp only; rw [abs_of_nonneg (by linarith)]; linarith⟩

end

end Verif.Angle
