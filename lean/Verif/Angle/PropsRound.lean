import Verif.Angle.Theorems
import Verif.Angle.Nearest

/-!
# Rounding errors

The functions of `Math.hpp` with rounding: how far the results can be from the exact ones, for any
rounding with relative error at most `u` (see `Spec.Precise`).
-/

namespace Verif.Angle

open Spec

noncomputable section

/-! ### Relative errors -/

/-- `y` differs from `x` by at most the fraction `a`. -/
def Rel (a y x : ℝ) : Prop := |y - x| ≤ a * |x|

theorem Rel.abs_le {a y x : ℝ} (h : Rel a y x) : |y| ≤ (1 + a) * |x| := by
  have h1 : |y| ≤ |y - x| + |x| := by
    have := abs_add_le (y - x) x
    simpa using this
  unfold Rel at h
  linarith

theorem Rel.le_abs {a y x : ℝ} (h : Rel a y x) : (1 - a) * |x| ≤ |y| := by
  have h1 : |x| ≤ |y - x| + |y| := by
    have := abs_add_le (x - y) y
    rw [abs_sub_comm] at this
    simpa using this
  unfold Rel at h
  linarith

theorem Rel.trans {a b x y z : ℝ} (hb : 0 ≤ b) (h1 : Rel a y x) (h2 : Rel b z y) :
    Rel ((1 + a) * (1 + b) - 1) z x := by
  have h3 := h1.abs_le
  have h4 : |z - x| ≤ |z - y| + |y - x| := abs_sub_le z y x
  unfold Rel at *
  have h5 : b * |y| ≤ b * ((1 + a) * |x|) := mul_le_mul_of_nonneg_left h3 hb
  nlinarith

theorem Rel.mul {a b x y w z : ℝ} (hb : 0 ≤ b) (ha : 0 ≤ a) (h1 : Rel a y x) (h2 : Rel b z w) :
    Rel ((1 + a) * (1 + b) - 1) (y * z) (x * w) := by
  have h3 := h1.abs_le
  unfold Rel at *
  have e : y * z - x * w = y * (z - w) + (y - x) * w := by ring
  rw [e, abs_mul x w]
  refine (abs_add_le _ _).trans ?_
  rw [abs_mul, abs_mul]
  have h4 : |y| * |z - w| ≤ ((1 + a) * |x|) * (b * |w|) :=
    mul_le_mul h3 h2 (abs_nonneg _) (by positivity)
  have h5 : |y - x| * |w| ≤ a * |x| * |w| := mul_le_mul_of_nonneg_right h1 (abs_nonneg _)
  nlinarith

theorem Rel.inv {b w z : ℝ} (hb : b < 1) (hw : w ≠ 0) (h : Rel b z w) :
    Rel (1 / (1 - b) - 1) z⁻¹ w⁻¹ ∧ z ≠ 0 := by
  have hw' : 0 < |w| := abs_pos.mpr hw
  have hz' : 0 < |z| := lt_of_lt_of_le (mul_pos (by linarith) hw') h.le_abs
  have hz : z ≠ 0 := abs_pos.mp hz'
  refine ⟨?_, hz⟩
  unfold Rel
  have e : z⁻¹ - w⁻¹ = (w - z) / (z * w) := by field_simp
  rw [e, abs_div, abs_mul, abs_sub_comm, abs_inv]
  have h1 : |z - w| ≤ b * |w| := h
  have h2 := h.le_abs
  have hb' : 0 < 1 - b := by linarith
  have e2 : 1 / (1 - b) - 1 = b / (1 - b) := by field_simp; ring
  rw [e2, div_mul_eq_mul_div, ← div_eq_mul_inv, div_div, div_le_div_iff₀ (by positivity) (by positivity)]
  have hb0 : 0 ≤ b := by
    by_contra hc
    have : |z - w| < 0 := lt_of_le_of_lt h1 (mul_neg_of_neg_of_pos (by linarith) hw')
    exact absurd (abs_nonneg _) (not_le.mpr this)
  nlinarith [mul_le_mul_of_nonneg_left h2 hb0, mul_le_mul_of_nonneg_right h1 (mul_pos hw' hb').le]

theorem Rel.div {a b x y w z : ℝ} (ha : 0 ≤ a) (hb0 : 0 ≤ b) (hb : b < 1) (hw : w ≠ 0)
    (h1 : Rel a y x) (h2 : Rel b z w) : Rel ((1 + a) / (1 - b) - 1) (y / z) (x / w) := by
  have hb' : 0 < 1 - b := by linarith
  have h3 := (h2.inv hb hw).1
  have h4 : 0 ≤ 1 / (1 - b) - 1 := by
    rw [sub_nonneg, le_div_iff₀ hb']; linarith
  have := Rel.mul h4 ha h1 h3
  rw [div_eq_mul_inv y, div_eq_mul_inv x]
  have e : (1 + a) / (1 - b) - 1 = (1 + a) * (1 + (1 / (1 - b) - 1)) - 1 := by ring
  rw [e]; exact this

theorem Spec.Precise.nonneg {fl : ℝ → ℝ} {u : ℝ} (h : Precise fl u) : 0 ≤ u := by
  have := (abs_nonneg _).trans (h 1)
  simpa using this

theorem Spec.Precise.rel {fl : ℝ → ℝ} {u : ℝ} (h : Precise fl u) (x : ℝ) : Rel u (fl x) x := h x

theorem Spec.Precise.zero {fl : ℝ → ℝ} {u : ℝ} (h : Precise fl u) : fl 0 = 0 := by
  have := h 0
  simp only [sub_zero, abs_zero, mul_zero] at this
  exact abs_eq_zero.mp (le_antisymm this (abs_nonneg _))

/-- The hypotheses are met by rounding to 24 binary digits, the precision of `float`. -/
theorem precise_example : Precise (nearest 24) ((2 : ℝ) ^ (-(24 : ℕ) : ℤ)) ∧
    (2 : ℝ) ^ (-(24 : ℕ) : ℤ) < 1 / 16000000 ∧ nearest 24 0 = 0 :=
  ⟨nearest_precise 24, by norm_num, (nearest_precise 24).zero⟩

/-! ### C93 — units -/

/-- **C93 (rounded).** Converting to radians and back, or the other way round, gives the number up to
two rounding errors, whatever the constant of the file is. -/
theorem C93_units_rounded {fl : ℝ → ℝ} {u : ℝ} (hf : Precise fl u) (k : Consts) (hk : k.ratio ≠ 0)
    (x : ℝ) :
    |toDeg fl k (toRad fl k x) - x| ≤ (2 * u + u ^ 2) * |x| ∧
    |toRad fl k (toDeg fl k x) - x| ≤ (2 * u + u ^ 2) * |x| := by
  have hu := hf.nonneg
  have e : (2 * u + u ^ 2) = (1 + u) * (1 + u) - 1 := by ring
  rw [e]
  have hr : Rel 0 k.ratio k.ratio := by simp [Rel]
  constructor
  · have h1 := (hf.rel (x * k.ratio)).div hu le_rfl (by norm_num) hk hr
    simp only [sub_zero, div_one, add_sub_cancel_left] at h1
    rw [mul_div_cancel_right₀ _ hk] at h1
    exact h1.trans hu (hf.rel _)
  · have h1 := (hf.rel (x / k.ratio)).mul le_rfl hu hr
    simp only [add_zero, mul_one, add_sub_cancel_left] at h1
    rw [div_mul_cancel₀ _ hk] at h1
    exact h1.trans hu (hf.rel _)

/-- **C93 (rounded).** The conversions themselves, when the constant of the file differs from pi / 180
by at most the fraction `δ`. -/
theorem C93_error_rounded {fl : ℝ → ℝ} {u δ : ℝ} (hf : Precise fl u) (k : Consts)
    (hk : |k.ratio - Real.pi / 180| ≤ δ * (Real.pi / 180)) (hδ : δ < 1) (x : ℝ) :
    |toRad fl k x - x * (Real.pi / 180)| ≤ ((1 + δ) * (1 + u) - 1) * |x * (Real.pi / 180)| ∧
    |toDeg fl k x - x * (180 / Real.pi)| ≤ ((1 + u) / (1 - δ) - 1) * |x * (180 / Real.pi)| := by
  have hu := hf.nonneg
  have hp := Real.pi_pos
  have hp' : (0 : ℝ) < Real.pi / 180 := by positivity
  have hδ0 : 0 ≤ δ := by
    by_contra hc
    have := (abs_nonneg _).trans hk
    have : δ * (Real.pi / 180) < 0 := mul_neg_of_neg_of_pos (by linarith) hp'
    linarith
  have hr : Rel δ k.ratio (Real.pi / 180) := by
    unfold Rel; rw [abs_of_pos hp']; exact hk
  have hx : Rel 0 x x := by simp [Rel]
  constructor
  · have h1 := hx.mul hδ0 le_rfl hr
    have := h1.trans hu (hf.rel _)
    rw [add_zero, one_mul, add_sub_cancel] at this
    exact this
  · have h1 := hx.div le_rfl hδ0 hδ hp'.ne' hr
    have h2 := h1.trans hu (hf.rel _)
    have e : x / (Real.pi / 180) = x * (180 / Real.pi) := by field_simp
    rw [e] at h2
    have e2 : (1 + ((1 + 0) / (1 - δ) - 1)) * (1 + u) - 1 = (1 + u) / (1 - δ) - 1 := by ring
    rw [e2] at h2
    exact h2

/-! ### C91 — distances -/

theorem Spec.Precise.between {fl : ℝ → ℝ} {u : ℝ} (h : Precise fl u) {x : ℝ} (hx : 0 ≤ x) :
    (1 - u) * x ≤ fl x ∧ fl x ≤ (1 + u) * x := by
  have := h x
  rw [abs_of_nonneg hx, abs_le] at this
  constructor <;> linarith [this.1, this.2]

theorem Spec.Precise.between_abs {fl : ℝ → ℝ} {u : ℝ} (h : Precise fl u) (x : ℝ) :
    (1 - u) * |x| ≤ |fl x| ∧ |fl x| ≤ (1 + u) * |x| := ⟨(h.rel x).le_abs, (h.rel x).abs_le⟩

theorem Spec.Within.fl {fl : ℝ → ℝ} {u : ℝ} (hf : Precise fl u) (hu : u < 1) {e : ℕ} {y x : ℝ} (hx : 0 ≤ x)
    (h : Within u e y x) : Within u (e + 1) (fl y) x := by
  have hu0 := hf.nonneg
  have h1 : 0 < 1 - u := by linarith
  have hy : 0 ≤ y := le_trans (by positivity) h.1
  have h2 := hf.between hy
  constructor
  · calc (1 - u) ^ (e + 1) * x = (1 - u) * ((1 - u) ^ e * x) := by ring
      _ ≤ (1 - u) * y := mul_le_mul_of_nonneg_left h.1 h1.le
      _ ≤ _ := h2.1
  · calc fl y ≤ (1 + u) * y := h2.2
      _ ≤ (1 + u) * ((1 + u) ^ e * x) := mul_le_mul_of_nonneg_left h.2 (by linarith)
      _ = _ := by ring

theorem Spec.Within.add {u : ℝ} {e : ℕ} {y x z w : ℝ} (h : Within u e y x) (h' : Within u e z w) :
    Within u e (y + z) (x + w) := ⟨by rw [mul_add]; exact add_le_add h.1 h'.1, by
      rw [mul_add]; exact add_le_add h.2 h'.2⟩

theorem within_sub {fl : ℝ → ℝ} {u : ℝ} (hf : Precise fl u) (x : ℝ) : Within u 1 |fl x| |x| := by
  have := hf.between_abs x
  exact ⟨by rw [pow_one]; exact this.1, by rw [pow_one]; exact this.2⟩

/-- **C91 (rounded).** Each distance is the exact one up to a few rounding errors: two for the
Manhattan distance, one for the Chebyshev distance, four for the square of the Euclidean distance and
three for the Euclidean distance. -/
theorem C91_error {fl : ℝ → ℝ} {u : ℝ} (hf : Precise fl u) (hu : u < 1) (x1 y1 x2 y2 : ℝ) :
    Within u 2 (getDistManhattan fl x1 y1 x2 y2) (|x1 - x2| + |y1 - y2|) ∧
    Within u 1 (getDistChebyshev fl x1 y1 x2 y2) (max |x1 - x2| |y1 - y2|) ∧
    Within u 4 (getDistSquaredEuclidean fl x1 y1 x2 y2) ((x1 - x2) ^ 2 + (y1 - y2) ^ 2) ∧
    Within u 3 (getDistEuclidean fl x1 y1 x2 y2) (Real.sqrt ((x1 - x2) ^ 2 + (y1 - y2) ^ 2)) := by
  have hu0 := hf.nonneg
  have hu1 : 0 < 1 - u := by linarith
  have hsq : ∀ t : ℝ, Within u 3 (fl (fl t * fl t)) (t ^ 2) := by
    intro t
    refine Within.fl hf hu (by positivity) ?_
    have h := hf.between_abs t
    have e1 : fl t * fl t = |fl t| * |fl t| := (abs_mul_abs_self _).symm
    have e2 : t ^ 2 = |t| * |t| := by rw [abs_mul_abs_self]; ring
    rw [e1, e2]
    constructor
    · have := mul_le_mul h.1 h.1 (by positivity) (abs_nonneg (fl t))
      nlinarith
    · have := mul_le_mul h.2 h.2 (abs_nonneg _) (by positivity)
      nlinarith
  have h4 : Within u 4 (getDistSquaredEuclidean fl x1 y1 x2 y2) ((x1 - x2) ^ 2 + (y1 - y2) ^ 2) :=
    Within.fl hf hu (by positivity) ((hsq _).add (hsq _))
  refine ⟨Within.fl hf hu (by positivity) ((within_sub hf _).add (within_sub hf _)), ?_, h4, ?_⟩
  · have hx := within_sub hf (x2 - x1)
    have hy := within_sub hf (y2 - y1)
    rw [abs_sub_comm x1, abs_sub_comm y1]
    constructor
    · rw [mul_max_of_nonneg _ _ (by positivity)]
      exact max_le_max hx.1 hy.1
    · rw [mul_max_of_nonneg _ _ (by positivity)]
      exact max_le_max hx.2 hy.2
  · refine Within.fl hf hu (Real.sqrt_nonneg _) ⟨?_, ?_⟩
    · refine Real.le_sqrt_of_sq_le ?_
      rw [mul_pow, Real.sq_sqrt (by positivity), ← pow_mul]
      exact h4.1
    · refine Real.sqrt_le_iff.mpr ⟨by positivity, ?_⟩
      rw [mul_pow, Real.sq_sqrt (by positivity), ← pow_mul]
      exact h4.2

/-- **C91 (rounded).** Computed distances are zero exactly between a point and itself. -/
theorem C91_zero_rounded {fl : ℝ → ℝ} {u : ℝ} (hf : Precise fl u) (hu : u < 1) (x1 y1 x2 y2 : ℝ) :
    (getDistManhattan fl x1 y1 x2 y2 = 0 ↔ x1 = x2 ∧ y1 = y2) ∧
    (getDistChebyshev fl x1 y1 x2 y2 = 0 ↔ x1 = x2 ∧ y1 = y2) ∧
    (getDistSquaredEuclidean fl x1 y1 x2 y2 = 0 ↔ x1 = x2 ∧ y1 = y2) ∧
    (getDistEuclidean fl x1 y1 x2 y2 = 0 ↔ x1 = x2 ∧ y1 = y2) := by
  have hu1 : 0 < 1 - u := by linarith
  obtain ⟨h1, h2, h3, h4⟩ := C91_error hf hu x1 y1 x2 y2
  have key : ∀ (e : ℕ) (y x : ℝ), Within u e y x → 0 ≤ x → (y = 0 ↔ x = 0) := by
    intro e y x h hx
    constructor
    · intro hy
      have := h.1
      rw [hy] at this
      by_contra hc
      have hx' : 0 < x := lt_of_le_of_ne hx (Ne.symm hc)
      have : 0 < (1 - u) ^ e * x := by positivity
      linarith
    · intro hx'
      have := h
      unfold Within at this
      rw [hx', mul_zero, mul_zero] at this
      exact le_antisymm this.2 this.1
  have s1 : |x1 - x2| + |y1 - y2| = 0 ↔ x1 = x2 ∧ y1 = y2 := by
    rw [add_eq_zero_iff_of_nonneg (abs_nonneg _) (abs_nonneg _), abs_eq_zero, abs_eq_zero,
      sub_eq_zero, sub_eq_zero]
  have s3 : (x1 - x2) ^ 2 + (y1 - y2) ^ 2 = 0 ↔ x1 = x2 ∧ y1 = y2 := by
    rw [add_eq_zero_iff_of_nonneg (sq_nonneg _) (sq_nonneg _), sq_eq_zero_iff, sq_eq_zero_iff,
      sub_eq_zero, sub_eq_zero]
  have s2 : max |x1 - x2| |y1 - y2| = 0 ↔ x1 = x2 ∧ y1 = y2 := by
    rw [← s1]
    constructor
    · intro h
      have ha := le_max_left |x1 - x2| |y1 - y2|
      have hb := le_max_right |x1 - x2| |y1 - y2|
      rw [h] at ha hb
      linarith [abs_nonneg (x1 - x2), abs_nonneg (y1 - y2)]
    · intro h
      have ha : |x1 - x2| = 0 := by linarith [abs_nonneg (x1 - x2), abs_nonneg (y1 - y2)]
      have hb : |y1 - y2| = 0 := by linarith [abs_nonneg (x1 - x2), abs_nonneg (y1 - y2)]
      rw [ha, hb, max_self]
  refine ⟨(key _ _ _ h1 (by positivity)).trans s1, (key _ _ _ h2 (by positivity)).trans s2,
    (key _ _ _ h3 (by positivity)).trans s3, (key _ _ _ h4 (by positivity)).trans ?_⟩
  rw [Real.sqrt_eq_zero (by positivity)]
  exact s3

/-- **C91 (rounded).** The triangle inequality holds up to rounding errors. -/
theorem C91_triangle_rounded {fl : ℝ → ℝ} {u : ℝ} (hf : Precise fl u) (hu : u < 1)
    (x1 y1 x2 y2 x3 y3 : ℝ) :
    (1 - u) ^ 2 * getDistManhattan fl x1 y1 x3 y3 ≤
      (1 + u) ^ 2 * (getDistManhattan fl x1 y1 x2 y2 + getDistManhattan fl x2 y2 x3 y3) ∧
    (1 - u) * getDistChebyshev fl x1 y1 x3 y3 ≤
      (1 + u) * (getDistChebyshev fl x1 y1 x2 y2 + getDistChebyshev fl x2 y2 x3 y3) ∧
    (1 - u) ^ 3 * getDistEuclidean fl x1 y1 x3 y3 ≤
      (1 + u) ^ 3 * (getDistEuclidean fl x1 y1 x2 y2 + getDistEuclidean fl x2 y2 x3 y3) := by
  have hu0 := hf.nonneg
  have hu1 : 0 < 1 - u := by linarith
  have key : ∀ (e : ℕ) (a b c a' b' c' : ℝ), Within u e a a' → Within u e b b' → Within u e c c' →
      a' ≤ b' + c' → (1 - u) ^ e * a ≤ (1 + u) ^ e * (b + c) := by
    intro e a b c a' b' c' ha hb hc h
    have p1 : 0 ≤ (1 - u) ^ e := by positivity
    have p2 : 0 ≤ (1 + u) ^ e := by positivity
    calc (1 - u) ^ e * a ≤ (1 - u) ^ e * ((1 + u) ^ e * a') := mul_le_mul_of_nonneg_left ha.2 p1
      _ ≤ (1 - u) ^ e * ((1 + u) ^ e * (b' + c')) :=
          mul_le_mul_of_nonneg_left (mul_le_mul_of_nonneg_left h p2) p1
      _ = (1 + u) ^ e * ((1 - u) ^ e * b' + (1 - u) ^ e * c') := by ring
      _ ≤ _ := mul_le_mul_of_nonneg_left (add_le_add hb.1 hc.1) p2
  obtain ⟨a1, a2, -, a4⟩ := C91_error hf hu x1 y1 x3 y3
  obtain ⟨b1, b2, -, b4⟩ := C91_error hf hu x1 y1 x2 y2
  obtain ⟨c1, c2, -, c4⟩ := C91_error hf hu x2 y2 x3 y3
  refine ⟨key _ _ _ _ _ _ _ a1 b1 c1 ?_, ?_, key _ _ _ _ _ _ _ a4 b4 c4 ?_⟩
  · have := C91_manhattan.triangle x1 y1 x2 y2 x3 y3
    simpa only [getDistManhattan, id] using this
  · have := C91_chebyshev.triangle x1 y1 x2 y2 x3 y3
    simp only [getDistChebyshev, id] at this
    have h := key _ _ _ _ _ _ _ a2 b2 c2 (by
      rw [abs_sub_comm x1 x3, abs_sub_comm y1 y3, abs_sub_comm x1 x2, abs_sub_comm y1 y2,
        abs_sub_comm x2 x3, abs_sub_comm y2 y3]
      exact this)
    simpa only [pow_one] using h
  · have := C91_euclidean.triangle x1 y1 x2 y2 x3 y3
    simp only [getDistEuclidean, getDistSquaredEuclidean, id] at this
    simp only [sq]
    exact this

/-! ### C92 — interpolation -/

/-- **C92 (rounded).** Linear interpolation: the error is one rounding error of the first value and
three of the distance covered. -/
theorem C92_lerp_error {fl : ℝ → ℝ} {u : ℝ} (hf : Precise fl u) (dbg : Bool) (w a b : ℝ) (h0 : 0 ≤ w)
    (h1 : w ≤ 1) :
    ∃ r, getLerp fl dbg w a b = .num r ∧
      |r - (a + w * (b - a))| ≤ u * |a| + ((1 + u) ^ 3 - 1) * |w * (b - a)| := by
  have hu := hf.nonneg
  refine ⟨fl (a + fl (w * fl (b - a))), ?_, ?_⟩
  · simp only [getLerp, h0, h1, and_self, not_true_eq_false, and_false, if_false]
  have hw : Rel 0 w w := by simp [Rel]
  have h2 := hw.mul hu le_rfl (hf.rel (b - a))
  have h3 : Rel ((1 + u) ^ 2 - 1) (fl (w * fl (b - a))) (w * (b - a)) := by
    have := h2.trans hu (hf.rel _)
    have e : (1 + ((1 + 0) * (1 + u) - 1)) * (1 + u) - 1 = (1 + u) ^ 2 - 1 := by ring
    rw [e] at this
    exact this
  generalize fl (w * fl (b - a)) = y at h3
  have h4 := hf (a + y)
  have h5 : |a + y| ≤ |a| + |y| := abs_add_le _ _
  have h6 := h3.abs_le
  unfold Rel at h3
  have h7 : |fl (a + y) - (a + w * (b - a))| ≤ |fl (a + y) - (a + y)| + |y - w * (b - a)| := by
    have := abs_sub_le (fl (a + y)) (a + y) (a + w * (b - a))
    rwa [add_sub_add_left_eq_sub] at this
  have h8 : u * |a + y| ≤ u * (|a| + |y|) := mul_le_mul_of_nonneg_left h5 hu
  have h9 : u * |y| ≤ u * ((1 + ((1 + u) ^ 2 - 1)) * |w * (b - a)|) :=
    mul_le_mul_of_nonneg_left h6 hu
  nlinarith

/-- **C92 (rounded).** Mapping from one range to another: the error is one rounding error of the lower
end and six of the distance from it. The only bad case is an empty input range. -/
theorem C92_map_error {fl : ℝ → ℝ} {u : ℝ} (hf : Precise fl u) (hu1 : u < 1) (dbg : Bool)
    (i iMin iMax oMin oMax : ℝ) (h : iMin ≠ iMax) :
    ∃ r, getMap fl dbg i iMin iMax oMin oMax = .num r ∧
      |r - (oMin + (i - iMin) * (oMax - oMin) / (iMax - iMin))| ≤
        u * |oMin| +
          ((1 + u) ^ 5 / (1 - u) - 1) * |(i - iMin) * (oMax - oMin) / (iMax - iMin)| := by
  have hu := hf.nonneg
  have hne : iMax - iMin ≠ 0 := sub_ne_zero.mpr h.symm
  have hd := (hf.rel (iMax - iMin)).inv hu1 hne
  have hu' : 0 < 1 - u := by linarith
  refine ⟨_, by rw [getMap, if_neg hd.2], ?_⟩
  have p1 := (hf.rel (i - iMin)).mul hu hu (hf.rel (oMax - oMin))
  have p2 := p1.trans hu (hf.rel _)
  have p3 := p2.div (by nlinarith [mul_nonneg hu hu, mul_nonneg hu (mul_nonneg hu hu)]) hu hu1 hne
    (hf.rel (iMax - iMin))
  have p4 : Rel ((1 + u) ^ 4 / (1 - u) - 1)
      (fl (fl (fl (i - iMin) * fl (oMax - oMin)) / fl (iMax - iMin)))
      ((i - iMin) * (oMax - oMin) / (iMax - iMin)) := by
    have := p3.trans hu (hf.rel _)
    have e : (1 + ((1 + ((1 + ((1 + u) * (1 + u) - 1)) * (1 + u) - 1)) / (1 - u) - 1)) * (1 + u) - 1 =
        (1 + u) ^ 4 / (1 - u) - 1 := by ring
    rw [e] at this
    exact this
  generalize fl (fl (fl (i - iMin) * fl (oMax - oMin)) / fl (iMax - iMin)) = y at p4
  generalize (i - iMin) * (oMax - oMin) / (iMax - iMin) = x at p4
  have h4 := hf (y + oMin)
  have h5 : |y + oMin| ≤ |y| + |oMin| := abs_add_le _ _
  have h6 := p4.abs_le
  unfold Rel at p4
  have h7 : |fl (y + oMin) - (oMin + x)| ≤ |fl (y + oMin) - (y + oMin)| + |y - x| := by
    have := abs_sub_le (fl (y + oMin)) (y + oMin) (oMin + x)
    have e : y + oMin - (oMin + x) = y - x := by ring
    rwa [e] at this
  have h8 : u * |y + oMin| ≤ u * (|y| + |oMin|) := mul_le_mul_of_nonneg_left h5 hu
  have h9 : u * |y| ≤ u * ((1 + ((1 + u) ^ 4 / (1 - u) - 1)) * |x|) :=
    mul_le_mul_of_nonneg_left h6 hu
  have e : (1 + u) ^ 5 / (1 - u) = (1 + u) ^ 4 / (1 - u) + u * ((1 + u) ^ 4 / (1 - u)) := by ring
  rw [e]
  nlinarith

/-! ### C87 — wrapping -/

/-- **C87 (rounded).** A wrapped angle is the exact one up to one rounding error. -/
theorem C87_error {fl : ℝ → ℝ} {u : ℝ} (hf : Precise fl u) (k : Consts) (hk : 0 < k.tau) (x : ℝ) :
    (∃ r w, getWrapDeg fl x = some r ∧ (0 ≤ w ∧ w < 360 ∧ Same 360 w x) ∧ |r - w| ≤ u * w) ∧
    (∃ r w, getWrapRad fl k x = some r ∧ (0 ≤ w ∧ w < k.tau ∧ Same k.tau w x) ∧
      |r - w| ≤ u * w) := by
  have hu := hf.nonneg
  have step : ∀ w : ℝ, 0 ≤ w → |fl w - w| ≤ u * w := by
    intro w hw
    have := hf w
    rwa [abs_of_nonneg hw] at this
  constructor
  · obtain ⟨m, w, h1, h2, h3, h4, h5⟩ := wrap_aux (fl := fl) (x := x) (p := 360) (by norm_num)
    rcases h5 with ⟨h5, h6⟩ | ⟨h5, h7, h6⟩
    · exact ⟨w, w, by simp [getWrapDeg, h1, h6, not_lt.mpr h2], ⟨h2, h3, h4⟩, by
        rw [sub_self, abs_zero]; positivity⟩
    · exact ⟨fl w, w, by simp [getWrapDeg, h1, h5, h6], ⟨h2, h3, h4⟩, step w h2⟩
  · obtain ⟨m, w, h1, h2, h3, h4, h5⟩ := wrap_aux (fl := fl) (x := x) hk
    rcases h5 with ⟨h5, h6⟩ | ⟨h5, h7, h6⟩
    · exact ⟨w, w, by simp [getWrapRad, h1, h6, not_lt.mpr h2], ⟨h2, h3, h4⟩, by
        rw [sub_self, abs_zero]; positivity⟩
    · exact ⟨fl w, w, by simp [getWrapRad, h1, h5, h6], ⟨h2, h3, h4⟩, step w h2⟩

/-! ### C88 — cycling -/

theorem fmod_quot {x y : ℝ} (hy : 0 < y) :
    ∃ (r : ℝ) (n : ℤ), fmod x y = some r ∧ r = x - n * y ∧ |(n : ℝ)| * y ≤ |x| ∧ -y < r ∧ r < y := by
  obtain ⟨r, h1, h2, h3, h4, h5, h6⟩ := fmod_spec (x := x) hy
  obtain ⟨k, hk⟩ := h2
  refine ⟨r, -k, h1, by push_cast; linarith, ?_, h3, h4⟩
  push_cast
  rw [abs_neg]
  have e : |(k : ℝ)| * y = |r - x| := by rw [hk, abs_mul, abs_of_pos hy]
  rw [e]
  rcases le_total 0 x with hx | hx
  · have hr := h5 hx
    have hk0 : k ≤ 0 := by
      by_contra hc
      have : (1 : ℝ) ≤ k := by exact_mod_cast (by omega : 1 ≤ k)
      nlinarith
    have hk0' : (k : ℝ) ≤ 0 := by exact_mod_cast hk0
    have : (k : ℝ) * y ≤ 0 := mul_nonpos_of_nonpos_of_nonneg hk0' hy.le
    rw [abs_of_nonneg hx, abs_le]
    constructor <;> linarith
  · have hr := h6 hx
    have hk0 : 0 ≤ k := by
      by_contra hc
      have : (k : ℝ) ≤ -1 := by exact_mod_cast (by omega : k ≤ -1)
      nlinarith
    have hk0' : (0 : ℝ) ≤ k := by exact_mod_cast hk0
    have : 0 ≤ (k : ℝ) * y := mul_nonneg hk0' hy.le
    rw [abs_of_nonpos hx, abs_le]
    constructor <;> linarith

/-- **C88 (rounded).** The result is, up to the given error, a value that differs from `x` by a
multiple of the length of the range; and up to the given error it is in the range. -/
theorem C88_error {fl : ℝ → ℝ} {u : ℝ} (hf : Precise fl u) (hu1 : u < 1) (x min max : ℝ)
    (h : min < max) :
    ∃ r w, getCycledValue fl x min max = some r ∧ Same (max - min) w x ∧
      |r - w| ≤ 2 * u / (1 - u) * |x - min| + u * |min| + ((1 + u) ^ 3 - 1) * (max - min) ∧
      min - (u * |min| + ((1 + u) ^ 3 - 1) * (max - min)) ≤ r ∧
      r ≤ max + (u * |min| + ((1 + u) ^ 3 - 1) * (max - min)) := by
  have hu := hf.nonneg
  have hu' : 0 < 1 - u := by linarith
  have hD : 0 < max - min := by linarith
  have hd := hf.between hD.le
  have hd0 : 0 < fl (max - min) := lt_of_lt_of_le (mul_pos hu' hD) hd.1
  have hdD : |fl (max - min) - (max - min)| ≤ u * (max - min) := by
    have := hf (max - min)
    rwa [abs_of_pos hD] at this
  obtain ⟨r, n, h1, h2, h3, h4, h5⟩ := fmod_quot (x := fl (x - min)) hd0
  have hy := hf (x - min)
  have hy2 := (hf.rel (x - min)).abs_le
  -- the quotient is not large
  have hn : |(n : ℝ)| * (max - min) ≤ (1 + u) / (1 - u) * |x - min| := by
    rw [div_mul_eq_mul_div, le_div_iff₀ hu']
    calc |(n : ℝ)| * (max - min) * (1 - u) = |(n : ℝ)| * ((1 - u) * (max - min)) := by ring
      _ ≤ |(n : ℝ)| * fl (max - min) := mul_le_mul_of_nonneg_left hd.1 (abs_nonneg _)
      _ ≤ |fl (x - min)| := h3
      _ ≤ _ := hy2
  -- the remainder, compared with that of exact arithmetic
  have hr : |r - (x - min - n * (max - min))| ≤ 2 * u / (1 - u) * |x - min| := by
    have e : r - (x - min - n * (max - min)) =
        (fl (x - min) - (x - min)) - n * (fl (max - min) - (max - min)) := by rw [h2]; ring
    rw [e]
    refine (abs_sub _ _).trans ?_
    rw [abs_mul]
    have h6 : |(n : ℝ)| * |fl (max - min) - (max - min)| ≤ |(n : ℝ)| * (u * (max - min)) :=
      mul_le_mul_of_nonneg_left hdD (abs_nonneg _)
    have h7 : u * (|(n : ℝ)| * (max - min)) ≤ u * ((1 + u) / (1 - u) * |x - min|) :=
      mul_le_mul_of_nonneg_left hn hu
    have e2 : 2 * u / (1 - u) * |x - min| = u * |x - min| + u * ((1 + u) / (1 - u) * |x - min|) := by
      field_simp; ring
    rw [e2]
    linarith
  generalize hδ : fl (max - min) = δ at *
  generalize hE : 2 * u / (1 - u) * |x - min| = E at *
  have hu2 : 0 ≤ u ^ 2 := sq_nonneg u
  have hδD : δ ≤ (1 + u) * (max - min) := hd.2
  -- after the correction of negative remainders
  have key : ∃ r1 w1, (if r < 0 then fl (r + δ) else r) = r1 ∧ Same (max - min) w1 (x - min) ∧
      |r1 - w1| ≤ E + ((1 + u) ^ 2 - 1) * (max - min) ∧ 0 ≤ r1 ∧ r1 ≤ (1 + u) ^ 2 * (max - min) := by
    by_cases hneg : r < 0
    · rw [if_pos hneg]
      have hb := hf.between (x := r + δ) (by linarith)
      have h8 := hf (r + δ)
      rw [abs_of_pos (by linarith : 0 < r + δ)] at h8
      refine ⟨_, x - min - n * (max - min) + (max - min), rfl, ⟨1 - n, by push_cast; ring⟩, ?_, ?_, ?_⟩
      · have e : fl (r + δ) - (x - min - n * (max - min) + (max - min)) =
          (fl (r + δ) - (r + δ)) + (r - (x - min - n * (max - min))) + (δ - (max - min)) := by ring
        rw [e]
        refine (abs_add_three _ _ _).trans ?_
        have h9 : u * (r + δ) ≤ u * ((1 + u) * (max - min)) :=
          mul_le_mul_of_nonneg_left (by linarith) hu
        nlinarith
      · exact le_trans (mul_nonneg hu'.le (by linarith)) hb.1
      · refine hb.2.trans ?_
        have : (1 + u) * (r + δ) ≤ (1 + u) * ((1 + u) * (max - min)) :=
          mul_le_mul_of_nonneg_left (by linarith) (by linarith)
        linarith
    · rw [if_neg hneg]
      refine ⟨_, x - min - n * (max - min), rfl, ⟨-n, by push_cast; ring⟩, ?_, not_lt.mp hneg, ?_⟩
      · have : 0 ≤ ((1 + u) ^ 2 - 1) * (max - min) := mul_nonneg (by nlinarith) hD.le
        linarith
      · nlinarith [mul_nonneg hu hD.le, mul_nonneg hu2 hD.le]
  obtain ⟨r1, w1, k1, ⟨j, hj⟩, k3, k4, k5⟩ := key
  have hm := hf (min + r1)
  have hm1 : |min + r1| ≤ |min| + (1 + u) ^ 2 * (max - min) := by
    refine (abs_add_le _ _).trans ?_
    rw [abs_of_nonneg k4]
    linarith
  have hm2 : u * |min + r1| ≤ u * (|min| + (1 + u) ^ 2 * (max - min)) :=
    mul_le_mul_of_nonneg_left hm1 hu
  have e3 : ((1 + u) ^ 3 - 1) * (max - min) =
      ((1 + u) ^ 2 - 1) * (max - min) + u * ((1 + u) ^ 2 * (max - min)) := by ring
  have h0 : 0 ≤ ((1 + u) ^ 2 - 1) * (max - min) := mul_nonneg (by nlinarith) hD.le
  have hm3 := abs_le.mp hm
  refine ⟨fl (min + r1), min + w1, ?_, ⟨j, by linarith⟩, ?_, ?_, ?_⟩
  · simp only [getCycledValue, hδ, h1, Option.bind_eq_bind, Option.bind_some, k1, Option.pure_def]
  · have e : fl (min + r1) - (min + w1) = (fl (min + r1) - (min + r1)) + (r1 - w1) := by ring
    rw [e]
    refine (abs_add_le _ _).trans ?_
    linarith
  · linarith
  · linarith

/-! ### C89 — distances between angles -/

theorem dist_exists (p a b : ℝ) (hp : 0 < p) : ∃ d, Dist p a b d := by
  obtain ⟨m, -, h⟩ := dist_aux (p / 2) a b (by linarith)
  rw [div_mul_cancel₀ _ (by norm_num : (2 : ℝ) ≠ 0)] at h
  exact ⟨_, h⟩

theorem dist_le_abs {p a b d c : ℝ} (h : Dist p a b d) (hc : Same p c (a - b)) : d ≤ |c| := by
  rw [dist_iff] at h
  obtain ⟨k, hk⟩ := hc
  have := h.2 k
  rwa [show a - b + k * p = c by linarith] at this

theorem dist_le {p a b d : ℝ} (h : Dist p a b d) : d ≤ |a - b| := dist_le_abs h (Same.refl _ _)

/-- Distances move no more than the angles. -/
theorem dist_lip {p a b c d e : ℝ} (hp : 0 < p) (h1 : Dist p a c d) (h2 : Dist p b c e) :
    |d - e| ≤ |a - b| := by
  obtain ⟨f, hf⟩ := dist_exists p a b hp
  obtain ⟨g, hg⟩ := dist_exists p b a hp
  have k1 := (C89_dist_facts hp hf h2 h1).2.2.2.2
  have k2 := (C89_dist_facts hp hg h1 h2).2.2.2.2
  have k3 := dist_le hf
  have k4 := dist_le hg
  rw [abs_sub_comm] at k4
  rw [abs_le]
  constructor <;> linarith

theorem dist_abs {p a b d : ℝ} (hp : 0 < p) (h : Dist p |a - b| 0 d) : Dist p a b d := by
  rw [dist_iff] at h ⊢
  simp only [sub_zero] at h
  rcases abs_cases (a - b) with ⟨hab, -⟩ | ⟨hab, -⟩
  · rwa [hab] at h
  · rw [hab] at h
    obtain ⟨⟨k, hk⟩, h2⟩ := h
    refine ⟨⟨-k, ?_⟩, fun l => ?_⟩
    · rw [hk, ← abs_neg]; congr 1; push_cast; ring
    · have := h2 (-l)
      rw [← abs_neg] at this
      refine this.trans (le_of_eq ?_)
      congr 1; push_cast; ring

theorem dist_error {fl : ℝ → ℝ} {u : ℝ} (hf : Precise fl u) (p a b : ℝ) (hp : 0 < p) :
    ∃ m d, fmod |fl (a - b)| (p * 2) = some m ∧ Dist (p * 2) a b d ∧
      |fl (p - |fl (m - p)|) - d| ≤ u * |a - b| + (u + u ^ 2) * p := by
  have hu := hf.nonneg
  have hp2 : 0 < p * 2 := by linarith
  obtain ⟨m, h1, h2⟩ := dist_aux p |fl (a - b)| 0 hp
  rw [sub_zero, abs_abs] at h1
  obtain ⟨d, hd⟩ := dist_exists (p * 2) |a - b| 0 hp2
  refine ⟨m, d, h1, dist_abs hp2 hd, ?_⟩
  have h3 := dist_lip hp2 h2 hd
  have h4 : |(|fl (a - b)| - |a - b|)| ≤ u * |a - b| := (abs_abs_sub_abs_le _ _).trans (hf _)
  obtain ⟨z, hz⟩ := dist_exists (p * 2) 0 0 hp2
  have h5 := C89_dist_facts hp2 h2 hz h2
  generalize hM : |m - p| = M at *
  have h6 : |(|fl (m - p)| - M)| ≤ u * M := by
    rw [← hM]; exact (abs_abs_sub_abs_le _ _).trans (hf _)
  have hM0 : 0 ≤ M := by rw [← hM]; exact abs_nonneg _
  have hMp : M ≤ p := by linarith [h5.1]
  generalize |fl (m - p)| = N at *
  have h7 := hf (p - N)
  have h8 : |p - N| ≤ (p - M) + u * M := by
    have e : p - N = (p - M) - (N - M) := by ring
    rw [e]
    refine (abs_sub _ _).trans ?_
    rw [abs_of_nonneg (by linarith : 0 ≤ p - M)]
    linarith
  have h9 : u * |p - N| ≤ u * ((p - M) + u * M) := mul_le_mul_of_nonneg_left h8 hu
  have e : fl (p - N) - d = (fl (p - N) - (p - N)) + -(N - M) + ((p - M) - d) := by ring
  rw [e]
  refine (abs_add_three _ _ _).trans ?_
  rw [abs_neg]
  have h10 : u ^ 2 * M ≤ u ^ 2 * p := mul_le_mul_of_nonneg_left hMp (sq_nonneg u)
  nlinarith

/-- **C89 (rounded).** The distance between two angles in degrees. -/
theorem C89_deg_error {fl : ℝ → ℝ} {u : ℝ} (hf : Precise fl u) (a b : ℝ) :
    ∃ r d, getDistDeg fl a b = some r ∧ Dist 360 a b d ∧
      |r - d| ≤ u * |a - b| + 180 * (u + u ^ 2) := by
  obtain ⟨m, d, h1, h2, h3⟩ := dist_error hf 180 a b (by norm_num)
  rw [show (180 : ℝ) * 2 = 360 by norm_num] at h1 h2
  exact ⟨fl (180 - |fl (m - 180)|), d, by simp only [getDistDeg, h1, Option.bind_eq_bind,
    Option.bind_some, Option.pure_def], h2, by linarith⟩

/-- **C89 (rounded).** The distance between two angles in radians; doubling the constant is exact in
binary floating point. -/
theorem C89_rad_error {fl : ℝ → ℝ} {u : ℝ} (hf : Precise fl u) (k : Consts) (hk : 0 < k.pi)
    (h2 : fl (k.pi * 2) = k.pi * 2) (a b : ℝ) :
    ∃ r d, getDistRad fl k a b = some r ∧ Dist (k.pi * 2) a b d ∧
      |r - d| ≤ u * |a - b| + k.pi * (u + u ^ 2) := by
  obtain ⟨m, d, h1, h3, h4⟩ := dist_error hf k.pi a b hk
  exact ⟨fl (k.pi - |fl (m - k.pi)|), d, by
    simp only [getDistRad, h2, h1, Option.bind_eq_bind, Option.bind_some, Option.pure_def],
    h3, by linarith⟩

/-- The hypotheses of `C89_rad_error` are met: with 24 digits, doubling 3 is exact. -/
theorem C89_rad_error_example : nearest 24 ((⟨3, 6, 1⟩ : Consts).pi * 2) = (⟨3, 6, 1⟩ : Consts).pi * 2 := by
  have e6 : (⟨3, 6, 1⟩ : Consts).pi * 2 = ((6 : ℤ) : ℝ) := by norm_num
  rw [e6]
  exact nearest_int (by norm_num) 6 (by norm_num)

/-! ### C90 — rotating -/

/-- The signed difference computed by `getRotatedDeg`. -/
theorem rotated_diff {fl : ℝ → ℝ} {u : ℝ} (hf : Precise fl u) (hu1 : u ≤ 1 / 100) (start stop : ℝ) :
    ∃ e s diff w, getWrapDeg fl stop = some e ∧ getWrapDeg fl start = some s ∧
      getCycledValue fl (fl (e - s)) (-180) 180 = some diff ∧ Same 360 w (stop - start) ∧
      |diff - w| ≤ 3500 * u ∧ |diff| ≤ 180 + 1300 * u := by
  have hu := hf.nonneg
  obtain ⟨e, e', h1, ⟨h2, h3, k1, hk1⟩, h4⟩ :=
    (C87_error hf ⟨1, 1, 1⟩ (by norm_num) stop).1
  obtain ⟨s, s', g1, ⟨g2, g3, k2, hk2⟩, g4⟩ :=
    (C87_error hf ⟨1, 1, 1⟩ (by norm_num) start).1
  obtain ⟨diff, w, d1, ⟨k3, hk3⟩, d3, d4, d5⟩ :=
    C88_error hf (by linarith) (fl (e - s)) (-180) 180 (by norm_num)
  have a1 : |e - e'| ≤ 360 * u := h4.trans (by nlinarith)
  have a2 : |s - s'| ≤ 360 * u := g4.trans (by nlinarith)
  have a1' := abs_le.mp a1
  have a2' := abs_le.mp a2
  have a3 : |e - s| ≤ 360 + 720 * u := by
    rw [abs_le]; constructor <;> linarith
  have a4 := hf (e - s)
  have a5 : u * |e - s| ≤ u * (360 + 720 * u) := mul_le_mul_of_nonneg_left a3 hu
  have a6 : u * u ≤ u * (1 / 100) := mul_le_mul_of_nonneg_left hu1 hu
  have a7 : |fl (e - s) - (e - s)| ≤ 368 * u := by linarith
  have a7' := abs_le.mp a7
  have a3' := abs_le.mp a3
  have a8 : |fl (e - s) - -180| ≤ 552 := by
    rw [abs_le]; constructor <;> linarith
  have a9 : 2 * u / (1 - u) * |fl (e - s) - -180| ≤ 1120 * u := by
    have b1 : 2 * u / (1 - u) ≤ 2 * u * (100 / 99) := by
      rw [div_le_iff₀ (by linarith)]
      nlinarith
    have b2 : 2 * u / (1 - u) * |fl (e - s) - -180| ≤ 2 * u * (100 / 99) * 552 :=
      mul_le_mul b1 a8 (abs_nonneg _) (by positivity)
    linarith
  have a10 : ((1 + u) ^ 3 - 1) * (180 - -180) ≤ 1100 * u := by
    have : u * u * u ≤ u * (1 / 100) * (1 / 100) :=
      mul_le_mul a6 hu1 hu (by positivity)
    nlinarith
  have a11 : |(-180 : ℝ)| = 180 := by norm_num
  rw [a11] at d3 d4 d5
  have d3' := abs_le.mp d3
  refine ⟨e, s, diff, w - (fl (e - s) - (e' - s')), h1, g1, d1, ⟨k3 + k1 - k2, ?_⟩, ?_, ?_⟩
  · push_cast
    linarith
  · rw [abs_le]
    constructor <;> linarith
  · rw [abs_le]
    constructor <;> linarith

/-- **C90 (rounded).** With rounding, rotating still goes towards the target: it stops at the target
only if this is not much farther away than `speed`, and otherwise comes closer by `speed`, up to the
given errors. -/
theorem C90_deg_error {fl : ℝ → ℝ} {u : ℝ} (hf : Precise fl u) (hu1 : u ≤ 1 / 100)
    (start stop speed d : ℝ) (hs : 0 ≤ speed) (hd : Dist 360 start stop d) :
    ∃ r, getRotatedDeg fl start stop speed = some r ∧
      ((r = stop ∧ d ≤ speed + 3500 * u) ∨
       ∃ d', Dist 360 r stop d' ∧ d' ≤ max 0 (d - speed) + 9600 * u + u * (|start| + speed)) := by
  have hu := hf.nonneg
  obtain ⟨e, s, diff, w, h1, h2, h3, h4, h5, h6⟩ := rotated_diff hf hu1 start stop
  obtain ⟨z, hz⟩ := dist_exists 360 stop stop (by norm_num)
  have hd' : Dist 360 stop start d := (C89_dist_facts (by norm_num) hd hz hd).2.2.1
  have hdw := dist_le_abs hd' h4
  have h5' := abs_le.mp h5
  have h6' := abs_le.mp h6
  -- the difference is not much larger than the distance
  have hwd : |w| ≤ d + 9600 * u := by
    by_cases c1 : 180 < w
    · have hc : Same 360 (w - 360) (stop - start) := by
        obtain ⟨k, hk⟩ := h4
        exact ⟨k - 1, by push_cast; linarith⟩
      have := hd'.unique (dist_of_half (by norm_num) hc (by linarith) (by linarith))
      rw [abs_of_neg (by linarith)] at this
      rw [abs_of_pos (by linarith)]
      linarith
    · by_cases c2 : w < -180
      · have hc : Same 360 (w + 360) (stop - start) := by
          obtain ⟨k, hk⟩ := h4
          exact ⟨k + 1, by push_cast; linarith⟩
        have := hd'.unique (dist_of_half (by norm_num) hc (by linarith) (by linarith))
        rw [abs_of_pos (by linarith)] at this
        rw [abs_of_neg (by linarith)]
        linarith
      · have := hd'.unique (dist_of_half (by norm_num) h4 (by linarith) (by linarith))
        linarith
  have step : ∀ t : ℝ, |start + t| ≤ |start| + speed → |w - t| ≤ max 0 (d - speed) + 9600 * u →
      ∃ d', Dist 360 (fl (start + t)) stop d' ∧
        d' ≤ max 0 (d - speed) + 9600 * u + u * (|start| + speed) := by
    intro t ht hwt
    obtain ⟨d', hd'⟩ := dist_exists 360 (fl (start + t)) stop (by norm_num)
    obtain ⟨c, hc⟩ := dist_exists 360 (start + t) stop (by norm_num)
    refine ⟨d', hd', ?_⟩
    have k1 := dist_lip (by norm_num) hd' hc
    have k2 := hf (start + t)
    have k3 : u * |start + t| ≤ u * (|start| + speed) := mul_le_mul_of_nonneg_left ht hu
    have k4 : c ≤ |w - t| := by
      rw [← abs_neg]
      refine dist_le_abs hc ?_
      obtain ⟨k, hk⟩ := h4
      exact ⟨-k, by push_cast; linarith⟩
    have k5 := (abs_le.mp k1).2
    linarith
  simp only [getRotatedDeg, h1, h2, h3, Option.bind_eq_bind, Option.bind_some, Option.pure_def]
  by_cases c1 : diff < -speed
  · rw [if_pos c1]
    refine ⟨_, rfl, Or.inr ?_⟩
    rw [sub_eq_add_neg]
    refine step (-speed) ?_ ?_
    · refine (abs_add_le _ _).trans ?_
      rw [abs_neg, abs_of_nonneg hs]
    · have m1 := le_max_left 0 (d - speed)
      have m2 := le_max_right 0 (d - speed)
      have m3 := (abs_le.mp hwd).1
      rw [abs_le]
      constructor <;> linarith
  · rw [if_neg c1]
    by_cases c2 : diff > speed
    · rw [if_pos c2]
      refine ⟨_, rfl, Or.inr (step speed ?_ ?_)⟩
      · refine (abs_add_le _ _).trans ?_
        rw [abs_of_nonneg hs]
      · have m1 := le_max_left 0 (d - speed)
        have m2 := le_max_right 0 (d - speed)
        have m3 := (abs_le.mp hwd).2
        rw [abs_le]
        constructor <;> linarith
    · rw [if_neg c2]
      refine ⟨_, rfl, Or.inl ⟨rfl, hdw.trans ?_⟩⟩
      rw [abs_le]
      constructor <;> linarith

end

end Verif.Angle
