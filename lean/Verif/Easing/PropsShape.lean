import Verif.Easing.Theorems

/-!
# How the kinds of an easing belong together, and their range: C79, C80, C81
-/

namespace Verif.Easing

open Real

/-! ## C79 -/

theorem mirror_of {inn out : Spec.Fn} {t b c d : ℝ} (x y : ℝ)
    (h1 : inn (d - t) b c d = .num x) (h2 : out t b c d = .num y) (h : y = b + c - (x - b)) :
    Spec.Mirror inn out t b c d := Or.inl ⟨x, h1, by rw [h2, h]⟩

theorem elastic_sin {p : ℝ} (hp : p ≠ 0) (x d : ℝ) :
    sin ((x * d - p / 4) * (2 * π) / p) = -cos (x * d * (2 * π) / p) := by
  have : (x * d - p / 4) * (2 * π) / p = x * d * (2 * π) / p - π / 2 := by field_simp; ring
  rw [this, sin_sub_pi_div_two]

/-- **C79.** Of every easing the `Out` function is the `In` function backwards: what is left
to go at a time is what `In` has gone when that much time is left.  `Sine` and `Elastic` are
taken with the exact `pi`. -/
theorem C79_mirror (g : Cfg) (e : Ease) (t b c d : ℝ) (hd : d ≠ 0)
    (hpi : e = .sine ∨ e = .elastic → g.pi = π) :
    Spec.Mirror (fn g e .inn) (fn g e .out) t b c d := by
  have hx : (d - t) / d = 1 - t / d := by rw [sub_div, div_self hd]
  cases e with
  | linear =>
    refine mirror_of (c * (d - t) / d + b) (c * t / d + b) ?_ ?_ ?_
    · simp only [fn, linear, nonZero_pos g hd]
    · simp only [fn, linear, nonZero_pos g hd]
    · rw [mul_div_assoc, mul_div_assoc, hx]; ring
  | sine =>
    refine mirror_of _ _ (if_neg hd) (if_neg hd) ?_
    rw [hpi (Or.inl rfl), hx]
    have : (1 - t / d) * (π / 2) = π / 2 - t / d * (π / 2) := by ring
    rw [this, cos_pi_div_two_sub]
    ring
  | back =>
    refine mirror_of _ _ (if_neg hd) (if_neg hd) ?_
    simp only [hx]; ring
  | cubic =>
    refine mirror_of _ _ (if_neg hd) (if_neg hd) ?_
    simp only [hx]; ring
  | bounce =>
    refine mirror_of _ _ (if_neg hd) (if_neg hd) ?_
    have : d - (d - t) = t := by ring
    rw [this]
    have e : bounceVal t b c d = bounceVal t 0 c d + b := by
      unfold bounceVal
      simp only
      split
      · ring
      · split
        · ring
        · split <;> ring
    rw [e]; ring
  | circ =>
    have e : 1 - (1 - t / d) * (1 - t / d) = 1 - (t / d - 1) * (t / d - 1) := by ring
    by_cases h : 0 ≤ 1 - (t / d - 1) * (t / d - 1)
    · refine mirror_of (-c * (√(1 - (t / d - 1) * (t / d - 1)) - 1) + b)
        (c * √(1 - (t / d - 1) * (t / d - 1)) + b) ?_ ?_ ?_
      · simp only [fn, circIn, nonZero_pos g hd, hx, e, sqrtThen_nonneg h]
      · simp only [fn, circOut, nonZero_pos g hd, sqrtThen_nonneg h]
      · ring
    · refine Or.inr ⟨.nan, by simp, ?_, ?_⟩
      · simp only [fn, circIn, nonZero_pos g hd, hx, e, sqrtThen, if_neg h]
      · simp only [fn, circOut, nonZero_pos g hd, sqrtThen, if_neg h]
  | elastic =>
    have hp := hpi (Or.inr rfl)
    have hp0 : d * 0.3 ≠ 0 := mul_ne_zero hd (by norm_num)
    have hz : (d - t = 0) ↔ t / d = 1 := by
      rw [div_eq_one_iff_eq hd, sub_eq_zero]; exact eq_comm
    have ho : ((d - t) / d = 1) ↔ t = 0 := by
      rw [div_eq_one_iff_eq hd]
      constructor <;> intro h <;> linarith
    by_cases h1 : t / d = 1
    · refine mirror_of b (b + c) ?_ ?_ (by ring)
      · simp only [fn, elasticIn, if_neg (dbg_zero hd)]; rw [if_pos (hz.2 h1)]
      · have : t ≠ 0 := by
          rintro rfl
          rw [zero_div] at h1
          norm_num at h1
        simp only [fn, elasticOut, if_neg (dbg_zero hd), if_neg this, if_neg hd, if_pos h1]
    · by_cases h0 : t = 0
      · refine mirror_of (b + c) b ?_ ?_ (by ring)
        · simp only [fn, elasticIn, if_neg (dbg_zero hd)]
          rw [if_neg (fun c => h1 (hz.1 c)), if_neg hd, if_pos (ho.2 h0)]
        · simp only [fn, elasticOut, if_neg (dbg_zero hd), if_pos h0]
      · refine mirror_of
          (-(c * (2 : ℝ) ^ (10 * ((d - t) / d - 1)) *
            sin ((((d - t) / d - 1) * d - d * 0.3 / 4) * (2 * π) / (d * 0.3))) + b)
          (c * (2 : ℝ) ^ (-10 * (t / d)) *
            sin ((t / d * d - d * 0.3 / 4) * (2 * π) / (d * 0.3)) + c + b) ?_ ?_ ?_
        · simp only [fn, elasticIn, if_neg (dbg_zero hd)]
          rw [if_neg (fun c => h1 (hz.1 c)), if_neg hd, if_neg (fun c => h0 (ho.1 c)), hp]
        · simp only [fn, elasticOut, if_neg (dbg_zero hd), if_neg h0, if_neg hd, if_neg h1, hp]
        · rw [elastic_sin hp0, elastic_sin hp0, hx]
          have e1 : 10 * (1 - t / d - 1) = -10 * (t / d) := by ring
          have e2 : (1 - t / d - 1) * d * (2 * π) / (d * 0.3) = -(t / d * d * (2 * π) / (d * 0.3)) := by
            ring
          rw [e1, e2, cos_neg]; ring
  | expo =>
    by_cases h0 : t = d
    · subst h0
      refine mirror_of b (b + c) ?_ ?_ (by ring)
      · simp [fn, expoIn, hd]
      · simp [fn, expoOut, hd]
    · refine mirror_of (c * (2 : ℝ) ^ (10 * ((d - t) / d - 1)) + b)
        (c * (-(2 : ℝ) ^ (-10 * t / d) + 1) + b) ?_ ?_ ?_
      · simp only [fn, expoIn, if_neg (dbg_zero hd)]
        rw [if_neg (fun c => h0 (by linarith)), if_neg hd]
      · simp only [fn, expoOut, if_neg (dbg_zero hd), if_neg h0, if_neg hd]
      · have : 10 * ((d - t) / d - 1) = -10 * t / d := by rw [hx]; ring
        rw [this]; ring
  | quad =>
    refine mirror_of _ _ (if_neg hd) (if_neg hd) ?_
    simp only [hx]; ring
  | quart =>
    refine mirror_of _ _ (if_neg hd) (if_neg hd) ?_
    simp only [hx]; ring
  | quint =>
    refine mirror_of _ _ (if_neg hd) (if_neg hd) ?_
    simp only [hx]; ring

/-! ## C80 -/

theorem scaled_eq {d : ℝ} (hd : d ≠ 0) (t : ℝ) : t / (d / 2) = 2 * t / d := by field_simp

theorem bounceVal_half (t b c d : ℝ) :
    bounceVal t b (c / 2) d = bounceVal t 0 c d * 0.5 + b := by
  unfold bounceVal
  simp only
  split
  · ring
  · split
    · ring
    · split <;> ring

/-- **C80.** The `InOut` function is made of an `In` and an `Out`, each over half of the
duration and half of the change.  What is missing: `Back` and `Elastic`, whose in-out
functions have other constants, `Cubic`, whose second half is wrong, `Bounce` for negative
durations, and `Circ` when the left operand is read first. -/
theorem C80_halves_partial (g : Cfg) (e : Ease) (t b c d : ℝ) (hd : d ≠ 0)
    (he : e ≠ .back ∧ e ≠ .elastic ∧ e ≠ .cubic) (hb : e = .bounce → 0 < d)
    (hm : e = .circ → g.modFirst = true) (hpi : e = .sine → g.pi = π) :
    Spec.Halves (fn g e .inn) (fn g e .out) (fn g e .inOut) t b c d := by
  have hs := scaled_eq hd t
  have h2t : 2 * t / d = 2 * (t / d) := by ring
  have hout : (2 * t - d) / d = 2 * (t / d) - 1 := by rw [sub_div, div_self hd, h2t]
  cases e with
  | linear =>
    refine ⟨fun _ => ?_, fun _ => ?_⟩
    · simp only [fn, linear, nonZero_pos g hd, Res.num.injEq]; ring
    · simp only [fn, linear, nonZero_pos g hd, Res.num.injEq]; field_simp; ring
  | sine =>
    have hp := hpi rfl
    refine ⟨fun _ => ?_, fun _ => ?_⟩
    · simp only [fn, sineIn, sineInOut, nonZero_pos g hd, Res.num.injEq, hp, h2t]
      have : 2 * (t / d) * (π / 2) = π * t / d := by ring
      rw [this]; ring
    · simp only [fn, sineOut, sineInOut, nonZero_pos g hd, Res.num.injEq, hp, hout]
      have : (2 * (t / d) - 1) * (π / 2) = π * t / d - π / 2 := by ring
      rw [this, sin_sub_pi_div_two]; ring
  | back => exact absurd rfl he.1
  | cubic => exact absurd rfl he.2.2
  | bounce =>
    have hp := hb rfl
    refine ⟨fun h => ?_, fun h => ?_⟩
    · have : t < d / 2 := by rw [div_lt_iff₀ hp] at h; linarith
      simp only [fn, bounceIn, bounceInOut, nonZero_pos g hd, if_pos this, Res.num.injEq]
      rw [bounceVal_half, mul_comm t 2]; ring
    · have : ¬ t < d / 2 := by rw [le_div_iff₀ hp] at h; linarith
      simp only [fn, bounceOut, bounceInOut, nonZero_pos g hd, if_neg this, Res.num.injEq]
      rw [bounceVal_half, mul_comm t 2]; ring
  | circ =>
    have hmf := hm rfl
    refine ⟨fun h => ?_, fun h => ?_⟩
    · have : 2 * (t / d) < 1 := by linarith
      simp only [fn, circIn, circInOut, nonZero_pos g hd, hs, h2t, if_pos this]
      congr 1; funext r; ring
    · have : ¬ 2 * (t / d) < 1 := by linarith
      simp only [fn, circOut, circInOut, nonZero_pos g hd, hs, hout, if_neg this, hmf, if_true, h2t]
      have e : (2 * (t / d) - 1 - 1) = 2 * (t / d) - 2 := by ring
      rw [e]
      congr 1; funext r; ring
  | elastic => exact absurd rfl he.2.1
  | expo =>
    refine ⟨fun h => ?_, fun h => ?_⟩
    · simp only [fn, expoIn, expoInOut, if_neg (dbg_zero hd), if_neg hd, hs]
      by_cases h0 : t = 0
      · rw [if_pos h0, if_pos (by rw [h0]; ring)]
      · have h1 : t ≠ d := by rintro rfl; rw [div_self hd] at h; norm_num at h
        have h2 : 2 * t / d < 1 := by rw [h2t]; linarith
        rw [if_neg h0, if_neg h1, if_pos h2, if_neg (by simpa using h0)]
    · simp only [fn, expoOut, expoInOut, if_neg (dbg_zero hd), if_neg hd, hs]
      have h0 : t ≠ 0 := by rintro rfl; rw [zero_div] at h; norm_num at h
      rw [if_neg h0]
      by_cases h1 : t = d
      · rw [if_pos h1, if_pos (by rw [h1]; ring), Res.num.injEq]; ring
      · have h2 : ¬ 2 * t / d < 1 := by rw [h2t]; linarith
        rw [if_neg h1, if_neg h2, if_neg (fun c => h1 (by linarith)), Res.num.injEq]
        have e1 : -10 * (2 * t - d) / d = -10 * (2 * t / d - 1) := by
          rw [mul_div_assoc, hout, h2t]
        rw [e1]; ring
  | quad =>
    refine ⟨fun h => ?_, fun h => ?_⟩
    · have : 2 * (t / d) < 1 := by linarith
      simp only [fn, quadIn, quadInOut, nonZero_pos g hd, hs, h2t, if_pos this]
    · have : ¬ 2 * (t / d) < 1 := by linarith
      simp only [fn, quadOut, quadInOut, nonZero_pos g hd, hs, hout, h2t, if_neg this,
        Res.num.injEq]; ring
  | quart =>
    refine ⟨fun h => ?_, fun h => ?_⟩
    · have : 2 * (t / d) < 1 := by linarith
      simp only [fn, quartIn, quartInOut, nonZero_pos g hd, hs, h2t, if_pos this]
    · have : ¬ 2 * (t / d) < 1 := by linarith
      simp only [fn, quartOut, quartInOut, nonZero_pos g hd, hs, hout, h2t, if_neg this,
        Res.num.injEq]; ring
  | quint =>
    refine ⟨fun h => ?_, fun h => ?_⟩
    · have : 2 * (t / d) < 1 := by linarith
      simp only [fn, quintIn, quintInOut, nonZero_pos g hd, hs, h2t, if_pos this]
    · have : ¬ 2 * (t / d) < 1 := by linarith
      simp only [fn, quintOut, quintInOut, nonZero_pos g hd, hs, hout, h2t, if_neg this,
        Res.num.injEq]; ring

/-- What is missing in `C80_halves_partial`, for `Cubic`: the first half is right, the second
never is (for the right end value, see `C60_cubic_end`). -/
theorem C80_cubic (g : Cfg) (b c d : ℝ) (hd : d ≠ 0) (hc : c ≠ 2) :
    (∀ t, t / d < 1 / 2 → fn g .cubic .inOut t b c d = fn g .cubic .inn (2 * t) b (c / 2) d) ∧
    fn g .cubic .inOut d b c d ≠ fn g .cubic .out (2 * d - d) (b + c / 2) (c / 2) d := by
  refine ⟨fun t h => ?_, ?_⟩
  · have h2t : 2 * t / d = 2 * (t / d) := by ring
    have : 2 * (t / d) < 1 := by linarith
    simp only [fn, cubicIn, cubicInOut, nonZero_pos g hd, scaled_eq hd, h2t, if_pos this]
  · rw [(C60_cubic_end g b c d hd).2]
    have e : (2 * d - d) = d := by ring
    rw [e]
    have := C60_end_partial g .cubic .out (b + c / 2) (c / 2) d hd (by simp) (by simp) (by simp)
    unfold Spec.Ends at this
    rw [this]
    intro h
    rw [Res.num.injEq] at h
    apply hc
    linarith

/-! ## C81 -/

theorem between_of {f : Spec.Fn} {t b c d : ℝ} (x : ℝ) (h0 : 0 ≤ x) (h1 : x ≤ 1)
    (h : f t b c d = .num (b + c * x)) : Spec.Between f t b c d := by
  refine ⟨_, h, ?_, ?_⟩
  · rcases le_total 0 c with hc | hc
    · rw [min_eq_left (by linarith)]; nlinarith
    · rw [min_eq_right (by linarith)]; nlinarith
  · rcases le_total 0 c with hc | hc
    · rw [max_eq_right (by linarith)]; nlinarith
    · rw [max_eq_left (by linarith)]; nlinarith

/-- The bounce itself, between nothing and everything. -/
theorem bounce_range (t b c d : ℝ) (h0 : 0 ≤ t / d) (h1 : t / d ≤ 1) :
    ∃ x, 0 ≤ x ∧ x ≤ 1 ∧ bounceVal t b c d = b + c * x := by
  unfold bounceVal
  simp only
  generalize t / d = y at *
  split
  · next h =>
    refine ⟨7.5625 * y * y, by positivity, ?_, by ring⟩
    have : y * y ≤ (1 / 2.75) * (1 / 2.75) := mul_self_le_mul_self h0 h.le
    nlinarith
  · split
    · next h h' =>
      refine ⟨7.5625 * (y - 1.5 / 2.75) * (y - 1.5 / 2.75) + 0.75, ?_, ?_, by ring⟩
      · nlinarith [mul_self_nonneg (y - 1.5 / 2.75)]
      · have : |y - 1.5 / 2.75| ≤ 0.5 / 2.75 := by
          rw [abs_le]; constructor <;> (norm_num at *; linarith)
        have := (abs_le_iff_mul_self_le (a := y - 1.5 / 2.75) (b := 0.5 / 2.75)).1
          (by rw [abs_of_pos (show (0 : ℝ) < 0.5 / 2.75 by norm_num)]; exact this)
        norm_num at this ⊢
        nlinarith
    · split
      · next h h' h'' =>
        refine ⟨7.5625 * (y - 2.25 / 2.75) * (y - 2.25 / 2.75) + 0.9375, ?_, ?_, by ring⟩
        · nlinarith [mul_self_nonneg (y - 2.25 / 2.75)]
        · have : |y - 2.25 / 2.75| ≤ 0.25 / 2.75 := by
            rw [abs_le]; constructor <;> (norm_num at *; linarith)
          have := (abs_le_iff_mul_self_le (a := y - 2.25 / 2.75) (b := 0.25 / 2.75)).1
            (by rw [abs_of_pos (show (0 : ℝ) < 0.25 / 2.75 by norm_num)]; exact this)
          norm_num at this ⊢
          nlinarith
      · next h h' h'' =>
        refine ⟨7.5625 * (y - 2.625 / 2.75) * (y - 2.625 / 2.75) + 0.984375, ?_, ?_, by ring⟩
        · nlinarith [mul_self_nonneg (y - 2.625 / 2.75)]
        · have : |y - 2.625 / 2.75| ≤ 0.125 / 2.75 := by
            rw [abs_le]; constructor <;> (norm_num at *; linarith)
          have := (abs_le_iff_mul_self_le (a := y - 2.625 / 2.75) (b := 0.125 / 2.75)).1
            (by rw [abs_of_pos (show (0 : ℝ) < 0.125 / 2.75 by norm_num)]; exact this)
          norm_num at this ⊢
          nlinarith

theorem pow2_neg {x : ℝ} (h : x ≤ 0) : 0 < (2 : ℝ) ^ x ∧ (2 : ℝ) ^ x ≤ 1 :=
  ⟨rpow_pos_of_pos (by norm_num) x, rpow_le_one_of_one_le_of_nonpos (by norm_num) h⟩

/-- **C81.** While the time runs from zero to the duration, the `In` and `Out` functions other
than those of `Back` and `Elastic` (which are meant to overshoot) stay between the start and
the end value. -/
theorem C81_between (g : Cfg) (e : Ease) (k : Kind) (t b c d : ℝ) (hd : 0 < d) (h0 : 0 ≤ t)
    (h1 : t ≤ d) (he : e ≠ .back ∧ e ≠ .elastic) (hk : k ≠ .inOut)
    (hpi : e = .sine → g.pi = π) : Spec.Between (fn g e k) t b c d := by
  have hd0 : d ≠ 0 := hd.ne'
  have hy0 : 0 ≤ t / d := div_nonneg h0 hd.le
  have hy1 : t / d ≤ 1 := (div_le_one hd).2 h1
  have hz : 0 ≤ 1 - t / d := by linarith
  cases e with
  | linear =>
    refine between_of (t / d) hy0 hy1 ?_
    simp only [fn, linear, nonZero_pos g hd0, Res.num.injEq]; ring
  | sine =>
    have hp := hpi rfl
    have ha : 0 ≤ t / d * (π / 2) := by positivity
    have hb : t / d * (π / 2) ≤ π / 2 := by nlinarith [pi_pos]
    cases k with
    | inn =>
      refine between_of (1 - cos (t / d * (π / 2))) (by linarith [cos_le_one (t / d * (π / 2))])
        ?_ ?_
      · have := cos_nonneg_of_neg_pi_div_two_le_of_le (x := t / d * (π / 2)) (by linarith [pi_pos]) hb
        linarith
      · simp only [fn, sineIn, nonZero_pos g hd0, hp, Res.num.injEq]; ring
    | out =>
      refine between_of (sin (t / d * (π / 2))) ?_ (sin_le_one _) ?_
      · exact sin_nonneg_of_nonneg_of_le_pi ha (by linarith [pi_pos])
      · simp only [fn, sineOut, nonZero_pos g hd0, hp, Res.num.injEq]; ring
    | inOut => exact absurd rfl hk
  | back => exact absurd rfl he.1
  | cubic =>
    cases k with
    | inn =>
      refine between_of ((t / d) ^ 3) (by positivity) (pow_le_one₀ hy0 hy1) ?_
      simp only [fn, cubicIn, nonZero_pos g hd0, Res.num.injEq]; ring
    | out =>
      have hw : 0 ≤ (1 - t / d) ^ 3 := by positivity
      refine between_of (1 - (1 - t / d) ^ 3) ?_ (by linarith) ?_
      · linarith [pow_le_one₀ (n := 3) hz (by linarith)]
      · simp only [fn, cubicOut, nonZero_pos g hd0, Res.num.injEq]; ring
    | inOut => exact absurd rfl hk
  | bounce =>
    cases k with
    | inn =>
      have e : (d - t) / d = 1 - t / d := by rw [sub_div, div_self hd0]
      obtain ⟨x, x0, x1, hx⟩ := bounce_range (d - t) 0 c d (by rw [e]; exact hz) (by rw [e]; linarith)
      refine between_of (1 - x) (by linarith) (by linarith) ?_
      simp only [fn, bounceIn, nonZero_pos g hd0, hx, Res.num.injEq]; ring
    | out =>
      obtain ⟨x, x0, x1, hx⟩ := bounce_range t b c d hy0 hy1
      refine between_of x x0 x1 ?_
      simp only [fn, bounceOut, nonZero_pos g hd0, hx]
    | inOut => exact absurd rfl hk
  | circ =>
    cases k with
    | inn =>
      have hs : 0 ≤ 1 - t / d * (t / d) := by nlinarith
      refine between_of (1 - √(1 - t / d * (t / d))) ?_ ?_ ?_
      · have : √(1 - t / d * (t / d)) ≤ 1 := Real.sqrt_le_one.2 (by nlinarith)
        linarith
      · linarith [Real.sqrt_nonneg (1 - t / d * (t / d))]
      · simp only [fn, circIn, nonZero_pos g hd0, sqrtThen_nonneg hs, Res.num.injEq]; ring
    | out =>
      have hs : 0 ≤ 1 - (t / d - 1) * (t / d - 1) := by nlinarith
      refine between_of (√(1 - (t / d - 1) * (t / d - 1))) (Real.sqrt_nonneg _) ?_ ?_
      · exact Real.sqrt_le_one.2 (by nlinarith)
      · simp only [fn, circOut, nonZero_pos g hd0, sqrtThen_nonneg hs, Res.num.injEq]; ring
    | inOut => exact absurd rfl hk
  | elastic => exact absurd rfl he.2
  | expo =>
    cases k with
    | inn =>
      by_cases ht : t = 0
      · refine between_of 0 le_rfl zero_le_one ?_
        simp only [fn, expoIn, if_neg (dbg_zero hd0), if_pos ht]; simp
      · obtain ⟨p0, p1⟩ := pow2_neg (x := 10 * (t / d - 1)) (by linarith)
        refine between_of _ p0.le p1 ?_
        simp only [fn, expoIn, if_neg (dbg_zero hd0), if_neg ht, if_neg hd0, Res.num.injEq]; ring
    | out =>
      by_cases ht : t = d
      · refine between_of 1 zero_le_one le_rfl ?_
        simp only [fn, expoOut, if_neg (dbg_zero hd0), if_pos ht]; simp
      · obtain ⟨p0, p1⟩ := pow2_neg (x := -10 * t / d) (by rw [mul_div_assoc]; linarith)
        refine between_of (1 - (2 : ℝ) ^ (-10 * t / d)) (by linarith) (by linarith) ?_
        simp only [fn, expoOut, if_neg (dbg_zero hd0), if_neg ht, if_neg hd0, Res.num.injEq]; ring
    | inOut => exact absurd rfl hk
  | quad =>
    cases k with
    | inn =>
      refine between_of ((t / d) ^ 2) (by positivity) (pow_le_one₀ hy0 hy1) ?_
      simp only [fn, quadIn, nonZero_pos g hd0, Res.num.injEq]; ring
    | out =>
      have hw : 0 ≤ (1 - t / d) ^ 2 := by positivity
      refine between_of (1 - (1 - t / d) ^ 2) ?_ (by linarith) ?_
      · linarith [pow_le_one₀ (n := 2) hz (by linarith)]
      · simp only [fn, quadOut, nonZero_pos g hd0, Res.num.injEq]; ring
    | inOut => exact absurd rfl hk
  | quart =>
    cases k with
    | inn =>
      refine between_of ((t / d) ^ 4) (by positivity) (pow_le_one₀ hy0 hy1) ?_
      simp only [fn, quartIn, nonZero_pos g hd0, Res.num.injEq]; ring
    | out =>
      have hw : 0 ≤ (1 - t / d) ^ 4 := by positivity
      refine between_of (1 - (1 - t / d) ^ 4) ?_ (by linarith) ?_
      · linarith [pow_le_one₀ (n := 4) hz (by linarith)]
      · simp only [fn, quartOut, nonZero_pos g hd0, Res.num.injEq]; ring
    | inOut => exact absurd rfl hk
  | quint =>
    cases k with
    | inn =>
      refine between_of ((t / d) ^ 5) (by positivity) (pow_le_one₀ hy0 hy1) ?_
      simp only [fn, quintIn, nonZero_pos g hd0, Res.num.injEq]; ring
    | out =>
      have hw : 0 ≤ (1 - t / d) ^ 5 := by positivity
      refine between_of (1 - (1 - t / d) ^ 5) ?_ (by linarith) ?_
      · linarith [pow_le_one₀ (n := 5) hz (by linarith)]
      · simp only [fn, quintOut, nonZero_pos g hd0, Res.num.injEq]; ring
    | inOut => exact absurd rfl hk

/-- **C81.** The same for the `InOut` functions.  What is missing: `Cubic`, and `Circ` when the
left operand is read first. -/
theorem C81_between_inout_partial (g : Cfg) (e : Ease) (t b c d : ℝ) (hd : 0 < d) (h0 : 0 ≤ t)
    (h1 : t ≤ d) (he : e ≠ .back ∧ e ≠ .elastic ∧ e ≠ .cubic)
    (hm : e = .circ → g.modFirst = true) (hpi : e = .sine → g.pi = π) :
    Spec.Between (fn g e .inOut) t b c d := by
  obtain ⟨ha, hb⟩ := C80_halves_partial g e t b c d hd.ne' he (fun _ => hd) hm hpi
  by_cases h : t / d < 1 / 2
  · obtain ⟨v, v1, v2, v3⟩ := C81_between g e .inn (2 * t) b (c / 2) d hd (by linarith)
      (by rw [div_lt_iff₀ hd] at h; linarith) ⟨he.1, he.2.1⟩ (by simp) hpi
    refine ⟨v, by rw [ha h, v1], ?_, ?_⟩
    · refine le_trans ?_ v2
      refine le_min (min_le_left _ _) ?_
      rcases le_total 0 c with hc | hc
      · exact le_trans (min_le_left _ _) (by linarith)
      · exact le_trans (min_le_right _ _) (by linarith)
    · refine le_trans v3 ?_
      refine max_le (le_max_left _ _) ?_
      rcases le_total 0 c with hc | hc
      · exact le_trans (by linarith) (le_max_right _ _)
      · exact le_trans (by linarith) (le_max_left _ _)
  · have h' : 1 / 2 ≤ t / d := not_lt.1 h
    obtain ⟨v, v1, v2, v3⟩ := C81_between g e .out (2 * t - d) (b + c / 2) (c / 2) d hd
      (by rw [le_div_iff₀ hd] at h'; linarith) (by linarith) ⟨he.1, he.2.1⟩ (by simp) hpi
    refine ⟨v, by rw [hb h', v1], ?_, ?_⟩
    · refine le_trans ?_ v2
      refine le_min ?_ ?_
      · rcases le_total 0 c with hc | hc
        · exact le_trans (min_le_left _ _) (by linarith)
        · exact le_trans (min_le_right _ _) (by linarith)
      · exact le_trans (min_le_right _ _) (by linarith)
    · refine le_trans v3 ?_
      refine max_le ?_ ?_
      · rcases le_total 0 c with hc | hc
        · exact le_trans (by linarith) (le_max_right _ _)
        · exact le_trans (by linarith) (le_max_left _ _)
      · exact le_trans (by linarith) (le_max_right _ _)

/-- What is missing in `C81_between_inout_partial`: in its second half `Cubic::inOut` leaves
the range. -/
theorem C81_cubic_witness (g : Cfg) : fn g .cubic .inOut 1 0 1 1 = .num 2 := by
  have := (C60_cubic_end g 0 1 1 one_ne_zero).2
  rwa [zero_add] at this

/-! ## Durations of zero -/

/-- **C60.** In a debug build every easing function rejects a duration of zero. -/
theorem C60_zero_duration (g : Cfg) (hg : g.dbg = true) (e : Ease) (k : Kind) (t b c : ℝ) :
    fn g e k t b c 0 = .assertFail := by
  cases e <;> cases k <;>
    simp [fn, linear, sineIn, sineOut, sineInOut, backIn, backOut, backInOut, cubicIn, cubicOut,
      cubicInOut, bounceIn, bounceOut, bounceInOut, circIn, circOut, circInOut, elasticIn,
      elasticOut, elasticInOut, expoIn, expoOut, expoInOut, quadIn, quadOut, quadInOut, quartIn,
      quartOut, quartInOut, quintIn, quintOut, quintInOut, nonZero, hg]

/-- **C60.** Without the check most of them divide by zero. -/
theorem C60_zero_duration_release (g : Cfg) (hg : g.dbg = false) (k : Kind) (t b c : ℝ) :
    fn g .linear k t b c 0 = .ub ∧ fn g .sine k t b c 0 = .ub ∧ fn g .quad k t b c 0 = .ub := by
  cases k <;>
    simp [fn, linear, sineIn, sineOut, sineInOut, quadIn, quadOut, quadInOut, nonZero, hg]

end Verif.Easing
