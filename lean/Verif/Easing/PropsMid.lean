import Verif.Easing.Theorems
import Mathlib.Topology.Algebra.Order.Field
import Mathlib.Analysis.SpecialFunctions.Sqrt

/-!
# C60: the in-out functions at the middle of the duration
-/

namespace Verif.Easing

open Real Filter Topology

/-- A function that is, close to a time, one of two functions that are continuous there and
agree. -/
theorem continuousWith_of {f : ℝ → Res} {t₀ m : ℝ} (L R : ℝ → ℝ) (hL : ContinuousAt L t₀)
    (hR : ContinuousAt R t₀) (eL : L t₀ = m) (eR : R t₀ = m)
    (hf : ∀ᶠ t in 𝓝 t₀, f t = .num (L t) ∨ f t = .num (R t)) :
    Spec.ContinuousWith f t₀ m := by
  refine ⟨?_, ?_⟩
  · rcases hf.self_of_nhds with h | h
    · rw [h, eL]
    · rw [h, eR]
  · intro ε hε
    have h1 : ∀ᶠ t in 𝓝 t₀, |L t - m| < ε := by
      have := Metric.tendsto_nhds.1 hL ε hε
      simpa only [Real.dist_eq, eL] using this
    have h2 : ∀ᶠ t in 𝓝 t₀, |R t - m| < ε := by
      have := Metric.tendsto_nhds.1 hR ε hε
      simpa only [Real.dist_eq, eR] using this
    obtain ⟨δ, hδ, h⟩ := Metric.eventually_nhds_iff.1 (hf.and (h1.and h2))
    refine ⟨δ, hδ, fun t ht => ?_⟩
    obtain ⟨hc, hl, hr⟩ := h (by rw [Real.dist_eq]; exact ht)
    rcases hc with hc | hc
    · exact ⟨_, hc, hl⟩
    · exact ⟨_, hc, hr⟩

theorem scaled_cont (d t₀ : ℝ) : ContinuousAt (fun t : ℝ => t / (d / 2)) t₀ := by
  exact continuousAt_id.div_const _

/-- Close to the middle, the scaled time is close to one. -/
theorem scaled_near {d : ℝ} (hd : d ≠ 0) {a b : ℝ} (ha : a < 1) (hb : 1 < b) :
    ∀ᶠ t in 𝓝 (d / 2), a < t / (d / 2) ∧ t / (d / 2) < b := by
  have h := scaled_cont d (d / 2)
  have e : d / 2 / (d / 2) = 1 := half_div_half hd
  refine (h.eventually (lt_mem_nhds (by simpa only [e] using ha))).and
    (h.eventually (gt_mem_nhds (by simpa only [e] using hb)))

/-- The same for a polynomial of the scaled time on either side of one. -/
theorem mid_of_scaled {f : ℝ → Res} {d m : ℝ} (hd : d ≠ 0) (L R : ℝ → ℝ)
    (hL : ContinuousAt L 1) (hR : ContinuousAt R 1) (eL : L 1 = m) (eR : R 1 = m)
    (hf : ∀ t, f t = if t / (d / 2) < 1 then .num (L (t / (d / 2))) else .num (R (t / (d / 2)))) :
    Spec.ContinuousWith f (d / 2) m := by
  have e : d / 2 / (d / 2) = 1 := half_div_half hd
  refine continuousWith_of (fun t => L (t / (d / 2))) (fun t => R (t / (d / 2)))
    (ContinuousAt.comp (g := L) (by rw [e]; exact hL) (scaled_cont d _))
    (ContinuousAt.comp (g := R) (by rw [e]; exact hR) (scaled_cont d _))
    (by simp only [e]; exact eL) (by simp only [e]; exact eR) (Eventually.of_forall fun t => ?_)
  rw [hf t]
  split
  · exact Or.inl rfl
  · exact Or.inr rfl

/-- **C60.** At half of the duration the in-out functions have gone half of the change, and
they are continuous there.  What is missing: `Cubic` (`C60_cubic_jump`), and `Circ` when the
left operand is read first (`C60_circ_jump`).  `Sine` and `Elastic` are taken with the exact
`pi`. -/
theorem C60_midpoint_partial (g : Cfg) (e : Ease) (b c d : ℝ) (hd : d ≠ 0)
    (hb : e = .bounce → 0 < d) (hc : e ≠ .cubic) (hm : e = .circ → g.modFirst = true)
    (hpi : e = .sine ∨ e = .elastic → g.pi = π) :
    Spec.ContinuousWith (fun t => fn g e .inOut t b c d) (d / 2) (b + c / 2) := by
  have hd2 : d / 2 ≠ 0 := by simpa using hd
  have e1 : d / 2 / (d / 2) = 1 := half_div_half hd
  cases e with
  | linear =>
    refine continuousWith_of (fun t => c * t / d + b) (fun t => c * t / d + b)
      (by fun_prop) (by fun_prop) (by field_simp; ring) (by field_simp; ring)
      (Eventually.of_forall fun t => Or.inl ?_)
    simp only [fn, linear, nonZero_pos g hd]
  | sine =>
    have hp := hpi (Or.inl rfl)
    have e2 : -c / 2 * (cos (π * (d / 2) / d) - 1) + b = b + c / 2 := by
      have : π * (d / 2) / d = π / 2 := by field_simp
      rw [this, cos_pi_div_two]; ring
    refine continuousWith_of (fun t => -c / 2 * (cos (π * t / d) - 1) + b)
      (fun t => -c / 2 * (cos (π * t / d) - 1) + b)
      (by fun_prop) (by fun_prop) e2 e2 (Eventually.of_forall fun t => Or.inl ?_)
    simp only [fn, sineInOut, nonZero_pos g hd, hp]
  | back =>
    apply mid_of_scaled hd
      (fun x => c / 2 * (x * x * ((backS * 1.525 + 1) * x - backS * 1.525)) + b)
      (fun x => c / 2 * ((x - 2) * (x - 2) * ((backS * 1.525 + 1) * (x - 2) + backS * 1.525) + 2) + b)
      (by fun_prop) (by fun_prop) (by ring) (by ring)
    intro t
    simp only [fn, backInOut, nonZero_pos g hd]
  | cubic => exact absurd rfl hc
  | bounce =>
    have hpos := hb rfl
    refine continuousWith_of (fun t => (c - (c * (7.5625 * ((d - t * 2) / d) * ((d - t * 2) / d)) + 0)
        + 0) * 0.5 + b)
      (fun t => (c * (7.5625 * ((t * 2 - d) / d) * ((t * 2 - d) / d)) + 0) * 0.5 + c * 0.5 + b)
      (by fun_prop) (by fun_prop) ?_ ?_ ?_
    · have : (d - d / 2 * 2) / d = 0 := by ring
      simp only [this]; ring
    · have : (d / 2 * 2 - d) / d = 0 := by ring
      simp only [this]; ring
    · filter_upwards [scaled_near hd (a := 0.9) (b := 1.1) (by norm_num) (by norm_num)] with t ht
      have ex : t / (d / 2) = 2 * (t / d) := by field_simp
      have h1 : (d - t * 2) / d = 1 - t / (d / 2) := by rw [ex]; field_simp
      have h2 : (t * 2 - d) / d = t / (d / 2) - 1 := by rw [ex]; field_simp
      simp only [fn, bounceInOut, nonZero_pos g hd]
      split
      · left
        unfold bounceVal
        simp only
        rw [if_pos (by rw [h1]; norm_num; linarith [ht.1])]
      · right
        unfold bounceVal
        simp only
        rw [if_pos (by rw [h2]; norm_num; linarith [ht.2])]
  | circ =>
    have hmf := hm rfl
    refine continuousWith_of (fun t => -c / 2 * (√(1 - t / (d / 2) * (t / (d / 2))) - 1) + b)
      (fun t => c / 2 * (√(1 - (t / (d / 2) - 2) * (t / (d / 2) - 2)) + 1) + b)
      (by fun_prop) (by fun_prop) ?_ ?_ ?_
    · simp only [e1]; norm_num; ring
    · simp only [e1]; norm_num; ring
    · filter_upwards [scaled_near hd (a := 0.9) (b := 1.1) (by norm_num) (by norm_num)] with t ht
      simp only [fn, circInOut, nonZero_pos g hd, hmf]
      split
      · left
        rw [sqrtThen_nonneg (by nlinarith [ht.1])]
      · right
        rw [if_pos trivial, sqrtThen_nonneg (by nlinarith [ht.2])]
  | elastic =>
    have hp := hpi (Or.inr rfl)
    have hp0 : d * (0.3 * 1.5) ≠ 0 := mul_ne_zero hd (by norm_num)
    have hs : sin ((0 * d - d * (0.3 * 1.5) / 4) * (2 * π) / (d * (0.3 * 1.5))) = -1 := by
      have : (0 * d - d * (0.3 * 1.5) / 4) * (2 * π) / (d * (0.3 * 1.5)) = -(π / 2) := by
        field_simp; norm_num
      rw [this, sin_neg, sin_pi_div_two]
    refine continuousWith_of
      (fun t => -0.5 * (c * (2 : ℝ) ^ (10 * (t / (d / 2) - 1)) *
        sin (((t / (d / 2) - 1) * d - d * (0.3 * 1.5) / 4) * (2 * π) / (d * (0.3 * 1.5)))) + b)
      (fun t => c * (2 : ℝ) ^ (-10 * (t / (d / 2) - 1)) *
        sin (((t / (d / 2) - 1) * d - d * (0.3 * 1.5) / 4) * (2 * π) / (d * (0.3 * 1.5))) * 0.5
          + c + b) ?_ ?_ ?_ ?_ ?_
    · have : Continuous fun t : ℝ => (2 : ℝ) ^ (10 * (t / (d / 2) - 1)) :=
        continuous_const.rpow (by fun_prop) (fun _ => Or.inl (by norm_num))
      exact Continuous.continuousAt (by fun_prop)
    · have : Continuous fun t : ℝ => (2 : ℝ) ^ (-10 * (t / (d / 2) - 1)) :=
        continuous_const.rpow (by fun_prop) (fun _ => Or.inl (by norm_num))
      exact Continuous.continuousAt (by fun_prop)
    · simp only [e1, sub_self, hs, mul_zero, rpow_zero]; ring
    · simp only [e1, sub_self, hs, mul_zero, rpow_zero]; ring
    · filter_upwards [scaled_near hd (a := 0.9) (b := 1.1) (by norm_num) (by norm_num)] with t ht
      have h0 : t ≠ 0 := by
        rintro rfl
        have := ht.1
        rw [zero_div] at this
        norm_num at this
      have h2 : t / (d / 2) ≠ 2 := fun c => by
        have := ht.2
        rw [c] at this
        norm_num at this
      simp only [fn, elasticInOut]
      rw [if_neg (dbg_zero hd), if_neg h0, if_neg hd, if_neg h2, hp]
      split
      · exact Or.inl rfl
      · exact Or.inr rfl
  | expo =>
    refine continuousWith_of (fun t => c / 2 * (2 : ℝ) ^ (10 * (t / (d / 2) - 1)) + b)
      (fun t => c / 2 * (-(2 : ℝ) ^ (-10 * (t / (d / 2) - 1)) + 2) + b) ?_ ?_ ?_ ?_ ?_
    · have : Continuous fun t : ℝ => (2 : ℝ) ^ (10 * (t / (d / 2) - 1)) :=
        continuous_const.rpow (by fun_prop) (fun _ => Or.inl (by norm_num))
      exact Continuous.continuousAt (by fun_prop)
    · have : Continuous fun t : ℝ => (2 : ℝ) ^ (-10 * (t / (d / 2) - 1)) :=
        continuous_const.rpow (by fun_prop) (fun _ => Or.inl (by norm_num))
      exact Continuous.continuousAt (by fun_prop)
    · simp only [e1, sub_self, mul_zero, rpow_zero]; ring
    · simp only [e1, sub_self, mul_zero, rpow_zero]; ring
    · filter_upwards [scaled_near hd (a := 0.9) (b := 1.1) (by norm_num) (by norm_num)] with t ht
      have h0 : t ≠ 0 := by
        rintro rfl
        have := ht.1
        rw [zero_div] at this
        norm_num at this
      have h2 : t ≠ d := by
        rintro rfl
        have := ht.2
        rw [div_half hd] at this
        norm_num at this
      simp only [fn, expoInOut]
      rw [if_neg (dbg_zero hd), if_neg h0, if_neg h2, if_neg hd]
      split
      · exact Or.inl rfl
      · exact Or.inr rfl
  | quad =>
    apply mid_of_scaled hd (fun x => c / 2 * x * x + b)
      (fun x => -c / 2 * ((x - 1) * (x - 1 - 2) - 1) + b)
      (by fun_prop) (by fun_prop) (by ring) (by ring)
    intro t
    simp only [fn, quadInOut, nonZero_pos g hd]
  | quart =>
    apply mid_of_scaled hd (fun x => c / 2 * x * x * x * x + b)
      (fun x => -c / 2 * ((x - 2) * (x - 2) * (x - 2) * (x - 2) - 2) + b)
      (by fun_prop) (by fun_prop) (by ring) (by ring)
    intro t
    simp only [fn, quartInOut, nonZero_pos g hd]
  | quint =>
    apply mid_of_scaled hd (fun x => c / 2 * x * x * x * x * x + b)
      (fun x => c / 2 * ((x - 2) * (x - 2) * (x - 2) * (x - 2) * (x - 2) + 2) + b)
      (by fun_prop) (by fun_prop) (by ring) (by ring)
    intro t
    simp only [fn, quintInOut, nonZero_pos g hd]

/-- A function that has another limit from one side is not continuous. -/
theorem not_continuousWith {f : ℝ → Res} {t₀ : ℝ} (m l : ℝ) (hml : m ≠ l)
    (h0 : f t₀ = .num m) (L : ℝ → ℝ) (hL : ContinuousAt L t₀) (eL : L t₀ = l)
    (side : ∀ δ > 0, ∃ t, |t - t₀| < δ ∧ f t = .num (L t)) (m' : ℝ) :
    ¬ Spec.ContinuousWith f t₀ m' := by
  rintro ⟨h1, h2⟩
  rw [h0, Res.num.injEq] at h1
  subst h1
  have hpos : 0 < |m - l| / 2 := by
    have := abs_pos.2 (sub_ne_zero.2 hml); linarith
  obtain ⟨δ₁, hδ₁, hf⟩ := h2 _ hpos
  obtain ⟨δ₂, hδ₂, hl⟩ := Metric.eventually_nhds_iff.1 (Metric.tendsto_nhds.1 hL _ hpos)
  obtain ⟨t, ht, e⟩ := side (min δ₁ δ₂) (lt_min hδ₁ hδ₂)
  obtain ⟨v, hv, hvm⟩ := hf t (lt_of_lt_of_le ht (min_le_left _ _))
  rw [e, Res.num.injEq] at hv
  have := hl (y := t) (by rw [Real.dist_eq]; exact lt_of_lt_of_le ht (min_le_right _ _))
  rw [Real.dist_eq, eL, hv] at this
  have h3 : |m - l| ≤ |v - m| + |v - l| := by
    have := abs_sub_abs_le_abs_sub (v - m) (v - l)
    have e2 : m - l = (v - l) - (v - m) := by ring
    rw [e2]
    calc |(v - l) - (v - m)| ≤ |v - l| + |v - m| := abs_sub _ _
      _ = _ := by ring
  linarith

/-- Just before the middle. -/
theorem before_mid {d : ℝ} (hd : d ≠ 0) (δ : ℝ) (hδ : 0 < δ) :
    ∃ t, |t - d / 2| < δ ∧ 0 < t / (d / 2) ∧ t / (d / 2) < 1 := by
  set η := min (1 / 2) (δ / |d|) with hη
  have hdp : 0 < |d| := abs_pos.2 hd
  have h0 : 0 < η := lt_min (by norm_num) (div_pos hδ hdp)
  have h1 : η ≤ 1 / 2 := min_le_left _ _
  have h2 : η ≤ δ / |d| := min_le_right _ _
  refine ⟨(1 - η) * (d / 2), ?_, ?_, ?_⟩
  · have : (1 - η) * (d / 2) - d / 2 = -(η * d / 2) := by ring
    rw [this, abs_neg, abs_div, abs_mul, abs_of_pos h0, abs_two]
    have : η * |d| ≤ δ := by rwa [le_div_iff₀ hdp] at h2
    linarith
  · rw [mul_div_assoc, half_div_half hd]; linarith
  · rw [mul_div_assoc, half_div_half hd]; linarith

/-- What is missing in `C60_midpoint_partial`: `Cubic::inOut` jumps by two at the middle,
whatever the change is. -/
theorem C60_cubic_jump (g : Cfg) (b c d : ℝ) (hd : d ≠ 0) (m : ℝ) :
    ¬ Spec.ContinuousWith (fun t => fn g .cubic .inOut t b c d) (d / 2) m := by
  have e1 : d / 2 / (d / 2) = 1 := half_div_half hd
  refine not_continuousWith (c / 2 + 2 + b) (c / 2 + b) (by intro h; linarith) ?_
    (fun t => c / 2 * (t / (d / 2)) * (t / (d / 2)) * (t / (d / 2)) + b) (by fun_prop)
    (by simp only [e1]; ring) ?_ m
  · simp only [fn, cubicInOut, nonZero_pos g hd, e1]
    rw [if_neg (by norm_num), Res.num.injEq]; ring
  · intro δ hδ
    obtain ⟨t, h1, _, h3⟩ := before_mid hd δ hδ
    refine ⟨t, h1, ?_⟩
    simp only [fn, cubicInOut, nonZero_pos g hd]
    rw [if_pos h3]

/-- What is missing in `C60_midpoint_partial`: when the left operand of the multiplication in
`Circ::inOut` is read before the right one modifies the variable, the function jumps at the
middle. -/
theorem C60_circ_jump (g : Cfg) (b c d : ℝ) (hd : d ≠ 0) (hc : c ≠ 0)
    (hm : g.modFirst = false) (m : ℝ) :
    ¬ Spec.ContinuousWith (fun t => fn g .circ .inOut t b c d) (d / 2) m := by
  have e1 : d / 2 / (d / 2) = 1 := half_div_half hd
  refine not_continuousWith (c / 2 * (√2 + 1) + b) (c / 2 + b) ?_ ?_
    (fun t => -c / 2 * (√(1 - t / (d / 2) * (t / (d / 2))) - 1) + b) (by fun_prop)
    (by simp only [e1]; norm_num; ring) ?_ m
  · intro h
    have h' : c * √2 = 0 := by linarith
    rcases mul_eq_zero.1 h' with h | h
    · exact hc h
    · have : (0 : ℝ) < √2 := Real.sqrt_pos.2 (by norm_num)
      linarith
  · simp only [fn, circInOut, nonZero_pos g hd, e1, hm]
    rw [if_neg (by norm_num)]
    norm_num [sqrtThen]
  · intro δ hδ
    obtain ⟨t, h1, h2, h3⟩ := before_mid hd δ hδ
    refine ⟨t, h1, ?_⟩
    simp only [fn, circInOut, nonZero_pos g hd]
    rw [if_pos h3, sqrtThen_nonneg (by nlinarith)]

end Verif.Easing
