import Verif.Easing.Spec
import Mathlib.Analysis.SpecialFunctions.Pow.Continuity
import Mathlib.Analysis.SpecialFunctions.Trigonometric.Bounds
import Mathlib.Tactic.Linarith
import Mathlib.Tactic.Ring
import Mathlib.Tactic.FieldSimp
import Mathlib.Tactic.NormNum

/-!
# Theorems about easing functions: C60, C61
-/

namespace Verif.Easing

open Real Filter Topology

/-! ## Lemmas -/

theorem nonZero_pos (g : Cfg) {d : ℝ} (h : d ≠ 0) (r : Res) : nonZero g d r = r := if_neg h

theorem dbg_zero {g : Cfg} {d : ℝ} (h : d ≠ 0) : ¬ (g.dbg = true ∧ d = 0) := fun c => h c.2

theorem div_half {d : ℝ} (h : d ≠ 0) : d / (d / 2) = 2 := by field_simp

theorem half_div_half {d : ℝ} (h : d ≠ 0) : d / 2 / (d / 2) = 1 := by field_simp

theorem bounceVal_zero (b c d : ℝ) : bounceVal 0 b c d = b := by
  unfold bounceVal
  simp only [zero_div]
  norm_num

theorem bounceVal_end (b c : ℝ) {d : ℝ} (h : d ≠ 0) : bounceVal d b c d = b + c := by
  unfold bounceVal
  simp only [div_self h]
  norm_num
  ring

theorem sqrtThen_nonneg {x : ℝ} (h : 0 ≤ x) (k : ℝ → ℝ) : sqrtThen x k = .num (k (√x)) := if_pos h

/-! ## C60: the start -/

/-- **C60.** Every easing function gives the start value at time zero, for every start,
change and duration that is not zero.  What is missing: `Bounce`'s in-out for a negative
duration. -/
theorem C60_start_partial (g : Cfg) (e : Ease) (k : Kind) (b c d : ℝ) (hd : d ≠ 0)
    (hb : e = .bounce → k = .inOut → 0 < d) : Spec.Starts (fn g e k) b c d := by
  unfold Spec.Starts
  have hd2 : d / 2 ≠ 0 := by simpa using hd
  cases e with
  | linear =>
    simp only [fn, linear, nonZero_pos g hd]; simp
  | sine =>
    cases k <;> simp [fn, sineIn, sineOut, sineInOut, nonZero_pos g hd]
  | back =>
    cases k with
    | inn => simp [fn, backIn, nonZero_pos g hd]
    | out => simp [fn, backOut, nonZero_pos g hd]
    | inOut => simp [fn, backInOut, nonZero_pos g hd]
  | cubic =>
    cases k with
    | inn => simp [fn, cubicIn, nonZero_pos g hd]
    | out => simp [fn, cubicOut, nonZero_pos g hd]
    | inOut => simp [fn, cubicInOut, nonZero_pos g hd]
  | bounce =>
    cases k with
    | inn => simp [fn, bounceIn, nonZero_pos g hd, bounceVal_end _ _ hd]
    | out => simp [fn, bounceOut, nonZero_pos g hd, bounceVal_zero]
    | inOut =>
      have := hb rfl rfl
      simp only [fn, bounceInOut, nonZero_pos g hd]
      rw [if_pos (by linarith)]
      simp [bounceVal_end _ _ hd]
  | circ =>
    cases k with
    | inn => simp [fn, circIn, nonZero_pos g hd, sqrtThen]
    | out => simp [fn, circOut, nonZero_pos g hd, sqrtThen]
    | inOut => simp [fn, circInOut, nonZero_pos g hd, sqrtThen]
  | elastic =>
    cases k <;> simp [fn, elasticIn, elasticOut, elasticInOut, hd]
  | expo =>
    cases k with
    | inn => simp [fn, expoIn, hd]
    | out => simp [fn, expoOut, hd, hd.symm]
    | inOut => simp [fn, expoInOut, hd]
  | quad =>
    cases k with
    | inn => simp [fn, quadIn, nonZero_pos g hd]
    | out => simp [fn, quadOut, nonZero_pos g hd]
    | inOut => simp [fn, quadInOut, nonZero_pos g hd]
  | quart =>
    cases k with
    | inn => simp [fn, quartIn, nonZero_pos g hd]
    | out => simp [fn, quartOut, nonZero_pos g hd]
    | inOut => simp [fn, quartInOut, nonZero_pos g hd]
  | quint =>
    cases k with
    | inn => simp [fn, quintIn, nonZero_pos g hd]
    | out => simp [fn, quintOut, nonZero_pos g hd]
    | inOut => simp [fn, quintInOut, nonZero_pos g hd]

/-- What is missing in `C60_start_partial`: with a negative duration `Bounce::inOut` does
not start at the start value, unless nothing changes. -/
theorem C60_bounce_negative (g : Cfg) (b c d : ℝ) (hd : d < 0) (hc : c ≠ 0) :
    ¬ Spec.Starts (fn g .bounce .inOut) b c d := by
  unfold Spec.Starts
  simp only [fn, bounceInOut, nonZero_pos g hd.ne]
  rw [if_neg (by linarith)]
  intro h
  rw [Res.num.injEq] at h
  have e : (0 * 2 - d) / d = -1 := by
    rw [zero_mul, zero_sub, neg_div, div_self hd.ne]
  unfold bounceVal at h
  simp only [e] at h
  rw [if_pos (by norm_num)] at h
  apply hc
  norm_num at h
  linarith

/-! ## C60: the end -/

/-- **C60.** Every easing function gives the start value plus the change at the end of the
duration.  What is missing: `Cubic`'s in-out, and `Bounce`'s for negative durations.
`Sine` gives it with the exact `pi` (`C60_sine_error` is about others). -/
theorem C60_end_partial (g : Cfg) (e : Ease) (k : Kind) (b c d : ℝ) (hd : d ≠ 0)
    (hpi : e = .sine → g.pi = π) (hc : ¬ (e = .cubic ∧ k = .inOut))
    (hb : e = .bounce → k = .inOut → 0 < d) : Spec.Ends (fn g e k) b c d := by
  unfold Spec.Ends
  have hdd : d / d = 1 := div_self hd
  have h2 := div_half hd
  cases e with
  | linear =>
    simp only [fn, linear, nonZero_pos g hd, mul_div_assoc, hdd, Res.num.injEq]; ring
  | sine =>
    have hp := hpi rfl
    cases k with
    | inn => simp [fn, sineIn, nonZero_pos g hd, hdd, hp]; ring
    | out => simp [fn, sineOut, nonZero_pos g hd, hdd, hp]; ring
    | inOut =>
      simp only [fn, sineInOut, nonZero_pos g hd, hp, mul_div_assoc, hdd, mul_one, cos_pi,
        Res.num.injEq]; ring
  | back =>
    cases k with
    | inn => simp only [fn, backIn, nonZero_pos g hd, hdd, Res.num.injEq]; ring
    | out => simp only [fn, backOut, nonZero_pos g hd, hdd, Res.num.injEq]; ring
    | inOut =>
      simp only [fn, backInOut, nonZero_pos g hd, h2]
      rw [if_neg (by norm_num), Res.num.injEq]; ring
  | cubic =>
    cases k with
    | inn => simp only [fn, cubicIn, nonZero_pos g hd, hdd, Res.num.injEq]; ring
    | out => simp only [fn, cubicOut, nonZero_pos g hd, hdd, Res.num.injEq]; ring
    | inOut => exact absurd ⟨rfl, rfl⟩ hc
  | bounce =>
    cases k with
    | inn => simp [fn, bounceIn, nonZero_pos g hd, bounceVal_zero]; ring
    | out => simp [fn, bounceOut, nonZero_pos g hd, bounceVal_end _ _ hd]
    | inOut =>
      have := hb rfl rfl
      simp only [fn, bounceInOut, nonZero_pos g hd]
      have e : d * 2 - d = d := by ring
      rw [if_neg (by linarith), e, bounceVal_end _ _ hd, Res.num.injEq]
      ring
  | circ =>
    cases k with
    | inn => simp [fn, circIn, nonZero_pos g hd, hdd, sqrtThen]; ring
    | out => simp [fn, circOut, nonZero_pos g hd, hdd, sqrtThen]; ring
    | inOut =>
      simp only [fn, circInOut, nonZero_pos g hd, h2]
      rw [if_neg (by norm_num)]
      cases g.modFirst <;> simp [sqrtThen] <;> ring
  | elastic =>
    cases k with
    | inn => simp [fn, elasticIn, hd, hdd]
    | out => simp [fn, elasticOut, hd, hdd]
    | inOut => simp [fn, elasticInOut, hd, h2]
  | expo =>
    cases k with
    | inn => simp [fn, expoIn, hd, hdd]; ring
    | out => simp [fn, expoOut, hd]
    | inOut => simp [fn, expoInOut, hd]
  | quad =>
    cases k with
    | inn => simp only [fn, quadIn, nonZero_pos g hd, hdd, Res.num.injEq]; ring
    | out => simp only [fn, quadOut, nonZero_pos g hd, hdd, Res.num.injEq]; ring
    | inOut =>
      simp only [fn, quadInOut, nonZero_pos g hd, h2]
      rw [if_neg (by norm_num), Res.num.injEq]; ring
  | quart =>
    cases k with
    | inn => simp only [fn, quartIn, nonZero_pos g hd, hdd, Res.num.injEq]; ring
    | out => simp only [fn, quartOut, nonZero_pos g hd, hdd, Res.num.injEq]; ring
    | inOut =>
      simp only [fn, quartInOut, nonZero_pos g hd, h2]
      rw [if_neg (by norm_num), Res.num.injEq]; ring
  | quint =>
    cases k with
    | inn => simp only [fn, quintIn, nonZero_pos g hd, hdd, Res.num.injEq]; ring
    | out => simp only [fn, quintOut, nonZero_pos g hd, hdd, Res.num.injEq]; ring
    | inOut =>
      simp only [fn, quintInOut, nonZero_pos g hd, h2]
      rw [if_neg (by norm_num), Res.num.injEq]; ring

/-- What is missing in `C60_end_partial`: `Cubic::inOut` ends two above its start, whatever
the change is. -/
theorem C60_cubic_end (g : Cfg) (b c d : ℝ) (hd : d ≠ 0) :
    (Spec.Ends (fn g .cubic .inOut) b c d ↔ c = 2) ∧
    fn g .cubic .inOut d b c d = .num (b + 2) := by
  have e : fn g .cubic .inOut d b c d = .num (b + 2) := by
    simp only [fn, cubicInOut, nonZero_pos g hd, div_half hd]
    rw [if_neg (by norm_num), Res.num.injEq]; ring
  refine ⟨?_, e⟩
  unfold Spec.Ends
  rw [e, Res.num.injEq]
  constructor
  · intro h; linarith
  · intro h; rw [h]

/-- **C60.** With the library's `pi`, `Sine` misses its end by at most half of the
change times the error of `pi`. -/
theorem C60_sine_error (g : Cfg) (k : Kind) (b c d : ℝ) (hd : d ≠ 0) :
    ∃ v, fn g .sine k d b c d = .num v ∧ |v - (b + c)| ≤ |c| * |g.pi - π| / 2 := by
  have hdd : d / d = 1 := div_self hd
  cases k with
  | inn =>
    refine ⟨-c * cos (g.pi / 2) + c + b, by simp only [fn, sineIn, nonZero_pos g hd, hdd, one_mul], ?_⟩
    have e : -c * cos (g.pi / 2) + c + b - (b + c) = -(c * (cos (g.pi / 2) - cos (π / 2))) := by
      rw [cos_pi_div_two]; ring
    rw [e, abs_neg, abs_mul, mul_div_assoc]
    apply mul_le_mul_of_nonneg_left _ (abs_nonneg c)
    have := abs_cos_sub_cos_le (g.pi / 2) (π / 2)
    rw [← sub_div, abs_div, abs_two] at this
    exact this
  | out =>
    refine ⟨c * sin (g.pi / 2) + b, by simp only [fn, sineOut, nonZero_pos g hd, hdd, one_mul], ?_⟩
    have e : c * sin (g.pi / 2) + b - (b + c) = c * (sin (g.pi / 2) - sin (π / 2)) := by
      rw [sin_pi_div_two]; ring
    rw [e, abs_mul, mul_div_assoc]
    apply mul_le_mul_of_nonneg_left _ (abs_nonneg c)
    have := abs_sin_sub_sin_le (g.pi / 2) (π / 2)
    rw [← sub_div, abs_div, abs_two] at this
    exact this
  | inOut =>
    refine ⟨-c / 2 * (cos g.pi - 1) + b,
      by simp only [fn, sineInOut, nonZero_pos g hd, mul_div_assoc, hdd, mul_one], ?_⟩
    have e : -c / 2 * (cos g.pi - 1) + b - (b + c) = -(c / 2 * (cos g.pi - cos π)) := by
      rw [cos_pi]; ring
    rw [mul_div_assoc] at *
    rw [e, abs_neg, abs_mul, abs_div, abs_two, div_mul_eq_mul_div, mul_div_assoc]
    apply mul_le_mul_of_nonneg_left _ (abs_nonneg c)
    exact div_le_div_of_nonneg_right (abs_cos_sub_cos_le g.pi π) (by norm_num)

/-- The hypotheses are met: a second of `Bounce` from 3 to 5. -/
example (g : Cfg) : fn g .bounce .inOut 0 3 2 1 = .num 3 ∧ fn g .bounce .inOut 1 3 2 1 = .num (3 + 2) :=
  ⟨C60_start_partial g .bounce .inOut 3 2 1 one_ne_zero (fun _ _ => one_pos),
   C60_end_partial g .bounce .inOut 3 2 1 one_ne_zero (by simp) (by simp) (fun _ _ => one_pos)⟩

/-! ## C61 -/

/-- **C61.** For an input range that starts at zero, the input minimum is mapped to the
output minimum and the input maximum to the output maximum (with the exceptions of C60). -/
theorem C61_map_partial (g : Cfg) (e : Ease) (k : Kind) (iMax oMin oMax : ℝ) (hi : iMax ≠ 0)
    (hpi : e = .sine → g.pi = π) (hc : ¬ (e = .cubic ∧ k = .inOut))
    (hb : e = .bounce → k = .inOut → 0 < iMax) :
    getMapEased g e k 0 0 iMax oMin oMax = .num oMin ∧
    getMapEased g e k iMax 0 iMax oMin oMax = .num oMax := by
  have h1 := C60_start_partial g e k oMin (oMax - oMin) iMax hi hb
  have h2 := C60_end_partial g e k oMin (oMax - oMin) iMax hi hpi hc hb
  unfold Spec.Starts at h1
  unfold Spec.Ends at h2
  unfold getMapEased getMap
  rw [zero_add, zero_add, sub_zero, h1, h2]
  exact ⟨rfl, by congr 1; ring⟩

/-- **C61.** `getEased` is the same with the input range as the output range. -/
theorem C61_eased_partial (g : Cfg) (e : Ease) (k : Kind) (iMax : ℝ) (hi : iMax ≠ 0)
    (hpi : e = .sine → g.pi = π) (hc : ¬ (e = .cubic ∧ k = .inOut))
    (hb : e = .bounce → k = .inOut → 0 < iMax) :
    getEased g e k 0 0 iMax = .num 0 ∧ getEased g e k iMax 0 iMax = .num iMax :=
  C61_map_partial g e k iMax 0 iMax hi hpi hc hb

/-- What is missing: an input range that starts elsewhere.  The start of the range is added
to the input instead of taken away, so even `Linear` maps neither end where it should. -/
theorem C61_wrong (g : Cfg) (k : Kind) (iMin iMax oMin oMax : ℝ) (hi : iMin ≠ iMax)
    (h0 : iMin ≠ 0) (ho : oMin ≠ oMax) :
    getMapEased g .linear k iMin iMin iMax oMin oMax ≠ .num oMin ∧
    getMapEased g .linear k iMax iMin iMax oMin oMax ≠ .num oMax := by
  have hd : iMax - iMin ≠ 0 := sub_ne_zero.2 hi.symm
  have ho' : oMax - oMin ≠ 0 := sub_ne_zero.2 ho.symm
  unfold getMapEased getMap
  simp only [fn, linear, nonZero_pos g hd]
  constructor
  · intro h
    rw [Res.num.injEq] at h
    have : (oMax - oMin) * (iMin + iMin) / (iMax - iMin) = 0 := by linarith
    rcases div_eq_zero_iff.1 this with h | h
    · rcases mul_eq_zero.1 h with h | h
      · exact ho' h
      · apply h0; linarith
    · exact hd h
  · intro h
    rw [Res.num.injEq] at h
    have h1 : (oMax - oMin) * (iMin + iMax) / (iMax - iMin) = oMax - oMin := by linarith
    rw [div_eq_iff hd] at h1
    have h2 : iMin + iMax = iMax - iMin := mul_left_cancel₀ ho' h1
    apply h0; linarith

/-- From 10 to 20: the input 10 is not eased to 10 but to 30. -/
theorem C61_wrong_witness (g : Cfg) : getEased g .linear .inn 10 10 20 = .num 30 := by
  unfold getEased getMap
  simp only [fn, linear, nonZero_pos g (show (20 - 10 : ℝ) ≠ 0 by norm_num), Res.num.injEq]
  norm_num

end Verif.Easing
