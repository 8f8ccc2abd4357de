import Verif.EasingFp.CurvesLemmas
import Verif.EasingFp.CurvesSpec

/-! # Where the other easing functions start and end -/

namespace Verif.EasingFp

open Verif.Ieee Verif.Ieee.Spec Spec Verif.Clock

/-! ## Evaluation -/

theorem mul_one_left {F : Fmt} (h : Std F) {c : ℝ} (hc : Num F c) : mul F (.fin 1) (.fin c) = .fin c := by
  show F.rnd (1 * c) = _
  rw [one_mul, rnd_num h hc]

theorem add_zero' {F : Fmt} (h : Std F) {b : ℝ} (hb : Num F b) : add F (.fin b) (.fin 0) = .fin b := by
  show F.rnd (b + 0) = _
  rw [add_zero, rnd_num h hb]

theorem sub_zero' {F : Fmt} (h : Std F) {b : ℝ} (hb : Num F b) : sub F (.fin b) (.fin 0) = .fin b := by
  show F.rnd (b + -0) = _
  rw [neg_zero, add_zero, rnd_num h hb]

theorem sub_self' {F : Fmt} (h : Std F) (b : ℝ) : sub F (.fin b) (.fin b) = .fin 0 := by
  show F.rnd (b + -b) = _
  rw [add_neg_cancel, rnd_num h h.zero]

theorem neg_add_self {F : Fmt} (h : Std F) (b : ℝ) : add F (.fin (-b)) (.fin b) = .fin 0 := by
  show F.rnd (-b + b) = _
  rw [neg_add_cancel, rnd_num h h.zero]

theorem sqrt0 {F : Fmt} (h : Std F) : Ieee.sqrt F (.fin 0) = .fin 0 := by
  show (if (0 : ℝ) < 0 then _ else F.rnd (Real.sqrt 0)) = _
  rw [if_neg (lt_irrefl _), Real.sqrt_zero, rnd_num h h.zero]

theorem sqrt1 {F : Fmt} (h : Std F) : Ieee.sqrt F (.fin 1) = .fin 1 := by
  show (if (1 : ℝ) < 0 then _ else F.rnd (Real.sqrt 1)) = _
  rw [if_neg (by norm_num), Real.sqrt_one, rnd_num h h.one]

theorem feq_fin (a b : ℝ) : feq (.fin a) (.fin b) ↔ a = b := Iff.rfl

theorem lt_fin (a b : ℝ) : lt (.fin a) (.fin b) ↔ a < b := Iff.rfl

/-- A quotient of two literals that lies between 0 and 1. -/
theorem quot {F : Fmt} (h : Std F) (z : Bool) {x y : ℝ} (hx : 0 ≤ x) (hy : 0 < y) (hxy : x ≤ y) :
    ∃ q, div F z (.fin x) (.fin y) = .fin q ∧ 0 ≤ q ∧ q ≤ 1 := by
  have := frac (z := z) h hy ⟨hx, hxy⟩
  exact ⟨_, this.1, this.2.2.1, this.2.2.2⟩

theorem bounce_last {F : Fmt} (hF : Native F) (z : Bool) :
    let t := sub F (.fin 1) (div F z (.fin 2.625) (.fin 2.75))
    add F (mul F (mul F (.fin 7.5625) t) t) (.fin 0.984375) = .fin 1 := by
  rcases hF with rfl | rfl
  · exact bounce32 z
  · exact bounce64 z

/-- `Bounce::out` at the end. -/
theorem bounce_end {F : Fmt} (hF : Native F) (z : Bool) {b c d : ℝ} (hc : Num F c) (hd : d ≠ 0) :
    bounceOut F z (.fin d) (.fin b) (.fin c) (.fin d) = add F (.fin c) (.fin b) := by
  have h := std hF
  obtain ⟨q1, e1, -, h1⟩ := quot h z (x := 1) (y := 2.75) (by norm_num) (by norm_num) (by norm_num)
  obtain ⟨q2, e2, -, h2⟩ := quot h z (x := 2) (y := 2.75) (by norm_num) (by norm_num) (by norm_num)
  obtain ⟨q3, e3, -, h3⟩ := quot h z (x := 2.5) (y := 2.75) (by norm_num) (by norm_num) (by norm_num)
  have hb := bounce_last hF z
  simp only [bounceOut, div_self' h z hd, e1, e2, e3, lt_fin, not_lt.mpr h1, not_lt.mpr h2, not_lt.mpr h3, if_false] at hb ⊢
  rw [hb, mul_one' h hc]

theorem lt_quot {F : Fmt} (hF : Native F) (z : Bool) : ∃ q, div F z (.fin 1) (.fin 2.75) = .fin q ∧ 0 < q := by
  have h := std hF
  have hq : Num F (1 / 4) := by
    rcases hF with rfl | rfl
    · exact num32' 1 (-2) (by decide) (by decide) (by decide) (by norm_num)
    · exact num64' 1 (-2) (by decide) (by decide) (by decide) (by norm_num)
  have := rnd_between h hq h.one (x := 1 / 2.75) (by norm_num) (by norm_num)
  have e : div F z (.fin 1) (.fin 2.75) = .fin (F.fl (1 / 2.75)) := by
    show (if (2.75 : ℝ) = 0 then _ else F.rnd _) = _
    rw [if_neg (by norm_num), this.1]
  exact ⟨_, e, by linarith [this.2.2.1]⟩

theorem bounce_start {F : Fmt} (hF : Native F) (z : Bool) {b c d : ℝ} (hb : Num F b) (hd : d ≠ 0) :
    bounceOut F z (.fin 0) (.fin b) (.fin c) (.fin d) = .fin b := by
  have h := std hF
  obtain ⟨q, e, hq⟩ := lt_quot hF z
  simp only [bounceOut, zero_div h z hd, e, lt_fin, hq, if_true, mul_zero_right h, zero_add' h hb]

/-- Half of the duration is positive. -/
theorem half_pos' {F : Fmt} (h : Std F) (z : Bool) {d : ℝ} (hd : 2 ^ F.qmin < d) (hn : Num F d) :
    ∃ m, div F z (.fin d) (.fin 2) = .fin m ∧ 0 < m := by
  obtain ⟨m, e, hm⟩ := half_ne h z hd hn
  refine ⟨m, e, lt_of_le_of_ne ?_ hm.symm⟩
  have hp : 0 < d := (two_pos _).trans hd
  have := rnd_between h h.zero hn (x := d / 2) (by linarith) (by linarith)
  have e' : div F z (.fin d) (.fin 2) = .fin (F.fl (d / 2)) := by
    show (if (2 : ℝ) = 0 then _ else F.rnd _) = _
    rw [if_neg (by norm_num), this.1]
  rw [e'] at e
  injection e with e
  linarith [this.2.2.1]

/-- The hypotheses below are met by the start 1/2, the change -3 and the duration 5, in both formats. -/
example {F : Fmt} (hF : Native F) : Args F (1 / 2) (-3) 5 ∧ Halves F (-3) 5 ∧ Num F (2 * 5) := by
  rcases hF with rfl | rfl
  · exact ⟨⟨num32' 1 (-1) (by decide) (by decide) (by decide) (by norm_num), num32' (-3) 0 (by decide) (by decide) (by decide) (by norm_num),
      num32' 5 0 (by decide) (by decide) (by decide) (by norm_num), by norm_num⟩,
      ⟨num32' (-3) (-1) (by decide) (by decide) (by decide) (by norm_num), num32' 5 (-1) (by decide) (by decide) (by decide) (by norm_num)⟩,
      num32' 10 0 (by decide) (by decide) (by decide) (by norm_num)⟩
  · exact ⟨⟨num64' 1 (-1) (by decide) (by decide) (by decide) (by norm_num), num64' (-3) 0 (by decide) (by decide) (by decide) (by norm_num),
      num64' 5 0 (by decide) (by decide) (by decide) (by norm_num), by norm_num⟩,
      ⟨num64' (-3) (-1) (by decide) (by decide) (by decide) (by norm_num), num64' 5 (-1) (by decide) (by decide) (by decide) (by norm_num)⟩,
      num64' 10 0 (by decide) (by decide) (by decide) (by norm_num)⟩

/-! ## The start -/

/-- **C162 (start).** At time 0 every function gives exactly the start value, except `Back::out` in `double`
(`C162_back_out_start`), which is what is missing here. -/
theorem C162_start_partial {F : Fmt} (hF : Native F) (L : Lib) (hL : Exact L) (mf z : Bool) {b c d : ℝ} (ha : Args F b c d)
    (e : Curve) (k : Kind) (hk : k = .inOut → 2 ^ F.qmin < d) (hB : ¬ (e = .back ∧ k = .out ∧ F = binary64)) :
    curve L mf F z e k (.fin 0) (.fin b) (.fin c) (.fin d) = .fin b := by
  have h := std hF
  have hd : d ≠ 0 := ha.pos.ne'
  have A := arith h
  have hz := zero_div h z hd
  have hb := ha.start
  have hc := ha.change
  have ep := pi_eq
  have em := (pi_half hF z).1
  cases e <;> cases k
  case sine.inn =>
    simp only [curve, sineIn, hz, em, mul_zero_left h, hL.cos, neg, mul_one' h (num_neg hc), neg_add_self h, zero_add' h hb]
  case sine.out =>
    simp only [curve, sineOut, hz, em, mul_zero_left h, hL.sin, mul_zero_right h, zero_add' h hb]
  case sine.inOut =>
    simp only [curve, sineInOut, ep, mul_zero_right h, hz, hL.cos, A.s11, neg, div_two h z (num_neg hc), zero_add' h hb]
  case back.inn =>
    obtain ⟨s, k', u, ee, f⟩ : ∃ s k' u ee, Fac F s k' u ee := by
      rcases hF with rfl | rfl
      · exact ⟨_, _, _, _, fac32⟩
      · exact ⟨_, _, _, _, fac64⟩
    simp only [curve, backIn, hz, mul_zero_right h, f.lit, f.inc, sub, neg, zero_add' h (num_neg f.ns), mul_zero_left h, zero_add' h hb]
  case back.out =>
    have hF : F = binary32 := by rcases hF with rfl | rfl <;> simp_all
    subst hF
    have f := fac32
    have e1 : mul binary32 (.fin (s32 + 1)) (.fin (-1)) = .fin (-(s32 + 1)) := mul_neg_one' h f.nk
    have e2 : add binary32 (.fin (-(s32 + 1))) (.fin s32) = .fin (-1) := by
      show binary32.rnd (-(s32 + 1) + s32) = _
      rw [show -(s32 + 1) + s32 = -1 by ring, rnd_num h (num_neg h.one)]
    simp only [curve, backOut, hz, f.lit, f.inc, A.s01, A.mnn, e1, e2, A.m1n, A.an11, mul_zero_right h, zero_add' h hb]
  case back.inOut =>
    obtain ⟨s, k', u, ee, f⟩ : ∃ s k' u ee, Fac F s k' u ee := by
      rcases hF with rfl | rfl
      · exact ⟨_, _, _, _, fac32⟩
      · exact ⟨_, _, _, _, fac64⟩
    obtain ⟨m, e1, hm⟩ := half_pos' h z (hk rfl) ha.duration
    simp only [curve, backInOut, e1, zero_div h z hm.ne', f.lit, f.mul, f.inc', mul_zero_right h, sub, neg, zero_add' h (num_neg f.nu),
      mul_zero_left h, lt_fin, zero_lt_one, if_true, div_two h z hc, zero_add' h hb]
  case bounce.inn =>
    simp only [curve, bounceIn, sub_zero' h ha.duration, bounce_end hF z hc hd, add_zero' h hc, sub_self' h, zero_add' h hb]
  case bounce.out => exact bounce_start hF z hb hd
  case bounce.inOut =>
    obtain ⟨m, e1, hm⟩ := half_pos' h z (hk rfl) ha.duration
    simp only [curve, bounceInOut, bounceIn, e1, lt_fin, hm, if_true, mul_zero_left h, sub_zero' h ha.duration, bounce_end hF z hc hd,
      add_zero' h hc, sub_self' h, zero_add' h h.zero, zero_add' h hb]
  case circ.inn =>
    simp only [curve, circIn, hz, mul_zero_left h, sub_zero' h h.one, sqrt1 h, A.s11, neg, mul_zero_right h, zero_add' h hb]
  case circ.out =>
    simp only [curve, circOut, hz, A.s01, A.mnn, A.s11, sqrt0 h, mul_zero_right h, zero_add' h hb]
  case circ.inOut =>
    obtain ⟨m, e1, hm⟩ := half_pos' h z (hk rfl) ha.duration
    simp only [curve, circInOut, e1, zero_div h z hm.ne', lt_fin, zero_lt_one, if_true, mul_zero_left h, sub_zero' h h.one, sqrt1 h,
      A.s11, neg, div_two h z (num_neg hc), mul_zero_right h, zero_add' h hb]
  case elastic.inn => simp only [curve, elasticIn, feq_fin, if_true]
  case elastic.out => simp only [curve, elasticOut, feq_fin, if_true]
  case elastic.inOut => simp only [curve, elasticInOut, feq_fin, if_true]
  case expo.inn => simp only [curve, expoIn, feq_fin, if_true]
  case expo.out =>
    simp only [curve, expoOut, feq_fin, hd.symm, if_false, mul_zero_right h, hz, hL.pow, neg, A.an11, zero_add' h hb]
  case expo.inOut => simp only [curve, expoInOut, feq_fin, if_true]

/-- **C162 (start of `Back::out` in `double`).** Adding 1 to the factor 1.70158 is not exact in `double`, and `Back::out` starts
2⁻⁵² of the change away from the start value. -/
theorem C162_back_out_start (L : Lib) (mf z : Bool) {b c d : ℝ} (ha : Args binary64 b c d) :
    curve L mf binary64 z .back .out (.fin 0) (.fin b) (.fin c) (.fin d) =
      add binary64 (mul binary64 (.fin c) (.fin (1 / 2 ^ 52))) (.fin b) := by
  have h := C149_formats.2
  have f := fac64
  have A := arith h
  have e1 : mul binary64 (.fin k64) (.fin (-1)) = .fin (-k64) := mul_neg_one' h f.nk
  have e2 : add binary64 (.fin (-k64)) (.fin s64) = .fin (-(1 - 1 / 2 ^ 52)) := by
    show binary64.rnd (-k64 + s64) = _
    rw [show -k64 + s64 = -(1 - 1 / 2 ^ 52) by linarith [f.diff], rnd_num h (num_neg f.ne)]
  have e3 : add binary64 (.fin (-(1 - 1 / 2 ^ 52))) (.fin 1) = .fin (1 / 2 ^ 52) := by
    show binary64.rnd (-(1 - 1 / 2 ^ 52) + 1) = _
    rw [show (-(1 - 1 / 2 ^ 52) + 1 : ℝ) = 1 / 2 ^ 52 by ring, rnd_num h f.ne']
  simp only [curve, backOut, zero_div h z ha.pos.ne', f.lit, f.inc, A.s01, A.mnn, e1, e2, mul_one_left h (num_neg f.ne), e3]

/-- From 0 it starts at 2⁻⁵² of the change (if that is a `double`). -/
theorem C162_back_out_start_misses (L : Lib) (mf z : Bool) {c d : ℝ} (ha : Args binary64 0 c d) (hc : c ≠ 0) (hn : Num binary64 (c / 2 ^ 52)) :
    c / 2 ^ 52 ≠ 0 ∧ curve L mf binary64 z .back .out (.fin 0) (.fin 0) (.fin c) (.fin d) = .fin (c / 2 ^ 52) := by
  have h := C149_formats.2
  refine ⟨div_ne_zero hc (by norm_num), ?_⟩
  rw [C162_back_out_start L mf z ha]
  have : mul binary64 (.fin c) (.fin (1 / 2 ^ 52)) = .fin (c / 2 ^ 52) := by
    show binary64.rnd (c * (1 / 2 ^ 52)) = _
    rw [mul_one_div, rnd_num h hn]
  rw [this, add_zero' h hn]

/-! ## The end -/

/-- **C162 (end).** At the end of the duration `Back` (but for `Back::in` in `double`, `C162_back_in_end`), `Bounce`, `Circ`, `Elastic`
and `Expo` give the start value plus the change, rounded once. (`InOut` divides the change and the duration by two, and
`Bounce::inOut` doubles the duration.) `Sine` is missing: `C162_sine_out_misses`, `C162_sine_in_overshoots`. -/
theorem C162_end_partial {F : Fmt} (hF : Native F) (L : Lib) (hL : Exact L) (mf z : Bool) {b c d : ℝ} (ha : Args F b c d)
    (e : Curve) (he : e ≠ .sine) (k : Kind) (hk : k = .inOut → Halves F c d ∧ (e = .bounce → Num F (2 * d)))
    (hB : ¬ (e = .back ∧ k = .inn ∧ F = binary64)) :
    curve L mf F z e k (.fin d) (.fin b) (.fin c) (.fin d) = F.rnd (b + c) := by
  have h := std hF
  have hd : d ≠ 0 := ha.pos.ne'
  have A := arith h
  have hz := div_self' h z hd
  have hb := ha.start
  have hc := ha.change
  have R : add F (.fin c) (.fin b) = F.rnd (b + c) := by rw [add_comm]; rfl
  have R' : add F (.fin b) (.fin c) = F.rnd (b + c) := rfl
  have hm := mul_neg_one' h (num_neg hc)
  rw [neg_neg] at hm
  have h2 : Num F (d / 2) → div F z (.fin d) (.fin (d / 2)) = .fin 2 := fun hn => by
    show (if d / 2 = 0 then _ else F.rnd (d / (d / 2))) = _
    rw [if_neg (by simpa using hd), show d / (d / 2) = 2 by field_simp, rnd_num h h.two]
  have e2 : mul F (.fin (c / 2)) (.fin 2) = .fin c := by
    show F.rnd (c / 2 * 2) = _
    rw [div_mul_cancel₀ _ (by norm_num), rnd_num h hc]
  have l21 : ¬ (2 : ℝ) < 1 := by norm_num
  cases e <;> cases k
  case sine.inn => exact absurd rfl he
  case sine.out => exact absurd rfl he
  case sine.inOut => exact absurd rfl he
  case back.inn =>
    have hF : F = binary32 := by rcases hF with rfl | rfl <;> simp_all
    subst hF
    have f := fac32
    have e1 : sub binary32 (.fin (s32 + 1)) (.fin s32) = .fin 1 := by
      show binary32.rnd (s32 + 1 + -s32) = _
      rw [show s32 + 1 + -s32 = 1 by ring, rnd_num h h.one]
    simp only [curve, backIn, hz, f.lit, f.inc, mul_one' h hc, mul_one' h f.nk, e1, R]
  case back.out =>
    obtain ⟨s, k', u, ee, f⟩ : ∃ s k' u ee, Fac F s k' u ee := by
      rcases hF with rfl | rfl
      · exact ⟨_, _, _, _, fac32⟩
      · exact ⟨_, _, _, _, fac64⟩
    simp only [curve, backOut, hz, A.s11, f.lit, f.inc, mul_zero_right h, zero_add' h f.ns, mul_zero_left h, A.a01, mul_one' h hc, R]
  case back.inOut =>
    obtain ⟨s, k', u, ee, f⟩ : ∃ s k' u ee, Fac F s k' u ee := by
      rcases hF with rfl | rfl
      · exact ⟨_, _, _, _, fac32⟩
      · exact ⟨_, _, _, _, fac64⟩
    obtain ⟨⟨n1, n2⟩, -⟩ := hk rfl
    simp only [curve, backInOut, half h n1, half h n2, h2 n2, lt_fin, l21, if_false, A.s22, f.lit, f.mul, f.inc', mul_zero_right h,
      zero_add' h f.nu, mul_zero_left h, A.a02, e2, R]
  case bounce.inn =>
    simp only [curve, bounceIn, sub_self' h, bounce_start hF z h.zero hd, sub_zero' h hc, R]
  case bounce.out => rw [← R]; exact bounce_end hF z hc hd
  case bounce.inOut =>
    obtain ⟨⟨n1, n2⟩, n3⟩ := hk rfl
    have hl : ¬ d < d / 2 := by linarith [ha.pos]
    have e3 : mul F (.fin d) (.fin 2) = .fin (2 * d) := by
      show F.rnd (d * 2) = _
      rw [mul_comm, rnd_num h (n3 rfl)]
    have e4 : sub F (.fin (2 * d)) (.fin d) = .fin d := by
      show F.rnd (2 * d + -d) = _
      rw [show 2 * d + -d = d by ring, rnd_num h ha.duration]
    have e5 : mul F (.fin c) (.fin 0.5) = .fin (c / 2) := by
      show F.rnd (c * 0.5) = _
      rw [show c * 0.5 = c / 2 by ring, rnd_num h n1]
    have e6 : add F (.fin (c / 2)) (.fin (c / 2)) = .fin c := by
      show F.rnd (c / 2 + c / 2) = _
      rw [add_halves, rnd_num h hc]
    simp only [curve, bounceInOut, half h n2, lt_fin, hl, if_false, e3, e4, bounce_end hF z hc hd, add_zero' h hc, e5, e6, R]
  case circ.inn =>
    simp only [curve, circIn, hz, mul_one' h h.one, A.s11, sqrt0 h, A.s01, neg, hm, R]
  case circ.out =>
    simp only [curve, circOut, hz, A.s11, mul_zero_left h, sub_zero' h h.one, sqrt1 h, mul_one' h hc, R]
  case circ.inOut =>
    obtain ⟨⟨n1, n2⟩, -⟩ := hk rfl
    have e3 : add F (.fin 1) (.fin 1) = .fin 2 := by
      show F.rnd (1 + 1) = _
      rw [one_add_one_eq_two, rnd_num h h.two]
    cases mf <;>
      simp only [curve, circInOut, half h n1, half h n2, h2 n2, lt_fin, l21, if_false, A.s22, mul_zero_right h, sub_zero' h h.one, sqrt1 h, e3,
        e2, R, if_true, Bool.false_eq_true]
  case elastic.inn => simp only [curve, elasticIn, feq_fin, hd, hz, if_true, if_false, R']
  case elastic.out => simp only [curve, elasticOut, feq_fin, hd, hz, if_true, if_false, R']
  case elastic.inOut =>
    obtain ⟨⟨n1, n2⟩, -⟩ := hk rfl
    simp only [curve, elasticInOut, half h n2, h2 n2, feq_fin, hd, hz, if_true, if_false, R']
  case expo.inn =>
    simp only [curve, expoIn, feq_fin, hd, if_false, hz, A.s11, mul_zero_right h, hL.pow, mul_one' h hc, R]
  case expo.out => simp only [curve, expoOut, feq_fin, if_true, R']
  case expo.inOut => simp only [curve, expoInOut, feq_fin, hd, if_true, if_false, R']

/-- **C162 (end of `Back::in` in `double`).** The change is multiplied by 1 - 2⁻⁵². -/
theorem C162_back_in_end (L : Lib) (mf z : Bool) {b c d : ℝ} (ha : Args binary64 b c d) :
    curve L mf binary64 z .back .inn (.fin d) (.fin b) (.fin c) (.fin d) =
      add binary64 (mul binary64 (.fin c) (.fin (1 - 1 / 2 ^ 52))) (.fin b) := by
  have h := C149_formats.2
  have f := fac64
  have e1 : sub binary64 (.fin k64) (.fin s64) = .fin (1 - 1 / 2 ^ 52) := by
    show binary64.rnd (k64 + -s64) = _
    rw [show k64 + -s64 = 1 - 1 / 2 ^ 52 by linarith [f.diff], rnd_num h f.ne]
  simp only [curve, backIn, div_self' h z ha.pos.ne', f.lit, f.inc, mul_one' h ha.change, mul_one' h f.nk, e1]

/-- **C162 (`Back::in` never arrives).** From 0 it stops short of the change, whatever the change (unless it is tiny). -/
theorem C162_back_in_misses (L : Lib) (mf z : Bool) {c d : ℝ} (ha : Args binary64 0 c d) (hc : 2 ^ (-1021 : ℤ) ≤ |c|) :
    ∃ y, curve L mf binary64 z .back .inn (.fin d) (.fin 0) (.fin c) (.fin d) = .fin y ∧ |y| < |c| := by
  have h := C149_formats.2
  rw [C162_back_in_end L mf z ha]
  have hc0 : 0 < |c| := (two_pos _).trans_le hc
  have ex : |c * (1 - 1 / 2 ^ 52)| = |c| * (1 - 1 / 2 ^ 52) := by rw [abs_mul, abs_of_pos (by norm_num : (0 : ℝ) < 1 - 1 / 2 ^ 52)]
  have e1 : mul binary64 (.fin c) (.fin (1 - 1 / 2 ^ 52)) = .fin (binary64.fl (c * (1 - 1 / 2 ^ 52))) := by
    refine rnd_fin h.good.p h.good.q ?_
    rw [ex]
    exact le_trans (by nlinarith) (num_top ha.change)
  have hv : Num binary64 (binary64.fl (c * (1 - 1 / 2 ^ 52))) := by
    have := rnd_val h.good.p h.good.q (F := binary64) (c * (1 - 1 / 2 ^ 52))
    have e1' : binary64.rnd (c * (1 - 1 / 2 ^ 52)) = .fin (binary64.fl (c * (1 - 1 / 2 ^ 52))) := e1
    rw [e1'] at this
    exact this
  refine ⟨_, by rw [e1, add_zero' h hv], ?_⟩
  have hr := fl_rel (F := binary64) (x := c * (1 - 1 / 2 ^ 52)) (by
    rw [ex]
    have : (2 : ℝ) ^ (-1022 + 1 : ℤ) = 2 ^ (-1022 : ℤ) * 2 := zpow_add_one₀ (by norm_num) _
    norm_num only [] at this
    have p := two_pos (-1022)
    show (2 : ℝ) ^ (-1022 : ℤ) ≤ _
    rw [show (-1021 : ℤ) = -1022 + 1 by norm_num, zpow_add_one₀ (by norm_num)] at hc
    nlinarith)
  rw [ex] at hr
  have hu : unit binary64 = 1 / 2 ^ 53 := by unfold unit; norm_num [binary64]
  rw [hu] at hr
  have := abs_sub_abs_le_abs_sub (binary64.fl (c * (1 - 1 / 2 ^ 52))) (c * (1 - 1 / 2 ^ 52))
  rw [ex] at this
  nlinarith

/-! ## The middle -/

/-- **C162 (middle).** At half of the duration `InOut` of `Back`, `Bounce` and `Expo`, and of `Circ` if the time is modified before it is
read, give the start value plus half of the change, rounded once. Missing: the other order, see `C162_circ_jumps`; `Elastic` and `Sine`. -/
theorem C162_middle_partial {F : Fmt} (hF : Native F) (L : Lib) (hL : Exact L) (mf z : Bool) {b c d : ℝ} (ha : Args F b c d)
    (hh : Halves F c d) (e : Curve) (he : e = .back ∨ e = .bounce ∨ e = .expo ∨ (e = .circ ∧ mf = true)) :
    curve L mf F z e .inOut (.fin (d / 2)) (.fin b) (.fin c) (.fin d) = F.rnd (b + c / 2) := by
  have h := std hF
  have hd : d ≠ 0 := ha.pos.ne'
  have hd2 : d / 2 ≠ 0 := by simpa using hd
  have A := arith h
  have hz := div_self' h z hd2
  obtain ⟨n1, n2⟩ := hh
  have R : add F (.fin (c / 2)) (.fin b) = F.rnd (b + c / 2) := by rw [add_comm]; rfl
  have l11 : ¬ (1 : ℝ) < 1 := lt_irrefl _
  rcases he with rfl | rfl | rfl | ⟨rfl, rfl⟩
  · obtain ⟨s, k', u, ee, f⟩ : ∃ s k' u ee, Fac F s k' u ee := by
      rcases hF with rfl | rfl
      · exact ⟨_, _, _, _, fac32⟩
      · exact ⟨_, _, _, _, fac64⟩
    have e1 : mul F (.fin (u + 1)) (.fin (-1)) = .fin (-(u + 1)) := mul_neg_one' h f.nv
    have e3 : add F (.fin (-(u + 1))) (.fin u) = .fin (-1) := by
      show F.rnd (-(u + 1) + u) = _
      rw [show -(u + 1) + u = -1 by ring, rnd_num h (num_neg h.one)]
    simp only [curve, backInOut, half h n1, half h n2, hz, lt_fin, l11, if_false, A.s12, f.lit, f.mul, f.inc', e1, e3, A.mnn, A.m1n, A.an12,
      mul_one' h n1, R]
  · have hl : ¬ d / 2 < d / 2 := lt_irrefl _
    have e3 : mul F (.fin (d / 2)) (.fin 2) = .fin d := by
      show F.rnd (d / 2 * 2) = _
      rw [div_mul_cancel₀ _ (by norm_num), rnd_num h ha.duration]
    have e5 : mul F (.fin c) (.fin 0.5) = .fin (c / 2) := by
      show F.rnd (c * 0.5) = _
      rw [show c * 0.5 = c / 2 by ring, rnd_num h n1]
    simp only [curve, bounceInOut, half h n2, lt_fin, hl, if_false, e3, sub_self' h, bounce_start hF z h.zero hd, mul_zero_left h, e5,
      zero_add' h n1, R]
  · have hl : ¬ d / 2 = d := by intro hx; apply hd; linarith
    simp only [curve, expoInOut, feq_fin, hd2, hl, if_false, half h n1, half h n2, hz, lt_fin, l11, A.s11, mul_zero_right h, hL.pow, neg,
      A.an12, mul_one' h n1, R]
  · simp only [curve, circInOut, half h n1, half h n2, hz, lt_fin, l11, if_false, A.s12, if_true, A.mnn, A.s11, sqrt0 h, A.a01, mul_one' h n1, R]

/-- **C162 (`Circ::inOut` jumps).** `mT * (mT -= T(2))` is unsequenced. If the left operand is read first, at half of the duration
`Circ::inOut` from 0 has already reached, or passed, the end. -/
theorem C162_circ_jumps {F : Fmt} (hF : Native F) (L : Lib) (z : Bool) {c d : ℝ} (ha : Args F 0 c d) (hh : Halves F c d) (hc : 0 < c) :
    Le (.fin c) (curve L false F z .circ .inOut (.fin (d / 2)) (.fin 0) (.fin c) (.fin d)) := by
  have h := std hF
  have hd : d ≠ 0 := ha.pos.ne'
  have hd2 : d / 2 ≠ 0 := by simpa using hd
  have A := arith h
  have hz := div_self' h z hd2
  obtain ⟨n1, n2⟩ := hh
  have l11 : ¬ (1 : ℝ) < 1 := lt_irrefl _
  have e1 : sub F (.fin 1) (.fin (-1)) = .fin 2 := by
    show F.rnd (1 + -(-1)) = _
    rw [show (1 + -(-1) : ℝ) = 2 by norm_num, rnd_num h h.two]
  have hs1 : (1 : ℝ) ≤ Real.sqrt 2 := by rw [Real.one_le_sqrt]; norm_num
  have hs2 : Real.sqrt 2 ≤ 2 := by rw [Real.sqrt_le_left (by norm_num)]; norm_num
  obtain ⟨q1, q2, q3, q4⟩ := rnd_between h h.one h.two hs1 hs2
  have e2 : Ieee.sqrt F (.fin 2) = .fin (F.fl (Real.sqrt 2)) := by
    show (if (2 : ℝ) < 0 then _ else F.rnd _) = _
    rw [if_neg (by norm_num), q1]
  generalize F.fl (Real.sqrt 2) = r at *
  have h3 : Num F 3 := by exact_mod_cast h.int 3 (by norm_num)
  obtain ⟨w1, w2, w3, w4⟩ := rnd_between h h.two h3 (x := r + 1) (by linarith) (by linarith)
  have e3 : add F (.fin r) (.fin 1) = .fin (F.fl (r + 1)) := w1
  generalize F.fl (r + 1) = w at *
  simp only [curve, circInOut, half h n1, half h n2, hz, lt_fin, l11, if_false, A.s12, Bool.false_eq_true, A.m1n, e1, e2, e3]
  have : Le (.fin c) (mul F (.fin (c / 2)) (.fin w)) := by
    rw [← rnd_num h ha.change]
    exact rnd_mono h (by nlinarith)
  have := add_le_add h (b := 0) this
  rwa [add_zero' h ha.change] at this

end Verif.EasingFp
