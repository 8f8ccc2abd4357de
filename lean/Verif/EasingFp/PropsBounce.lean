import Verif.EasingFp.PropsCurves

/-! # How low `Bounce` falls -/

namespace Verif.EasingFp

open Verif.Ieee Verif.Ieee.Spec Spec Verif.Clock

theorem rnd_add_zero {F : Fmt} (h : Std F) (x : ℝ) : add F (F.rnd x) (.fin 0) = F.rnd x := by
  have hv := rnd_val h.good.p h.good.q (F := F) x
  cases e : F.rnd x with
  | fin y => rw [e] at hv; exact add_zero' h hv
  | inf s => rfl
  | nan => rfl

/-- A product of numbers up to 10 is finite and has the right sign. -/
theorem small_mul {F : Fmt} (hF : Native F) {x y : ℝ} (hx : |x| ≤ 8) (hy : |y| ≤ 10) :
    ∃ w, mul F (.fin x) (.fin y) = .fin w ∧ w = F.fl (x * y) ∧ |w| ≤ 100 := by
  have h := std hF
  have hn : Num F 100 := by
    rcases hF with rfl | rfl
    · exact num32' 100 0 (by decide) (by decide) (by decide) (by norm_num)
    · exact num64' 100 0 (by decide) (by decide) (by decide) (by norm_num)
  have hb : |x * y| ≤ 80 := by
    rw [abs_mul]
    nlinarith [abs_nonneg x, abs_nonneg y]
  refine ⟨_, rnd1000 hF (by linarith), rfl, ?_⟩
  rw [abs_le] at hb ⊢
  have := fl_between h (num_neg hn) hn (x := x * y) (by linarith [hb.1]) (by linarith [hb.2])
  exact ⟨this.1, this.2⟩

/-- One parabola lies above its constant. -/
theorem piece {F : Fmt} (hF : Native F) {c x a : ℝ} (hc : 0 ≤ c) (hx : |x| ≤ 1) (ha : Num F a) (ha1 : 0 ≤ a ∧ a ≤ 1) :
    Le (F.rnd (c * a)) (add F (mul F (.fin c) (add F (mul F (mul F (.fin 7.5625) (.fin x)) (.fin x)) (.fin a))) (.fin 0)) := by
  have h := std hF
  obtain ⟨w, e1, hw, hw'⟩ := small_mul hF (x := 7.5625) (y := x) (by rw [abs_of_pos (by norm_num)]; norm_num) (by linarith)
  have s1 : 0 ≤ w * x := by
    rcases le_total 0 x with hx0 | hx0
    · have : 0 ≤ w := by rw [hw, ← fl_zero F]; exact fl_mono h.hp (by positivity)
      positivity
    · have : w ≤ 0 := by rw [hw, ← fl_zero F]; exact fl_mono h.hp (by nlinarith)
      nlinarith
  have s2 : w * x ≤ 100 := by
    have := abs_le.mp hw'
    have := abs_le.mp hx
    rcases le_total 0 x with hx0 | hx0 <;> nlinarith
  have e2 : mul F (.fin w) (.fin x) = .fin (F.fl (w * x)) := rnd1000 hF (by rw [abs_of_nonneg s1]; linarith)
  have n100 : Num F 100 := by
    rcases hF with rfl | rfl
    · exact num32' 100 0 (by decide) (by decide) (by decide) (by norm_num)
    · exact num64' 100 0 (by decide) (by decide) (by decide) (by norm_num)
  have s3 := fl_between h h.zero n100 s1 s2
  have e3 : add F (.fin (F.fl (w * x))) (.fin a) = .fin (F.fl (F.fl (w * x) + a)) :=
    rnd1000 hF (by rw [abs_of_nonneg (by linarith [s3.1, ha1.1])]; linarith [s3.2, ha1.2])
  have s4 : a ≤ F.fl (F.fl (w * x) + a) := by
    conv_lhs => rw [← fl_num h ha]
    exact fl_mono h.hp (by linarith [s3.1])
  rw [e1, e2, e3]
  show Le _ (add F (F.rnd (c * _)) (.fin 0))
  rw [rnd_add_zero h]
  exact rnd_mono h (mul_le_mul_of_nonneg_left s4 hc)

/-- The difference of two fractions. -/
theorem diff_frac {F : Fmt} (hF : Native F) {x y : ℝ} (hx : 0 ≤ x ∧ x ≤ 1) (hy : 0 ≤ y ∧ y ≤ 1) :
    ∃ w, sub F (.fin x) (.fin y) = .fin w ∧ |w| ≤ 1 := by
  have h := std hF
  have b1 : -1 ≤ x + -y := by linarith [hx.1, hy.2]
  have b2 : x + -y ≤ 1 := by linarith [hx.2, hy.1]
  have := fl_between h (num_neg h.one) h.one b1 b2
  exact ⟨F.fl (x + -y), rnd1000 hF (by rw [abs_le]; constructor <;> linarith), abs_le.mpr this⟩

/-- **C162 (how low `Bounce` falls).** From 0 by a change that is not negative, `Bounce::out` never falls below 0 within the duration;
after 4/11 of it (the first contact) not below 3/4 of the change, after 8/11 not below 15/16 and after 10/11 not below 63/64 of it. -/
theorem C162_bounce_floor {F : Fmt} (hF : Native F) (L : Lib) (mf z : Bool) {t c d : ℝ} (hd : 0 < d) (hc : 0 ≤ c) (ht : 0 ≤ t ∧ t ≤ d) :
    Le (.fin 0) (curve L mf F z .bounce .out (.fin t) (.fin 0) (.fin c) (.fin d)) ∧
    (4 / 11 * d ≤ t → Le (F.rnd (c * (3 / 4))) (curve L mf F z .bounce .out (.fin t) (.fin 0) (.fin c) (.fin d))) ∧
    (8 / 11 * d ≤ t → Le (F.rnd (c * (15 / 16))) (curve L mf F z .bounce .out (.fin t) (.fin 0) (.fin c) (.fin d))) ∧
    (10 / 11 * d ≤ t → Le (F.rnd (c * (63 / 64))) (curve L mf F z .bounce .out (.fin t) (.fin 0) (.fin c) (.fin d))) := by
  have h := std hF
  obtain ⟨e0, n0, l0, u0⟩ := frac (z := z) h hd ht
  have Q : ∀ x : ℝ, 0 ≤ x → x ≤ 2.75 → div F z (.fin x) (.fin 2.75) = .fin (F.fl (x / 2.75)) ∧ 0 ≤ F.fl (x / 2.75) ∧ F.fl (x / 2.75) ≤ 1 := by
    intro x h1 h2
    have := frac (z := z) h (d := 2.75) (by norm_num) ⟨h1, h2⟩
    exact ⟨this.1, this.2.2⟩
  have q1 := Q 1 (by norm_num) (by norm_num)
  have q2 := Q 2 (by norm_num) (by norm_num)
  have q3 := Q 2.5 (by norm_num) (by norm_num)
  have p1 := Q 1.5 (by norm_num) (by norm_num)
  have p2 := Q 2.25 (by norm_num) (by norm_num)
  have p3 := Q 2.625 (by norm_num) (by norm_num)
  obtain ⟨w1, d1, b1⟩ := diff_frac hF ⟨l0, u0⟩ p1.2
  obtain ⟨w2, d2, b2⟩ := diff_frac hF ⟨l0, u0⟩ p2.2
  obtain ⟨w3, d3, b3⟩ := diff_frac hF ⟨l0, u0⟩ p3.2
  have N : Num F 0.75 ∧ Num F 0.9375 ∧ Num F 0.984375 := by
    rcases hF with rfl | rfl
    · exact ⟨num32' 3 (-2) (by decide) (by decide) (by decide) (by norm_num), num32' 15 (-4) (by decide) (by decide) (by decide) (by norm_num),
        num32' 63 (-6) (by decide) (by decide) (by decide) (by norm_num)⟩
    · exact ⟨num64' 3 (-2) (by decide) (by decide) (by decide) (by norm_num), num64' 15 (-4) (by decide) (by decide) (by decide) (by norm_num),
        num64' 63 (-6) (by decide) (by decide) (by decide) (by norm_num)⟩
  have m1 := piece hF hc b1 N.1 (by norm_num)
  have m2 := piece hF hc b2 N.2.1 (by norm_num)
  have m3 := piece hF hc b3 N.2.2 (by norm_num)
  have ge : ∀ a b : ℝ, a ≤ b → Le (F.rnd (c * a)) (F.rnd (c * b)) := fun a b hab => rnd_mono h (mul_le_mul_of_nonneg_left hab hc)
  have hz : F.rnd (c * 0) = .fin 0 := by rw [mul_zero, rnd_num h h.zero]
  have r1 : (3 / 4 : ℝ) = 0.75 := by norm_num
  have r2 : (15 / 16 : ℝ) = 0.9375 := by norm_num
  have r3 : (63 / 64 : ℝ) = 0.984375 := by norm_num
  have fle : ∀ x y : ℝ, x * d ≤ t → x = y / 2.75 → F.fl (y / 2.75) ≤ F.fl (t / d) := fun x y hx hy => by
    rw [← hy]
    exact fl_mono h.hp (by rwa [le_div_iff₀ hd])
  simp only [curve, bounceOut, e0, q1.1, q2.1, q3.1, p1.1, p2.1, p3.1, d1, d2, d3, lt_fin]
  rw [r1, r2, r3]
  have first : Le (.fin 0) (add F (mul F (.fin c) (mul F (mul F (.fin 7.5625) (.fin (F.fl (t / d)))) (.fin (F.fl (t / d))))) (.fin 0)) := by
    have hn0 := l0
    have hn1 := u0
    generalize F.fl (t / d) = x at *
    obtain ⟨w, e1, hw, hw'⟩ := small_mul hF (x := 7.5625) (y := x) (by rw [abs_of_pos (by norm_num)]; norm_num)
      (by rw [abs_of_nonneg hn0]; linarith)
    have w0 : 0 ≤ w := by rw [hw, ← fl_zero F]; exact fl_mono h.hp (by positivity)
    have e2 : mul F (.fin w) (.fin x) = .fin (F.fl (w * x)) := by
      refine rnd1000 hF ?_
      have := abs_le.mp hw'
      rw [abs_of_nonneg (by positivity)]
      nlinarith
    have w1 : 0 ≤ F.fl (w * x) := by rw [← fl_zero F]; exact fl_mono h.hp (by positivity)
    rw [e1, e2]
    show Le _ (add F (F.rnd (c * _)) (.fin 0))
    rw [rnd_add_zero h, ← hz]
    exact ge _ _ w1
  refine ⟨?_, fun hx => ?_, fun hx => ?_, fun hx => ?_⟩
  · split
    · exact first
    · split
      · exact Le.trans' (hz ▸ ge 0 0.75 (by norm_num)) m1
      · split
        · exact Le.trans' (hz ▸ ge 0 0.9375 (by norm_num)) m2
        · exact Le.trans' (hz ▸ ge 0 0.984375 (by norm_num)) m3
  · have := fle _ 1 hx (by norm_num)
    rw [if_neg (not_lt.mpr this)]
    split
    · exact m1
    · split
      · exact Le.trans' (ge _ _ (by norm_num)) m2
      · exact Le.trans' (ge _ _ (by norm_num)) m3
  · have g2 := fle _ 2 hx (by norm_num)
    have g1 := fle _ 1 (le_trans (by nlinarith) hx) (show (4 / 11 : ℝ) = 1 / 2.75 by norm_num)
    rw [if_neg (not_lt.mpr g1), if_neg (not_lt.mpr g2)]
    split
    · exact m2
    · exact Le.trans' (ge _ _ (by norm_num)) m3
  · have g3 := fle _ 2.5 hx (by norm_num)
    have g2 := fle _ 2 (le_trans (by nlinarith) hx) (show (8 / 11 : ℝ) = 2 / 2.75 by norm_num)
    have g1 := fle _ 1 (le_trans (by nlinarith) hx) (show (4 / 11 : ℝ) = 1 / 2.75 by norm_num)
    rw [if_neg (not_lt.mpr g1), if_neg (not_lt.mpr g2), if_neg (not_lt.mpr g3)]
    exact m3

end Verif.EasingFp
