import Verif.EasingFp.Theorems

/-! # Linear easing, and where rounding shows -/

namespace Verif.EasingFp

open Verif.Ieee Verif.Ieee.Spec Spec Verif.Clock

/-! ## NaN -/

theorem add_nan (F : Fmt) (a : FP) : add F a .nan = .nan := by cases a <;> rfl
theorem nan_add (F : Fmt) (a : FP) : add F .nan a = .nan := by cases a <;> rfl
theorem mul_nan (F : Fmt) (a : FP) : mul F a .nan = .nan := by cases a <;> rfl
theorem nan_mul (F : Fmt) (a : FP) : mul F .nan a = .nan := by cases a <;> rfl
theorem div_nan (F : Fmt) (z : Bool) (a : FP) : div F z a .nan = .nan := by cases a <;> rfl
theorem nan_div (F : Fmt) (z : Bool) (a : FP) : div F z .nan a = .nan := by cases a <;> rfl

/-- **C149 (NaN).** If one of the four arguments is NaN so is the result. -/
theorem C149_nan (F : Fmt) (z : Bool) (e : Ease) (k : Kind) (t b c d : FP) (h : t = .nan ∨ b = .nan ∨ c = .nan ∨ d = .nan) :
    fn F z e k t b c d = .nan := by
  rcases h with rfl | rfl | rfl | rfl <;> cases e <;> cases k <;>
    simp only [fn, linear, cubicIn, cubicOut, cubicInOut, quadIn, quadOut, quadInOut, quartIn, quartOut, quartInOut, quintIn, quintOut,
      quintInOut, sub, neg, add_nan, nan_add, mul_nan, nan_mul, div_nan, nan_div, ite_self]

/-! ## Linear -/

theorem linear_eq {F : Fmt} (h : Std F) (z : Bool) {t b c d : ℝ} (hd : 0 < d) (ht : 0 ≤ t ∧ t ≤ d) (h0 : |c| * d ≤ F.top) (k : Kind) :
    fn F z .linear k (.fin t) (.fin b) (.fin c) (.fin d) = add F (F.rnd (F.fl (c * t) / d)) (.fin b) := by
  have : |c * t| ≤ F.top := by
    rw [abs_mul, abs_of_nonneg ht.1]
    exact (mul_le_mul_of_nonneg_left ht.2 (abs_nonneg c)).trans h0
  show linear F z _ _ _ _ = _
  unfold linear
  have e : mul F (.fin c) (.fin t) = .fin (F.fl (c * t)) := rnd_fin h.good.p h.good.q this
  rw [e]
  congr 1
  show (if d = 0 then _ else F.rnd _) = _
  rw [if_neg hd.ne']

theorem rnd_le_inf (F : Fmt) (x : ℝ) : Le (F.rnd x) (.inf false) := by
  unfold Fmt.rnd
  split
  · trivial
  · by_cases hx : x < 0 <;> simp [hx, Le]

theorem inf_le_rnd (F : Fmt) (x : ℝ) : Le (.inf true) (F.rnd x) := by
  unfold Fmt.rnd
  split <;> trivial

theorem add_le_add {F : Fmt} (h : Std F) {x y : FP} {b : ℝ} (hxy : Le x y) : Le (add F x (.fin b)) (add F y (.fin b)) := by
  rcases x with x | (_ | _) | _ <;> rcases y with y | (_ | _) | _ <;> first | exact hxy.elim | trivial | skip
  · have hxy : x ≤ y := hxy
    exact rnd_mono h (by linarith)
  · exact rnd_le_inf F _
  · exact inf_le_rnd F _

/-- **C149 (order of `Linear`).** The results of `Linear` follow the order of the times unless the product of the change and the
duration overflows. -/
theorem C149_linear_order {F : Fmt} (h : Std F) (z : Bool) {b c d : ℝ} (ha : Args F b c d) (k : Kind) (ho : |c| * d ≤ F.top)
    {t t' : ℝ} (h0 : 0 ≤ t) (htt : t ≤ t') (hd : t' ≤ d) :
    (0 ≤ c → Le (fn F z .linear k (.fin t) (.fin b) (.fin c) (.fin d)) (fn F z .linear k (.fin t') (.fin b) (.fin c) (.fin d))) ∧
    (c ≤ 0 → Le (fn F z .linear k (.fin t') (.fin b) (.fin c) (.fin d)) (fn F z .linear k (.fin t) (.fin b) (.fin c) (.fin d))) := by
  rw [linear_eq h z ha.pos ⟨h0, htt.trans hd⟩ ho, linear_eq h z ha.pos ⟨h0.trans htt, hd⟩ ho]
  have hp := ha.pos
  refine ⟨fun hc => add_le_add h (rnd_mono h ?_), fun hc => add_le_add h (rnd_mono h ?_)⟩
  · exact div_le_div_of_nonneg_right (fl_mono h.hp (mul_le_mul_of_nonneg_left htt hc)) hp.le
  · exact div_le_div_of_nonneg_right (fl_mono h.hp (mul_le_mul_of_nonpos_left htt hc)) hp.le

/-- **C149 (overflow of `Linear`).** If that product overflows before the end, the result is infinite although every value on the way is
finite. -/
theorem C149_linear_overflow {F : Fmt} (h : Std F) (z : Bool) {t b c d : ℝ} (hd : 0 < d) (ho : Over F (c * t)) (k : Kind) :
    fn F z .linear k (.fin t) (.fin b) (.fin c) (.fin d) = .inf (decide (c * t < 0)) := by
  show linear F z _ _ _ _ = _
  unfold linear
  have e : mul F (.fin c) (.fin t) = .inf (decide (c * t < 0)) := rnd_inf h.good ho
  rw [e]
  simp [div, add, hd.ne', not_lt.mpr hd.le]

/-- The bounds of `C149_linear_overflow` are met in `float` by a change of 2 ^ 100 and a time of 2 ^ 30. -/
theorem C149_linear_overflow_example : Over binary32 (2 ^ (100 : ℤ) * 2 ^ (30 : ℤ)) := by
  unfold Over
  rw [← zpow_add₀ (by norm_num), abs_of_pos (two_pos _)]
  simp only [binary32]
  have : ((2 : ℝ) ^ 24 - 1 / 2) * 2 ^ (104 : ℤ) ≤ 2 ^ (24 : ℤ) * 2 ^ (104 : ℤ) := by
    refine mul_le_mul_of_nonneg_right ?_ (two_pos _).le
    norm_num
  refine this.trans ?_
  rw [← zpow_add₀ (by norm_num)]
  exact two_mono (by norm_num)

/-! ## Where rounding shows -/

theorem num32 (m e : ℤ) (h1 : |m| < 16777216) (h2 : -149 ≤ e) (h3 : e ≤ 104) : Num binary32 (m * 2 ^ e) :=
  ⟨m, e, by simpa [binary32] using h1, h2, h3, rfl⟩

/-- **C149 (`Linear` misses the end).** In `float`, `Linear` from 0 by 12582913 in 12582913 steps ends at 12582914. -/
theorem C149_linear_end (z : Bool) (k : Kind) :
    Args binary32 0 12582913 12582913 ∧
    fn binary32 z .linear k (.fin 12582913) (.fin 0) (.fin 12582913) (.fin 12582913) = .fin 12582914 := by
  have h := C149_formats.1
  have n1 : Num binary32 12582913 := by simpa using num32 12582913 0 (by decide) (by decide) (by decide)
  have n2 : Num binary32 12582914 := by simpa using num32 12582914 0 (by decide) (by decide) (by decide)
  have top : (2 : ℝ) ^ (50 : ℤ) ≤ binary32.top := by
    have := num_top (F := binary32) (x := 2 ^ (50 : ℤ)) (by simpa using num32 1 50 (by decide) (by decide) (by decide))
    rwa [abs_of_pos (two_pos _)] at this
  have e1 : binary32.fl (12582913 * 12582913) = 158329707954176 := by
    rw [fl_at (F := binary32) 47 9437186 (by decide) (by norm_num) (by norm_num) (by norm_num [binary32, abs_lt])]
    norm_num [binary32]
  have e2 : binary32.fl (158329707954176 / 12582913) = 12582914 := by
    rw [fl_at (F := binary32) 23 12582914 (by decide) (by norm_num) (by norm_num) (by norm_num [binary32, abs_lt])]
    norm_num [binary32]
  refine ⟨⟨by simpa using h.zero, n1, n1, by norm_num⟩, ?_⟩
  have ho : |(12582913 : ℝ)| * 12582913 ≤ binary32.top := le_trans (by norm_num) top
  rw [linear_eq h z (by norm_num) ⟨by norm_num, le_rfl⟩ ho, e1, rnd_fin h.good.p h.good.q (le_trans (by norm_num [abs_le]) top), e2]
  show binary32.rnd (12582914 + 0) = _
  rw [add_zero, rnd_num h n2]

/-- **C149 (`Quad::out` turns back).** In `float`, `Quad::out` from 0 by 1.5 in the duration 1 is above 1.5 shortly before the end,
where it gives 1.5. -/
theorem C149_quad_out (z : Bool) :
    Args binary32 0 (3 / 2) 1 ∧ Num binary32 (1 - 3 / 2 ^ 24) ∧
    fn binary32 z .quad .out (.fin (1 - 3 / 2 ^ 24)) (.fin 0) (.fin (3 / 2)) (.fin 1) = .fin (3 / 2 + 1 / 2 ^ 23) ∧
    fn binary32 z .quad .out (.fin 1) (.fin 0) (.fin (3 / 2)) (.fin 1) = .fin (3 / 2) := by
  have h := C149_formats.1
  have nc : Num binary32 (3 / 2) := by
    have := num32 3 (-1) (by decide) (by decide) (by decide); norm_num at this; exact this
  have nt : Num binary32 (1 - 3 / 2 ^ 24) := by
    have := num32 16777213 (-24) (by decide) (by decide) (by decide); norm_num at this ⊢; exact this
  have n5 : Num binary32 (3 / 2 + 1 / 2 ^ 23) := by
    have := num32 12582913 (-23) (by decide) (by decide) (by decide); norm_num at this ⊢; exact this
  have ha : Args binary32 0 (3 / 2) 1 := ⟨by simpa using h.zero, nc, h.one, by norm_num⟩
  have t2 : (2 : ℝ) ≤ binary32.top := by simpa using num_top h.two
  have e1 : binary32.fl (3 / 2 * (1 - 3 / 2 ^ 24)) = 3 / 2 - 4 / 2 ^ 24 := by
    rw [fl_at (F := binary32) 0 12582910 (by decide) (by norm_num) (by norm_num) (by norm_num [binary32, abs_lt])]
    norm_num [binary32]
  have e2 : binary32.fl (1 + 3 / 2 ^ 24) = 1 + 4 / 2 ^ 24 := by
    have eu : binary32.ulpExp (1 + 3 / 2 ^ 24) = -23 := by
      unfold Fmt.ulpExp
      rw [log_eq (k := 0) (by norm_num) (by norm_num)]
      decide
    unfold Fmt.fl
    rw [eu]
    have : rne ((1 + 3 / 2 ^ 24) / 2 ^ (-23 : ℤ)) = 8388610 := by
      have hf : ⌊((1 + 3 / 2 ^ 24) / 2 ^ (-23 : ℤ) : ℝ)⌋ = 8388609 := by
        rw [Int.floor_eq_iff]; norm_num
      unfold rne
      rw [hf, if_neg (by norm_num), if_neg (by norm_num), if_neg (by decide)]
      norm_num
    rw [this]
    norm_num
  have e3 : binary32.fl ((3 / 2 - 4 / 2 ^ 24) * (1 + 4 / 2 ^ 24)) = 3 / 2 + 1 / 2 ^ 23 := by
    rw [fl_at (F := binary32) 0 12582913 (by decide) (by norm_num) (by norm_num) (by norm_num [binary32, abs_lt])]
    norm_num [binary32]
  refine ⟨ha, nt, ?_, ?_⟩
  · have r : ∀ x : ℝ, |x| ≤ 2 → binary32.rnd x = .fin (binary32.fl x) := fun x hx => rnd_fin h.good.p h.good.q (hx.trans t2)
    show quadOut binary32 z _ _ _ _ = _
    have d1 : div binary32 z (.fin (1 - 3 / 2 ^ 24)) (.fin 1) = .fin (1 - 3 / 2 ^ 24) := by
      show (if (1 : ℝ) = 0 then _ else binary32.rnd _) = _
      rw [if_neg one_ne_zero, div_one, rnd_num h nt]
    have d2 : mul binary32 (neg (.fin (3 / 2))) (.fin (1 - 3 / 2 ^ 24)) = .fin (-(3 / 2 - 4 / 2 ^ 24)) := by
      rw [mul_neg_left]
      show neg (binary32.rnd (3 / 2 * (1 - 3 / 2 ^ 24))) = _
      rw [r _ (by norm_num [abs_le]), e1]; rfl
    have d3 : sub binary32 (.fin (1 - 3 / 2 ^ 24)) (.fin 2) = .fin (-(1 + 4 / 2 ^ 24)) := by
      show binary32.rnd (1 - 3 / 2 ^ 24 + -2) = _
      rw [show (1 - 3 / 2 ^ 24 + -2 : ℝ) = -(1 + 3 / 2 ^ 24) by norm_num, rnd_neg, r _ (by norm_num [abs_le]), e2]; rfl
    rw [quadOut, d1]
    rw [d2, d3, mul_neg_neg]
    show add binary32 (binary32.rnd _) _ = _
    rw [r _ (by norm_num [abs_le]), e3]
    show binary32.rnd (_ + 0) = _
    rw [add_zero, rnd_num h n5]
  · rw [C149_end h z ha .quad (by simp) .out (by simp)]
    show binary32.rnd (3 / 2 + 0) = _
    rw [add_zero, rnd_num h nc]

/-! ## Mapped ranges -/

theorem map_eq {F : Fmt} (h : Std F) (z : Bool) (e : Ease) (k : Kind) {i iMax oMin oMax : ℝ} (hi : Num F i) (hm : Num F iMax)
    (hd : |oMax - oMin| ≤ F.top) :
    getMapEased F z e k (.fin i) (.fin 0) (.fin iMax) (.fin oMin) (.fin oMax) =
      fn F z e k (.fin i) (.fin oMin) (.fin (F.fl (oMax - oMin))) (.fin iMax) ∧ Num F (F.fl (oMax - oMin)) := by
  refine ⟨?_, (num_iff h.good.p h.good.q).mpr ⟨fl_grid F _, fl_le_top h.good.p h.good.q hd⟩⟩
  unfold getMapEased
  have e1 : sub F (.fin oMax) (.fin oMin) = .fin (F.fl (oMax - oMin)) := by
    rw [← rnd_fin h.good.p h.good.q hd]; show F.rnd (oMax + -oMin) = _; rw [← sub_eq_add_neg]
  have e2 : sub F (.fin iMax) (.fin 0) = .fin iMax := by
    show F.rnd (iMax + -0) = _
    rw [neg_zero, add_zero, rnd_num h hm]
  rw [e1, e2, zero_add' h hi]

/-- **C149 (mapped range).** A range that starts at 0 is mapped to one that starts exactly at its minimum and ends at the rounded sum of
the minimum and the rounded length: exactly at the maximum if the length is a number of the format. -/
theorem C149_map {F : Fmt} (h : Std F) (z : Bool) (e : Ease) (he : e ≠ .linear) (k : Kind) (hk : k ≠ .inOut) {iMax oMin oMax : ℝ}
    (hm : Num F iMax) (h0 : 0 < iMax) (h1 : Num F oMin) (h2 : Num F oMax) (hd : |oMax - oMin| ≤ F.top) :
    getMapEased F z e k (.fin 0) (.fin 0) (.fin iMax) (.fin oMin) (.fin oMax) = .fin oMin ∧
    getMapEased F z e k (.fin iMax) (.fin 0) (.fin iMax) (.fin oMin) (.fin oMax) =
      add F (sub F (.fin oMax) (.fin oMin)) (.fin oMin) ∧
    (Num F (oMax - oMin) → getMapEased F z e k (.fin iMax) (.fin 0) (.fin iMax) (.fin oMin) (.fin oMax) = .fin oMax) := by
  obtain ⟨e1, hn⟩ := map_eq h z e k h.zero hm hd
  obtain ⟨e2, -⟩ := map_eq h z e k hm hm hd
  have ha : Args F oMin (F.fl (oMax - oMin)) iMax := ⟨h1, hn, hm, h0⟩
  have e3 : sub F (.fin oMax) (.fin oMin) = .fin (F.fl (oMax - oMin)) := by
    rw [← rnd_fin h.good.p h.good.q hd]; show F.rnd (oMax + -oMin) = _; rw [← sub_eq_add_neg]
  rw [e1, e2, e3, C149_start h z ha e k (fun hc => absurd hc hk), C149_end h z ha e he k hk]
  refine ⟨rfl, rfl, fun hx => ?_⟩
  rw [fl_num h hx]
  show F.rnd (oMax - oMin + oMin) = _
  rw [sub_add_cancel, rnd_num h h2]

/-- **C149 (a maximum that is missed).** In `float` the range from 1 to 2 ^ -40 ends at 0. -/
theorem C149_map_misses (z : Bool) (e : Ease) (he : e ≠ .linear) (k : Kind) (hk : k ≠ .inOut) :
    getMapEased binary32 z e k (.fin 1) (.fin 0) (.fin 1) (.fin 1) (.fin (2 ^ (-40 : ℤ))) = .fin 0 := by
  have h := C149_formats.1
  have n : Num binary32 (2 ^ (-40 : ℤ)) := by simpa using num32 1 (-40) (by decide) (by decide) (by decide)
  have lo : (2 : ℝ) ^ (-40 : ℤ) ≤ 2 ^ (-25 : ℤ) := two_mono (by decide)
  have p := two_pos (-40)
  have q : (2 : ℝ) ^ (-25 : ℤ) ≤ 2 ^ (-1 : ℤ) := two_mono (by decide)
  have q1 : (2 : ℝ) ^ (-1 : ℤ) = 1 / 2 := by norm_num
  have hd : |(2 : ℝ) ^ (-40 : ℤ) - 1| ≤ binary32.top := by
    have := num_top h.one
    rw [abs_one] at this
    refine le_trans ?_ this
    have r := lo.trans (q.trans q1.le)
    generalize (2 : ℝ) ^ (-40 : ℤ) = w at *
    rw [abs_le]; constructor <;> linarith
  have e1 : binary32.fl (1 - 2 ^ (-40 : ℤ)) = 1 := by
    have b1 := fl_below (F := binary32) (by decide) (k := 0) (by decide) (x := 1 - 2 ^ (-40 : ℤ)) (by
      simp only [binary32, zpow_zero]; norm_num)
    have b2 := fl_mono h.hp (by linarith : (1 : ℝ) - 2 ^ (-40 : ℤ) ≤ 1)
    rw [fl_num h h.one] at b2
    rw [zpow_zero] at b1
    exact le_antisymm b2 b1
  obtain ⟨-, e2, -⟩ := C149_map h z e he k hk h.one one_pos h.one n hd
  rw [e2]
  have e3 : sub binary32 (.fin (2 ^ (-40 : ℤ))) (.fin 1) = .fin (-1) := by
    show binary32.rnd (2 ^ (-40 : ℤ) + -1) = _
    rw [← sub_eq_add_neg, rnd_fin h.good.p h.good.q hd, show (2 : ℝ) ^ (-40 : ℤ) - 1 = -(1 - 2 ^ (-40 : ℤ)) by ring, fl_odd, e1]
  rw [e3]
  show binary32.rnd (-1 + 1) = _
  rw [neg_add_cancel, rnd_num h h.zero]

end Verif.EasingFp
