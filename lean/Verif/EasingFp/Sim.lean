import Verif.EasingFp.Lemmas

/-! # The functions as rounded products -/

namespace Verif.EasingFp

open Verif.Ieee Verif.Ieee.Spec Spec Verif.Clock

variable {F : Fmt} {z : Bool} {t b c d : ℝ}

theorem frac (h : Std F) (ha : 0 < d) (ht : 0 ≤ t ∧ t ≤ d) :
    div F z (.fin t) (.fin d) = .fin (F.fl (t / d)) ∧ Num F (F.fl (t / d)) ∧ 0 ≤ F.fl (t / d) ∧ F.fl (t / d) ≤ 1 := by
  have := rnd_between h h.zero h.one (div_nonneg ht.1 ha.le) ((div_le_one ha).mpr ht.2)
  refine ⟨?_, this.2⟩
  show (if d = 0 then _ else F.rnd (t / d)) = _
  rw [if_neg ha.ne', this.1]

theorem frac2 (h : Std F) (ha : 0 < d) (hm : Num F (d / 2)) (ht : 0 ≤ t ∧ t ≤ d) :
    div F z (.fin t) (div F z (.fin d) (.fin 2)) = .fin (F.fl (t / (d / 2))) ∧ Num F (F.fl (t / (d / 2))) ∧
      0 ≤ F.fl (t / (d / 2)) ∧ F.fl (t / (d / 2)) ≤ 2 := by
  have hd : 0 < d / 2 := by linarith
  have := rnd_between h h.zero h.two (div_nonneg ht.1 hd.le) ((div_le_iff₀ hd).mpr (by linarith [ht.2]))
  have e : div F z (.fin d) (.fin 2) = .fin (d / 2) := by
    show (if (2 : ℝ) = 0 then _ else F.rnd (d / 2)) = _
    rw [if_neg (by norm_num), rnd_num h hm]
  refine ⟨?_, this.2⟩
  rw [e]
  show (if d / 2 = 0 then _ else F.rnd (t / (d / 2))) = _
  rw [if_neg hd.ne', this.1]

theorem half (h : Std F) (hm : Num F (c / 2)) : div F z (.fin c) (.fin 2) = .fin (c / 2) := by
  show (if (2 : ℝ) = 0 then _ else F.rnd (c / 2)) = _
  rw [if_neg (by norm_num), rnd_num h hm]

theorem mul_one_pw (h : Std F) {s : ℝ} (hs : 0 ≤ s ∧ s ≤ 1) (hc : Num F c) (h0 : 0 ≤ c) :
    mul F (.fin c) (.fin s) = .fin (pw F s 1 c) := mul_pw h hs hc h0 0

theorem mul_neg_neg (F : Fmt) (a b : ℝ) : mul F (.fin (-a)) (.fin (-b)) = mul F (.fin a) (.fin b) := by
  show F.rnd (-a * -b) = F.rnd (a * b)
  congr 1; ring

theorem mul_fin_neg (F : Fmt) (a b : ℝ) : mul F (.fin a) (.fin (-b)) = neg (mul F (.fin a) (.fin b)) := by
  show F.rnd (a * -b) = neg (F.rnd (a * b))
  rw [← rnd_neg]; congr 1; ring

/-- The powers of a negated fraction. -/
theorem neg_sq (h : Std F) {r : ℝ} (hr : 0 ≤ r ∧ r ≤ 1) (hn : Num F r) :
    mul F (.fin (-r)) (.fin (-r)) = .fin (pw F r 1 r) := by
  rw [mul_neg_neg, mul_one_pw h hr hn hr.1]

theorem neg_odd (h : Std F) {r : ℝ} (hr : 0 ≤ r ∧ r ≤ 1) (hn : Num F r) (n : ℕ) :
    mul F (.fin (pw F r n r)) (.fin (-r)) = .fin (-pw F r (n + 1) r) := by
  rw [mul_fin_neg, mul_pw h hr hn hr.1]; rfl

theorem neg_even (h : Std F) {r : ℝ} (hr : 0 ≤ r ∧ r ≤ 1) (hn : Num F r) (n : ℕ) :
    mul F (.fin (-pw F r n r)) (.fin (-r)) = .fin (pw F r (n + 1) r) := by
  rw [mul_neg_neg, mul_pw h hr hn hr.1]

/-- What is left of the time, negated. -/
theorem left (h : Std F) {s : ℝ} (hs : 0 ≤ s ∧ s ≤ 1) :
    sub F (.fin s) (.fin 1) = .fin (-F.fl (1 - s)) ∧ Num F (F.fl (1 - s)) ∧ 0 ≤ F.fl (1 - s) ∧ F.fl (1 - s) ≤ 1 := by
  have := rnd_between h h.zero h.one (by linarith : (0 : ℝ) ≤ 1 - s) (by linarith)
  refine ⟨?_, this.2⟩
  show F.rnd (s + -1) = _
  rw [show s + -1 = -(1 - s) by ring, rnd_neg, this.1]
  rfl

theorem left2 (h : Std F) {s : ℝ} (hs : 1 ≤ s ∧ s ≤ 2) :
    sub F (.fin s) (.fin 2) = .fin (-F.fl (2 - s)) ∧ Num F (F.fl (2 - s)) ∧ 0 ≤ F.fl (2 - s) ∧ F.fl (2 - s) ≤ 1 := by
  have := rnd_between h h.zero h.one (by linarith : (0 : ℝ) ≤ 2 - s) (by linarith)
  refine ⟨?_, this.2⟩
  show F.rnd (s + -2) = _
  rw [show s + -2 = -(2 - s) by ring, rnd_neg, this.1]
  rfl

/-- The number of factors. -/
def deg : Ease → ℕ
  | .linear => 1
  | .quad => 2
  | .cubic => 3
  | .quart => 4
  | .quint => 5

theorem fn_in (h : Std F) (ha : 0 < d) (ht : 0 ≤ t ∧ t ≤ d) (hc : Num F c) (h0 : 0 ≤ c) (e : Ease) (he : e ≠ .linear) :
    fn F z e .inn (.fin t) (.fin b) (.fin c) (.fin d) = F.rnd (pw F (F.fl (t / d)) (deg e) c + b) := by
  obtain ⟨e1, -, hs⟩ := frac (z := z) h ha ht
  cases e
  · exact absurd rfl he
  · show cubicIn F z _ _ _ _ = _
    rw [cubicIn, e1]; try dsimp only
    rw [mul_one_pw h hs hc h0, mul_pw h hs hc h0, mul_pw h hs hc h0]; rfl
  · show quadIn F z _ _ _ _ = _
    rw [quadIn, e1]; try dsimp only
    rw [mul_one_pw h hs hc h0, mul_pw h hs hc h0]; rfl
  · show quartIn F z _ _ _ _ = _
    rw [quartIn, e1]; try dsimp only
    rw [mul_one_pw h hs hc h0, mul_pw h hs hc h0, mul_pw h hs hc h0, mul_pw h hs hc h0]; rfl
  · show quintIn F z _ _ _ _ = _
    rw [quintIn, e1]; try dsimp only
    rw [mul_one_pw h hs hc h0, mul_pw h hs hc h0, mul_pw h hs hc h0, mul_pw h hs hc h0, mul_pw h hs hc h0]; rfl

/-- The rounded fraction of the change that `Out` has gone. -/
noncomputable def gone (F : Fmt) (n : ℕ) (s : ℝ) : ℝ := F.fl (1 - pw F (F.fl (1 - s)) n (F.fl (1 - s)))

theorem gone_range (h : Std F) (n : ℕ) {s : ℝ} (hs : 0 ≤ s ∧ s ≤ 1) :
    F.rnd (1 - pw F (F.fl (1 - s)) n (F.fl (1 - s))) = .fin (gone F n s) ∧ Num F (gone F n s) ∧ 0 ≤ gone F n s ∧ gone F n s ≤ 1 := by
  obtain ⟨-, hn, h1, h2⟩ := left h hs
  have := pw_range h ⟨h1, h2⟩ hn h1 n
  exact rnd_between h h.zero h.one (by linarith) (by linarith)

theorem gone_mono (h : Std F) (n : ℕ) {s s' : ℝ} (hs : s ≤ s') (h1 : s' ≤ 1) : gone F n s ≤ gone F n s' := by
  have a : F.fl (1 - s') ≤ F.fl (1 - s) := fl_mono h.hp (by linarith)
  have b : 0 ≤ F.fl (1 - s') := by
    have := fl_mono h.hp (by linarith : (0 : ℝ) ≤ 1 - s')
    rwa [fl_zero] at this
  have := (pw_mono h b a b a n).2
  exact fl_mono h.hp (by linarith)

theorem fn_out (h : Std F) (ha : 0 < d) (ht : 0 ≤ t ∧ t ≤ d) (hc : Num F c) (h0 : 0 ≤ c) (e : Ease) (he : e ≠ .linear) (hq : e ≠ .quad) :
    fn F z e .out (.fin t) (.fin b) (.fin c) (.fin d) = F.rnd (pw F (gone F (deg e - 1) (F.fl (t / d))) 1 c + b) := by
  obtain ⟨e1, -, hs⟩ := frac (z := z) h ha ht
  obtain ⟨e2, hn, hr⟩ := left h hs
  cases e
  · exact absurd rfl he
  · show cubicOut F z _ _ _ _ = _
    rw [cubicOut, e1]; try dsimp only
    obtain ⟨e3, -, hg⟩ := gone_range h 2 hs
    rw [e2, neg_sq h hr hn, neg_odd h hr hn]
    have : add F (.fin (-pw F (F.fl (1 - F.fl (t / d))) (1 + 1) (F.fl (1 - F.fl (t / d))))) (.fin 1) = .fin (gone F 2 (F.fl (t / d))) := by
      rw [← e3]
      show F.rnd (_ + 1) = _
      congr 1; ring
    rw [this, mul_one_pw h hg hc h0]; rfl
  · exact absurd rfl hq
  · show quartOut F z _ _ _ _ = _
    rw [quartOut, e1]; try dsimp only
    obtain ⟨e3, -, hg⟩ := gone_range h 3 hs
    rw [e2, neg_sq h hr hn, neg_odd h hr hn, neg_even h hr hn]
    have : sub F (.fin (pw F (F.fl (1 - F.fl (t / d))) (1 + 1 + 1) (F.fl (1 - F.fl (t / d))))) (.fin 1) = .fin (-gone F 3 (F.fl (t / d))) := by
      show F.rnd (_ + -1) = _
      rw [show ∀ x : ℝ, x + -1 = -(1 - x) from fun x => by ring, rnd_neg]
      rw [e3]; rfl
    rw [this, neg, mul_neg_neg, mul_one_pw h hg hc h0]; rfl
  · show quintOut F z _ _ _ _ = _
    rw [quintOut, e1]; try dsimp only
    obtain ⟨e3, -, hg⟩ := gone_range h 4 hs
    rw [e2, neg_sq h hr hn, neg_odd h hr hn, neg_even h hr hn, neg_odd h hr hn]
    have : add F (.fin (-pw F (F.fl (1 - F.fl (t / d))) (1 + 1 + 1 + 1) (F.fl (1 - F.fl (t / d))))) (.fin 1) = .fin (gone F 4 (F.fl (t / d))) := by
      rw [← e3]
      show F.rnd (_ + 1) = _
      congr 1; ring
    rw [this, mul_one_pw h hg hc h0]; rfl

/-- The first half of `InOut`. -/
theorem fn_inOut_first (h : Std F) (ha : 0 < d) (ht : 0 ≤ t ∧ t ≤ d) (hh : Halves F c d) (h0 : 0 ≤ c) (e : Ease) (he : e ≠ .linear)
    (hs1 : F.fl (t / (d / 2)) < 1) :
    fn F z e .inOut (.fin t) (.fin b) (.fin c) (.fin d) = F.rnd (pw F (F.fl (t / (d / 2))) (deg e) (c / 2) + b) := by
  obtain ⟨e1, -, hs⟩ := frac2 (z := z) h ha hh.2 ht
  have hs' : 0 ≤ F.fl (t / (d / 2)) ∧ F.fl (t / (d / 2)) ≤ 1 := ⟨hs.1, hs1.le⟩
  have h0' : 0 ≤ c / 2 := by linarith
  have hlt : lt (.fin (F.fl (t / (d / 2)))) (.fin 1) := hs1
  have hc := hh.1
  cases e
  · exact absurd rfl he
  · show cubicInOut F z _ _ _ _ = _
    rw [cubicInOut, e1]; try dsimp only
    rw [if_pos hlt, half h hc, mul_one_pw h hs' hc h0', mul_pw h hs' hc h0', mul_pw h hs' hc h0']; rfl
  · show quadInOut F z _ _ _ _ = _
    rw [quadInOut, e1]; try dsimp only
    rw [if_pos hlt, half h hc, mul_one_pw h hs' hc h0', mul_pw h hs' hc h0']; rfl
  · show quartInOut F z _ _ _ _ = _
    rw [quartInOut, e1]; try dsimp only
    rw [if_pos hlt, half h hc, mul_one_pw h hs' hc h0', mul_pw h hs' hc h0', mul_pw h hs' hc h0', mul_pw h hs' hc h0']; rfl
  · show quintInOut F z _ _ _ _ = _
    rw [quintInOut, e1]; try dsimp only
    rw [if_pos hlt, half h hc, mul_one_pw h hs' hc h0', mul_pw h hs' hc h0', mul_pw h hs' hc h0', mul_pw h hs' hc h0', mul_pw h hs' hc h0']
    rfl

/-- The second half: how many halves of the change are gone. -/
noncomputable def gone2 (F : Fmt) (n : ℕ) (s : ℝ) : ℝ := F.fl (2 - pw F (F.fl (2 - s)) n (F.fl (2 - s)))

theorem gone2_range (h : Std F) (n : ℕ) {s : ℝ} (hs : 1 ≤ s ∧ s ≤ 2) :
    F.rnd (2 - pw F (F.fl (2 - s)) n (F.fl (2 - s))) = .fin (gone2 F n s) ∧ Num F (gone2 F n s) ∧ 1 ≤ gone2 F n s ∧ gone2 F n s ≤ 2 := by
  obtain ⟨-, hn, h1, h2⟩ := left2 h hs
  have := pw_range h ⟨h1, h2⟩ hn h1 n
  exact rnd_between h h.one h.two (by linarith) (by linarith)

theorem gone2_mono (h : Std F) (n : ℕ) {s s' : ℝ} (hs : s ≤ s') (h1 : s' ≤ 2) : gone2 F n s ≤ gone2 F n s' := by
  have a : F.fl (2 - s') ≤ F.fl (2 - s) := fl_mono h.hp (by linarith)
  have b : 0 ≤ F.fl (2 - s') := by
    have := fl_mono h.hp (by linarith : (0 : ℝ) ≤ 2 - s')
    rwa [fl_zero] at this
  have := (pw_mono h b a b a n).2
  exact fl_mono h.hp (by linarith)

theorem mul_half (h : Std F) (hc : Num F c) (hm : Num F (c / 2)) (h0 : 0 ≤ c) {v : ℝ} (hv : 1 ≤ v ∧ v ≤ 2) :
    mul F (.fin (c / 2)) (.fin v) = .fin (F.fl (c / 2 * v)) ∧ c / 2 ≤ F.fl (c / 2 * v) ∧ F.fl (c / 2 * v) ≤ c := by
  have := rnd_between h hm hc (x := c / 2 * v) (by nlinarith) (by nlinarith)
  exact ⟨this.1, this.2.2⟩

theorem fn_inOut_second (h : Std F) (ha : 0 < d) (ht : 0 ≤ t ∧ t ≤ d) (hc : Num F c) (hh : Halves F c d) (h0 : 0 ≤ c) (e : Ease)
    (he : e = .quart ∨ e = .quint) (hs1 : 1 ≤ F.fl (t / (d / 2))) :
    fn F z e .inOut (.fin t) (.fin b) (.fin c) (.fin d) = F.rnd (F.fl (c / 2 * gone2 F (deg e - 1) (F.fl (t / (d / 2)))) + b) := by
  obtain ⟨e1, -, hs⟩ := frac2 (z := z) h ha hh.2 ht
  have hs' : 1 ≤ F.fl (t / (d / 2)) ∧ F.fl (t / (d / 2)) ≤ 2 := ⟨hs1, hs.2⟩
  have hlt : ¬ lt (.fin (F.fl (t / (d / 2)))) (.fin 1) := not_lt.mpr hs1
  obtain ⟨e2, hn, hr⟩ := left2 h hs'
  rcases he with rfl | rfl
  · show quartInOut F z _ _ _ _ = _
    rw [quartInOut, e1]; try dsimp only
    obtain ⟨e3, -, hg⟩ := gone2_range h 3 hs'
    rw [if_neg hlt, e2, neg_sq h hr hn, neg_odd h hr hn, neg_even h hr hn]
    have : sub F (.fin (pw F (F.fl (2 - F.fl (t / (d / 2)))) (1 + 1 + 1) (F.fl (2 - F.fl (t / (d / 2)))))) (.fin 2) =
        .fin (-gone2 F 3 (F.fl (t / (d / 2)))) := by
      show F.rnd (_ + -2) = _
      rw [show ∀ x : ℝ, x + -2 = -(2 - x) from fun x => by ring, rnd_neg]
      rw [e3]; rfl
    rw [this, div_neg_left, half h hh.1, neg, mul_neg_neg, (mul_half h hc hh.1 h0 hg).1]; rfl
  · show quintInOut F z _ _ _ _ = _
    rw [quintInOut, e1]; try dsimp only
    obtain ⟨e3, -, hg⟩ := gone2_range h 4 hs'
    rw [if_neg hlt, e2, neg_sq h hr hn, neg_odd h hr hn, neg_even h hr hn, neg_odd h hr hn]
    have : add F (.fin (-pw F (F.fl (2 - F.fl (t / (d / 2)))) (1 + 1 + 1 + 1) (F.fl (2 - F.fl (t / (d / 2)))))) (.fin 2) =
        .fin (gone2 F 4 (F.fl (t / (d / 2)))) := by
      rw [← e3]
      show F.rnd (_ + 2) = _
      congr 1; ring
    rw [this, half h hh.1, (mul_half h hc hh.1 h0 hg).1]; rfl

/-- The rounded `r * (2 - r)` stays at most 1. -/
theorem bump (h : Std F) {r : ℝ} (hr : 0 ≤ r ∧ r ≤ 1) (hn : Num F r) :
    mul F (.fin r) (sub F (.fin r) (.fin 2)) = .fin (-F.fl (r * F.fl (2 - r))) ∧ Num F (F.fl (r * F.fl (2 - r))) ∧
      0 ≤ F.fl (r * F.fl (2 - r)) ∧ F.fl (r * F.fl (2 - r)) ≤ 1 := by
  have h2 := rnd_between h h.one h.two (by linarith : (1 : ℝ) ≤ 2 - r) (by linarith)
  have e : sub F (.fin r) (.fin 2) = .fin (-F.fl (2 - r)) := by
    show F.rnd (r + -2) = _
    rw [show r + -2 = -(2 - r) by ring, rnd_neg, h2.1]; rfl
  have hb : F.fl (r * F.fl (2 - r)) ≤ 1 := by
    have hsmall := h.small
    have hdig := h.digits
    have err : F.fl (2 - r) ≤ 2 - r + 2 ^ (-(F.p : ℤ)) := by
      rcases hr.1.eq_or_lt with h0 | h0
      · rw [← h0, sub_zero, fl_num h h.two]
        linarith [two_pos (-(F.p : ℤ))]
      · have := fl_err_below (F := F) (k := 1) hsmall (x := 2 - r) (by
          rw [abs_of_pos (by linarith)]; norm_num; linarith)
        rw [abs_le, show (1 : ℤ) - F.p = -(F.p : ℤ) + 1 by ring, zpow_add₀ (by norm_num), zpow_one] at this
        linarith [this.2]
    have w := two_pos (-(F.p : ℤ))
    have := fl_above (F := F) (k := 0) hdig (by omega) (x := r * F.fl (2 - r)) (by
      rw [zero_sub, zpow_zero]
      nlinarith [sq_nonneg (1 - r)])
    simpa using this
  have h0 : 0 ≤ F.fl (r * F.fl (2 - r)) := by
    have := fl_mono h.hp (mul_nonneg hr.1 (by linarith [h2.2.2.1] : (0 : ℝ) ≤ F.fl (2 - r)))
    rwa [fl_zero] at this
  have htop : |F.fl (r * F.fl (2 - r))| ≤ F.top := by
    rw [abs_of_nonneg h0]
    have := num_top h.one
    rw [abs_one] at this
    linarith
  refine ⟨?_, (num_iff h.good.p h.good.q).mpr ⟨fl_grid F _, htop⟩, h0, hb⟩
  rw [e, mul_fin_neg]
  show neg (F.rnd _) = _
  unfold Fmt.rnd
  rw [if_pos htop]; rfl

theorem quad_second (h : Std F) (ha : 0 < d) (ht : 0 ≤ t ∧ t ≤ d) (hc : Num F c) (hh : Halves F c d) (h0 : 0 ≤ c)
    (hs1 : 1 ≤ F.fl (t / (d / 2))) :
    ∃ q, 0 ≤ q ∧ q ≤ 1 ∧
      (t = d → q = 1) ∧ (t = d / 2 → q = 0) ∧
      fn F z .quad .inOut (.fin t) (.fin b) (.fin c) (.fin d) = F.rnd (F.fl (c / 2 * F.fl (1 + q)) + b) := by
  obtain ⟨e1, -, hs⟩ := frac2 (z := z) h ha hh.2 ht
  have hd : d / 2 ≠ 0 := by linarith
  set s := F.fl (t / (d / 2)) with hsd
  have hlt : ¬ lt (.fin s) (.fin 1) := not_lt.mpr hs1
  have h1 := rnd_between h h.zero h.one (by linarith : (0 : ℝ) ≤ s - 1) (by linarith)
  have e2 : sub F (.fin s) (.fin 1) = .fin (F.fl (s - 1)) := by
    rw [← h1.1]; rfl
  obtain ⟨e3, hn, hq⟩ := bump h h1.2.2 h1.2.1
  refine ⟨F.fl (F.fl (s - 1) * F.fl (2 - F.fl (s - 1))), hq.1, hq.2, ?_, ?_, ?_⟩
  · rintro rfl
    have : s = 2 := by
      rw [hsd, show t / (t / 2) = 2 by field_simp, fl_num h h.two]
    rw [this]
    norm_num
    rw [fl_num h h.one]
    norm_num
    rw [fl_num h h.one, fl_num h h.one]
  · rintro rfl
    have : s = 1 := by
      rw [hsd, div_self hd, fl_num h h.one]
    rw [this]
    norm_num [fl_zero]
  · have h2 := rnd_between h h.one h.two (by linarith [hq.1] : (1 : ℝ) ≤ 1 + F.fl (F.fl (s - 1) * F.fl (2 - F.fl (s - 1))))
      (by linarith [hq.2])
    show quadInOut F z _ _ _ _ = _
    rw [quadInOut, e1]; try dsimp only
    rw [if_neg hlt, e2, e3, div_neg_left, half h hh.1]
    have : sub F (.fin (-F.fl (F.fl (s - 1) * F.fl (2 - F.fl (s - 1))))) (.fin 1) =
        .fin (-F.fl (1 + F.fl (F.fl (s - 1) * F.fl (2 - F.fl (s - 1))))) := by
      show F.rnd (_ + -1) = _
      rw [show ∀ x : ℝ, -x + -1 = -(1 + x) from fun x => by ring, rnd_neg, h2.1]; rfl
    rw [this, neg, mul_neg_neg, (mul_half h hc hh.1 h0 h2.2.2).1]; rfl

end Verif.EasingFp
