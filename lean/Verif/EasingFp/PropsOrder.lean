import Verif.EasingFp.PropsBounce
import Mathlib.Analysis.SpecialFunctions.Pow.Real

/-! # `Circ` and `Expo` never turn back -/

namespace Verif.EasingFp

open Verif.Ieee Verif.Ieee.Spec Spec Verif.Clock

/-- A function that multiplies `k` by something that grows with the time and adds `b`. -/
def Grows (F : Fmt) (b k d : ℝ) (f : ℝ → FP) : Prop :=
  ∃ p : ℝ → ℝ, (∀ t, 0 ≤ t → t ≤ d → f t = add F (F.rnd (k * p t)) (.fin b)) ∧ ∀ t t', 0 ≤ t → t ≤ t' → t' ≤ d → p t ≤ p t'

theorem Grows.order {F : Fmt} (h : Std F) {b k d : ℝ} {f : ℝ → FP} (hg : Grows F b k d f) {t t' : ℝ} (h0 : 0 ≤ t) (htt : t ≤ t') (hd : t' ≤ d) :
    (0 ≤ k → Le (f t) (f t')) ∧ (k ≤ 0 → Le (f t') (f t)) := by
  obtain ⟨p, h1, h2⟩ := hg
  rw [h1 t h0 (htt.trans hd), h1 t' (h0.trans htt) hd]
  have := h2 t t' h0 htt hd
  exact ⟨fun hk => add_le_add h (rnd_mono h (mul_le_mul_of_nonneg_left this hk)),
    fun hk => add_le_add h (rnd_mono h (mul_le_mul_of_nonpos_left this hk))⟩

/-! ## Pieces -/

theorem fl01 {F : Fmt} (h : Std F) {x : ℝ} (hx : 0 ≤ x ∧ x ≤ 1) : 0 ≤ F.fl x ∧ F.fl x ≤ 1 := fl_between h h.zero h.one hx.1 hx.2

theorem fl10 {F : Fmt} (h : Std F) {x : ℝ} (hx : -1 ≤ x ∧ x ≤ 0) : -1 ≤ F.fl x ∧ F.fl x ≤ 0 :=
  fl_between h (num_neg h.one) h.zero hx.1 hx.2

/-- The square root of 1 minus a square, rounded three times. -/
noncomputable def arc (F : Fmt) (x : ℝ) : ℝ := F.fl (Real.sqrt (F.fl (1 - F.fl (x * x))))

theorem sq01 {F : Fmt} (h : Std F) {x : ℝ} (hx : |x| ≤ 1) : 0 ≤ F.fl (x * x) ∧ F.fl (x * x) ≤ 1 := by
  refine fl01 h ⟨mul_self_nonneg x, ?_⟩
  rw [← abs_mul_abs_self]
  nlinarith [abs_nonneg x]

theorem arc_eq {F : Fmt} (hF : Native F) {x : ℝ} (hx : |x| ≤ 1) :
    Ieee.sqrt F (sub F (.fin 1) (mul F (.fin x) (.fin x))) = .fin (arc F x) ∧ 0 ≤ arc F x ∧ arc F x ≤ 1 := by
  have h := std hF
  have s1 := sq01 h hx
  have e1 : mul F (.fin x) (.fin x) = .fin (F.fl (x * x)) := rnd1000 hF (by
    rw [abs_mul]; nlinarith [abs_nonneg x])
  have s2 := fl01 h (x := 1 - F.fl (x * x)) ⟨by linarith [s1.2], by linarith [s1.1]⟩
  have e2 : sub F (.fin 1) (.fin (F.fl (x * x))) = .fin (F.fl (1 - F.fl (x * x))) := by
    show F.rnd (1 + -F.fl (x * x)) = _
    rw [← sub_eq_add_neg]
    exact rnd1000 hF (by rw [abs_le]; constructor <;> linarith [s1.1, s1.2])
  have s3 : 0 ≤ Real.sqrt (F.fl (1 - F.fl (x * x))) ∧ Real.sqrt (F.fl (1 - F.fl (x * x))) ≤ 1 :=
    ⟨Real.sqrt_nonneg _, by simpa using Real.sqrt_le_sqrt s2.2⟩
  refine ⟨?_, fl01 h s3⟩
  rw [e1, e2]
  show (if F.fl (1 - F.fl (x * x)) < 0 then _ else F.rnd _) = _
  rw [if_neg (not_lt.mpr s2.1)]
  exact rnd1000 hF (by rw [abs_of_nonneg s3.1]; linarith [s3.2])

theorem arc_anti {F : Fmt} (h : Std F) {x y : ℝ} (hxy : x * x ≤ y * y) : arc F y ≤ arc F x :=
  fl_mono h.hp (Real.sqrt_le_sqrt (fl_mono h.hp (by linarith [fl_mono h.hp hxy])))

theorem small_sub {F : Fmt} (hF : Native F) {x y : ℝ} (hx : |x| ≤ 10) (hy : |y| ≤ 10) : sub F (.fin x) (.fin y) = .fin (F.fl (x - y)) := by
  show F.rnd (x + -y) = _
  rw [← sub_eq_add_neg]
  exact rnd1000 hF (by rw [abs_le] at *; constructor <;> linarith [hx.1, hx.2, hy.1, hy.2])

theorem small_add {F : Fmt} (hF : Native F) {x y : ℝ} (hx : |x| ≤ 10) (hy : |y| ≤ 10) : add F (.fin x) (.fin y) = .fin (F.fl (x + y)) := by
  show F.rnd (x + y) = _
  exact rnd1000 hF (by rw [abs_le] at *; constructor <;> linarith [hx.1, hx.2, hy.1, hy.2])

theorem frac_mono {F : Fmt} (h : Std F) {d t t' : ℝ} (hd : 0 < d) (htt : t ≤ t') : F.fl (t / d) ≤ F.fl (t' / d) :=
  fl_mono h.hp (div_le_div_of_nonneg_right htt hd.le)

/-! ## `Circ` -/

theorem circIn_grows {F : Fmt} (hF : Native F) (z : Bool) {b c d : ℝ} (hd : 0 < d) :
    Grows F b c d fun t => circIn F z (.fin t) (.fin b) (.fin c) (.fin d) := by
  have h := std hF
  have X : ∀ t, 0 ≤ t → t ≤ d → |F.fl (t / d)| ≤ 1 := fun t h0 h1 => by
    have := frac (z := z) h hd ⟨h0, h1⟩
    rw [abs_of_nonneg this.2.2.1]; exact this.2.2.2
  refine ⟨fun t => -F.fl (arc F (F.fl (t / d)) - 1), fun t h0 h1 => ?_, fun t t' h0 htt h1 => ?_⟩
  · have A := arc_eq hF (X t h0 h1)
    have e1 : sub F (.fin (arc F (F.fl (t / d)))) (.fin 1) = .fin (F.fl (arc F (F.fl (t / d)) - 1)) :=
      small_sub hF (by rw [abs_of_nonneg A.2.1]; linarith [A.2.2]) (by norm_num)
    simp only [circIn, (frac (z := z) h hd ⟨h0, h1⟩).1, A.1, e1, neg]
    congr 1
    show F.rnd _ = _
    congr 1
    ring
  · have m := frac_mono h hd htt
    have l := (frac (z := z) h hd ⟨h0, htt.trans h1⟩).2.2.1
    have := arc_anti (F := F) h (x := F.fl (t / d)) (y := F.fl (t' / d)) (by nlinarith)
    have := fl_mono (F := F) h.hp (show arc F (F.fl (t' / d)) - 1 ≤ arc F (F.fl (t / d)) - 1 by linarith)
    show -_ ≤ -_
    linarith

theorem circOut_grows {F : Fmt} (hF : Native F) (z : Bool) {b c d : ℝ} (hd : 0 < d) :
    Grows F b c d fun t => circOut F z (.fin t) (.fin b) (.fin c) (.fin d) := by
  have h := std hF
  have X : ∀ t, 0 ≤ t → t ≤ d → -1 ≤ F.fl (F.fl (t / d) - 1) ∧ F.fl (F.fl (t / d) - 1) ≤ 0 := fun t h0 h1 => by
    have := frac (z := z) h hd ⟨h0, h1⟩
    exact fl10 h ⟨by linarith [this.2.2.1], by linarith [this.2.2.2]⟩
  refine ⟨fun t => arc F (F.fl (F.fl (t / d) - 1)), fun t h0 h1 => ?_, fun t t' h0 htt h1 => ?_⟩
  · have x := X t h0 h1
    have A := arc_eq hF (x := F.fl (F.fl (t / d) - 1)) (abs_le.mpr ⟨x.1, by linarith [x.2]⟩)
    have fr := frac (z := z) h hd ⟨h0, h1⟩
    have e1 : sub F (.fin (F.fl (t / d))) (.fin 1) = .fin (F.fl (F.fl (t / d) - 1)) :=
      small_sub hF (by rw [abs_of_nonneg fr.2.2.1]; linarith [fr.2.2.2]) (by norm_num)
    simp only [circOut, fr.1, e1, A.1]
    rfl
  · have m := frac_mono h hd htt
    have m' := fl_mono (F := F) h.hp (show F.fl (t / d) - 1 ≤ F.fl (t' / d) - 1 by linarith)
    have u := (X t' (h0.trans htt) h1).2
    exact arc_anti h (by nlinarith)

theorem circInOut_grows {F : Fmt} (hF : Native F) (z : Bool) {b c d : ℝ} (hd : 0 < d) (hh : Halves F c d) :
    Grows F b (c / 2) d fun t => circInOut true F z (.fin t) (.fin b) (.fin c) (.fin d) := by
  have h := std hF
  obtain ⟨n1, n2⟩ := hh
  have FR : ∀ t, 0 ≤ t → t ≤ d → div F z (.fin t) (.fin (d / 2)) = .fin (F.fl (t / (d / 2))) ∧ 0 ≤ F.fl (t / (d / 2)) ∧ F.fl (t / (d / 2)) ≤ 2 :=
    fun t h0 h1 => by
      have := frac2 (z := z) h hd n2 ⟨h0, h1⟩
      rw [half h n2] at this
      exact ⟨this.1, this.2.2⟩
  have e4 : div F z (.fin (-c)) (.fin 2) = .fin (-(c / 2)) := by
    rw [show FP.fin (-c) = neg (.fin c) from rfl, div_neg_left, half h n1]; rfl
  classical
  refine ⟨fun t => if F.fl (t / (d / 2)) < 1 then -F.fl (arc F (F.fl (t / (d / 2))) - 1) else F.fl (arc F (F.fl (F.fl (t / (d / 2)) - 2)) + 1),
    fun t h0 h1 => ?_, fun t t' h0 htt h1 => ?_⟩
  · obtain ⟨f1, f2, f3⟩ := FR t h0 h1
    simp only [circInOut, half h n1, half h n2, f1, lt_fin, neg, e4, if_true]
    generalize F.fl (t / (d / 2)) = x at *
    by_cases hx : x < 1
    · have A := arc_eq hF (x := x) (by rw [abs_of_nonneg f2]; exact hx.le)
      have e1 : sub F (.fin (arc F x)) (.fin 1) = .fin (F.fl (arc F x - 1)) :=
        small_sub hF (by rw [abs_of_nonneg A.2.1]; linarith [A.2.2]) (by norm_num)
      rw [if_pos hx, if_pos hx, A.1, e1]
      congr 1
      show F.rnd _ = _
      congr 1
      ring
    · rw [if_neg hx, if_neg hx]
      rw [not_lt] at hx
      have e1 : sub F (.fin x) (.fin 2) = .fin (F.fl (x - 2)) := small_sub hF (by rw [abs_of_nonneg f2]; linarith) (by norm_num)
      have r := fl10 h (x := x - 2) ⟨by linarith, by linarith⟩
      have A := arc_eq hF (x := F.fl (x - 2)) (abs_le.mpr ⟨r.1, by linarith [r.2]⟩)
      have e2 : add F (.fin (arc F (F.fl (x - 2)))) (.fin 1) = .fin (F.fl (arc F (F.fl (x - 2)) + 1)) :=
        small_add hF (by rw [abs_of_nonneg A.2.1]; linarith [A.2.2]) (by norm_num)
      rw [e1, A.1, e2]
      rfl
  · obtain ⟨-, f2, f3⟩ := FR t h0 (htt.trans h1)
    obtain ⟨-, g2, g3⟩ := FR t' (h0.trans htt) h1
    have m := frac_mono (F := F) h (d := d / 2) (by linarith) htt
    show (if _ then _ else _) ≤ (if _ then _ else _)
    generalize F.fl (t / (d / 2)) = x at *
    generalize F.fl (t' / (d / 2)) = y at *
    by_cases hy : y < 1
    · rw [if_pos (m.trans_lt hy), if_pos hy]
      have := arc_anti (F := F) h (x := x) (y := y) (by nlinarith)
      have := fl_mono (F := F) h.hp (show arc F y - 1 ≤ arc F x - 1 by linarith)
      linarith
    · rw [if_neg hy]
      rw [not_lt] at hy
      have r' := fl10 h (x := y - 2) ⟨by linarith, by linarith⟩
      by_cases hx : x < 1
      · rw [if_pos hx]
        have A := arc_eq hF (x := x) (by rw [abs_of_nonneg f2]; exact hx.le)
        have A' := arc_eq hF (x := F.fl (y - 2)) (abs_le.mpr ⟨r'.1, by linarith [r'.2]⟩)
        have b1 := fl10 h (x := arc F x - 1) ⟨by linarith [A.2.1], by linarith [A.2.2]⟩
        have b2 := (fl_between h h.one h.two (x := arc F (F.fl (y - 2)) + 1) (by linarith [A'.2.1]) (by linarith [A'.2.2])).1
        linarith [b1.1]
      · rw [if_neg hx]
        have m' := fl_mono (F := F) h.hp (show x - 2 ≤ y - 2 by linarith)
        have := arc_anti (F := F) h (x := F.fl (y - 2)) (y := F.fl (x - 2)) (by nlinarith [r'.2])
        exact fl_mono h.hp (by linarith)

/-- **C162 (`Circ` never turns back).** Within the duration the values of `Circ` (with `mT` modified first in `InOut`) follow the time: upwards
if the change is positive, downwards if it is negative. -/
theorem C162_circ_order {F : Fmt} (hF : Native F) (L : Lib) (z : Bool) {b c d : ℝ} (hd : 0 < d) (k : Kind) (hk : k = .inOut → Halves F c d)
    {t t' : ℝ} (h0 : 0 ≤ t) (htt : t ≤ t') (h1 : t' ≤ d) :
    (0 ≤ c → Le (curve L true F z .circ k (.fin t) (.fin b) (.fin c) (.fin d)) (curve L true F z .circ k (.fin t') (.fin b) (.fin c) (.fin d))) ∧
    (c ≤ 0 → Le (curve L true F z .circ k (.fin t') (.fin b) (.fin c) (.fin d)) (curve L true F z .circ k (.fin t) (.fin b) (.fin c) (.fin d))) := by
  have h := std hF
  cases k
  · exact (circIn_grows hF z hd).order h h0 htt h1
  · exact (circOut_grows hF z hd).order h h0 htt h1
  · have := (circInOut_grows (b := b) hF z hd (hk rfl)).order h h0 htt h1
    exact ⟨fun hc => this.1 (by linarith), fun hc => this.2 (by linarith)⟩

/-! ## `Expo` -/

theorem fl_ten {F : Fmt} (hF : Native F) {x : ℝ} (hx : -1 ≤ x ∧ x ≤ 0) :
    mul F (.fin 10) (.fin x) = .fin (F.fl (10 * x)) ∧ F.fl (10 * x) ≤ 0 := by
  have h := std hF
  refine ⟨rnd1000 hF (by rw [abs_le]; constructor <;> linarith [hx.1, hx.2]), ?_⟩
  rw [← fl_zero F]
  exact fl_mono h.hp (by linarith [hx.2])

theorem fl_mten {F : Fmt} (hF : Native F) {x : ℝ} (hx : 0 ≤ x ∧ x ≤ 1) :
    mul F (.fin (-10)) (.fin x) = .fin (F.fl (-10 * x)) ∧ F.fl (-10 * x) ≤ 0 := by
  have h := std hF
  refine ⟨rnd1000 hF (by rw [abs_le]; constructor <;> linarith [hx.1, hx.2]), ?_⟩
  rw [← fl_zero F]
  exact fl_mono h.hp (by linarith [hx.1])

theorem expoIn_grows {F : Fmt} (hF : Native F) (L : Lib) (hP : PowMono L) (z : Bool) {b c d : ℝ} (hb : Num F b) (hd : 0 < d) :
    Grows F b c d fun t => expoIn L F z (.fin t) (.fin b) (.fin c) (.fin d) := by
  have h := std hF
  obtain ⟨w, w1, w2⟩ := hP
  have X : ∀ t, 0 ≤ t → t ≤ d → -1 ≤ F.fl (F.fl (t / d) - 1) ∧ F.fl (F.fl (t / d) - 1) ≤ 0 := fun t h0 h1 => by
    have := frac (z := z) h hd ⟨h0, h1⟩
    exact fl10 h ⟨by linarith [this.2.2.1], by linarith [this.2.2.2]⟩
  classical
  refine ⟨fun t => if t = 0 then 0 else w (F.fl (10 * F.fl (F.fl (t / d) - 1))), fun t h0 h1 => ?_, fun t t' h0 htt h1 => ?_⟩
  · simp only [expoIn, feq_fin]
    by_cases ht : t = 0
    · rw [if_pos ht, if_pos ht, mul_zero, rnd_num h h.zero, zero_add' h hb]
    · rw [if_neg ht, if_neg ht]
      have fr := frac (z := z) h hd ⟨h0, h1⟩
      have e1 : sub F (.fin (F.fl (t / d))) (.fin 1) = .fin (F.fl (F.fl (t / d) - 1)) :=
        small_sub hF (by rw [abs_of_nonneg fr.2.2.1]; linarith [fr.2.2.2]) (by norm_num)
      have e2 := fl_ten hF (X t h0 h1)
      rw [fr.1, e1, e2.1, (w1 _ e2.2).1]
      rfl
  · show (if _ then _ else _) ≤ (if _ then _ else _)
    have e2 := fl_ten hF (X t' (h0.trans htt) h1)
    by_cases ht : t = 0
    · rw [if_pos ht]
      split
      · exact le_rfl
      · exact (w1 _ e2.2).2.1
    · rw [if_neg ht, if_neg (by intro hx; apply ht; linarith)]
      refine w2 _ _ (fl_mono h.hp ?_) e2.2
      have := fl_mono (F := F) h.hp (show F.fl (t / d) - 1 ≤ F.fl (t' / d) - 1 by linarith [frac_mono (F := F) h hd htt])
      linarith

theorem expoOut_grows {F : Fmt} (hF : Native F) (L : Lib) (hP : PowMono L) (z : Bool) {b c d : ℝ} (hc : Num F c) (hn : Num F d) (hd : 0 < d)
    (h10 : 10 * d ≤ F.top) :
    Grows F b c d fun t => expoOut L F z (.fin t) (.fin b) (.fin c) (.fin d) := by
  have h := std hF
  obtain ⟨w, w1, w2⟩ := hP
  -- the exponent
  have X : ∀ t, 0 ≤ t → t ≤ d → div F z (mul F (.fin (-10)) (.fin t)) (.fin d) = .fin (F.fl (F.fl (-10 * t) / d)) ∧
      F.fl (F.fl (-10 * t) / d) ≤ 0 := fun t h0 h1 => by
    have e1 : mul F (.fin (-10)) (.fin t) = .fin (F.fl (-10 * t)) :=
      rnd_fin h.good.p h.good.q (by rw [abs_mul, abs_of_nonneg h0]; norm_num; linarith)
    have l0 : F.fl (-10 * t) ≤ 0 := by rw [← fl_zero F]; exact fl_mono h.hp (by linarith)
    have l1 : F.fl (-10 * t) / d ≤ 0 := div_nonpos_of_nonpos_of_nonneg l0 hd.le
    have l2 : F.fl (-(16 * d)) ≤ F.fl (-10 * t) := fl_mono h.hp (by nlinarith)
    have g16 : F.fl (-(16 * d)) = -(16 * d) := by
      refine fl_exact h.hp (grid_neg ?_)
      obtain ⟨m, e, hm, he, -, hx⟩ := hn
      refine ⟨m, e + 4, hm.le, by omega, ?_⟩
      rw [hx, zpow_add₀ (by norm_num)]
      norm_num
      ring
    have l3 : -1000 ≤ F.fl (-10 * t) / d := by
      rw [le_div_iff₀ hd]
      linarith
    refine ⟨?_, by rw [← fl_zero F]; exact fl_mono h.hp l1⟩
    rw [e1]
    show (if d = 0 then _ else F.rnd _) = _
    rw [if_neg hd.ne']
    exact rnd1000 hF (by rw [abs_le]; constructor <;> linarith)
  classical
  refine ⟨fun t => if t = d then 1 else F.fl (-w (F.fl (F.fl (-10 * t) / d)) + 1), fun t h0 h1 => ?_, fun t t' h0 htt h1 => ?_⟩
  · simp only [expoOut, feq_fin]
    by_cases ht : t = d
    · rw [if_pos ht, if_pos ht, mul_one, rnd_num h hc]
      show F.rnd _ = F.rnd _
      rw [add_comm]
    · rw [if_neg ht, if_neg ht]
      have x := X t h0 h1
      have q := w1 _ x.2
      have e2 : add F (.fin (-w (F.fl (F.fl (-10 * t) / d)))) (.fin 1) = .fin (F.fl (-w (F.fl (F.fl (-10 * t) / d)) + 1)) :=
        small_add hF (by rw [abs_neg, abs_of_nonneg q.2.1]; linarith [q.2.2]) (by norm_num)
      rw [x.1, q.1]
      simp only [neg]
      rw [e2]
      rfl
  · show (if _ then _ else _) ≤ (if _ then _ else _)
    have x := X t h0 (htt.trans h1)
    have q := w1 _ x.2
    have u : F.fl (-w (F.fl (F.fl (-10 * t) / d)) + 1) ≤ 1 := (fl01 h ⟨by linarith [q.2.2], by linarith [q.2.1]⟩).2
    by_cases ht : t' = d
    · rw [if_pos ht]
      split
      · exact le_rfl
      · exact u
    · rw [if_neg ht, if_neg (by intro hx; apply ht; linarith)]
      apply fl_mono h.hp
      have : F.fl (F.fl (-10 * t') / d) ≤ F.fl (F.fl (-10 * t) / d) :=
        fl_mono h.hp (div_le_div_of_nonneg_right (fl_mono h.hp (by linarith)) hd.le)
      have := w2 _ _ this x.2
      linarith

theorem expoInOut_grows {F : Fmt} (hF : Native F) (L : Lib) (hP : PowMono L) (z : Bool) {b c d : ℝ} (ha : Args F b c d) (hh : Halves F c d) :
    Grows F b (c / 2) d fun t => expoInOut L F z (.fin t) (.fin b) (.fin c) (.fin d) := by
  have h := std hF
  have hd := ha.pos
  obtain ⟨n1, n2⟩ := hh
  obtain ⟨w, w1, w2⟩ := hP
  have FR : ∀ t, 0 ≤ t → t ≤ d → div F z (.fin t) (.fin (d / 2)) = .fin (F.fl (t / (d / 2))) ∧ 0 ≤ F.fl (t / (d / 2)) ∧ F.fl (t / (d / 2)) ≤ 2 :=
    fun t h0 h1 => by
      have := frac2 (z := z) h hd n2 ⟨h0, h1⟩
      rw [half h n2] at this
      exact ⟨this.1, this.2.2⟩
  -- the two halves
  have lo : ∀ x : ℝ, 0 ≤ x → x < 1 → L.pow (.fin 2) (mul F (.fin 10) (sub F (.fin x) (.fin 1))) = .fin (w (F.fl (10 * F.fl (x - 1)))) ∧
      F.fl (10 * F.fl (x - 1)) ≤ 0 := fun x h0 h1 => by
    have e1 : sub F (.fin x) (.fin 1) = .fin (F.fl (x - 1)) := small_sub hF (by rw [abs_of_nonneg h0]; linarith) (by norm_num)
    have r := fl10 h (x := x - 1) ⟨by linarith, by linarith⟩
    have e2 := fl_ten hF r
    rw [e1, e2.1]
    exact ⟨(w1 _ e2.2).1, e2.2⟩
  have hi : ∀ x : ℝ, 1 ≤ x → x ≤ 2 → L.pow (.fin 2) (mul F (.fin (-10)) (sub F (.fin x) (.fin 1))) = .fin (w (F.fl (-10 * F.fl (x - 1)))) ∧
      F.fl (-10 * F.fl (x - 1)) ≤ 0 := fun x h0 h1 => by
    have e1 : sub F (.fin x) (.fin 1) = .fin (F.fl (x - 1)) := small_sub hF (by rw [abs_of_nonneg (by linarith)]; linarith) (by norm_num)
    have r := fl01 h (x := x - 1) ⟨by linarith, by linarith⟩
    have e2 := fl_mten hF r
    rw [e1, e2.1]
    exact ⟨(w1 _ e2.2).1, e2.2⟩
  have hib : ∀ x : ℝ, 1 ≤ x → x ≤ 2 → 1 ≤ F.fl (-w (F.fl (-10 * F.fl (x - 1))) + 2) ∧ F.fl (-w (F.fl (-10 * F.fl (x - 1))) + 2) ≤ 2 :=
    fun x h0 h1 => by
      have q := w1 _ (hi x h0 h1).2
      exact fl_between h h.one h.two (by linarith [q.2.2]) (by linarith [q.2.1])
  classical
  refine ⟨fun t => if t = 0 then 0 else if t = d then 2 else if F.fl (t / (d / 2)) < 1 then w (F.fl (10 * F.fl (F.fl (t / (d / 2)) - 1)))
      else F.fl (-w (F.fl (-10 * F.fl (F.fl (t / (d / 2)) - 1))) + 2), fun t h0 h1 => ?_, fun t t' h0 htt h1 => ?_⟩
  · simp only [expoInOut, feq_fin]
    by_cases ht : t = 0
    · rw [if_pos ht, if_pos ht, mul_zero, rnd_num h h.zero, zero_add' h ha.start]
    by_cases ht' : t = d
    · rw [if_neg ht, if_pos ht', if_neg ht, if_pos ht', div_mul_cancel₀ _ (by norm_num), rnd_num h ha.change]
      show F.rnd _ = F.rnd _
      rw [add_comm]
    obtain ⟨f1, f2, f3⟩ := FR t h0 h1
    rw [if_neg ht, if_neg ht', if_neg ht, if_neg ht']
    rw [half h n1, half h n2, f1]
    simp only [lt_fin]
    generalize F.fl (t / (d / 2)) = x at *
    by_cases hx : x < 1
    · rw [if_pos hx, if_pos hx, (lo x f2 hx).1]
      rfl
    · rw [if_neg hx, if_neg hx]
      rw [not_lt] at hx
      have q := w1 _ (hi x hx f3).2
      have e2 : add F (.fin (-w (F.fl (-10 * F.fl (x - 1))))) (.fin 2) = .fin (F.fl (-w (F.fl (-10 * F.fl (x - 1))) + 2)) :=
        small_add hF (by rw [abs_neg, abs_of_nonneg q.2.1]; linarith [q.2.2]) (by norm_num)
      rw [(hi x hx f3).1]
      simp only [neg]
      rw [e2]
      rfl
  · show (if _ then _ else _) ≤ (if _ then _ else _)
    obtain ⟨-, f2, f3⟩ := FR t h0 (htt.trans h1)
    obtain ⟨-, g2, g3⟩ := FR t' (h0.trans htt) h1
    have m := frac_mono (F := F) h (d := d / 2) (by linarith) htt
    have ne : t ≠ 0 → t' ≠ 0 := fun hn hx => hn (by linarith)
    have ne' : t' ≠ d → t ≠ d := fun hn hx => hn (by linarith)
    generalize F.fl (t / (d / 2)) = x at *
    generalize F.fl (t' / (d / 2)) = y at *
    by_cases ht : t = 0
    · rw [if_pos ht]
      split
      · exact le_rfl
      split
      · norm_num
      split
      · rename_i hy; exact (w1 _ (lo y g2 hy).2).2.1
      · rename_i hy; rw [not_lt] at hy; linarith [(hib y hy g3).1]
    rw [if_neg ht, if_neg (ne ht)]
    by_cases ht' : t' = d
    · rw [if_pos ht']
      split
      · exact le_rfl
      split
      · rename_i hx; linarith [(w1 _ (lo x f2 hx).2).2.2]
      · rename_i hx; rw [not_lt] at hx; exact (hib x hx f3).2
    rw [if_neg ht', if_neg (ne' ht')]
    by_cases hy : y < 1
    · have hx : x < 1 := m.trans_lt hy
      rw [if_pos hy, if_pos hx]
      refine w2 _ _ (fl_mono h.hp ?_) (lo y g2 hy).2
      linarith [fl_mono (F := F) h.hp (show x - 1 ≤ y - 1 by linarith)]
    · rw [if_neg hy]
      rw [not_lt] at hy
      by_cases hx : x < 1
      · rw [if_pos hx]
        linarith [(w1 _ (lo x f2 hx).2).2.2, (hib y hy g3).1]
      · rw [if_neg hx]
        rw [not_lt] at hx
        apply fl_mono h.hp
        have a := fl_mono (F := F) h.hp (show x - 1 ≤ y - 1 by linarith)
        have b := fl_mono (F := F) h.hp (show -10 * F.fl (y - 1) ≤ -10 * F.fl (x - 1) by linarith)
        linarith [w2 _ _ b (hi x hx f3).2]

/-- **C162 (`Expo` never turns back).** So do the values of `Expo` if `pow(2, x)` never falls when `x` grows. (`Expo::out` multiplies the
time by -10, which must not overflow.) -/
theorem C162_expo_order {F : Fmt} (hF : Native F) (L : Lib) (hP : PowMono L) (mf z : Bool) {b c d : ℝ} (ha : Args F b c d) (k : Kind)
    (hk : k = .inOut → Halves F c d) (hk' : k = .out → 10 * d ≤ F.top) {t t' : ℝ} (h0 : 0 ≤ t) (htt : t ≤ t') (h1 : t' ≤ d) :
    (0 ≤ c → Le (curve L mf F z .expo k (.fin t) (.fin b) (.fin c) (.fin d)) (curve L mf F z .expo k (.fin t') (.fin b) (.fin c) (.fin d))) ∧
    (c ≤ 0 → Le (curve L mf F z .expo k (.fin t') (.fin b) (.fin c) (.fin d)) (curve L mf F z .expo k (.fin t) (.fin b) (.fin c) (.fin d))) := by
  have h := std hF
  cases k
  · exact (expoIn_grows hF L hP z ha.start ha.pos).order h h0 htt h1
  · exact (expoOut_grows hF L hP z ha.change ha.duration ha.pos (hk' rfl)).order h h0 htt h1
  · have := (expoInOut_grows hF L hP z ha (hk rfl)).order h h0 htt h1
    exact ⟨fun hc => this.1 (by linarith), fun hc => this.2 (by linarith)⟩

/-- The exact power of two, rounded, meets the condition (in both formats), and so does its exact case. -/
theorem C162_pow_example {F : Fmt} (hF : Native F) :
    ∃ L : Lib, PowMono L ∧ L.pow (.fin 2) (.fin 0) = .fin 1 ∧ ∀ x ≤ 0, L.pow (.fin 2) (.fin x) = F.rnd ((2 : ℝ) ^ x) := by
  have h := std hF
  let f : FP → FP → FP
    | .fin a, .fin x => F.rnd (a ^ x)
    | _, _ => .nan
  have le1 : ∀ x : ℝ, x ≤ 0 → (2 : ℝ) ^ x ≤ 1 := fun x hx => Real.rpow_le_one_of_one_le_of_nonpos (by norm_num) hx
  have b : ∀ x : ℝ, x ≤ 0 → 0 ≤ F.fl ((2 : ℝ) ^ x) ∧ F.fl ((2 : ℝ) ^ x) ≤ 1 := fun x hx => fl01 h ⟨by positivity, le1 x hx⟩
  refine ⟨⟨f, fun _ => .nan, fun _ => .nan⟩, ⟨fun x => F.fl ((2 : ℝ) ^ x), fun x hx => ⟨?_, b x hx⟩, fun x y hxy _ => ?_⟩, ?_, fun x _ => rfl⟩
  · show F.rnd _ = _
    exact rnd1000 hF (by rw [abs_of_nonneg (by positivity)]; linarith [le1 x hx])
  · exact fl_mono h.hp (Real.rpow_le_rpow_of_exponent_le (by norm_num) hxy)
  · show F.rnd ((2 : ℝ) ^ (0 : ℝ)) = _
    rw [Real.rpow_zero, rnd_num h h.one]

end Verif.EasingFp
