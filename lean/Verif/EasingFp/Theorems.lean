import Verif.EasingFp.Sim

/-!
# Easing in floating-point arithmetic

`F` is any format with at least two digits (`Std`), so the theorems hold for `float` and `double`.
-/

namespace Verif.EasingFp

open Verif.Ieee Verif.Ieee.Spec Spec Verif.Clock

/-- `float` and `double`. -/
theorem C149_formats : Std binary32 ∧ Std binary64 := by
  refine ⟨⟨?_, ?_, ?_⟩, ⟨?_, ?_, ?_⟩⟩ <;> simp [binary32, binary64]

/-! ## Negative changes -/

/-- **C149 (negated values).** With the start and the change negated the result is negated, whatever the arguments (also infinite or
NaN), for all functions but `Cubic::inOut`. -/
theorem C149_odd (F : Fmt) (z : Bool) (e : Ease) (k : Kind) (hne : e ≠ .cubic ∨ k ≠ .inOut) (t b c d : FP) :
    fn F z e k t (neg b) (neg c) d = neg (fn F z e k t b c d) := by
  cases e <;> cases k <;> (try simp at hne) <;>
    simp only [fn, linear, cubicIn, cubicOut, quadIn, quadOut, quadInOut, quartIn, quartOut, quartInOut, quintIn, quintOut,
      quintInOut, mul_neg_left, div_neg_left, add_neg'] <;>
    (try split) <;> rfl

theorem neg_le {x y : FP} (h : Le x y) : Le (neg y) (neg x) := by
  revert h
  rcases x with x | (_ | _) | _ <;> rcases y with y | (_ | _) | _ <;> simp [Le, neg]

/-! ## The ends -/

theorem rnd_zero_add {F : Fmt} (h : Std F) {b : ℝ} (hb : Num F b) : F.rnd (0 + b) = .fin b := by rw [zero_add, rnd_num h hb]

/-- Exact results of the operations. -/
structure Arith (F : Fmt) : Prop where
  s01 : sub F (.fin 0) (.fin 1) = .fin (-1)
  s02 : sub F (.fin 0) (.fin 2) = .fin (-2)
  s11 : sub F (.fin 1) (.fin 1) = .fin 0
  s12 : sub F (.fin 1) (.fin 2) = .fin (-1)
  s21 : sub F (.fin 2) (.fin 1) = .fin 1
  s22 : sub F (.fin 2) (.fin 2) = .fin 0
  sn11 : sub F (.fin (-1)) (.fin 1) = .fin (-2)
  a01 : add F (.fin 0) (.fin 1) = .fin 1
  a02 : add F (.fin 0) (.fin 2) = .fin 2
  an11 : add F (.fin (-1)) (.fin 1) = .fin 0
  an12 : add F (.fin (-1)) (.fin 2) = .fin 1
  m00 : mul F (.fin 0) (.fin 0) = .fin 0
  mnn : mul F (.fin (-1)) (.fin (-1)) = .fin 1
  m1n : mul F (.fin 1) (.fin (-1)) = .fin (-1)
  m0n : mul F (.fin 0) (.fin (-2)) = .fin 0

theorem arith {F : Fmt} (h : Std F) : Arith F := by
  have h0 : F.rnd 0 = .fin 0 := rnd_num h h.zero
  have h1 : F.rnd 1 = .fin 1 := rnd_num h h.one
  have h2 : F.rnd 2 = .fin 2 := rnd_num h h.two
  have hm : F.rnd (-1) = .fin (-1) := rnd_num h (num_neg h.one)
  have hn : F.rnd (-2) = .fin (-2) := rnd_num h (num_neg h.two)
  constructor <;> norm_num [add, sub, mul, neg, h0, h1, h2, hm, hn]

theorem mul_zero_right {F : Fmt} (h : Std F) (c : ℝ) : mul F (.fin c) (.fin 0) = .fin 0 := by
  show F.rnd (c * 0) = _
  rw [mul_zero, rnd_num h h.zero]

theorem mul_zero_left {F : Fmt} (h : Std F) (c : ℝ) : mul F (.fin 0) (.fin c) = .fin 0 := by
  show F.rnd (0 * c) = _
  rw [zero_mul, rnd_num h h.zero]

theorem zero_div {F : Fmt} (h : Std F) (z : Bool) {d : ℝ} (hd : d ≠ 0) : div F z (.fin 0) (.fin d) = .fin 0 := by
  show (if d = 0 then _ else F.rnd (0 / d)) = _
  rw [if_neg hd, _root_.zero_div, rnd_num h h.zero]

/-- Half of a number is not rounded to zero, unless it is the least positive one. -/
theorem half_ne {F : Fmt} (h : Std F) (z : Bool) {d : ℝ} (hd : 2 ^ F.qmin < d) (hn : Num F d) :
    ∃ m, div F z (.fin d) (.fin 2) = .fin m ∧ m ≠ 0 := by
  have p := two_pos F.qmin
  have hq : Num F (2 ^ F.qmin) := ⟨1, F.qmin, by
    have : (2 : ℤ) ^ 1 ≤ 2 ^ F.p := pow_le_pow_right₀ (by norm_num) h.hp
    norm_num at this ⊢; omega, le_rfl, h.good.q, by simp⟩
  have hm : (2 : ℝ) ^ F.qmin ≤ d / 2 := by
    obtain ⟨n, hn⟩ := grid_mult (num_grid hn)
    rw [hn] at hd ⊢
    have : (1 : ℝ) < n := by
      by_contra hc
      rw [not_lt] at hc
      nlinarith
    have : (2 : ℝ) ≤ n := by exact_mod_cast this
    nlinarith
  have := rnd_between h hq hn hm (by linarith)
  refine ⟨F.fl (d / 2), ?_, by linarith [this.2.2.1]⟩
  show (if (2 : ℝ) = 0 then _ else F.rnd (d / 2)) = _
  rw [if_neg (by norm_num), this.1]

theorem div_two {F : Fmt} (h : Std F) (z : Bool) {c : ℝ} (hc : Num F c) : div F z (.fin c) (.fin 2) = .fin (F.fl (c / 2)) := by
  show (if (2 : ℝ) = 0 then _ else F.rnd (c / 2)) = _
  rw [if_neg (by norm_num), rnd_fin h.good.p h.good.q]
  have := num_top hc
  rw [abs_div, abs_two]
  linarith [abs_nonneg c]

theorem mul_one' {F : Fmt} (h : Std F) {c : ℝ} (hc : Num F c) : mul F (.fin c) (.fin 1) = .fin c := by
  show F.rnd (c * 1) = _
  rw [mul_one, rnd_num h hc]

theorem mul_neg_one' {F : Fmt} (h : Std F) {c : ℝ} (hc : Num F c) : mul F (.fin c) (.fin (-1)) = .fin (-c) := by
  show F.rnd (c * -1) = _
  rw [mul_neg_one, rnd_num h (num_neg hc)]

theorem div_self' {F : Fmt} (h : Std F) (z : Bool) {d : ℝ} (hd : d ≠ 0) : div F z (.fin d) (.fin d) = .fin 1 := by
  show (if d = 0 then _ else F.rnd (d / d)) = _
  rw [if_neg hd, div_self hd, rnd_num h h.one]

theorem zero_add' {F : Fmt} (h : Std F) {b : ℝ} (hb : Num F b) : add F (.fin 0) (.fin b) = .fin b := rnd_zero_add h hb

theorem lt01 : lt (.fin 0) (.fin 1) := by simp [lt]

theorem not_lt21 : ¬ lt (.fin 2) (.fin 1) := by simp [lt]

theorem not_lt11 : ¬ lt (.fin 1) (.fin 1) := by simp [lt]

/-- **C149 (start).** At time 0 every function gives exactly the start value. (`InOut` divides by half of the duration, which must not
be rounded to zero.) -/
theorem C149_start {F : Fmt} (h : Std F) (z : Bool) {b c d : ℝ} (ha : Args F b c d) (e : Ease) (k : Kind)
    (hk : k = .inOut → e ≠ .linear → 2 ^ F.qmin < d) :
    fn F z e k (.fin 0) (.fin b) (.fin c) (.fin d) = .fin b := by
  have hd : d ≠ 0 := ha.pos.ne'
  have A := arith h
  have hz := zero_div h z hd
  by_cases hi : k = .inOut ∧ e ≠ .linear
  · obtain ⟨m, e1, hm⟩ := half_ne h z (hk hi.1 hi.2) ha.duration
    obtain ⟨rfl, he⟩ := hi
    have hl : lt (div F z (.fin 0) (div F z (.fin d) (.fin 2))) (.fin 1) := by rw [e1, zero_div h z hm]; exact lt01
    cases e
    · exact absurd rfl he
    all_goals
      simp only [fn, cubicInOut, quadInOut, quartInOut, quintInOut, e1, zero_div h z hm, if_pos hl, div_two h z ha.change,
        mul_zero_right h, zero_add' h ha.start]
  · cases e <;> cases k <;> (try simp at hi) <;>
      simp only [fn, linear, cubicIn, cubicOut, quadIn, quadOut, quartIn, quartOut, quintIn, quintOut, hz, mul_zero_right h,
        A.s01, A.mnn, A.m1n, A.an11, A.s11, A.s02, A.m0n, neg, zero_add' h ha.start]

/-- **C149 (the least duration).** For the least positive duration `InOut` gives NaN at time 0. -/
theorem C149_start_nan {F : Fmt} (h : Std F) (z : Bool) {b c : ℝ} (hb : Num F b) (hc : Num F c) (e : Ease) (he : e ≠ .linear) :
    fn F z e .inOut (.fin 0) (.fin b) (.fin c) (.fin (2 ^ F.qmin)) = .nan := by
  have hp := two_pos F.qmin
  have hl : (2 : ℝ) ^ F.qmin / 2 = 2 ^ (F.qmin - 1) := by
    rw [zpow_sub₀ (by norm_num), zpow_one]
  have e0 : F.fl (2 ^ F.qmin / 2) = 0 := by
    have eu : F.ulpExp ((2 : ℝ) ^ F.qmin / 2) = F.qmin := by
      unfold Fmt.ulpExp
      rw [hl, log_eq (k := F.qmin - 1) le_rfl (by
        apply zpow_lt_zpow_right₀ (by norm_num); omega)]
      have := h.hp
      omega
    unfold Fmt.fl
    rw [eu, show (2 : ℝ) ^ F.qmin / 2 / 2 ^ F.qmin = 1 / 2 by field_simp]
    have : rne (1 / 2) = 0 := by
      unfold rne
      norm_num
    rw [this]; simp
  have e1 : div F z (.fin (2 ^ F.qmin)) (.fin 2) = .fin 0 := by
    have hq : Num F (2 ^ F.qmin) := ⟨1, F.qmin, by
      have : (2 : ℤ) ^ 1 ≤ 2 ^ F.p := pow_le_pow_right₀ (by norm_num) h.hp
      norm_num at this ⊢; omega, le_rfl, h.good.q, by simp⟩
    rw [div_two h z hq, e0]
  have e2 : div F z (.fin 0) (.fin 0) = .nan := by simp [div]
  have hl : ¬ lt (div F z (.fin 0) (div F z (.fin (2 ^ F.qmin)) (.fin 2))) (.fin 1) := by rw [e1, e2]; simp [lt]
  cases e
  · exact absurd rfl he
  all_goals
    simp only [fn, cubicInOut, quadInOut, quartInOut, quintInOut, e1, e2, if_neg hl, div_two h z hc, div_two h z (num_neg hc), neg,
      sub, add, mul]

/-- **C149 (end).** At the end of the duration `In` and `Out` of the polynomials give what the sum of the change and the start is
rounded to. -/
theorem C149_end {F : Fmt} (h : Std F) (z : Bool) {b c d : ℝ} (ha : Args F b c d) (e : Ease) (he : e ≠ .linear) (k : Kind)
    (hk : k ≠ .inOut) :
    fn F z e k (.fin d) (.fin b) (.fin c) (.fin d) = add F (.fin c) (.fin b) := by
  have hd : d ≠ 0 := ha.pos.ne'
  have A := arith h
  have hm := mul_neg_one' h (num_neg ha.change)
  rw [neg_neg] at hm
  cases e <;> cases k <;> (try exact absurd rfl he) <;> (try exact absurd rfl hk) <;>
    simp only [fn, cubicIn, cubicOut, quadIn, quadOut, quartIn, quartOut, quintIn, quintOut, div_self' h z hd, mul_one' h ha.change,
      mul_one' h (num_neg ha.change), neg, A.s11, A.s12, A.m00, A.a01, A.s01, hm]

/-- **C149 (end of `InOut`).** So do `InOut` of `Quad`, `Quart` and `Quint`. -/
theorem C149_inOut_end {F : Fmt} (h : Std F) (z : Bool) {b c d : ℝ} (ha : Args F b c d) (hh : Halves F c d) (e : Ease)
    (he : e = .quad ∨ e = .quart ∨ e = .quint) :
    fn F z e .inOut (.fin d) (.fin b) (.fin c) (.fin d) = add F (.fin c) (.fin b) := by
  have hd : d ≠ 0 := ha.pos.ne'
  have A := arith h
  have e1 : div F z (.fin d) (.fin (d / 2)) = .fin 2 := by
    show (if d / 2 = 0 then _ else F.rnd (d / (d / 2))) = _
    rw [if_neg (by simpa using hd), show d / (d / 2) = 2 by field_simp, rnd_num h h.two]
  have hl : ¬ lt (div F z (.fin d) (div F z (.fin d) (.fin 2))) (.fin 1) := by rw [half h hh.2, e1]; exact not_lt21
  have e2 : mul F (.fin (c / 2)) (.fin 2) = .fin c := by
    show F.rnd (c / 2 * 2) = _
    rw [div_mul_cancel₀ _ (by norm_num), rnd_num h ha.change]
  have e3 : mul F (.fin (-(c / 2))) (.fin (-2)) = .fin c := by rw [mul_neg_neg, e2]
  have e4 : div F z (.fin (-c)) (.fin 2) = .fin (-(c / 2)) := by
    rw [show FP.fin (-c) = neg (.fin c) from rfl, div_neg_left, half h hh.1]; rfl
  rcases he with rfl | rfl | rfl <;>
    simp only [fn, quadInOut, quartInOut, quintInOut, half h hh.2, half h hh.1, e1, if_neg hl, neg, e4, A.s21, A.s12, A.m1n, A.sn11,
      A.s22, A.m00, A.s02, A.a02, e2, e3]

/-- **C149 (middle of `InOut`).** At half of the duration they give half of the change. -/
theorem C149_inOut_middle {F : Fmt} (h : Std F) (z : Bool) {b c d : ℝ} (ha : Args F b c d) (hh : Halves F c d) (e : Ease)
    (he : e = .quad ∨ e = .quart ∨ e = .quint) :
    fn F z e .inOut (.fin (d / 2)) (.fin b) (.fin c) (.fin d) = add F (.fin (c / 2)) (.fin b) := by
  have hd : d / 2 ≠ 0 := by have := ha.pos; linarith
  have A := arith h
  have hl : ¬ lt (div F z (.fin (d / 2)) (div F z (.fin d) (.fin 2))) (.fin 1) := by
    rw [half h hh.2, div_self' h z hd]; exact not_lt11
  have e3 : mul F (.fin (-(c / 2))) (.fin (-1)) = .fin (c / 2) := by rw [mul_neg_neg, mul_one' h hh.1]
  have e4 : div F z (.fin (-c)) (.fin 2) = .fin (-(c / 2)) := by
    rw [show FP.fin (-c) = neg (.fin c) from rfl, div_neg_left, half h hh.1]; rfl
  rcases he with rfl | rfl | rfl <;>
    simp only [fn, quadInOut, quartInOut, quintInOut, half h hh.2, half h hh.1, div_self' h z hd, if_neg hl, neg, e4, A.s11, A.s12,
      A.s02, A.m0n, A.s01, A.mnn, A.m1n, A.an12, e3, mul_one' h hh.1]

/-- **C149 (`Cubic::inOut`).** At the end it gives the start value plus 2, whatever the change. -/
theorem C149_cubic_end {F : Fmt} (h : Std F) (z : Bool) {b c d : ℝ} (ha : Args F b c d) (hh : Halves F c d) :
    fn F z .cubic .inOut (.fin d) (.fin b) (.fin c) (.fin d) = add F (.fin 2) (.fin b) := by
  have hd : d ≠ 0 := ha.pos.ne'
  have A := arith h
  have e1 : div F z (.fin d) (.fin (d / 2)) = .fin 2 := by
    show (if d / 2 = 0 then _ else F.rnd (d / (d / 2))) = _
    rw [if_neg (by simpa using hd), show d / (d / 2) = 2 by field_simp, rnd_num h h.two]
  have hl : ¬ lt (div F z (.fin d) (div F z (.fin d) (.fin 2))) (.fin 1) := by rw [half h hh.2, e1]; exact not_lt21
  have e2 : mul F (.fin (c / 2)) (.fin 2) = .fin c := by
    show F.rnd (c / 2 * 2) = _
    rw [div_mul_cancel₀ _ (by norm_num), rnd_num h ha.change]
  simp only [fn, cubicInOut, half h hh.2, half h hh.1, e1, if_neg hl, A.s22, e2, mul_zero_right h, A.a02]

/-! ## In between -/

theorem steady_neg {F : Fmt} {c d : ℝ} {e : Ease} {k : Kind} (h : Steady F c d e k) : Steady F (-c) d e k := by
  rcases h with h | h | ⟨h1, h2, h3, h4⟩
  · exact .inl h
  · exact .inr (.inl h)
  · refine .inr (.inr ⟨h1, h2, ?_, h4⟩)
    have := num_neg h3
    rwa [← neg_div] at this

theorem steady_ne {F : Fmt} {c d : ℝ} {e : Ease} {k : Kind} (h : Steady F c d e k) : e ≠ .cubic ∨ k ≠ .inOut := by
  rcases h with h | h | ⟨h1, h2 | h2, h3, h4⟩
  · right; rw [h.1]; simp
  · right; rw [h.1]; simp
  · left; rw [h2]; simp
  · left; rw [h2]; simp

/-- For a change that is not negative: rounded gains that grow with the time. -/
theorem gains {F : Fmt} (h : Std F) (z : Bool) {b c d : ℝ} (ha : Args F b c d) (h0 : 0 ≤ c) (e : Ease) (k : Kind) (hs : Steady F c d e k) :
    ∃ g : ℝ → ℝ, (∀ t, 0 ≤ t → t ≤ d → fn F z e k (.fin t) (.fin b) (.fin c) (.fin d) = F.rnd (g t + b) ∧ 0 ≤ g t ∧ g t ≤ c) ∧
      (∀ t t', 0 ≤ t → t ≤ t' → t' ≤ d → g t ≤ g t') := by
  have hc := ha.change
  rcases hs with ⟨rfl, he⟩ | ⟨rfl, he, hq⟩ | ⟨rfl, he, hh⟩
  · refine ⟨fun t => pw F (F.fl (t / d)) (deg e) c, fun t h1 h2 => ⟨fn_in h ha.pos ⟨h1, h2⟩ hc h0 e he, ?_⟩, fun t t' h1 h2 h3 => ?_⟩
    · exact (pw_range h (frac (z := z) h ha.pos ⟨h1, h2⟩).2.2 hc h0 _).2
    · have hs := (frac (z := z) h ha.pos ⟨h1, h2.trans h3⟩).2.2
      exact (pw_mono h hs.1 (fl_mono h.hp (div_le_div_of_nonneg_right h2 ha.pos.le)) h0 le_rfl _).2
  · refine ⟨fun t => pw F (gone F (deg e - 1) (F.fl (t / d))) 1 c, fun t h1 h2 => ⟨fn_out h ha.pos ⟨h1, h2⟩ hc h0 e he hq, ?_⟩,
      fun t t' h1 h2 h3 => ?_⟩
    · have hs := (frac (z := z) h ha.pos ⟨h1, h2⟩).2.2
      exact (pw_range h (gone_range h _ hs).2.2 hc h0 _).2
    · have hs := (frac (z := z) h ha.pos ⟨h1, h2.trans h3⟩).2.2
      have hs' := (frac (z := z) h ha.pos ⟨h1.trans h2, h3⟩).2.2
      exact (pw_mono h (gone_range h _ hs).2.2.1
        (gone_mono h _ (fl_mono h.hp (div_le_div_of_nonneg_right h2 ha.pos.le)) hs'.2) h0 le_rfl _).2
  · have hel : e ≠ .linear := by rcases he with rfl | rfl <;> simp
    have hd2 : 0 < d / 2 := by linarith [ha.pos]
    have first : ∀ t, 0 ≤ t → t ≤ d → F.fl (t / (d / 2)) < 1 →
        0 ≤ pw F (F.fl (t / (d / 2))) (deg e) (c / 2) ∧ pw F (F.fl (t / (d / 2))) (deg e) (c / 2) ≤ c / 2 := fun t h1 h2 hlt =>
      (pw_range h ⟨(frac2 (z := z) h ha.pos hh.2 ⟨h1, h2⟩).2.2.1, hlt.le⟩ hh.1 (by linarith) (deg e)).2
    have second : ∀ t, 0 ≤ t → t ≤ d → 1 ≤ F.fl (t / (d / 2)) →
        c / 2 ≤ F.fl (c / 2 * gone2 F (deg e - 1) (F.fl (t / (d / 2)))) ∧ F.fl (c / 2 * gone2 F (deg e - 1) (F.fl (t / (d / 2)))) ≤ c :=
      fun t h1 h2 hge =>
        (mul_half h hc hh.1 h0 (gone2_range h _ ⟨hge, (frac2 (z := z) h ha.pos hh.2 ⟨h1, h2⟩).2.2.2⟩).2.2).2
    classical
    refine ⟨fun t => if F.fl (t / (d / 2)) < 1 then pw F (F.fl (t / (d / 2))) (deg e) (c / 2)
      else F.fl (c / 2 * gone2 F (deg e - 1) (F.fl (t / (d / 2)))), fun t h1 h2 => ?_, fun t t' h1 h2 h3 => ?_⟩
    · dsimp only
      by_cases hlt : F.fl (t / (d / 2)) < 1
      · rw [if_pos hlt]
        have := first t h1 h2 hlt
        exact ⟨fn_inOut_first h ha.pos ⟨h1, h2⟩ hh h0 e hel hlt, this.1, by linarith⟩
      · rw [if_neg hlt]
        have := second t h1 h2 (not_lt.mp hlt)
        exact ⟨fn_inOut_second h ha.pos ⟨h1, h2⟩ hc hh h0 e he (not_lt.mp hlt), by linarith, this.2⟩
    · dsimp only
      have hm : F.fl (t / (d / 2)) ≤ F.fl (t' / (d / 2)) := fl_mono h.hp (div_le_div_of_nonneg_right h2 hd2.le)
      by_cases hlt : F.fl (t / (d / 2)) < 1 <;> by_cases hlt' : F.fl (t' / (d / 2)) < 1
      · rw [if_pos hlt, if_pos hlt']
        exact (pw_mono h (frac2 (z := z) h ha.pos hh.2 ⟨h1, h2.trans h3⟩).2.2.1 hm (by linarith) le_rfl _).2
      · rw [if_pos hlt, if_neg hlt']
        exact (first t h1 (h2.trans h3) hlt).2.trans (second t' (h1.trans h2) h3 (not_lt.mp hlt')).1
      · exact absurd (hm.trans_lt hlt') hlt
      · rw [if_neg hlt, if_neg hlt']
        refine fl_mono h.hp (mul_le_mul_of_nonneg_left ?_ (by linarith))
        exact gone2_mono h _ hm (frac2 (z := z) h ha.pos hh.2 ⟨h1.trans h2, h3⟩).2.2.2

/-- **C149 (order).** The results of these functions follow the order of the times: they never turn back, also where they are
rounded. -/
theorem C149_order {F : Fmt} (h : Std F) (z : Bool) {b c d : ℝ} (ha : Args F b c d) (e : Ease) (k : Kind) (hs : Steady F c d e k)
    {t t' : ℝ} (h0 : 0 ≤ t) (htt : t ≤ t') (hd : t' ≤ d) :
    (0 ≤ c → Le (fn F z e k (.fin t) (.fin b) (.fin c) (.fin d)) (fn F z e k (.fin t') (.fin b) (.fin c) (.fin d))) ∧
    (c ≤ 0 → Le (fn F z e k (.fin t') (.fin b) (.fin c) (.fin d)) (fn F z e k (.fin t) (.fin b) (.fin c) (.fin d))) := by
  have key : ∀ b c, Args F b c d → Steady F c d e k → 0 ≤ c →
      Le (fn F z e k (.fin t) (.fin b) (.fin c) (.fin d)) (fn F z e k (.fin t') (.fin b) (.fin c) (.fin d)) := by
    intro b c ha hs hc
    obtain ⟨g, h1, h2⟩ := gains h z ha hc e k hs
    rw [(h1 t h0 (htt.trans hd)).1, (h1 t' (h0.trans htt) hd).1]
    exact rnd_mono h (by linarith [h2 t t' h0 htt hd])
  refine ⟨key b c ha hs, fun hc => ?_⟩
  have := key (-b) (-c) ⟨num_neg ha.start, num_neg ha.change, ha.duration, ha.pos⟩ (steady_neg hs) (by linarith)
  have := neg_le this
  rw [show FP.fin (-b) = neg (.fin b) from rfl, show FP.fin (-c) = neg (.fin c) from rfl, C149_odd F z e k (steady_ne hs),
    C149_odd F z e k (steady_ne hs), neg_neg', neg_neg'] at this
  exact this

theorem quad_gains {F : Fmt} (h : Std F) (z : Bool) {b c d : ℝ} (ha : Args F b c d) (hh : Halves F c d) (h0 : 0 ≤ c) {t : ℝ}
    (ht : 0 ≤ t ∧ t ≤ d) :
    ∃ g, fn F z .quad .inOut (.fin t) (.fin b) (.fin c) (.fin d) = F.rnd (g + b) ∧ 0 ≤ g ∧ g ≤ c := by
  by_cases hlt : F.fl (t / (d / 2)) < 1
  · have := (pw_range h ⟨(frac2 (z := z) h ha.pos hh.2 ht).2.2.1, hlt.le⟩ hh.1 (by linarith) (deg .quad)).2
    exact ⟨_, fn_inOut_first h ha.pos ht hh h0 .quad (by simp) hlt, this.1, by linarith⟩
  · obtain ⟨q, h1, h2, -, -, e⟩ := quad_second (z := z) (b := b) h ha.pos ht ha.change hh h0 (not_lt.mp hlt)
    have h3 := rnd_between h h.one h.two (by linarith : (1 : ℝ) ≤ 1 + q) (by linarith)
    have h4 := (mul_half h ha.change hh.1 h0 h3.2.2).2
    exact ⟨_, e, by linarith, h4.2⟩

/-- **C149 (range).** The results stay between the start and what the sum of the change and the start is rounded to. -/
theorem C149_range {F : Fmt} (h : Std F) (z : Bool) {b c d : ℝ} (ha : Args F b c d) (e : Ease) (k : Kind)
    (hs : Steady F c d e k ∨ (k = .inOut ∧ e = .quad ∧ Halves F c d)) {t : ℝ} (h0 : 0 ≤ t) (hd : t ≤ d) :
    (0 ≤ c → Le (.fin b) (fn F z e k (.fin t) (.fin b) (.fin c) (.fin d)) ∧
      Le (fn F z e k (.fin t) (.fin b) (.fin c) (.fin d)) (add F (.fin c) (.fin b))) ∧
    (c ≤ 0 → Le (add F (.fin c) (.fin b)) (fn F z e k (.fin t) (.fin b) (.fin c) (.fin d)) ∧
      Le (fn F z e k (.fin t) (.fin b) (.fin c) (.fin d)) (.fin b)) := by
  have key : ∀ b c, Args F b c d → (Steady F c d e k ∨ (k = .inOut ∧ e = .quad ∧ Halves F c d)) → 0 ≤ c →
      Le (.fin b) (fn F z e k (.fin t) (.fin b) (.fin c) (.fin d)) ∧
      Le (fn F z e k (.fin t) (.fin b) (.fin c) (.fin d)) (add F (.fin c) (.fin b)) := by
    intro b c ha hs hc
    have : ∃ g, fn F z e k (.fin t) (.fin b) (.fin c) (.fin d) = F.rnd (g + b) ∧ 0 ≤ g ∧ g ≤ c := by
      rcases hs with hs | ⟨rfl, rfl, hh⟩
      · obtain ⟨g, h1, -⟩ := gains h z ha hc e k hs
        exact ⟨g t, h1 t h0 hd⟩
      · exact quad_gains h z ha hh hc ⟨h0, hd⟩
    obtain ⟨g, e1, g0, g1⟩ := this
    rw [e1]
    refine ⟨?_, rnd_mono h (by linarith)⟩
    rw [← rnd_num h ha.start]
    exact rnd_mono h (by linarith)
  refine ⟨key b c ha hs, fun hc => ?_⟩
  have hne : e ≠ .cubic ∨ k ≠ .inOut := by
    rcases hs with hs | ⟨rfl, rfl, -⟩
    · exact steady_ne hs
    · simp
  have hs' : Steady F (-c) d e k ∨ (k = .inOut ∧ e = .quad ∧ Halves F (-c) d) := by
    rcases hs with hs | ⟨h1, h2, h3, h4⟩
    · exact .inl (steady_neg hs)
    · refine .inr ⟨h1, h2, ?_, h4⟩
      have := num_neg h3
      rwa [← neg_div] at this
  obtain ⟨k1, k2⟩ := key (-b) (-c) ⟨num_neg ha.start, num_neg ha.change, ha.duration, ha.pos⟩ hs' (by linarith)
  have k1 := neg_le k1
  have k2 := neg_le k2
  rw [show FP.fin (-b) = neg (.fin b) from rfl, show FP.fin (-c) = neg (.fin c) from rfl, C149_odd F z e k hne, neg_neg'] at k1 k2
  rw [neg_neg'] at k1
  rw [add_neg', neg_neg'] at k2
  exact ⟨k2, k1⟩

/-! ## Examples -/

/-- Arguments that meet the conditions. -/
theorem C149_example : Args binary32 (1 / 4) 10 3 ∧ Halves binary32 10 3 ∧ Steady binary32 10 3 .quint .inOut ∧
    (2 : ℝ) ^ binary32.qmin < 3 := by
  have n : ∀ (m e : ℤ), |m| < 100 → -10 ≤ e → e ≤ 10 → Num binary32 (m * 2 ^ e) := fun m e h1 h2 h3 =>
    ⟨m, e, by simp only [binary32]; omega, by simp only [binary32]; omega, by simp only [binary32]; omega, rfl⟩
  have a := n 1 (-2) (by decide) (by decide) (by decide)
  have b := n 5 1 (by decide) (by decide) (by decide)
  have c := n 3 0 (by decide) (by decide) (by decide)
  have b' := n 5 0 (by decide) (by decide) (by decide)
  have c' := n 3 (-1) (by decide) (by decide) (by decide)
  norm_num at a b c b' c'
  have hh : Halves binary32 10 3 := ⟨by norm_num; exact b', c'⟩
  refine ⟨⟨a, b, c, by norm_num⟩, hh, .inr (.inr ⟨rfl, .inr rfl, hh⟩), ?_⟩
  show (2 : ℝ) ^ (-149 : ℤ) < 3
  have : (2 : ℝ) ^ (-149 : ℤ) ≤ 2 ^ (0 : ℤ) := two_mono (by decide)
  norm_num at this ⊢

end Verif.EasingFp
