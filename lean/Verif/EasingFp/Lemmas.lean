import Verif.EasingFp.Spec
import Verif.Clock.Lemmas

/-! # Rounded products and sums -/

namespace Verif.EasingFp

open Verif.Ieee Verif.Ieee.Spec Spec Verif.Clock

theorem Spec.Std.good {F : Fmt} (h : Std F) : Good F := by
  have := h.digits; have := h.small; have := h.large
  exact ⟨by omega, by omega⟩

theorem Spec.Std.hp {F : Fmt} (h : Std F) : 1 ≤ F.p := h.good.p

/-- Numbers with a small numerator. -/
theorem Spec.Std.int {F : Fmt} (h : Std F) (n : ℤ) (hn : |n| ≤ 3) : Num F n := by
  refine ⟨n, 0, ?_, by have := h.small; have := h.digits; omega, h.large, by simp⟩
  have : (2 : ℤ) ^ 2 ≤ 2 ^ F.p := pow_le_pow_right₀ (by norm_num) h.digits
  omega

theorem Spec.Std.one {F : Fmt} (h : Std F) : Num F 1 := by exact_mod_cast h.int 1 (by norm_num)
theorem Spec.Std.two {F : Fmt} (h : Std F) : Num F 2 := by exact_mod_cast h.int 2 (by norm_num)
theorem Spec.Std.zero {F : Fmt} (h : Std F) : Num F 0 := by exact_mod_cast h.int 0 (by norm_num)

theorem num_neg {F : Fmt} {x : ℝ} (h : Num F x) : Num F (-x) := by
  obtain ⟨m, e, hm, h1, h2, rfl⟩ := h
  exact ⟨-m, e, by rwa [abs_neg], h1, h2, by push_cast; ring⟩

theorem fl_num {F : Fmt} (h : Std F) {x : ℝ} (hx : Num F x) : F.fl x = x := fl_exact h.hp (num_grid hx)

theorem rnd_num {F : Fmt} (h : Std F) {x : ℝ} (hx : Num F x) : F.rnd x = .fin x := by
  rw [rnd_fin h.good.p h.good.q (num_top hx), fl_num h hx]

/-- Rounding keeps bounds that are numbers. -/
theorem fl_between {F : Fmt} (h : Std F) {x l u : ℝ} (hl : Num F l) (hu : Num F u) (h1 : l ≤ x) (h2 : x ≤ u) :
    l ≤ F.fl x ∧ F.fl x ≤ u := by
  have a := fl_mono h.hp h1
  have b := fl_mono h.hp h2
  rw [fl_num h hl] at a
  rw [fl_num h hu] at b
  exact ⟨a, b⟩

theorem top_between {F : Fmt} {x l u : ℝ} (hl : Num F l) (hu : Num F u) (h1 : l ≤ x) (h2 : x ≤ u) : |x| ≤ F.top := by
  have a := abs_le.mp (num_top hl)
  have b := abs_le.mp (num_top hu)
  exact abs_le.mpr ⟨by linarith, by linarith⟩

/-- What is rounded between two numbers is a number between them. -/
theorem rnd_between {F : Fmt} (h : Std F) {x l u : ℝ} (hl : Num F l) (hu : Num F u) (h1 : l ≤ x) (h2 : x ≤ u) :
    F.rnd x = .fin (F.fl x) ∧ Num F (F.fl x) ∧ l ≤ F.fl x ∧ F.fl x ≤ u := by
  have ht := top_between hl hu h1 h2
  have hb := fl_between h hl hu h1 h2
  refine ⟨rnd_fin h.good.p h.good.q ht, (num_iff h.good.p h.good.q).mpr ⟨fl_grid F x, ?_⟩, hb⟩
  exact fl_le_top h.good.p h.good.q ht

theorem Le.refl' {F : Fmt} (x : ℝ) : Le (F.rnd x) (F.rnd x) := by
  unfold Fmt.rnd
  split
  · exact le_rfl
  · by_cases hx : x < 0 <;> simp [hx, Le]

/-- Rounding is monotone, also into the infinities. -/
theorem rnd_mono {F : Fmt} (h : Std F) {x y : ℝ} (hxy : x ≤ y) : Le (F.rnd x) (F.rnd y) := by
  have hm := fl_mono h.hp hxy
  have z := fl_zero F
  have t0 := top_nonneg F
  unfold Fmt.rnd
  split <;> rename_i h1 <;> split <;> rename_i h2
  · exact hm
  · rw [not_le, lt_abs] at h2
    rw [abs_le] at h1
    have : ¬ y < 0 := fun hy => by
      have := fl_mono h.hp hy.le
      rw [z] at this
      rcases h2 with h2 | h2 <;> linarith
    simp [this, Le]
  · rw [not_le, lt_abs] at h1
    rw [abs_le] at h2
    have : x < 0 := by
      by_contra hx
      rw [not_lt] at hx
      have := fl_mono h.hp hx
      rw [z] at this
      rcases h1 with h1 | h1 <;> linarith
    simp [this, Le]
  · by_cases hx : x < 0
    · simp [hx, Le]
    · have : ¬ y < 0 := by linarith
      simp [hx, this, Le]

theorem Le.trans' {x y z : FP} (h1 : Le x y) (h2 : Le y z) : Le x z := by
  revert h1 h2
  rcases x with x | (_ | _) | _ <;> rcases y with y | (_ | _) | _ <;> rcases z with z | (_ | _) | _ <;> simp [Le]
  exact fun a b => a.trans b

/-! ## Negation -/

theorem rnd_neg (F : Fmt) (x : ℝ) : F.rnd (-x) = neg (F.rnd x) := by
  unfold Fmt.rnd
  rw [fl_odd, abs_neg]
  split
  · rfl
  · rename_i h
    have hx : x ≠ 0 := by
      rintro rfl
      rw [fl_zero, abs_zero] at h
      exact h (top_nonneg F)
    simp only [neg, neg_lt_zero]
    congr 1
    by_cases h0 : x < 0
    · simp [h0, not_lt.mpr h0.le]
    · have : 0 < x := lt_of_le_of_ne (not_lt.mp h0) (Ne.symm hx)
      simp [h0, this]

theorem neg_neg' (a : FP) : neg (neg a) = a := by cases a <;> simp [neg]

theorem add_neg' (F : Fmt) (a b : FP) : add F (neg a) (neg b) = neg (add F a b) := by
  rcases a with a | s | _ <;> rcases b with b | t | _ <;> simp only [add, neg]
  · exact Eq.trans (by congr 1; ring) (rnd_neg F _)
  · cases s <;> cases t <;> rfl

theorem lt_flip {x : ℝ} (h : x ≠ 0) : decide (-x < 0) = !decide (x < 0) := by
  rcases lt_or_gt_of_ne h with h | h <;> simp [h, h.le]

theorem mul_neg_left (F : Fmt) (a b : FP) : mul F (neg a) b = neg (mul F a b) := by
  rcases a with a | s | _ <;> rcases b with b | t | _ <;> simp only [mul, neg]
  · exact Eq.trans (by congr 1; ring) (rnd_neg F _)
  · by_cases h : a = 0
    · simp [h]
    · rw [if_neg (by simpa using h), if_neg h]
      simp only [lt_flip h]
      cases t <;> cases decide (a < 0) <;> rfl
  · by_cases h : b = 0
    · simp [h]
    · rw [if_neg h, if_neg h]
      cases s <;> cases decide (b < 0) <;> rfl
  · cases s <;> cases t <;> rfl

theorem div_neg_left (F : Fmt) (z : Bool) (a b : FP) : div F z (neg a) b = neg (div F z a b) := by
  rcases a with a | s | _ <;> rcases b with b | t | _ <;> simp only [div, neg]
  · by_cases h : b = 0
    · rw [if_pos h, if_pos h]
      by_cases ha : a = 0
      · simp [ha]
      · rw [if_neg (by simpa using ha), if_neg ha]
        simp only [lt_flip ha]
        cases z <;> cases decide (a < 0) <;> rfl
    · rw [if_neg h, if_neg h]
      exact Eq.trans (by congr 1; ring) (rnd_neg F _)
  · simp
  · by_cases h : b = 0
    · rw [if_pos h, if_pos h]; cases s <;> cases z <;> rfl
    · rw [if_neg h, if_neg h]; cases s <;> cases decide (b < 0) <;> rfl

/-! ## Powers of a rounded fraction -/

/-- `c * s * … * s`, rounded after each product. -/
noncomputable def pw (F : Fmt) (s : ℝ) : ℕ → ℝ → ℝ
  | 0, c => c
  | n + 1, c => F.fl (pw F s n c * s)

theorem pw_range {F : Fmt} (h : Std F) {s c : ℝ} (hs : 0 ≤ s ∧ s ≤ 1) (hc : Num F c) (h0 : 0 ≤ c) (n : ℕ) :
    Num F (pw F s n c) ∧ 0 ≤ pw F s n c ∧ pw F s n c ≤ c := by
  induction n with
  | zero => exact ⟨hc, h0, le_rfl⟩
  | succ n ih =>
    have a : 0 ≤ pw F s n c * s := mul_nonneg ih.2.1 hs.1
    have b : pw F s n c * s ≤ pw F s n c := mul_le_of_le_one_right ih.2.1 hs.2
    have := rnd_between h h.zero ih.1 a b
    exact ⟨this.2.1, this.2.2.1, this.2.2.2.trans ih.2.2⟩

theorem pw_mono {F : Fmt} (h : Std F) {s s' c c' : ℝ} (hs : 0 ≤ s) (hss : s ≤ s') (hc : 0 ≤ c) (hcc : c ≤ c') (n : ℕ) :
    0 ≤ pw F s n c ∧ pw F s n c ≤ pw F s' n c' := by
  induction n with
  | zero => exact ⟨hc, hcc⟩
  | succ n ih =>
    refine ⟨?_, fl_mono h.hp (mul_le_mul ih.2 hss hs (ih.1.trans ih.2))⟩
    have := fl_mono h.hp (mul_nonneg ih.1 hs)
    rwa [fl_zero] at this

theorem pw_zero (F : Fmt) (n : ℕ) (c : ℝ) : pw F 0 (n + 1) c = 0 := by
  rw [pw, mul_zero, fl_zero]

theorem pw_one {F : Fmt} (h : Std F) {c : ℝ} (hc : Num F c) (n : ℕ) : pw F 1 n c = c := by
  induction n with
  | zero => rfl
  | succ n ih => rw [pw, ih, mul_one, fl_num h hc]

/-- One more factor. -/
theorem mul_pw {F : Fmt} (h : Std F) {s c : ℝ} (hs : 0 ≤ s ∧ s ≤ 1) (hc : Num F c) (h0 : 0 ≤ c) (n : ℕ) :
    mul F (.fin (pw F s n c)) (.fin s) = .fin (pw F s (n + 1) c) := by
  have ih := pw_range h hs hc h0 n
  exact (rnd_between h h.zero ih.1 (mul_nonneg ih.2.1 hs.1) (mul_le_of_le_one_right ih.2.1 hs.2)).1

/-! ## Rounding of a given number -/

theorem fl_at {F : Fmt} {x : ℝ} (k m : ℤ) (hk : F.qmin ≤ k + 1 - F.p) (h1 : (2 : ℝ) ^ k ≤ x) (h2 : x < 2 ^ (k + 1))
    (h3 : |x - m * 2 ^ (k + 1 - F.p)| < 2 ^ (k + 1 - F.p) / 2) : F.fl x = m * 2 ^ (k + 1 - F.p) := by
  have e : F.ulpExp x = k + 1 - F.p := by
    unfold Fmt.ulpExp
    rw [log_eq h1 h2]
    omega
  have hp := two_pos (k + 1 - (F.p : ℤ))
  unfold Fmt.fl
  rw [e]
  generalize (2 : ℝ) ^ (k + 1 - (F.p : ℤ)) = w at *
  have h4 : |x / w - m| < 1 / 2 := by
    have : x - m * w = (x / w - m) * w := by field_simp
    rw [this, abs_mul, abs_of_pos hp] at h3
    by_contra hc
    rw [not_lt] at hc
    nlinarith
  have h5 := rne_abs (x / w)
  rw [abs_lt] at h4
  rw [abs_le] at h5
  have : rne (x / w) = m := by
    have a : ((rne (x / w) - m : ℤ) : ℝ) < 1 := by push_cast; linarith
    have b : ((-1 : ℤ) : ℝ) < ((rne (x / w) - m : ℤ) : ℝ) := by push_cast; linarith
    have a' : rne (x / w) - m < 1 := by exact_mod_cast a
    have b' : -1 < rne (x / w) - m := by exact_mod_cast b
    omega
  rw [this]

end Verif.EasingFp
