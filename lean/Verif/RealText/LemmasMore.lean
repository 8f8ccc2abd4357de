import Verif.RealText.LemmasBack

/-! # Errors, integers, small numbers, notation -/

namespace Verif.RealText

open Verif Ieee Spec Ieee.Spec

theorem six_err (x : ℝ) : |six x - x| ≤ |x| / (2 * 10 ^ 5) := by
  wlog h0 : 0 ≤ x generalizing x
  · have := this (-x) (by linarith)
    rw [six_odd, abs_neg, neg_sub_neg, abs_sub_comm] at this
    exact this
  rcases eq_or_lt_of_le h0 with rfl | hx
  · simp [six]
  have hd := (digits_spec hx).2.2.1
  have h1 : (10 : ℝ) ^ Int.log 10 x ≤ x := by
    have := Int.zpow_log_le_self (b := 10) (by norm_num) hx
    exact_mod_cast this
  have hs : six x = rne (x / 10 ^ (Int.log 10 x - 5)) * 10 ^ (Int.log 10 x - 5) := by
    unfold six
    rw [if_neg hx.ne', if_neg (by simp [hx.le]), one_mul, abs_of_pos hx, hd]
  have hp := ten_pos (Int.log 10 x - 5)
  have h2 := mul_le_mul_of_nonneg_right (rne_abs (x / 10 ^ (Int.log 10 x - 5))) hp.le
  rw [abs_of_pos hx, hs]
  have h3 := abs_mul ((rne (x / 10 ^ (Int.log 10 x - 5)) : ℝ) - x / 10 ^ (Int.log 10 x - 5)) (10 ^ (Int.log 10 x - 5))
  rw [abs_of_pos hp, sub_mul, div_mul_cancel₀ _ hp.ne'] at h3
  rw [h3]
  refine h2.trans ?_
  have h4 : (10 : ℝ) ^ (Int.log 10 x - 5) = 10 ^ (Int.log 10 x) / 10 ^ 5 := by
    rw [zpow_sub₀ (by norm_num)]; norm_num
  rw [h4]
  rw [show (1 : ℝ) / 2 * (10 ^ Int.log 10 x / 10 ^ 5) = 10 ^ Int.log 10 x / (2 * 10 ^ 5) by ring]
  exact div_le_div_of_nonneg_right h1 (by norm_num)

theorem six_ne {x : ℝ} (hx : x ≠ 0) : ∃ m : ℕ, ∃ e : ℤ, 10 ^ 5 ≤ m ∧ m < 10 ^ 6 ∧ |six x| = m * 10 ^ (e - 5) := by
  have hd := digits_spec (abs_pos.2 hx)
  refine ⟨_, (digits |x|).2, hd.1, hd.2.1, ?_⟩
  unfold six
  rw [if_neg hx, abs_mul, abs_of_nonneg (by positivity : (0 : ℝ) ≤ ((digits |x|).1 : ℝ) * 10 ^ ((digits |x|).2 - 5))]
  split <;> simp

theorem int_grid {F : Fmt} (hF : Dec F) {n : ℤ} (h : |n| ≤ 2 ^ F.p) : (n : ℝ) ∈ Grid F :=
  ⟨n, 0, h, by have := hF.zero; omega, by simp⟩

theorem fl_int {F : Fmt} (hF : Dec F) {n : ℤ} (h : |n| ≤ 2 ^ F.p) : F.fl n = n := fl_exact hF.p (int_grid hF h)

theorem int_back {F : Fmt} (hF : Dec F) {n : ℤ} (h : |n| ≤ 10 ^ 6) : back F n = n := by
  rw [back_iff hF]
  refine ⟨n, by simpa using six_of (e := 0) h, fl_int hF ?_⟩
  have := hF.digits
  have h2 : (2 * 10 ^ 6 : ℤ) < 2 ^ F.p := by exact_mod_cast this
  omega

theorem int_lost {F : Fmt} (hF : Dec F) {n : ℤ} (h1 : 10 ^ 6 < |n|) (h2 : |n| < 2 ^ F.p) (h3 : ¬ 10 ∣ n) : back F n ≠ n := by
  wlog h0 : 0 ≤ n generalizing n
  · have := this (n := -n) (by rwa [abs_neg]) (by rwa [abs_neg]) (by rwa [dvd_neg]) (by omega)
    intro h
    apply this
    push_cast
    unfold back at h ⊢
    rw [six_odd, fl_odd, h]
  rw [abs_of_nonneg h0] at h1 h2
  intro h
  obtain ⟨d, hd, he⟩ := (back_iff hF _).1 h
  have hp := hF.p
  have hbig : ((10 ^ 6 : ℤ) : ℝ) ≤ d := by
    by_contra hlt
    push Not at hlt
    have := fl_mono hp hlt.le
    rw [he, fl_int hF (by have := hF.digits; have h2 : (2 * 10 ^ 6 : ℤ) < 2 ^ F.p := by exact_mod_cast this
                          rw [abs_of_nonneg (by norm_num)]; omega)] at this
    have : n ≤ 10 ^ 6 := by exact_mod_cast this
    omega
  have hd6 : (10 : ℝ) ^ (6 : ℤ) ≤ |d| := by
    refine le_trans ?_ (hbig.trans (le_abs_self d))
    push_cast; norm_num
  obtain ⟨k, hk⟩ := six_mult hd hd6
  have hk' : d = ((10 * k : ℤ) : ℝ) := by
    rw [hk]; push_cast; norm_num; ring
  have hup : d ≤ ((2 ^ F.p : ℤ) : ℝ) := by
    by_contra hlt
    push Not at hlt
    have := fl_mono hp hlt.le
    rw [he, fl_int hF (by rw [abs_of_nonneg (by positivity)])] at this
    have : (2 ^ F.p : ℤ) ≤ n := by exact_mod_cast this
    omega
  rw [hk'] at he hup hbig
  have hup' : 10 * k ≤ 2 ^ F.p := by exact_mod_cast hup
  have hbig' : 10 ^ 6 ≤ 10 * k := by exact_mod_cast hbig
  rw [fl_int hF (by rw [abs_of_nonneg (by omega)]; exact hup')] at he
  have : 10 * k = n := by exact_mod_cast he
  exact h3 ⟨k, this.symm⟩

/-- No number with six digits below a ten thousandth is a multiple of a power of two. -/
theorem six_not_grid {F : Fmt} (hF : Dec F) {x : ℝ} (hx : x ≠ 0) (hs : |six x| ≤ 2 ^ (F.qmin + F.p - 1)) : F.fl (six x) ≠ six x := by
  intro h
  have hg := fl_grid F (six x)
  rw [h] at hg
  obtain ⟨n, hn⟩ := grid_mult (grid_abs' hg)
  obtain ⟨m, e, hm1, hm2, hv⟩ := six_ne hx
  have hz := hF.zero
  have he : e < -4 := by
    have h1 : (10 : ℝ) ^ e ≤ |six x| := by
      rw [hv]
      have hm1' : (10 ^ 5 : ℝ) ≤ m := by exact_mod_cast hm1
      have := mul_le_mul_of_nonneg_right hm1' (ten_pos (e - 5)).le
      refine le_trans (le_of_eq ?_) this
      rw [zpow_sub₀ (by norm_num)]
      field_simp
    have h2 : (2 : ℝ) ^ (F.qmin + F.p - 1) ≤ 2 ^ (-14 : ℤ) := two_mono (by omega)
    have h3 : (2 : ℝ) ^ (-14 : ℤ) < 10 ^ (-4 : ℤ) := by norm_num
    exact ten_lt (by linarith)
  obtain ⟨a, ha⟩ : ∃ a : ℕ, (a : ℤ) = 5 - e := ⟨(5 - e).toNat, by omega⟩
  obtain ⟨b, hb⟩ : ∃ b : ℕ, (b : ℤ) = -F.qmin := ⟨(-F.qmin).toNat, by omega⟩
  rw [hv, show e - 5 = -(a : ℤ) by omega, show F.qmin = -(b : ℤ) by omega, zpow_lit, zpow_lit] at hn
  have h4 : (m : ℝ) * 2 ^ b = n * 10 ^ a := by
    field_simp at hn
    linarith
  have h5 : (m : ℤ) * 2 ^ b = n * 10 ^ a := by exact_mod_cast h4
  have h6 : (5 : ℤ) ^ a ∣ m := by
    have h7 : (5 : ℤ) ^ a ∣ (m : ℤ) * 2 ^ b := by
      rw [h5]
      exact Dvd.dvd.mul_left (pow_dvd_pow_of_dvd (by norm_num) a) n
    exact IsCoprime.dvd_of_dvd_mul_right (IsCoprime.pow ⟨1, -2, by norm_num⟩) h7
  have h7 : (5 : ℤ) ^ a ≤ m := Int.le_of_dvd (by omega) h6
  have h8 : (5 : ℤ) ^ 9 ≤ 5 ^ a := pow_le_pow_right₀ (by norm_num) (by omega)
  norm_num at h8
  omega

theorem six_tiny {F : Fmt} (hF : Dec F) {x : ℝ} (hx : |x| ≤ 2 ^ (F.qmin + F.p - 1)) :
    |six x| < 2 ^ (F.qmin + F.p - 1) - 2 ^ (F.qmin - 2) := by
  obtain ⟨k, j, h1, h2, h3, h4⟩ := hF.tiny
  have hp := hF.p
  have hN : (2 : ℝ) ^ (F.qmin + F.p - 1) = 2 ^ (F.p - 1) * 2 ^ F.qmin := by
    rw [show F.qmin + F.p - 1 = ((F.p - 1 : ℕ) : ℤ) + F.qmin by omega, zpow_add₀ (by norm_num), zpow_natCast]
  have hq := two_pos F.qmin
  have h5 := six_le h1 h2 (by rw [hN]; nlinarith) h4 hx
  have h6 : |six x| ≤ (2 ^ (F.p - 1) - 1) * 2 ^ F.qmin := h5.trans h3
  rw [hN, zpow_sub₀ (by norm_num)]
  norm_num
  linarith

/-- `sToReal` of what is written. -/
theorem erange_six {F : Fmt} (hF : Dec F) {x : ℝ} (hx : |x| ≤ F.top) :
    erange F (six x) ↔ x ≠ 0 ∧ |six x| < 2 ^ (F.qmin + F.p - 1) - 2 ^ (F.qmin - 2) := by
  unfold erange
  have h1 := fl_le_top hF.good.p hF.good.q (six_top hF hx)
  constructor
  · rintro (h | ⟨h2, h3⟩)
    · exact absurd h1 (not_le.2 h)
    · refine ⟨?_, h3⟩
      rintro rfl
      simp [six, fl_zero] at h2
  · rintro ⟨h2, h3⟩
    refine Or.inr ⟨six_not_grid hF h2 ?_, h3⟩
    have := two_pos (F.qmin - 2)
    linarith

theorem six_large {x b : ℝ} (h : 2 * b ≤ |x|) : b ≤ |six x| := by
  have h1 := six_err x
  have h2 := abs_sub_abs_le_abs_sub x (six x)
  rw [abs_sub_comm] at h2
  have h3 := abs_nonneg x
  have : |x| / (2 * 10 ^ 5) ≤ |x| / 2 := by
    apply div_le_div_of_nonneg_left h3 <;> norm_num
  linarith

/-! ## Notation -/

theorem fixed_cons (k n : ℕ) : fixed (k + 1) n = Nat.digitChar (n / 10 ^ k % 10) :: fixed k n := by
  induction k generalizing n with
  | zero => simp [fixed]
  | succ k ih =>
    rw [fixed, ih, fixed, pow_succ, mul_comm (10 ^ k) 10, Nat.div_div_eq_div_mul]
    rfl

theorem digitChar_ne {n : ℕ} (h : 0 < n) (h2 : n < 10) : Nat.digitChar n ≠ '0' := by
  rcases (by omega : n = 1 ∨ n = 2 ∨ n = 3 ∨ n = 4 ∨ n = 5 ∨ n = 6 ∨ n = 7 ∨ n = 8 ∨ n = 9) with h | h | h | h | h | h | h | h | h <;> subst h <;> decide

theorem fixed_head {m : ℕ} (h1 : 10 ^ 5 ≤ m) (h2 : m < 10 ^ 6) : ∃ c l, fixed 6 m = c :: l ∧ c ≠ '0' ∧ c.isDigit = true := by
  refine ⟨_, _, fixed_cons 5 m, ?_, fixed_digits 6 m _ (by rw [fixed_cons]; exact List.mem_cons_self)⟩
  apply digitChar_ne <;> omega

theorem fraction_last {ds : List Char} (h : ∀ c ∈ ds, c.isDigit = true) :
    fraction ds = [] ∨ ∃ l c, fraction ds = '.' :: l ++ [c] ∧ Digits (l ++ [c]) ∧ c ≠ '0' := by
  unfold fraction
  rcases strip_last ds with h1 | ⟨l, c, h1, h2⟩
  · exact Or.inl (by rw [if_pos h1])
  · refine Or.inr ⟨l, c, ?_, ⟨by simp, h1 ▸ strip_mem h⟩, h2⟩
    rw [h1, if_neg (by simp)]; rfl

theorem exponent_form (e : ℤ) : ∃ s ds, exponent e = 'e' :: s :: ds ∧ (s = '-' ∨ s = '+') ∧ Digits ds ∧ 2 ≤ ds.length ∧
    (ds.head? = some '0' → ds.length = 2) := by
  refine ⟨_, _, rfl, ?_, (exponent_digits _).1, ?_, ?_⟩
  · split <;> simp
  · split
    · rw [fixed_length]
    · exact toDigits_three (by omega)
  · split
    · intro _; exact fixed_length _ _
    · intro h
      obtain ⟨c, l, h1, h2⟩ := toDigits_head (n := e.natAbs) (by omega)
      rw [h1] at h
      simp at h
      exact absurd h h2

theorem toStr_notation (x : ℝ) : Notation (six x) (toStr (.fin x)) := by
  by_cases hx : x = 0
  · subst hx
    refine ⟨[], ['0'], [], [], by simp [toStr], ⟨by simp, by simp⟩, by simp [six], Or.inl rfl, by simp, ?_⟩
    rw [if_pos (Or.inl (by simp [six]))]
  have hd := digits_spec (abs_pos.2 hx)
  have hv : |six x| = (digits |x|).1 * 10 ^ ((digits |x|).2 - 5) := by
    unfold six
    rw [if_neg hx, abs_mul, abs_of_nonneg (by positivity : (0 : ℝ) ≤ ((digits |x|).1 : ℝ) * 10 ^ ((digits |x|).2 - 5))]
    split <;> simp
  have hs : (six x < 0) ↔ x < 0 := by
    rcases lt_or_gt_of_ne hx with h | h
    · refine ⟨fun _ => h, fun _ => ?_⟩
      have h1 : 0 ≤ six (-x) := six_nonneg (by linarith)
      rw [six_odd] at h1
      have h2 : six x ≠ 0 := by
        intro h0
        rw [h0, abs_zero] at hv
        have h5 := ten_pos ((digits |x|).2 - 5)
        have h6 : (0 : ℝ) < (digits |x|).1 := by have := hd.1; exact_mod_cast (by omega)
        have := mul_pos h6 h5
        linarith
      exact lt_of_le_of_ne (by linarith) h2
    · have h1 := six_nonneg h.le
      constructor <;> intro <;> linarith
  rw [toStr_fin hx]
  obtain ⟨m, e, hme⟩ : ∃ m e, digits |x| = (m, e) := ⟨_, _, rfl⟩
  rw [hme] at hd hv ⊢
  obtain ⟨hm1, hm2, -⟩ := hd
  dsimp only at *
  have hlo : (10 : ℝ) ^ e ≤ |six x| := by
    rw [hv]
    have hm1' : (10 ^ 5 : ℝ) ≤ m := by exact_mod_cast hm1
    have := mul_le_mul_of_nonneg_right hm1' (ten_pos (e - 5)).le
    refine le_trans (le_of_eq ?_) this
    rw [zpow_sub₀ (by norm_num)]
    field_simp
  have hhi : |six x| < (10 : ℝ) ^ (e + 1) := by
    rw [hv]
    have hm1' : (m : ℝ) < 10 ^ 6 := by exact_mod_cast hm2
    have := mul_lt_mul_of_pos_right hm1' (ten_pos (e - 5))
    refine lt_of_lt_of_eq this ?_
    rw [zpow_sub₀ (by norm_num), zpow_add₀ (by norm_num)]
    field_simp
  have h0 : six x ≠ 0 := by
    intro h0
    rw [h0, abs_zero] at hlo
    exact absurd hlo (not_le.2 (ten_pos e))
  have hiff : (six x = 0 ∨ (1 / 10 ^ 4 ≤ |six x| ∧ |six x| < 10 ^ 6)) ↔ (-4 ≤ e ∧ e < 6) := by
    have e1 : (1 : ℝ) / 10 ^ 4 = 10 ^ (-4 : ℤ) := by norm_num
    have e2 : (10 : ℝ) ^ 6 = 10 ^ (6 : ℤ) := by norm_num
    rw [e1, e2]
    constructor
    · rintro (h | ⟨h1, h2⟩)
      · exact absurd h h0
      · have a1 := ten_lt (h1.trans_lt hhi)
        have a2 := ten_lt (hlo.trans_lt h2)
        omega
    · rintro ⟨h1, h2⟩
      exact Or.inr ⟨(ten_mono h1).trans hlo, hhi.trans_le (ten_mono (by omega))⟩
  have hsg : (if decide (x < 0) = true then ['-'] else []) = if six x < 0 then ['-'] else [] := by
    by_cases h : x < 0
    · rw [if_pos (by simpa using h), if_pos (hs.2 h)]
    · rw [if_neg (by simpa using h), if_neg (fun h' => h (hs.1 h'))]
  obtain ⟨c, l, hc, hc0, hcd⟩ := fixed_head hm1 hm2
  have hdg := fixed_digits 6 m
  rw [hsg]
  by_cases hr : -4 ≤ e ∧ e < 6
  · by_cases h0 : 0 ≤ e
    · rw [layout_fixed hr.2 h0]
      refine ⟨_, (fixed 6 m).take (e.toNat + 1), fraction ((fixed 6 m).drop (e.toNat + 1)), [], by simp [List.append_assoc], ?_, rfl, ?_, ?_, ?_⟩
      · exact ⟨by rw [hc]; simp, fun c h => hdg c (List.mem_of_mem_take h)⟩
      · exact fraction_last (fun c h => hdg c (List.mem_of_mem_drop h))
      · rw [hc]; simp [hc0]
      · rw [if_pos (hiff.2 hr)]
    · rw [layout_small hr.1 (by omega)]
      refine ⟨_, ['0'], _, [], by simp only [List.append_nil, List.append_assoc]; rfl, ⟨by simp, by simp⟩, rfl, fraction_last ?_, by simp, ?_⟩
      · intro c h
        rcases List.mem_append.1 h with h | h
        · rw [List.eq_of_mem_replicate h]; decide
        · exact hdg c h
      · rw [if_pos (hiff.2 hr)]
  · rw [layout_sci hr]
    refine ⟨_, (fixed 6 m).take 1, fraction ((fixed 6 m).drop 1), exponent e, by simp only [List.append_assoc], ?_, rfl, ?_, ?_, ?_⟩
    · exact ⟨by rw [hc]; simp, fun c h => hdg c (List.mem_of_mem_take h)⟩
    · exact fraction_last (fun c h => hdg c (List.mem_of_mem_drop h))
    · rw [hc]; simp [hc0]
    · rw [if_neg (fun h => hr (hiff.1 h))]
      refine ⟨by rw [hc]; simp, by rw [hc]; simp [hc0], exponent_form e⟩

end Verif.RealText
