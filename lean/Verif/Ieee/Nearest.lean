import Verif.Ieee.Lemmas

/-! # Rounding gives the nearest number, ties to even -/

namespace Verif.Ieee

open Spec Verif.Angle.Spec

theorem rne_tie {z : ℝ} {n : ℤ} (hn : n ≠ rne z) (h : |(n : ℝ) - z| = |(rne z : ℝ) - z|) : |n - rne z| = 1 ∧ Even (rne z) := by
  have h1 := rne_abs z
  have hz : 2 * z = n + rne z := by
    rcases abs_eq_abs.1 h with h | h
    · exact absurd (by exact_mod_cast (sub_left_inj.1 h)) hn
    · linarith
  have h2 : |n - rne z| ≤ 1 := by
    have : |(n : ℝ) - rne z| ≤ 1 := by
      have e : (n : ℝ) - rne z = -2 * ((rne z : ℝ) - z) := by linarith
      rw [e, abs_mul]; norm_num; linarith
    exact_mod_cast this
  have h3 : |n - rne z| = 1 := by
    have : 0 < |n - rne z| := abs_pos.2 (sub_ne_zero.2 hn)
    omega
  refine ⟨h3, ?_⟩
  have hf : z - ⌊z⌋ = 1 / 2 := by
    have : ⌊z⌋ = min n (rne z) := by
      rw [Int.floor_eq_iff]
      rcases abs_eq (by norm_num : (0:ℤ) ≤ 1) |>.1 h3 with h | h
      · have e : n = rne z + 1 := by omega
        rw [min_eq_right (by omega)]
        have e' : (n : ℝ) = rne z + 1 := by exact_mod_cast e
        constructor <;> linarith
      · have e : rne z = n + 1 := by omega
        rw [min_eq_left (by omega)]
        have e' : (rne z : ℝ) = n + 1 := by exact_mod_cast e
        constructor <;> linarith
    rw [this]
    rcases abs_eq (by norm_num : (0:ℤ) ≤ 1) |>.1 h3 with h | h
    · have e : n = rne z + 1 := by omega
      rw [min_eq_right (by omega)]
      have e' : (n : ℝ) = rne z + 1 := by exact_mod_cast e
      linarith
    · have e : rne z = n + 1 := by omega
      rw [min_eq_left (by omega)]
      have e' : (rne z : ℝ) = n + 1 := by exact_mod_cast e
      linarith
  unfold rne
  rw [if_neg (by linarith), if_neg (by linarith)]
  split
  · assumption
  · rename_i h
    exact (Int.not_even_iff_odd.1 h).add_one

/-- Another number at the same distance. -/
theorem fl_tie {F : Fmt} (hp : 1 ≤ F.p) {x u : ℝ} (hu : u ∈ Grid F) (hne : u ≠ F.fl x) (h : |u - x| = |F.fl x - x|) :
    ∃ n : ℤ, u = n * 2 ^ F.ulpExp x ∧ (F.qmin < F.ulpExp x → 2 ^ (F.ulpExp x + F.p - 1) ≤ |u|) ∧
      |n - rne (x / 2 ^ F.ulpExp x)| = 1 ∧ Even (rne (x / 2 ^ F.ulpExp x)) := by
  have hx : x ≠ 0 := by
    rintro rfl
    rw [fl_zero] at h hne
    simp at h
    exact hne h
  have hlow : F.qmin < F.ulpExp x → (2 : ℝ) ^ (F.ulpExp x + F.p - 1) ≤ |u| := by
    intro hq
    have he := ulp_eq le_rfl hq
    have hk : (2 : ℝ) ^ (F.ulpExp x + F.p - 1) ≤ |x| := by
      have := log_le hx
      rwa [show F.ulpExp x + F.p - 1 = Int.log 2 |x| by omega]
    have hg : (2 : ℝ) ^ (F.ulpExp x + F.p - 1) ∈ Grid F := by
      refine ⟨1, F.ulpExp x + F.p - 1, ?_, by omega, by simp⟩
      rw [abs_one]; exact one_le_pow₀ (by norm_num)
    by_contra hc
    rw [not_le] at hc
    rcases lt_or_gt_of_ne hx with h0 | h0
    · have := fl_nearest hp x _ (grid_neg hg)
      rw [← h] at this
      rw [abs_of_neg h0] at hk
      rw [abs_lt] at hc
      rw [abs_of_nonneg (by linarith : 0 ≤ -2 ^ (F.ulpExp x + F.p - 1) - x), abs_of_nonneg (by linarith : 0 ≤ u - x)] at this
      linarith
    · have := fl_nearest hp x _ hg
      rw [← h] at this
      rw [abs_of_pos h0] at hk
      rw [abs_lt] at hc
      rw [abs_of_nonpos (by linarith : 2 ^ (F.ulpExp x + F.p - 1) - x ≤ 0), abs_of_nonpos (by linarith : u - x ≤ 0)] at this
      linarith
  have hmul : ∃ n : ℤ, u = n * 2 ^ F.ulpExp x := by
    obtain ⟨m, k, hm, hk, rfl⟩ := hu
    rcases le_or_gt (F.ulpExp x) k with hle | hlt
    · exact mult_of_le hle m
    · have h1 := hlow (by omega)
      have h2 : |(m : ℝ) * 2 ^ k| ≤ 2 ^ ((F.p : ℤ) + k) := grid_abs hm
      have h3 : (2 : ℝ) ^ ((F.p : ℤ) + k) ≤ 2 ^ (F.ulpExp x + F.p - 1) := two_mono (by omega)
      have h4 : |(m : ℝ) * 2 ^ k| = 2 ^ (F.ulpExp x + F.p - 1) := le_antisymm (h2.trans h3) h1
      have h5 : ∃ s : ℤ, (m : ℝ) * 2 ^ k = s * 2 ^ (F.ulpExp x + F.p - 1) := by
        rcases abs_choice ((m : ℝ) * 2 ^ k) with e | e
        · exact ⟨1, by rw [← h4, e]; simp⟩
        · exact ⟨-1, by rw [← h4, e]; push_cast; ring⟩
      obtain ⟨s, hs⟩ := h5
      rw [hs]
      exact mult_of_le (by omega) s
  obtain ⟨n, hn⟩ := hmul
  refine ⟨n, hn, hlow, ?_⟩
  have h2 := two_pos (F.ulpExp x)
  have hn' : n ≠ rne (x / 2 ^ F.ulpExp x) := by
    rintro rfl
    exact hne hn
  refine rne_tie hn' ?_
  have key : ∀ a : ℤ, |(a : ℝ) - x / 2 ^ F.ulpExp x| = |(a : ℝ) * 2 ^ F.ulpExp x - x| / 2 ^ F.ulpExp x := by
    intro a
    rw [← abs_of_pos h2, ← abs_div, abs_of_pos h2]
    congr 1
    field_simp
  rw [key, key, ← hn, h]
  rfl

theorem fl_power {F : Fmt} (hp : 1 ≤ F.p) {x : ℝ} (hq : F.qmin < F.ulpExp x) : (2 : ℝ) ^ (F.ulpExp x + F.p - 1) ≤ |F.fl x| ∨ x = 0 := by
  by_cases hx : x = 0
  · exact .inr hx
  left
  have he := ulp_eq le_rfl hq
  have hk : (2 : ℝ) ^ (F.ulpExp x + F.p - 1) ≤ |x| := by
    have := log_le hx
    rwa [show F.ulpExp x + F.p - 1 = Int.log 2 |x| by omega]
  have hg : (2 : ℝ) ^ (F.ulpExp x + F.p - 1) ∈ Grid F := by
    refine ⟨1, F.ulpExp x + F.p - 1, ?_, by omega, by simp⟩
    rw [abs_one]; exact one_le_pow₀ (by norm_num)
  have h1 := fl_mono hp hk
  rw [fl_exact hp hg] at h1
  refine h1.trans ?_
  rcases abs_choice x with e | e <;> rw [e]
  · exact le_abs_self _
  · rw [fl_odd]; exact neg_le_abs _

theorem full_even {F : Fmt} (hp : 2 ≤ F.p) (hq : F.qmin ≤ F.qmax) {x : ℝ} (hx : x ≠ 0) (ht : |F.fl x| ≤ F.top)
    (he : Even (rne (x / 2 ^ F.ulpExp x))) :
    ∃ m e : ℤ, |m| < 2 ^ F.p ∧ F.qmin ≤ e ∧ e ≤ F.qmax ∧ (2 ^ (F.p - 1) ≤ |m| ∨ e = F.qmin) ∧ F.fl x = m * 2 ^ e ∧ Even m := by
  have hb := rne_bound F x
  have hlow := fl_power (F := F) (by omega) (x := x)
  have hfl : F.fl x = rne (x / 2 ^ F.ulpExp x) * 2 ^ F.ulpExp x := rfl
  have htop : |F.fl x| < 2 ^ ((F.p : ℤ) + F.qmax) := by
    refine lt_of_le_of_lt ht ?_
    rw [← pow_cast]
    exact mul_lt_mul_of_pos_right (by push_cast; linarith) (two_pos _)
  have hqm := qmin_le F x
  generalize rne (x / 2 ^ F.ulpExp x) = t at *
  generalize F.ulpExp x = e at *
  have habs : |F.fl x| = (|t| : ℤ) * 2 ^ e := by rw [hfl, abs_mul, abs_of_pos (two_pos e), Int.cast_abs]
  have hlow' : F.qmin < e → 2 ^ (F.p - 1) ≤ |t| := by
    intro h
    rcases hlow h with h | h
    · rw [habs, show e + (F.p : ℤ) - 1 = ((F.p - 1 : ℕ) : ℤ) + e by omega, ← pow_cast] at h
      have := le_of_mul_le_mul_right h (two_pos e)
      exact_mod_cast this
    · exact absurd h hx
  rcases hb.lt_or_eq with hb | hb
  · refine ⟨t, e, hb, hqm, ?_, ?_, hfl, he⟩
    · rcases hqm.lt_or_eq with h | h
      · by_contra hc
        have h1 : (2 : ℝ) ^ ((F.p : ℤ) + F.qmax) ≤ |F.fl x| := by
          rcases hlow h with h | h
          · exact (two_mono (by omega)).trans h
          · exact absurd h hx
        linarith
      · omega
    · rcases hqm.lt_or_eq with h | h
      · exact .inl (hlow' h)
      · exact .inr h.symm
  · obtain ⟨k, hk⟩ : ∃ k, F.p = k + 2 := ⟨F.p - 2, by omega⟩
    have hm : |t / 2| = 2 ^ (F.p - 1) ∧ t = 2 * (t / 2) := by
      obtain ⟨a, rfl⟩ := he
      have e2 : (a + a) / 2 = a := by omega
      rw [e2]
      refine ⟨?_, by ring⟩
      rw [← two_mul, abs_mul, hk, pow_succ] at hb
      rw [hk, show k + 2 - 1 = k + 1 by omega]
      rw [show |(2 : ℤ)| = 2 from rfl] at hb
      omega
    refine ⟨t / 2, e + 1, ?_, by omega, ?_, .inl hm.1.ge, ?_, ?_⟩
    · rw [hm.1]; exact pow_lt_pow_right₀ (by norm_num) (by omega)
    · by_contra hc
      have h1 : (2 : ℝ) ^ ((F.p : ℤ) + F.qmax) ≤ |F.fl x| := by
        rw [habs, hb, pow_cast]
        exact two_mono (by omega)
      linarith
    · rw [hfl, zpow_add₀ (by norm_num), zpow_one]
      nth_rewrite 1 [hm.2]
      push_cast
      ring
    · have : |t / 2| = 2 * 2 ^ k := by rw [hm.1, hk, show k + 2 - 1 = k + 1 by omega, pow_succ]; ring
      rw [← even_abs, this]
      exact even_two_mul _

/-- Rounding gives the nearest number, and no other number has that property. -/
theorem nearest_iff {F : Fmt} (hp : 2 ≤ F.p) (hq : F.qmin ≤ F.qmax) {x y : ℝ} (h : ¬ Over F x) : Nearest F x y ↔ y = F.fl x := by
  have hp1 : 1 ≤ F.p := by omega
  have ht : |F.fl x| ≤ F.top := by rw [← over_iff ⟨hp1, hq⟩, not_lt] at h; exact h
  have hn : Num F (F.fl x) := (num_iff hp1 hq).2 ⟨fl_grid F x, ht⟩
  constructor
  · rintro ⟨h1, h2, h3⟩
    by_contra hne
    have hd : |y - x| = |F.fl x - x| := le_antisymm (h2 _ hn) (fl_nearest hp1 x y (num_grid h1))
    obtain ⟨n, e1, e2, e3, e4⟩ := fl_tie hp1 (num_grid h1) hne hd
    obtain ⟨m, j, hm, hj, -, hf, e5, hev⟩ := h3 ⟨_, hn, fun e => hne e.symm, hd.symm⟩
    have hodd : ¬ Even n := by
      intro h
      have := h.sub e4
      rcases (abs_eq (by norm_num : (0 : ℤ) ≤ 1)).1 e3 with h' | h' <;> rw [h'] at this <;> revert this <;> decide
    rcases le_or_gt (F.ulpExp x) j with hle | hlt
    · obtain ⟨k, hk⟩ := Int.eq_ofNat_of_zero_le (sub_nonneg.mpr hle)
      have : (n : ℝ) = m * 2 ^ k := by
        have h2 := two_pos (F.ulpExp x)
        rw [e1, show j = (k : ℤ) + F.ulpExp x by omega, zpow_add₀ (by norm_num), ← mul_assoc] at e5
        have := mul_right_cancel₀ h2.ne' e5
        rw [this, zpow_natCast]
      have : n = m * 2 ^ k := by exact_mod_cast this
      exact hodd (this ▸ hev.mul_right _)
    · have h4 := e2 (by omega)
      have h5 : |y| < 2 ^ ((F.p : ℤ) + j) := by
        rw [e5, abs_mul, abs_of_pos (two_pos j), ← pow_cast]
        exact mul_lt_mul_of_pos_right (by exact_mod_cast hm) (two_pos j)
      have h6 : (2 : ℝ) ^ ((F.p : ℤ) + j) ≤ 2 ^ (F.ulpExp x + F.p - 1) := two_mono (by omega)
      linarith
  · rintro rfl
    refine ⟨hn, fun u hu => fl_nearest hp1 x u (num_grid hu), ?_⟩
    rintro ⟨u, hu, hne, hd⟩
    obtain ⟨n, -, -, -, e4⟩ := fl_tie hp1 (num_grid hu) hne hd
    refine full_even hp hq ?_ ht e4
    rintro rfl
    rw [fl_zero] at hd hne
    simp at hd
    exact hne hd

end Verif.Ieee
