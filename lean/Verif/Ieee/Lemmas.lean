import Verif.Ieee.Spec
import Verif.Angle.Spec
import Mathlib.Tactic.Linarith
import Mathlib.Tactic.FieldSimp
import Mathlib.Tactic.Ring
import Mathlib.Tactic.Positivity

/-! # Rounding to the numbers of a format -/

namespace Verif.Ieee

open Spec

noncomputable section

/-! ## Rounding to an integer -/

theorem rne_cases (x : ℝ) :
    (x - ⌊x⌋ ≤ 1 / 2 ∧ rne x = ⌊x⌋) ∨ (1 / 2 ≤ x - ⌊x⌋ ∧ rne x = ⌊x⌋ + 1) := by
  unfold rne
  split
  · exact Or.inl ⟨le_of_lt ‹_›, rfl⟩
  · split
    · exact Or.inr ⟨le_of_lt ‹_›, rfl⟩
    · split
      · exact Or.inl ⟨not_lt.mp ‹_›, rfl⟩
      · exact Or.inr ⟨not_lt.mp ‹_›, rfl⟩

theorem rne_abs (x : ℝ) : |(rne x : ℝ) - x| ≤ 1 / 2 := by
  have h1 := Int.floor_le x
  have h2 := Int.lt_floor_add_one x
  rcases rne_cases x with ⟨h, e⟩ | ⟨h, e⟩ <;> rw [e, abs_le] <;> push_cast <;> constructor <;> linarith

theorem rne_nearest (x : ℝ) (n : ℤ) : |(rne x : ℝ) - x| ≤ |(n : ℝ) - x| := by
  have h1 := Int.floor_le x
  have h2 := Int.lt_floor_add_one x
  rcases le_or_gt n ⌊x⌋ with hn | hn
  · have hn' : (n : ℝ) ≤ ⌊x⌋ := by exact_mod_cast hn
    rw [abs_of_nonpos (show (n : ℝ) - x ≤ 0 by linarith)]
    rcases rne_cases x with ⟨h, e⟩ | ⟨h, e⟩ <;> rw [e, abs_le] <;> push_cast <;> constructor <;> linarith
  · have hn' : (⌊x⌋ : ℝ) + 1 ≤ n := by exact_mod_cast hn
    rw [abs_of_nonneg (show 0 ≤ (n : ℝ) - x by linarith)]
    rcases rne_cases x with ⟨h, e⟩ | ⟨h, e⟩ <;> rw [e, abs_le] <;> push_cast <;> constructor <;> linarith

theorem rne_int (n : ℤ) : rne (n : ℝ) = n := by
  have := rne_nearest (n : ℝ) n
  rw [sub_self, abs_zero] at this
  have := abs_nonpos_iff.mp this
  have := sub_eq_zero.mp this
  exact_mod_cast this

theorem rne_neg (x : ℝ) : rne (-x) = -rne x := by
  have h1 := Int.floor_le x
  have h2 := Int.lt_floor_add_one x
  by_cases hx : x = ⌊x⌋
  · rw [hx]
    have e : -((⌊x⌋ : ℤ) : ℝ) = ((-⌊x⌋ : ℤ) : ℝ) := by push_cast; rfl
    rw [e, rne_int, rne_int]
  · have hlt : (⌊x⌋ : ℝ) < x := lt_of_le_of_ne h1 (fun h => hx h.symm)
    have hf : ⌊-x⌋ = -⌊x⌋ - 1 := by
      rw [Int.floor_eq_iff]; push_cast; constructor <;> linarith
    unfold rne
    rw [hf]
    push_cast
    have ev : Even (-⌊x⌋ - 1) ↔ ¬ Even ⌊x⌋ := by
      rw [Int.even_sub_one, even_neg]
    by_cases h3 : x - ⌊x⌋ < 1 / 2
    · rw [if_pos h3, if_neg (by linarith), if_pos (by linarith)]; ring
    · rw [if_neg h3]
      by_cases h4 : 1 / 2 < x - ⌊x⌋
      · rw [if_pos h4, if_pos (by linarith)]; ring
      · rw [if_neg h4, if_neg (by linarith), if_neg (by linarith)]
        by_cases h5 : Even ⌊x⌋
        · rw [if_pos h5, if_neg (by rw [ev]; exact not_not.mpr h5)]; ring
        · rw [if_neg h5, if_pos (ev.mpr h5)]; ring

/-! ## Rounding to a number -/

/-- The numbers of the format and those above the largest one. -/
def Grid (F : Fmt) : Set ℝ := {x | ∃ m e : ℤ, |m| ≤ 2 ^ F.p ∧ F.qmin ≤ e ∧ x = m * 2 ^ e}

theorem two_pos (e : ℤ) : (0 : ℝ) < 2 ^ e := by positivity

theorem two_mono {i j : ℤ} (h : i ≤ j) : (2 : ℝ) ^ i ≤ 2 ^ j := zpow_le_zpow_right₀ (by norm_num) h

theorem log_le {x : ℝ} (hx : x ≠ 0) : (2 : ℝ) ^ (Int.log 2 |x|) ≤ |x| := by
  have := Int.zpow_log_le_self (b := 2) (by norm_num) (abs_pos.mpr hx)
  exact_mod_cast this

theorem lt_log (x : ℝ) : |x| < (2 : ℝ) ^ (Int.log 2 |x| + 1) := by
  have := Int.lt_zpow_succ_log_self (b := 2) (by norm_num) |x|
  exact_mod_cast this

/-- A multiple of a power of two is a multiple of the smaller powers. -/
theorem log_eq {x : ℝ} {k : ℤ} (h1 : (2 : ℝ) ^ k ≤ x) (h2 : x < (2 : ℝ) ^ (k + 1)) : Int.log 2 |x| = k := by
  have h0 : 0 < x := (two_pos k).trans_le h1
  rw [abs_of_pos h0]
  have a1 := Int.log_mono_right (b := 2) (two_pos _) h1
  have e1 := Int.log_zpow (R := ℝ) (b := 2) (by norm_num) k
  push_cast at e1
  rw [e1] at a1
  have a2 := (log_le (ne_of_gt h0)).trans_lt (by rw [abs_of_pos h0]; exact h2)
  rw [abs_of_pos h0] at a2
  have := (zpow_lt_zpow_iff_right₀ (show (1 : ℝ) < 2 by norm_num)).mp a2
  omega

theorem mult_of_le {a b : ℤ} (h : a ≤ b) (m : ℤ) : ∃ n : ℤ, (m : ℝ) * 2 ^ b = n * 2 ^ a := by
  obtain ⟨k, hk⟩ := Int.eq_ofNat_of_zero_le (sub_nonneg.mpr h)
  refine ⟨m * 2 ^ k, ?_⟩
  have : b = (k : ℤ) + a := by omega
  rw [this, zpow_add₀ (by norm_num), zpow_natCast]
  push_cast
  ring

theorem qmin_le (F : Fmt) (x : ℝ) : F.qmin ≤ F.ulpExp x := le_max_right _ _

theorem fl_zero (F : Fmt) : F.fl 0 = 0 := by
  have : rne 0 = 0 := by simpa using rne_int 0
  simp [Fmt.fl, this]

theorem ulp_neg (F : Fmt) (x : ℝ) : F.ulpExp (-x) = F.ulpExp x := by simp [Fmt.ulpExp]

theorem fl_odd (F : Fmt) (x : ℝ) : F.fl (-x) = -F.fl x := by
  unfold Fmt.fl
  rw [ulp_neg, neg_div, rne_neg]
  push_cast
  ring

/-- The error is at most half a unit of the last digit. -/
theorem fl_half (F : Fmt) (x : ℝ) : |F.fl x - x| ≤ 2 ^ F.ulpExp x / 2 := by
  unfold Fmt.fl
  set e := F.ulpExp x
  have h2 := two_pos e
  have h := rne_abs (x / 2 ^ e)
  have e1 : (rne (x / 2 ^ e) : ℝ) * 2 ^ e - x = ((rne (x / 2 ^ e) : ℝ) - x / 2 ^ e) * 2 ^ e := by field_simp
  rw [e1, abs_mul, abs_of_pos h2]
  linarith [mul_le_mul_of_nonneg_right h h2.le]

/-- No multiple of the unit of the last digit is closer. -/
theorem fl_mult (F : Fmt) (x : ℝ) (n : ℤ) : |F.fl x - x| ≤ |(n : ℝ) * 2 ^ F.ulpExp x - x| := by
  unfold Fmt.fl
  set e := F.ulpExp x
  have h2 := two_pos e
  have h := rne_nearest (x / 2 ^ e) n
  have e1 : ∀ m : ℤ, (m : ℝ) * 2 ^ e - x = ((m : ℝ) - x / 2 ^ e) * 2 ^ e := fun m => by field_simp
  rw [e1, e1, abs_mul, abs_mul, abs_of_pos h2]
  exact mul_le_mul_of_nonneg_right h h2.le

theorem ulp_eq {F : Fmt} {x : ℝ} {k : ℤ} (h1 : F.qmin ≤ k) (h2 : k < F.ulpExp x) :
    F.ulpExp x = Int.log 2 |x| + 1 - F.p := by
  unfold Fmt.ulpExp at h2 ⊢
  omega

theorem pow_cast (p : ℕ) (e : ℤ) : ((2 ^ p : ℤ) : ℝ) * 2 ^ e = 2 ^ ((p : ℤ) + e) := by
  push_cast
  rw [← zpow_natCast, ← zpow_add₀ (by norm_num)]

theorem grid_abs {F : Fmt} {m e : ℤ} (hm : |m| ≤ 2 ^ F.p) : |(m : ℝ) * 2 ^ e| ≤ 2 ^ ((F.p : ℤ) + e) := by
  rw [abs_mul, abs_of_pos (two_pos e), ← pow_cast]
  refine mul_le_mul_of_nonneg_right ?_ (two_pos e).le
  exact_mod_cast hm

/-- Rounding gives a nearest number. -/
theorem fl_nearest {F : Fmt} (hp : 1 ≤ F.p) (x r : ℝ) (hr : r ∈ Grid F) : |F.fl x - x| ≤ |r - x| := by
  obtain ⟨m, k, hm, hk, rfl⟩ := hr
  rcases le_or_gt (F.ulpExp x) k with h | h
  · obtain ⟨n, hn⟩ := mult_of_le h m
    rw [hn]
    exact fl_mult F x n
  · have he := ulp_eq hk h
    by_cases hx : x = 0
    · rw [hx, fl_zero, sub_zero, abs_zero]; exact abs_nonneg _
    have hB := log_le hx
    have hr : |(m : ℝ) * 2 ^ k| ≤ 2 ^ (Int.log 2 |x|) := by
      refine (grid_abs hm).trans (two_mono ?_)
      omega
    obtain ⟨n, hn⟩ := mult_of_le (show F.ulpExp x ≤ Int.log 2 |x| by rw [he]; omega) 1
    push_cast at hn
    rw [one_mul] at hn
    have h3 : |x| - 2 ^ (Int.log 2 |x|) ≤ |(m : ℝ) * 2 ^ k - x| := by
      have := abs_sub_abs_le_abs_sub x ((m : ℝ) * 2 ^ k)
      rw [abs_sub_comm] at this
      linarith
    refine le_trans ?_ h3
    rcases lt_or_gt_of_ne hx with hs | hs
    · have := fl_mult F x (-n)
      push_cast at this
      rw [neg_mul, ← hn] at this
      rw [abs_of_neg hs] at hB this ⊢
      rwa [abs_of_nonneg (show 0 ≤ -(2 : ℝ) ^ (Int.log 2 (-x)) - x by linarith),
        show -(2 : ℝ) ^ (Int.log 2 (-x)) - x = -x - 2 ^ (Int.log 2 (-x)) by ring] at this
    · have := fl_mult F x n
      rw [← hn] at this
      rw [abs_of_pos hs] at hB this ⊢
      rwa [abs_of_nonpos (show (2 : ℝ) ^ (Int.log 2 x) - x ≤ 0 by linarith),
        show -((2 : ℝ) ^ (Int.log 2 x) - x) = x - 2 ^ (Int.log 2 x) by ring] at this

theorem fl_exact {F : Fmt} (hp : 1 ≤ F.p) {x : ℝ} (hx : x ∈ Grid F) : F.fl x = x := by
  have := fl_nearest hp x x hx
  rw [sub_self, abs_zero] at this
  exact sub_eq_zero.mp (abs_nonpos_iff.mp this)

theorem rne_bound (F : Fmt) (x : ℝ) : |rne (x / 2 ^ F.ulpExp x)| ≤ 2 ^ F.p := by
  have h2 := two_pos (F.ulpExp x)
  have hb : |x| ≤ ((2 ^ F.p : ℤ) : ℝ) * 2 ^ F.ulpExp x := by
    rw [pow_cast]
    refine (lt_log x).le.trans (two_mono ?_)
    unfold Fmt.ulpExp
    omega
  have hq : |x / 2 ^ F.ulpExp x| ≤ ((2 ^ F.p : ℤ) : ℝ) := by
    rw [abs_div, abs_of_pos h2, div_le_iff₀ h2]
    exact hb
  rw [abs_le] at hq ⊢
  have key := rne_abs (x / 2 ^ F.ulpExp x)
  rw [abs_le] at key
  constructor
  · have h : (((-2 ^ F.p : ℤ)) : ℝ) - 1 < (rne (x / 2 ^ F.ulpExp x) : ℝ) := by push_cast at hq ⊢; linarith
    have : (-2 ^ F.p : ℤ) - 1 < rne (x / 2 ^ F.ulpExp x) := by exact_mod_cast h
    omega
  · have h : (rne (x / 2 ^ F.ulpExp x) : ℝ) < ((2 ^ F.p : ℤ) : ℝ) + 1 := by push_cast at hq ⊢; linarith
    have : rne (x / 2 ^ F.ulpExp x) < (2 ^ F.p : ℤ) + 1 := by exact_mod_cast h
    omega

theorem fl_grid (F : Fmt) (x : ℝ) : F.fl x ∈ Grid F := ⟨rne (x / 2 ^ F.ulpExp x), F.ulpExp x, rne_bound F x, qmin_le F x, rfl⟩

theorem fl_mono {F : Fmt} (hp : 1 ≤ F.p) : Monotone F.fl := by
  intro x y hxy
  rcases hxy.eq_or_lt with rfl | hlt
  · exact le_rfl
  by_contra hc
  rw [not_le] at hc
  have h1 := fl_nearest hp x (F.fl y) (fl_grid F y)
  have h2 := fl_nearest hp y (F.fl x) (fl_grid F x)
  generalize F.fl x = a at *
  generalize F.fl y = b at *
  -- `a` is not further from `x` than `b`, `b` is not further from `y` than `a`
  have e1 : x ≥ (a + b) / 2 := by
    by_contra h
    rw [not_le] at h
    have h3 : |b - x| < |a - x| := by
      rw [abs_of_pos (show 0 < a - x by linarith), abs_lt]
      constructor <;> linarith
    linarith
  have e2 : y ≤ (a + b) / 2 := by
    by_contra h
    rw [not_le] at h
    have h3 : |a - y| < |b - y| := by
      rw [abs_of_neg (show b - y < 0 by linarith), abs_lt]
      constructor <;> linarith
    linarith
  linarith

/-- IEEE 754 rounding is a rounding in the sense of the theorems about angles and distances. -/
theorem rounding {F : Fmt} (hp : 1 ≤ F.p) : Verif.Angle.Spec.Rounding F.fl (Grid F) :=
  ⟨fl_mono hp, fl_odd F, fun _ h => fl_exact hp h, fl_grid F⟩

/-! ## Errors -/

theorem u_pos (F : Fmt) : 0 < unit F := two_pos _

/-- The relative error of a normal number. -/
theorem fl_rel {F : Fmt} {x : ℝ} (h : (2 : ℝ) ^ (F.qmin + F.p - 1) ≤ |x|) : |F.fl x - x| ≤ unit F * |x| := by
  have hx : x ≠ 0 := by
    rintro rfl
    rw [abs_zero] at h
    linarith [two_pos (F.qmin + F.p - 1)]
  have hlog : F.qmin + F.p - 1 ≤ Int.log 2 |x| := by
    have := Int.log_mono_right (b := 2) (two_pos (F.qmin + F.p - 1)) h
    have e := Int.log_zpow (R := ℝ) (b := 2) (by norm_num) (F.qmin + F.p - 1)
    push_cast at e
    rwa [e] at this
  have he : F.ulpExp x = Int.log 2 |x| + 1 - F.p := by unfold Fmt.ulpExp; omega
  refine (fl_half F x).trans ?_
  rw [he]
  have : (2 : ℝ) ^ (Int.log 2 |x| + 1 - F.p : ℤ) / 2 = unit F * 2 ^ (Int.log 2 |x|) := by
    unfold unit
    rw [show (Int.log 2 |x| + 1 - (F.p : ℤ)) = 1 + (-(F.p : ℤ)) + Int.log 2 |x| by ring,
      zpow_add₀ (by norm_num), zpow_add₀ (by norm_num), zpow_one]
    ring
  rw [this]
  exact mul_le_mul_of_nonneg_left (log_le hx) (u_pos F).le

/-- The error of any number: relative, or half the smallest number. -/
theorem fl_err (F : Fmt) (x : ℝ) : |F.fl x - x| ≤ unit F * |x| ∨ |F.fl x - x| ≤ 2 ^ F.qmin / 2 := by
  rcases le_or_gt ((2 : ℝ) ^ (F.qmin + F.p - 1)) |x| with h | h
  · exact Or.inl (fl_rel h)
  · by_cases hx : x = 0
    · left; rw [hx, fl_zero]; simp
    right
    have hl : Int.log 2 |x| + 1 ≤ F.qmin + F.p - 1 := by
      have h1 := (log_le hx).trans_lt h
      have := (zpow_lt_zpow_iff_right₀ (show (1 : ℝ) < 2 by norm_num)).mp h1
      omega
    have he : F.ulpExp x = F.qmin := by unfold Fmt.ulpExp; omega
    have := fl_half F x
    rwa [he] at this

/-- Sums are never lost to underflow. -/
theorem grid_mult {F : Fmt} {a : ℝ} (h : a ∈ Grid F) : ∃ n : ℤ, a = n * 2 ^ F.qmin := by
  obtain ⟨m, e, -, he, rfl⟩ := h
  exact mult_of_le he m

theorem mult_small {F : Fmt} {n : ℤ} (h : |(n : ℝ) * 2 ^ F.qmin| ≤ 2 ^ ((F.p : ℤ) + F.qmin)) :
    (n : ℝ) * 2 ^ F.qmin ∈ Grid F := by
  refine ⟨n, F.qmin, ?_, le_rfl, rfl⟩
  rw [abs_mul, abs_of_pos (two_pos F.qmin), ← pow_cast] at h
  have := le_of_mul_le_mul_right h (two_pos F.qmin)
  exact_mod_cast this

theorem fl_sum {F : Fmt} (hp : 1 ≤ F.p) {a b : ℝ} (ha : a ∈ Grid F) (hb : b ∈ Grid F) :
    |F.fl (a + b) - (a + b)| ≤ unit F * |a + b| := by
  obtain ⟨m, rfl⟩ := grid_mult ha
  obtain ⟨n, rfl⟩ := grid_mult hb
  have e : (m : ℝ) * 2 ^ F.qmin + n * 2 ^ F.qmin = ((m + n : ℤ) : ℝ) * 2 ^ F.qmin := by push_cast; ring
  rw [e]
  rcases le_or_gt |((m + n : ℤ) : ℝ) * 2 ^ F.qmin| (2 ^ ((F.p : ℤ) + F.qmin)) with h | h
  · rw [fl_exact hp (mult_small h), sub_self, abs_zero]
    exact mul_nonneg (u_pos F).le (abs_nonneg _)
  · refine fl_rel (le_trans (two_mono ?_) h.le)
    omega

theorem grid_neg {F : Fmt} {a : ℝ} (h : a ∈ Grid F) : -a ∈ Grid F := by
  obtain ⟨m, e, hm, he, rfl⟩ := h
  exact ⟨-m, e, by rwa [abs_neg], he, by push_cast; ring⟩

theorem grid_abs' {F : Fmt} {a : ℝ} (h : a ∈ Grid F) : |a| ∈ Grid F := by
  rcases abs_choice a with e | e <;> rw [e]
  · exact h
  · exact grid_neg h

theorem fl_diff {F : Fmt} (hp : 1 ≤ F.p) {a b : ℝ} (ha : a ∈ Grid F) (hb : b ∈ Grid F) :
    |F.fl (a - b) - (a - b)| ≤ unit F * |a - b| := by
  have := fl_sum hp ha (grid_neg hb)
  rwa [← sub_eq_add_neg] at this

/-! ## Numbers -/

theorem top_grid (F : Fmt) (hq : F.qmin ≤ F.qmax) : F.top ∈ Grid F := by
  refine ⟨2 ^ F.p - 1, F.qmax, ?_, hq, by unfold Fmt.top; push_cast; ring⟩
  have : (1 : ℤ) ≤ 2 ^ F.p := one_le_pow₀ (by norm_num)
  rw [abs_of_nonneg (by omega)]
  omega

theorem top_nonneg (F : Fmt) : 0 ≤ F.top := by
  unfold Fmt.top
  have : (1 : ℝ) ≤ 2 ^ F.p := one_le_pow₀ (by norm_num)
  exact mul_nonneg (by linarith) (two_pos _).le

theorem num_grid {F : Fmt} {x : ℝ} (h : Num F x) : x ∈ Grid F := by
  obtain ⟨m, e, hm, h1, -, rfl⟩ := h
  exact ⟨m, e, hm.le, h1, rfl⟩

theorem num_top {F : Fmt} {x : ℝ} (h : Num F x) : |x| ≤ F.top := by
  obtain ⟨m, e, hm, h1, h2, rfl⟩ := h
  rw [abs_mul, abs_of_pos (two_pos e)]
  unfold Fmt.top
  have : (|(m : ℝ)|) ≤ 2 ^ F.p - 1 := by
    have : |m| ≤ 2 ^ F.p - 1 := by omega
    exact_mod_cast this
  exact mul_le_mul this (two_mono h2) (two_pos e).le (le_trans (abs_nonneg _) this)

/-- The numbers of the format are those of the grid up to the largest one. -/
theorem num_iff {F : Fmt} (hp : 1 ≤ F.p) (hq : F.qmin ≤ F.qmax) {x : ℝ} : Num F x ↔ x ∈ Grid F ∧ |x| ≤ F.top := by
  refine ⟨fun h => ⟨num_grid h, num_top h⟩, ?_⟩
  rintro ⟨⟨m, e, hm, he, rfl⟩, ht⟩
  have h2 := two_pos e
  rw [abs_mul, abs_of_pos h2] at ht
  -- the case of few digits and a small exponent
  have small : ∀ m e : ℤ, |m| < 2 ^ F.p → F.qmin ≤ e → (|(m : ℝ)|) * 2 ^ e ≤ F.top → Num F (m * 2 ^ e) := by
    intro m e hm he ht
    rcases le_or_gt e F.qmax with h | h
    · exact ⟨m, e, hm, he, h, rfl⟩
    · obtain ⟨n, hn⟩ := mult_of_le h.le m
      refine ⟨n, F.qmax, ?_, hq, le_rfl, hn⟩
      have e1 : (|(m : ℝ)|) * 2 ^ e = |(n : ℝ)| * 2 ^ F.qmax := by
        have := congrArg (|·|) hn
        simpa [abs_mul, abs_of_pos (two_pos _)] using this
      rw [e1] at ht
      have := le_of_mul_le_mul_right ht (two_pos F.qmax)
      have : |n| ≤ 2 ^ F.p - 1 := by exact_mod_cast this
      omega
  rcases hm.lt_or_eq with h | h
  · exact small m e h he ht
  · -- `m` is plus or minus `2 ^ p`
    obtain ⟨q, hq'⟩ : ∃ q, F.p = q + 1 := ⟨F.p - 1, by omega⟩
    have hs : ∃ s : ℤ, |s| = 1 ∧ m = s * 2 ^ F.p := by
      rcases abs_choice m with e' | e'
      · exact ⟨1, by simp, by rw [← h, e']; ring⟩
      · exact ⟨-1, by simp, by rw [← h, e']; ring⟩
    obtain ⟨s, hs, rfl⟩ := hs
    have e2 : ((s * 2 ^ F.p : ℤ) : ℝ) * 2 ^ e = ((s * 2 ^ q : ℤ) : ℝ) * 2 ^ (e + 1) := by
      rw [hq', zpow_add₀ (by norm_num)]
      push_cast
      rw [zpow_one]; ring
    rw [e2]
    refine small _ _ ?_ (by omega) ?_
    · rw [abs_mul, hs, one_mul, abs_of_pos (by positivity), hq']
      exact pow_lt_pow_right₀ (by norm_num) (by omega)
    · have : (|((s * 2 ^ q : ℤ) : ℝ)|) * 2 ^ (e + 1) = |((s * 2 ^ F.p : ℤ) : ℝ)| * 2 ^ e := by
        have := congrArg (|·|) e2
        simpa only [abs_mul, abs_of_pos (two_pos _)] using this.symm
      rw [this]
      exact ht

theorem fl_le_top {F : Fmt} (hp : 1 ≤ F.p) (hq : F.qmin ≤ F.qmax) {x : ℝ} (h : |x| ≤ F.top) : |F.fl x| ≤ F.top := by
  have ht := fl_exact hp (top_grid F hq)
  rw [abs_le] at h ⊢
  constructor
  · have := fl_mono hp h.1
    rwa [fl_odd, ht] at this
  · have := fl_mono hp h.2
    rwa [ht] at this

theorem rnd_fin {F : Fmt} (hp : 1 ≤ F.p) (hq : F.qmin ≤ F.qmax) {x : ℝ} (h : |x| ≤ F.top) : F.rnd x = .fin (F.fl x) := by
  unfold Fmt.rnd
  rw [if_pos (fl_le_top hp hq h)]

theorem grid_above_top {F : Fmt} (hp : 1 ≤ F.p) {x : ℝ} (hx : x ∈ Grid F) (h : F.top < x) : 2 ^ F.p * 2 ^ F.qmax ≤ x := by
  obtain ⟨m, e, hm, he, rfl⟩ := hx
  rcases le_or_gt F.qmax e with h1 | h1
  · obtain ⟨n, hn⟩ := mult_of_le h1 m
    rw [hn] at h ⊢
    unfold Fmt.top at h
    have := lt_of_mul_lt_mul_right h (two_pos F.qmax).le
    have h2 : (2 : ℤ) ^ F.p - 1 < n := by exact_mod_cast this
    have h3 : (2 : ℤ) ^ F.p ≤ n := by omega
    refine mul_le_mul_of_nonneg_right ?_ (two_pos _).le
    exact_mod_cast h3
  · exfalso
    have h2 := (le_abs_self _).trans (grid_abs (e := e) hm)
    have h3 : (2 : ℝ) ^ ((F.p : ℤ) + e) ≤ F.top := by
      refine (two_mono (show (F.p : ℤ) + e ≤ (F.p - 1 : ℕ) + F.qmax by omega)).trans ?_
      rw [← pow_cast]
      unfold Fmt.top
      refine mul_le_mul_of_nonneg_right ?_ (two_pos _).le
      obtain ⟨q, hq⟩ : ∃ q, F.p = q + 1 := ⟨F.p - 1, by omega⟩
      rw [hq]
      have : (1 : ℝ) ≤ 2 ^ q := one_le_pow₀ (by norm_num)
      push_cast
      rw [pow_succ]
      linarith
    linarith

/-- A result overflows exactly if its exact value does. -/
theorem over_iff {F : Fmt} (hF : Good F) (x : ℝ) : F.top < |F.fl x| ↔ Over F x := by
  have hp := hF.p
  have hq := hF.q
  wlog h0 : 0 ≤ x generalizing x
  · have := this (-x) (by linarith)
    rwa [fl_odd, abs_neg, show Over F (-x) ↔ Over F x by simp [Over]] at this
  have hfl0 : 0 ≤ F.fl x := by
    have := fl_mono hp h0
    rwa [fl_zero] at this
  unfold Over
  rw [abs_of_nonneg h0, abs_of_nonneg hfl0]
  have h2 := two_pos F.qmax
  have hone : (1 : ℝ) ≤ 2 ^ F.p := one_le_pow₀ (by norm_num)
  constructor
  · intro h
    by_contra hc
    rw [not_le] at hc
    have h3 := grid_above_top hp (fl_grid F x) h
    have h4 := fl_nearest hp x F.top (top_grid F hq)
    have htx : F.top < x := by
      by_contra hcc
      have := fl_mono hp (not_lt.mp hcc)
      rw [fl_exact hp (top_grid F hq)] at this
      linarith
    rw [abs_of_neg (show F.top - x < 0 by linarith), abs_of_nonneg (show 0 ≤ F.fl x - x by nlinarith)] at h4
    have : F.top = 2 ^ F.p * 2 ^ F.qmax - 2 ^ F.qmax := by unfold Fmt.top; ring
    nlinarith
  · intro h
    have key : F.fl ((2 ^ F.p - 1 / 2) * 2 ^ F.qmax) = 2 ^ F.p * 2 ^ F.qmax := by
      set y : ℝ := (2 ^ F.p - 1 / 2) * 2 ^ F.qmax with hy
      have hy0 : 0 < y := by rw [hy]; exact mul_pos (by linarith) h2
      obtain ⟨q, hq'⟩ : ∃ q, F.p = q + 1 := ⟨F.p - 1, by omega⟩
      have h1q : (1 : ℝ) ≤ 2 ^ q := one_le_pow₀ (by norm_num)
      have hlog : Int.log 2 |y| = (q : ℤ) + F.qmax := by
        rw [abs_of_pos hy0]
        have l1 : (2 : ℝ) ^ ((q : ℤ) + F.qmax) ≤ y := by
          rw [← pow_cast, hy, hq', pow_succ]
          refine mul_le_mul_of_nonneg_right ?_ h2.le
          push_cast
          linarith
        have l2 : y < (2 : ℝ) ^ ((q : ℤ) + F.qmax + 1) := by
          rw [show (q : ℤ) + F.qmax + 1 = ((q + 1 : ℕ) : ℤ) + F.qmax by push_cast; ring, ← pow_cast, hy, hq']
          refine mul_lt_mul_of_pos_right ?_ h2
          push_cast
          linarith
        have a1 := Int.log_mono_right (b := 2) (two_pos _) l1
        have e1 := Int.log_zpow (R := ℝ) (b := 2) (by norm_num) ((q : ℤ) + F.qmax)
        push_cast at e1
        rw [e1] at a1
        have a2 := (log_le (ne_of_gt hy0)).trans_lt (by rw [abs_of_pos hy0]; exact l2)
        rw [abs_of_pos hy0] at a2
        have := (zpow_lt_zpow_iff_right₀ (show (1 : ℝ) < 2 by norm_num)).mp a2
        omega
      have hu : F.ulpExp y = F.qmax := by
        unfold Fmt.ulpExp
        rw [hlog, hq']
        push_cast
        omega
      unfold Fmt.fl
      rw [hu]
      have hdiv : y / 2 ^ F.qmax = 2 ^ F.p - 1 / 2 := by rw [hy]; field_simp
      rw [hdiv]
      have hfloor : ⌊(2 : ℝ) ^ F.p - 1 / 2⌋ = 2 ^ F.p - 1 := by
        rw [Int.floor_eq_iff]
        push_cast
        constructor <;> linarith
      have hr : rne ((2 : ℝ) ^ F.p - 1 / 2) = 2 ^ F.p := by
        unfold rne
        rw [hfloor, if_neg (by push_cast; linarith), if_neg (by push_cast; linarith), if_neg ?_]
        · ring
        · rw [Int.even_sub_one, not_not]
          rw [hq', pow_succ]
          exact even_two.mul_left _
      rw [hr]
      push_cast
      rfl
    have := fl_mono hp h
    rw [key] at this
    unfold Fmt.top
    nlinarith

theorem rnd_fin' {F : Fmt} (hF : Good F) {x : ℝ} (h : ¬ Over F x) : F.rnd x = .fin (F.fl x) := by
  rw [← over_iff hF, not_lt] at h
  unfold Fmt.rnd
  rw [if_pos h]

theorem rnd_inf {F : Fmt} (hF : Good F) {x : ℝ} (h : Over F x) : F.rnd x = .inf (decide (x < 0)) := by
  rw [← over_iff hF] at h
  unfold Fmt.rnd
  rw [if_neg (not_le.mpr h)]

theorem not_over {F : Fmt} {x : ℝ} (h : |x| ≤ F.top) : ¬ Over F x := by
  unfold Over
  unfold Fmt.top at h
  have := two_pos F.qmax
  nlinarith

theorem over_neg {F : Fmt} {x : ℝ} : Over F (-x) ↔ Over F x := by simp [Over]

/-- Every result is a value of the format. -/
theorem rnd_val {F : Fmt} (hp : 1 ≤ F.p) (hq : F.qmin ≤ F.qmax) (x : ℝ) : Val F (F.rnd x) := by
  unfold Fmt.rnd
  split
  · exact (num_iff hp hq).mpr ⟨fl_grid F x, ‹_›⟩
  · trivial

end

end Verif.Ieee
