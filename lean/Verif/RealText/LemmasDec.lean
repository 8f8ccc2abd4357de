import Verif.RealText.Model
import Verif.RealText.Spec
import Verif.Ieee.Lemmas

/-! # The six digits -/

namespace Verif.RealText

open Verif Ieee Spec

theorem ten_pos (e : ℤ) : (0 : ℝ) < 10 ^ e := by positivity

theorem ten_lt {i j : ℤ} (h : (10 : ℝ) ^ i < 10 ^ j) : i < j := (zpow_lt_zpow_iff_right₀ (by norm_num)).1 h

theorem ten_mono {i j : ℤ} (h : i ≤ j) : (10 : ℝ) ^ i ≤ 10 ^ j := zpow_le_zpow_right₀ (by norm_num) h

theorem ten_mult {a b : ℤ} (h : a ≤ b) (m : ℤ) : ∃ n : ℤ, (m : ℝ) * 10 ^ b = n * 10 ^ a := by
  obtain ⟨k, rfl⟩ := Int.le.dest h
  refine ⟨m * 10 ^ k, ?_⟩
  rw [zpow_add₀ (by norm_num)]
  push_cast
  rw [zpow_natCast]
  ring

theorem six_mult {d : ℝ} {e : ℤ} (h : Six d) (he : 10 ^ e ≤ |d|) : ∃ n : ℤ, d = n * 10 ^ (e - 5) := by
  obtain ⟨k, j, hk, rfl⟩ := h
  refine ten_mult ?_ k
  have h1 : (10 : ℝ) ^ e < 10 ^ (6 + j) := by
    refine he.trans_lt ?_
    rw [abs_mul, abs_of_pos (ten_pos j), zpow_add₀ (by norm_num)]
    refine mul_lt_mul_of_pos_right ?_ (ten_pos j)
    have : ((|k| : ℤ) : ℝ) < ((10 ^ 6 : ℤ) : ℝ) := by exact_mod_cast hk
    rw [Int.cast_abs] at this
    refine this.trans_le (le_of_eq (by norm_num))
  have := ten_lt h1
  omega

theorem six_neg {d : ℝ} (h : Six d) : Six (-d) := by
  obtain ⟨k, j, hk, rfl⟩ := h
  exact ⟨-k, j, by rwa [abs_neg], by push_cast; ring⟩

theorem six_of {n : ℤ} {e : ℤ} (h : |n| ≤ 10 ^ 6) : Six ((n : ℝ) * 10 ^ e) := by
  rcases lt_or_eq_of_le h with h | h
  · exact ⟨n, e, h, rfl⟩
  · rcases abs_cases n with ⟨h1, _⟩ | ⟨h1, _⟩
    · refine ⟨10 ^ 5, e + 1, by norm_num, ?_⟩
      rw [zpow_add₀ (by norm_num), show n = 10 ^ 6 by omega]; push_cast; ring
    · refine ⟨-10 ^ 5, e + 1, by norm_num, ?_⟩
      rw [zpow_add₀ (by norm_num), show n = -10 ^ 6 by omega]; push_cast; ring

/-- The spacing of the numbers with six digits. -/
theorem six_gap {a d : ℝ} (ha : Six a) (hd : Six d) (hne : a ≠ d) : |d| / 10 ^ 6 ≤ |a - d| := by
  obtain ⟨k1, i, hk1, rfl⟩ := ha
  obtain ⟨k2, j, hk2, rfl⟩ := hd
  have hb2 : |(k2 : ℝ) * 10 ^ j| / 10 ^ 6 < 10 ^ j := by
    rw [abs_mul, abs_of_pos (ten_pos j), div_lt_iff₀ (by norm_num), mul_comm]
    refine mul_lt_mul_of_pos_left ?_ (ten_pos j)
    have : ((|k2| : ℤ) : ℝ) < ((10 ^ 6 : ℤ) : ℝ) := by exact_mod_cast hk2
    rw [Int.cast_abs] at this
    exact this.trans_le (le_of_eq (by norm_num))
  have hone : ∀ (n : ℤ) (e : ℤ), (n : ℝ) * 10 ^ e ≠ 0 → (10 : ℝ) ^ e ≤ |(n : ℝ) * 10 ^ e| := by
    intro n e hn
    have h0 : n ≠ 0 := by rintro rfl; simp at hn
    have h1 : (1 : ℝ) ≤ |(n : ℝ)| := by exact_mod_cast Int.one_le_abs h0
    rw [abs_mul, abs_of_pos (ten_pos e)]
    exact le_mul_of_one_le_left (ten_pos e).le h1
  rcases le_total j i with hij | hij
  · obtain ⟨n, hn⟩ := ten_mult hij k1
    have h1 := hone (n - k2) j (by
      push_cast; rw [sub_mul, ← hn]; exact sub_ne_zero.2 hne)
    push_cast at h1
    rw [sub_mul, ← hn] at h1
    exact hb2.le.trans h1
  · have hb1 : |(k1 : ℝ) * 10 ^ i| < 10 ^ (6 + i) := by
      rw [abs_mul, abs_of_pos (ten_pos i), zpow_add₀ (by norm_num)]
      refine mul_lt_mul_of_pos_right ?_ (ten_pos i)
      have : ((|k1| : ℤ) : ℝ) < ((10 ^ 6 : ℤ) : ℝ) := by exact_mod_cast hk1
      rw [Int.cast_abs] at this
      exact this.trans_le (le_of_eq (by norm_num))
    rcases lt_or_ge |(k2 : ℝ) * 10 ^ j| (10 ^ (6 + i)) with hs | hs
    · obtain ⟨n, hn⟩ := ten_mult hij k2
      have h1 := hone (k1 - n) i (by
        push_cast; rw [sub_mul, ← hn]; exact sub_ne_zero.2 hne)
      push_cast at h1
      rw [sub_mul, ← hn] at h1
      refine le_trans ?_ h1
      rw [div_le_iff₀ (by norm_num)]
      refine hs.le.trans (le_of_eq ?_)
      rw [zpow_add₀ (by norm_num)]
      norm_num [mul_comm]
    · -- `|d|` is at least `10 ^ (6 + i)`, a multiple of `10 ^ j`, or far above it
      have htri : |(k2 : ℝ) * 10 ^ j| - |(k1 : ℝ) * 10 ^ i| ≤ |(k1 : ℝ) * 10 ^ i - k2 * 10 ^ j| := by
        rw [abs_sub_comm]; exact abs_sub_abs_le_abs_sub _ _
      rcases le_or_gt j (6 + i) with hj | hj
      · -- multiples of `10 ^ j`
        rcases eq_or_lt_of_le hs with he | hl
        · -- `|d| = 10 ^ (6 + i)`
          obtain ⟨n, hn⟩ := ten_mult hij k2
          have h2 := hone (k1 - n) i (by
            push_cast; rw [sub_mul, ← hn]; exact sub_ne_zero.2 hne)
          push_cast at h2
          rw [sub_mul, ← hn] at h2
          have h3 : (10 : ℝ) ^ i = |(k2 : ℝ) * 10 ^ j| / 10 ^ 6 := by
            rw [← he, zpow_add₀ (by norm_num)]; norm_num
          exact h3.symm.le.trans h2
        · obtain ⟨n, hn⟩ := ten_mult hj 1
          have h4 : (10 : ℝ) ^ (6 + i) + 10 ^ j ≤ |(k2 : ℝ) * 10 ^ j| := by
            rw [abs_mul, abs_of_pos (ten_pos j)] at hl ⊢
            rw [Int.cast_one, one_mul] at hn
            rw [hn] at hl ⊢
            have : (n : ℝ) < |(k2 : ℝ)| := lt_of_mul_lt_mul_right hl (ten_pos j).le
            have h5 : n < |k2| := by rw [← Int.cast_abs] at this; exact_mod_cast this
            have h6 : ((n + 1 : ℤ) : ℝ) ≤ ((|k2| : ℤ) : ℝ) := by exact_mod_cast h5
            rw [Int.cast_abs] at h6
            push_cast at h6
            nlinarith [ten_pos j]
          linarith
      · have h4 : (10 : ℝ) ^ j ≤ |(k2 : ℝ) * 10 ^ j| := hone k2 j (by
          intro h0
          rw [h0, abs_zero] at hs
          exact absurd (ten_pos (6 + i)) (not_lt.2 hs))
        have h5 : (10 : ℝ) * 10 ^ (6 + i) ≤ 10 ^ j := by
          rw [show (10 : ℝ) * 10 ^ (6 + i) = 10 ^ (1 + (6 + i)) by rw [zpow_add₀ (by norm_num) 1, zpow_one]]
          exact ten_mono (by omega)
        have h6 : (10 : ℝ) ^ (6 + i) ≤ |(k2 : ℝ) * 10 ^ j| / 10 := by linarith
        have h7 : |(k2 : ℝ) * 10 ^ j| / 10 ^ 6 < |(k2 : ℝ) * 10 ^ j| * (9 / 10) := by
          have : 0 < |(k2 : ℝ) * 10 ^ j| := lt_of_lt_of_le (ten_pos j) h4
          rw [div_lt_iff₀ (by norm_num)]
          nlinarith
        linarith

theorem rne_tie {y : ℝ} {n : ℤ} (hn : n ≠ rne y) (h : |(n : ℝ) - y| = |(rne y : ℝ) - y|) : Even (rne y) := by
  have h1 := Int.floor_le y
  have h2 := Int.lt_floor_add_one y
  have h3 := rne_abs y
  have h4 : (1 : ℝ) ≤ |(n : ℝ) - rne y| := by exact_mod_cast Int.one_le_abs (sub_ne_zero.2 hn)
  have h5 : |(n : ℝ) - rne y| ≤ |(n : ℝ) - y| + |(rne y : ℝ) - y| := by
    have := abs_sub_le (n : ℝ) y (rne y)
    rwa [abs_sub_comm y] at this
  have h6 : |(rne y : ℝ) - y| = 1 / 2 := by linarith
  unfold rne at h6 ⊢
  split
  · rename_i hlt
    rw [if_pos hlt, abs_of_nonpos (by linarith)] at h6
    linarith
  · rename_i hlt
    rw [if_neg hlt] at h6
    split
    · rename_i hgt
      rw [if_pos hgt] at h6
      push_cast at h6
      rw [abs_of_nonneg (by linarith)] at h6
      linarith
    · split
      · assumption
      · rename_i ho
        exact (Int.not_even_iff_odd.1 ho).add_one

/-- The rounded number of units of the sixth digit. -/
theorem units_bounds {x : ℝ} (hx : 0 < x) :
    10 ^ 5 ≤ rne (x / 10 ^ (Int.log 10 x - 5)) ∧ rne (x / 10 ^ (Int.log 10 x - 5)) ≤ 10 ^ 6 := by
  have h1 : (10 : ℝ) ^ Int.log 10 x ≤ x := by
    have := Int.zpow_log_le_self (b := 10) (by norm_num) hx
    exact_mod_cast this
  have h2 : x < (10 : ℝ) ^ (Int.log 10 x + 1) := by
    have := Int.lt_zpow_succ_log_self (b := 10) (by norm_num) x
    exact_mod_cast this
  generalize Int.log 10 x = e at h1 h2
  have h3 : (10 ^ 5 : ℝ) ≤ x / 10 ^ (e - 5) := by
    rw [le_div_iff₀ (ten_pos _)]
    refine le_trans (le_of_eq ?_) h1
    rw [zpow_sub₀ (by norm_num)]
    field_simp
  have h4 : x / 10 ^ (e - 5) < (10 ^ 6 : ℝ) := by
    rw [div_lt_iff₀ (ten_pos _)]
    refine h2.trans_le (le_of_eq ?_)
    rw [zpow_sub₀ (by norm_num), zpow_add₀ (by norm_num)]
    field_simp
  generalize x / 10 ^ (e - 5) = y at h3 h4
  have h5 : (10 ^ 5 : ℤ) ≤ ⌊y⌋ := Int.le_floor.2 (by push_cast; exact le_trans (by norm_num) h3)
  have h6 : ⌊y⌋ < (10 ^ 6 : ℤ) := Int.floor_lt.2 (by push_cast; exact h4.trans_le (by norm_num))
  rcases rne_cases y with ⟨_, h⟩ | ⟨_, h⟩ <;> rw [h] <;> constructor <;> omega

/-- The value of the digits. -/
theorem digits_spec {x : ℝ} (hx : 0 < x) :
    10 ^ 5 ≤ (digits x).1 ∧ (digits x).1 < 10 ^ 6 ∧
      ((digits x).1 : ℝ) * 10 ^ ((digits x).2 - 5) = rne (x / 10 ^ (Int.log 10 x - 5)) * 10 ^ (Int.log 10 x - 5) ∧
      (Even (rne (x / 10 ^ (Int.log 10 x - 5))) → Even (digits x).1) := by
  obtain ⟨h1, h2⟩ := units_bounds hx
  unfold digits
  dsimp only
  generalize rne (x / 10 ^ (Int.log 10 x - 5)) = n at h1 h2
  lift n to ℕ using (by omega)
  rw [Int.toNat_natCast]
  split
  · rename_i h
    refine ⟨le_rfl, by norm_num, ?_, fun _ => (by decide : Even (10 ^ 5))⟩
    rw [h, show Int.log 10 x + 1 - 5 = 1 + (Int.log 10 x - 5) by ring, zpow_add₀ (by norm_num) 1]
    push_cast
    ring
  · rename_i h
    refine ⟨by omega, by omega, by push_cast; rfl, fun h => by exact_mod_cast h⟩

/-- The digits are those of the nearest number with six digits. -/
theorem digits_nearest {x : ℝ} (hx : 0 < x) : NearestSix x (((digits x).1 : ℝ) * 10 ^ ((digits x).2 - 5)) := by
  obtain ⟨hm1, hm2, hv, hev⟩ := digits_spec hx
  have h1 : (10 : ℝ) ^ Int.log 10 x ≤ x := by
    have := Int.zpow_log_le_self (b := 10) (by norm_num) hx
    exact_mod_cast this
  have hkey : ∀ d', Six d' → d' ≠ (((digits x).1 : ℝ) * 10 ^ ((digits x).2 - 5)) →
      |((digits x).1 : ℝ) * 10 ^ ((digits x).2 - 5) - x| < |d' - x| ∨
      (|((digits x).1 : ℝ) * 10 ^ ((digits x).2 - 5) - x| ≤ |d' - x| ∧
        (|d' - x| = |((digits x).1 : ℝ) * 10 ^ ((digits x).2 - 5) - x| → Even (digits x).1)) := by
    intro d' hd' hne
    rw [hv] at hne ⊢
    have hs := ten_pos (Int.log 10 x - 5)
    have hxs : x = x / 10 ^ (Int.log 10 x - 5) * 10 ^ (Int.log 10 x - 5) := by field_simp
    have habs : ∀ n : ℤ, |(n : ℝ) * 10 ^ (Int.log 10 x - 5) - x| =
        |(n : ℝ) - x / 10 ^ (Int.log 10 x - 5)| * 10 ^ (Int.log 10 x - 5) := by
      intro n
      have := abs_mul ((n : ℝ) - x / 10 ^ (Int.log 10 x - 5)) (10 ^ (Int.log 10 x - 5))
      rwa [abs_of_pos hs, sub_mul, ← hxs] at this
    rcases le_or_gt (10 ^ Int.log 10 x) d' with hd | hd
    · refine Or.inr ?_
      obtain ⟨n, rfl⟩ := six_mult hd' (hd.trans (le_abs_self _))
      rw [habs, habs]
      refine ⟨mul_le_mul_of_nonneg_right (rne_nearest _ _) hs.le, fun h => hev ?_⟩
      refine rne_tie (n := n) ?_ (mul_right_cancel₀ hs.ne' h)
      rintro rfl
      exact hne rfl
    · refine Or.inl ?_
      have h2 : |(rne (x / 10 ^ (Int.log 10 x - 5)) : ℝ) * 10 ^ (Int.log 10 x - 5) - x| ≤
          |((10 ^ 5 : ℤ) : ℝ) * 10 ^ (Int.log 10 x - 5) - x| := by
        rw [habs, habs]
        exact mul_le_mul_of_nonneg_right (rne_nearest _ _) hs.le
      have h3 : ((10 ^ 5 : ℤ) : ℝ) * 10 ^ (Int.log 10 x - 5) = 10 ^ Int.log 10 x := by
        rw [zpow_sub₀ (by norm_num)]
        push_cast
        field_simp
        norm_num
      rw [h3, abs_of_nonpos (by linarith : (10 : ℝ) ^ Int.log 10 x - x ≤ 0)] at h2
      rw [abs_of_neg (by linarith : d' - x < 0)]
      linarith
  refine ⟨⟨(digits x).1, (digits x).2 - 5, ?_, by push_cast; rfl⟩, ?_, ?_⟩
  · rw [abs_of_nonneg (by omega)]; exact_mod_cast hm2
  · intro d' hd'
    by_cases hne : d' = (((digits x).1 : ℝ) * 10 ^ ((digits x).2 - 5))
    · rw [hne]
    · rcases hkey d' hd' hne with h | h
      · exact h.le
      · exact h.1
  · rintro ⟨d', hd', hne, he⟩
    refine ⟨(digits x).1, (digits x).2 - 5, ?_, ?_, by push_cast; rfl, ?_⟩
    · rw [abs_of_nonneg (by omega)]; exact_mod_cast hm1
    · rw [abs_of_nonneg (by omega)]; exact_mod_cast hm2
    · rcases hkey d' hd' hne with h | h
      · exact absurd he h.ne'
      · exact_mod_cast h.2 he

theorem nearest_neg {x d : ℝ} (h : NearestSix x d) : NearestSix (-x) (-d) := by
  have hsub : ∀ a b : ℝ, |-a - -b| = |a - b| := fun a b => by rw [← neg_sub_neg, ← abs_neg]; congr 1; ring
  refine ⟨six_neg h.1, fun d' hd' => ?_, ?_⟩
  · have := h.2.1 _ (six_neg hd')
    rwa [← hsub, ← hsub (-d'), neg_neg] at this
  · rintro ⟨d', hd', hne, he⟩
    obtain ⟨k, j, h1, h2, h3, h4⟩ := h.2.2 ⟨-d', six_neg hd', fun h0 => hne (by rw [← h0, neg_neg]), by
      rw [← hsub, ← hsub d, neg_neg]; exact he⟩
    exact ⟨-k, j, by rwa [abs_neg], by rwa [abs_neg], by rw [h3]; push_cast; ring, h4.neg⟩

theorem nearest_zero : NearestSix 0 0 :=
  ⟨⟨0, 0, by norm_num, by simp⟩, fun d' _ => by simp, fun ⟨d', _, hne, he⟩ => by simp at he; exact absurd he hne⟩

end Verif.RealText
