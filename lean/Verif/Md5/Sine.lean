import Verif.Md5.Spec
import Mathlib.Analysis.Complex.Trigonometric
import Mathlib.Tactic.NormNum
import Mathlib.Tactic.Linarith
import Mathlib.Tactic.Ring
import Mathlib.Tactic.Positivity

/-!
# The table of sines

`T[i] = ⌊2^32 |sin i|⌋` for `1 ≤ i ≤ 64`. The sines are bounded with integer arithmetic: `sin n` and `cos n`, scaled by `K`, are
approximated through the addition theorem from `sin 1` and `cos 1`, which come from the power series of `exp`.
-/

namespace Verif.Md5.Sine

open Complex

theorem series (k : Nat) : ∑ m ∈ Finset.range (2 * k), (I : ℂ) ^ m / (m.factorial : ℂ) =
    ((∑ j ∈ Finset.range k, (-1 : ℝ) ^ j / ((2 * j).factorial : ℝ) : ℝ) : ℂ) +
      ((∑ j ∈ Finset.range k, (-1 : ℝ) ^ j / ((2 * j + 1).factorial : ℝ) : ℝ) : ℂ) * I := by
  induction k with
  | zero => simp
  | succ k ih =>
    rw [show 2 * (k + 1) = 2 * k + 1 + 1 by ring, Finset.sum_range_succ, Finset.sum_range_succ, ih, Finset.sum_range_succ,
      Finset.sum_range_succ, pow_succ, pow_mul, I_sq]
    push_cast
    ring

theorem series_bound (k : Nat) (hk : 0 < k) :
    |Real.cos 1 - ∑ j ∈ Finset.range k, (-1 : ℝ) ^ j / ((2 * j).factorial : ℝ)| ≤
      ((2 * k).succ * ((2 * k).factorial * (2 * k : ℕ) : ℝ)⁻¹) ∧
    |Real.sin 1 - ∑ j ∈ Finset.range k, (-1 : ℝ) ^ j / ((2 * j + 1).factorial : ℝ)| ≤
      ((2 * k).succ * ((2 * k).factorial * (2 * k : ℕ) : ℝ)⁻¹) := by
  have h := Complex.exp_bound (x := I) (by simp) (n := 2 * k) (by omega)
  rw [series] at h
  have e : exp I = ((Real.cos 1 : ℝ) : ℂ) + ((Real.sin 1 : ℝ) : ℂ) * I := by
    have := Complex.exp_mul_I 1
    rw [one_mul] at this
    rw [this]
    push_cast
    rfl
  rw [e] at h
  simp only [norm_I, one_pow, one_mul] at h
  have hre := (Complex.abs_re_le_norm _).trans h
  have him := (Complex.abs_im_le_norm _).trans h
  simp only [sub_re, add_re, mul_re, ofReal_re, ofReal_im, I_re, I_im, mul_zero, zero_mul, sub_zero, add_zero] at hre
  simp only [sub_im, add_im, mul_im, ofReal_re, ofReal_im, I_re, I_im, mul_zero, mul_one, zero_add, add_zero] at him
  exact ⟨hre, him⟩

/-- The scale. -/
def K : Int := 10 ^ 45

/-- `K cos 1` and `K sin 1`, rounded. -/
def C1 : Int := 540302305868139717400936607442976603732310420
def S1 : Int := 841470984807896506652502321630298999622563060

theorem cos_one : |Real.cos 1 * K - C1| ≤ 10 := by
  obtain ⟨h, -⟩ := series_bound 20 (by norm_num)
  norm_num [Finset.sum_range_succ, Nat.factorial] at h
  norm_num [K, C1]
  rw [abs_le] at h ⊢
  constructor <;> linarith [h.1, h.2]

theorem sin_one : |Real.sin 1 * K - S1| ≤ 10 := by
  obtain ⟨-, h⟩ := series_bound 20 (by norm_num)
  norm_num [Finset.sum_range_succ, Nat.factorial] at h
  norm_num [K, S1]
  rw [abs_le] at h ⊢
  constructor <;> linarith [h.1, h.2]

/-- Approximations of `K cos n` and `K sin n`, and a bound of the error. -/
def approx : Nat → Int × Int × Int
  | 0 => (K, 0, 0)
  | n + 1 =>
    let p := approx n
    ((p.1 * C1 - p.2.1 * S1) / K, (p.2.1 * C1 + p.1 * S1) / K, 2 * p.2.2 + 21)

theorem K_pos : (0 : ℝ) < (K : ℝ) := by norm_num [K]

theorem div_near (a : Int) : |((a / K : Int) : ℝ) - (a : ℝ) / (K : ℝ)| ≤ 1 := by
  have h1 : (0 : Int) < K := by decide
  have h2 := Int.emod_nonneg a (ne_of_gt h1)
  have h3 := Int.emod_lt_of_pos a h1
  have h4 : (a : ℝ) = (K : ℝ) * ((a / K : Int) : ℝ) + ((a % K : Int) : ℝ) := by exact_mod_cast (Int.mul_ediv_add_emod a K).symm
  have h5 : (a : ℝ) / (K : ℝ) = ((a / K : Int) : ℝ) + ((a % K : Int) : ℝ) / K := by
    conv_lhs => rw [h4, add_div, mul_div_cancel_left₀ _ (ne_of_gt K_pos)]
  rw [h5, abs_le]
  have h6 : (0 : ℝ) ≤ ((a % K : Int) : ℝ) / K := div_nonneg (by exact_mod_cast h2) (le_of_lt K_pos)
  have h7 : ((a % K : Int) : ℝ) / K ≤ 1 := by
    rw [div_le_one K_pos]
    exact_mod_cast le_of_lt h3
  constructor <;> linarith

/-- The error of a product. -/
theorem mul_near {x y : ℝ} {X Y : Int} {e : ℝ} (hx : |x| ≤ 1) (hX : |x * K - X| ≤ e) (hY : |y * K - Y| ≤ 10)
    (hYK : |(Y : ℝ)| ≤ K) : |x * y * K - (X * Y : ℝ) / K| ≤ 10 + e := by
  have hK := K_pos
  have e1 : x * y * K - (X * Y : ℝ) / K = x * (y * K - Y) + (x * K - X) * (Y / K) := by
    field_simp
    ring
  rw [e1]
  refine (abs_add_le _ _).trans ?_
  rw [abs_mul, abs_mul]
  have h1 : |x| * |y * K - Y| ≤ 1 * 10 := mul_le_mul hx hY (abs_nonneg _) (by norm_num)
  have h2 : |(Y : ℝ) / K| ≤ 1 := by rw [abs_div, abs_of_pos hK, div_le_one hK]; exact hYK
  have h3 : |x * K - X| * |(Y : ℝ) / K| ≤ e * 1 := mul_le_mul hX h2 (abs_nonneg _) ((abs_nonneg _).trans hX)
  linarith

theorem approx_ok (n : Nat) : |Real.cos n * K - (approx n).1| ≤ (approx n).2.2 ∧
    |Real.sin n * K - (approx n).2.1| ≤ (approx n).2.2 := by
  induction n with
  | zero => simp [approx]
  | succ n ih =>
    have hC : |((C1 : Int) : ℝ)| ≤ K := by norm_num [C1, K]
    have hS : |((S1 : Int) : ℝ)| ≤ K := by norm_num [S1, K]
    have cc := mul_near (Real.abs_cos_le_one n) ih.1 cos_one hC
    have ss := mul_near (Real.abs_sin_le_one n) ih.2 sin_one hS
    have sc := mul_near (Real.abs_sin_le_one n) ih.2 cos_one hC
    have cs := mul_near (Real.abs_cos_le_one n) ih.1 sin_one hS
    have d1 := div_near ((approx n).1 * C1 - (approx n).2.1 * S1)
    have d2 := div_near ((approx n).2.1 * C1 + (approx n).1 * S1)
    push_cast at d1 d2
    rw [sub_div] at d1
    rw [add_div] at d2
    simp only [approx]
    push_cast
    rw [Real.cos_add, Real.sin_add]
    rw [abs_le] at cc ss sc cs d1 d2 ⊢
    rw [abs_le]
    refine ⟨⟨?_, ?_⟩, ?_, ?_⟩ <;> nlinarith [cc.1, cc.2, ss.1, ss.2, sc.1, sc.2, cs.1, cs.2, d1.1, d1.2, d2.1, d2.2]

/-- `t` is the integer part of `2^32 |sin n|` as far as the approximation can tell. -/
def fits (n t : Nat) : Bool :=
  let p := approx n
  let a : Int := if p.2.1 < 0 then -p.2.1 else p.2.1
  decide (t * K ≤ 4294967296 * (a - p.2.2)) && decide (4294967296 * (a + p.2.2) < (t + 1) * K)

theorem fits_ok {n t : Nat} (h : fits n t = true) : ⌊4294967296 * |Real.sin n|⌋₊ = t := by
  obtain ⟨-, hs⟩ := approx_ok n
  simp only [fits, Bool.and_eq_true, decide_eq_true_eq] at h
  obtain ⟨h1, h2⟩ := h
  generalize approx n = p at hs h1 h2
  have ha : (((if p.2.1 < 0 then -p.2.1 else p.2.1 : Int)) : ℝ) = |(p.2.1 : ℝ)| := by
    split
    · rename_i h
      have : (p.2.1 : ℝ) < 0 := by exact_mod_cast h
      rw [abs_of_neg this]; push_cast; rfl
    · rename_i h
      have : (0 : ℝ) ≤ p.2.1 := by exact_mod_cast not_lt.1 h
      rw [abs_of_nonneg this]
  have g1 : (t : ℝ) * K ≤ 4294967296 * (|(p.2.1 : ℝ)| - p.2.2) := by rw [← ha]; exact_mod_cast h1
  have g2 : 4294967296 * (|(p.2.1 : ℝ)| + p.2.2) < ((t : ℝ) + 1) * K := by rw [← ha]; exact_mod_cast h2
  have hK := K_pos
  have hab : abs ((abs (Real.sin n) * K) - abs (p.2.1 : ℝ)) ≤ p.2.2 := by
    have := abs_abs_sub_abs_le_abs_sub (Real.sin n * K) p.2.1
    rw [abs_mul, abs_of_pos hK] at this
    exact this.trans hs
  rw [abs_le] at hab
  rw [Nat.floor_eq_iff (by positivity)]
  constructor
  · refine le_of_mul_le_mul_right ?_ hK
    nlinarith [hab.1]
  · refine lt_of_mul_lt_mul_right ?_ (le_of_lt hK)
    nlinarith [hab.2]

end Verif.Md5.Sine
