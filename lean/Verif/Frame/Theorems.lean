import Verif.Frame.Model
import Verif.Angle.PropsRound
import Verif.Num.Theorems

/-!
# C137 — frametime conversions
-/

namespace Verif.Frame

open Verif Verif.Num Verif.Angle.Spec Verif.Angle

noncomputable section

/-- **C137.** In exact arithmetic the conversions undo each other, sixty units of frametime are a
second, and frames per second are the inverse of the duration of a frame in seconds. -/
theorem C137_exact (x : ℝ) :
    getSecondsToFT id (getFTToSeconds id x) = x ∧ getFTToSeconds id (getSecondsToFT id x) = x ∧
    getFTToSeconds id 60 = 1 ∧
    (x ≠ 0 → ∃ f, getFTToFPS id x = some f ∧ f * getFTToSeconds id x = 1 ∧ getFTToFPS id f = some x) := by
  refine ⟨by simp [getSecondsToFT, getFTToSeconds, secondsFTRatio],
    by simp [getSecondsToFT, getFTToSeconds, secondsFTRatio],
    by simp [getFTToSeconds, secondsFTRatio], fun h => ⟨60 / x, ?_, ?_, ?_⟩⟩
  · simp [getFTToFPS, h, secondsFTRatio]
  · simp only [getFTToSeconds, secondsFTRatio, id]; field_simp
  · have : (60 : ℝ) / x ≠ 0 := by positivity
    rw [getFTToFPS, if_neg this]
    simp only [secondsFTRatio, id]
    congr 1
    field_simp

/-- **C137.** With rounding the same holds up to the relative error of two roundings. -/
theorem C137_rounded {fl : ℝ → ℝ} {u : ℝ} (hf : Precise fl u) (hu : u < 1) (x : ℝ) :
    |getSecondsToFT fl (getFTToSeconds fl x) - x| ≤ ((1 + u) ^ 2 - 1) * |x| ∧
    |getFTToSeconds fl (getSecondsToFT fl x) - x| ≤ ((1 + u) ^ 2 - 1) * |x| ∧
    (x ≠ 0 → ∃ f, getFTToFPS fl x = some f ∧ |f * getFTToSeconds fl x - 1| ≤ (1 + u) ^ 2 - 1 ∧
      ∃ y, getFTToFPS fl f = some y ∧ |y - x| ≤ ((1 + u) / (1 - u) - 1) * |x|) := by
  have hu0 := hf.nonneg
  have h60 : Angle.Rel 0 (60 : ℝ) 60 := by simp [Angle.Rel]
  have e : (1 + u) ^ 2 - 1 = (1 + u) * (1 + u) - 1 := by ring
  rw [e]
  refine ⟨?_, ?_, fun hx => ?_⟩
  · have h1 := (hf.rel (x / 60)).mul le_rfl hu0 h60
    simp only [add_zero, mul_one, add_sub_cancel_left] at h1
    rw [div_mul_cancel₀ _ (by norm_num)] at h1
    exact h1.trans hu0 (hf.rel _)
  · have h1 := (hf.rel (x * 60)).div hu0 le_rfl (by norm_num) (by norm_num) h60
    simp only [sub_zero, div_one, add_sub_cancel_left] at h1
    rw [mul_div_cancel_right₀ _ (by norm_num)] at h1
    exact h1.trans hu0 (hf.rel _)
  · have hne : (60 : ℝ) / x ≠ 0 := by positivity
    refine ⟨fl (60 / x), by rw [getFTToFPS, if_neg hx, secondsFTRatio], ?_, ?_⟩
    · have h1 := (hf.rel (60 / x)).mul hu0 hu0 (hf.rel (x / 60))
      have e2 : 60 / x * (x / 60) = 1 := by field_simp
      rw [e2] at h1
      have h2 : |fl (60 / x) * fl (x / 60) - 1| ≤ ((1 + u) * (1 + u) - 1) * |(1 : ℝ)| := h1
      rw [abs_one, mul_one] at h2
      exact h2
    · have hi := (hf.rel (60 / x)).inv hu hne
      refine ⟨fl (60 / fl (60 / x)), by rw [getFTToFPS, if_neg hi.2, secondsFTRatio], ?_⟩
      have h1 := h60.div le_rfl hu0 hu hne (hf.rel (60 / x))
      have h2 := h1.trans hu0 (hf.rel _)
      have e2 : (60 : ℝ) / (60 / x) = x := by field_simp
      have e3 : (1 + ((1 + 0) / (1 - u) - 1)) * (1 + u) - 1 = (1 + u) / (1 - u) - 1 := by ring
      rw [e2, e3] at h2
      exact h2

/-! ### Integer types -/

theorem toInt_nonneg {t : ITy} {x : ℝ} {r : ℤ} (h0 : 0 ≤ r) (hb : Between t r) (h1 : (r : ℝ) ≤ x) (h2 : x < r + 1) :
    toInt t x = .ok ⟨t, r⟩ := by
  have hx : 0 ≤ x := le_trans (by exact_mod_cast h0) h1
  have hr : ⌊x⌋ = r := by rw [Int.floor_eq_iff]; exact ⟨h1, h2⟩
  simp only [toInt, if_pos hx, hr, (fits_iff t r).2 hb, if_true]

/-- Rounding does not reach the next integer. -/
theorem fl_quot {fl : ℝ → ℝ} {u : ℝ} (hf : Precise fl u) (hmono : Monotone fl) (m d : ℕ) (hd : 0 < d)
    (hm : (m : ℝ) * u < 1) (hk : fl ((m / d : ℕ) : ℝ) = ((m / d : ℕ) : ℝ)) :
    ((m / d : ℕ) : ℝ) ≤ fl ((m : ℝ) / d) ∧ fl ((m : ℝ) / d) < ((m / d : ℕ) : ℝ) + 1 := by
  have hd' : (0 : ℝ) < d := by exact_mod_cast hd
  have h1 : m / d * d ≤ m := Nat.div_mul_le_self m d
  have h2 : m + 1 ≤ (m / d + 1) * d := by
    have := Nat.lt_div_mul_add (a := m) hd
    rw [Nat.add_mul, Nat.one_mul]
    omega
  generalize m / d = q at *
  have h1' : (q : ℝ) * d ≤ m := by exact_mod_cast h1
  have h2' : (m : ℝ) + 1 ≤ (q + 1) * d := by exact_mod_cast h2
  constructor
  · have := hmono (show (q : ℝ) ≤ m / d by rw [le_div_iff₀ hd']; exact h1')
    rwa [hk] at this
  · have h0 : (0 : ℝ) ≤ m / d := by positivity
    refine lt_of_le_of_lt (hf.between h0).2 ?_
    have e : (1 + u) * ((m : ℝ) / d) = (m + m * u) / d := by ring
    rw [e, div_lt_iff₀ hd']
    linarith

theorem fl_quot_neg {fl : ℝ → ℝ} {u : ℝ} (hf : Precise fl u) (hmono : Monotone fl) (m d : ℕ) (hd : 0 < d)
    (hm : (m : ℝ) * u < 1) (hk : fl (-((m / d : ℕ) : ℝ)) = -((m / d : ℕ) : ℝ)) :
    fl (-((m : ℝ) / d)) ≤ -((m / d : ℕ) : ℝ) ∧ -((m / d : ℕ) : ℝ) - 1 < fl (-((m : ℝ) / d)) := by
  have hd' : (0 : ℝ) < d := by exact_mod_cast hd
  have h1 : m / d * d ≤ m := Nat.div_mul_le_self m d
  have h2 : m + 1 ≤ (m / d + 1) * d := by
    have := Nat.lt_div_mul_add (a := m) hd
    rw [Nat.add_mul, Nat.one_mul]
    omega
  generalize m / d = q at *
  have h1' : (q : ℝ) * d ≤ m := by exact_mod_cast h1
  have h2' : (m : ℝ) + 1 ≤ (q + 1) * d := by exact_mod_cast h2
  constructor
  · have := hmono (show -((m : ℝ) / d) ≤ -(q : ℝ) by
      rw [neg_le_neg_iff, le_div_iff₀ hd']; exact h1')
    rwa [hk] at this
  · have h0 : (0 : ℝ) ≤ m / d := by positivity
    have h3 := hf (-((m : ℝ) / d))
    rw [abs_neg, abs_of_nonneg h0] at h3
    have h4 := (abs_le.mp h3).1
    have h5 : (1 + u) * ((m : ℝ) / d) < q + 1 := by
      have e : (1 + u) * ((m : ℝ) / d) = (m + m * u) / d := by ring
      rw [e, div_lt_iff₀ hd']
      linarith
    linarith

theorem toInt_neg {t : ITy} {x : ℝ} {r : ℤ} (h0 : r ≤ 0) (hb : Between t r) (h1 : x ≤ r) (h2 : (r : ℝ) - 1 < x) :
    toInt t x = .ok ⟨t, r⟩ := by
  by_cases hx : 0 ≤ x
  · have hr : (r : ℝ) = 0 := by
      have : (r : ℝ) ≤ 0 := by exact_mod_cast h0
      linarith
    have hr' : r = 0 := by exact_mod_cast hr
    have hx0 : x = 0 := by linarith
    subst hr' hx0
    simp only [toInt, le_refl, if_true, Int.floor_zero, (fits_iff t 0).2 hb]
  · have hr : ⌈x⌉ = r := by rw [Int.ceil_eq_iff]; exact ⟨h2, h1⟩
    simp only [toInt, if_neg hx, hr, (fits_iff t r).2 hb, if_true]

/-- Division in rounded arithmetic followed by truncation is the division of integers. -/
theorem toInt_quot {fl : ℝ → ℝ} {u : ℝ} (hf : Precise fl u) (hmono : Monotone fl)
    (hk : ∀ k : ℤ, |k| ≤ 2 ^ 24 → fl k = k) (t : ITy) (m d : ℤ) (hd : d ≠ 0) (hm : |(m : ℝ)| * u < 1)
    (hm' : |m| ≤ 2 ^ 24) (hb : Between t (m.tdiv d)) : toInt t (fl ((m : ℝ) / d)) = .ok ⟨t, m.tdiv d⟩ := by
  have pos : ∀ a b : ℕ, 0 < b → (a : ℝ) * u < 1 → a ≤ 2 ^ 24 → Between t ((a / b : ℕ) : ℤ) →
      toInt t (fl ((a : ℝ) / b)) = .ok ⟨t, ((a / b : ℕ) : ℤ)⟩ := by
    intro a b hb0 ha ha' hbt
    have hle : a / b ≤ a := Nat.div_le_self a b
    have hkk := hk ((a / b : ℕ) : ℤ) (by
      rw [abs_of_nonneg (by positivity)]; exact_mod_cast hle.trans ha')
    have q := fl_quot hf hmono a b hb0 ha (by exact_mod_cast hkk)
    exact toInt_nonneg (by positivity) hbt (by exact_mod_cast q.1) (by exact_mod_cast q.2)
  have neg : ∀ a b : ℕ, 0 < b → (a : ℝ) * u < 1 → a ≤ 2 ^ 24 → Between t (-((a / b : ℕ) : ℤ)) →
      toInt t (fl (-((a : ℝ) / b))) = .ok ⟨t, -((a / b : ℕ) : ℤ)⟩ := by
    intro a b hb0 ha ha' hbt
    have hle : a / b ≤ a := Nat.div_le_self a b
    have hkk := hk (-((a / b : ℕ) : ℤ)) (by
      rw [abs_neg, abs_of_nonneg (by positivity)]; exact_mod_cast hle.trans ha')
    have q := fl_quot_neg hf hmono a b hb0 ha (by push_cast at hkk ⊢; exact hkk)
    refine toInt_neg ?_ hbt ?_ ?_
    · have : (0 : ℤ) ≤ ((a / b : ℕ) : ℤ) := by positivity
      omega
    · push_cast at q ⊢; exact q.1
    · push_cast at q ⊢; exact q.2
  obtain ⟨a, rfl | rfl⟩ := m.eq_nat_or_neg <;> obtain ⟨b, rfl | rfl⟩ := d.eq_nat_or_neg
  · have := pos a b (by omega) (by simpa using hm) (by
      rw [abs_of_nonneg (by positivity)] at hm'; exact_mod_cast hm') (by simpa using hb)
    simpa using this
  · have hb0 : 0 < b := by omega
    have := neg a b hb0 (by simpa using hm) (by
      rw [abs_of_nonneg (by positivity)] at hm'; exact_mod_cast hm') (by simpa [Int.tdiv_neg] using hb)
    push_cast [div_neg, Int.tdiv_neg] at this ⊢
    simpa using this
  · have hb0 : 0 < b := by omega
    have := neg a b hb0 (by simpa using hm) (by
      rw [abs_neg, abs_of_nonneg (by positivity)] at hm'; exact_mod_cast hm') (by simpa [Int.neg_tdiv] using hb)
    push_cast [neg_div, Int.neg_tdiv] at this ⊢
    simpa using this
  · have hb0 : 0 < b := by omega
    have := pos a b hb0 (by simpa using hm) (by
      rw [abs_neg, abs_of_nonneg (by positivity)] at hm'; exact_mod_cast hm')
      (by simpa [Int.neg_tdiv, Int.tdiv_neg] using hb)
    push_cast [neg_div_neg_eq, Int.neg_tdiv, Int.tdiv_neg] at this ⊢
    simpa using this

/-- **C137.** For integer types: with a rounding that is exact on the integers up to `2^24` and has a
relative error of at most `2^-24`, the seconds are the whole seconds, the frametime is exact and the
frames per second are truncated, as long as the numbers are below `2^24`. -/
theorem C137_integers {fl : ℝ → ℝ} {u : ℝ} (hf : Precise fl u) (hu : u ≤ 2 ^ (-24 : ℤ)) (hmono : Monotone fl)
    (hk : ∀ k : ℤ, |k| ≤ 2 ^ 24 → fl k = k) (t : ITy) (n : ℤ) :
    (|n| < 2 ^ 24 → Between t (n.tdiv 60) → getFTToSecondsInt fl ⟨t, n⟩ = .ok ⟨t, n.tdiv 60⟩) ∧
    (|n * 60| ≤ 2 ^ 24 → Between t (n * 60) → getSecondsToFTInt fl ⟨t, n⟩ = .ok ⟨t, n * 60⟩) ∧
    (n ≠ 0 → |n| ≤ 2 ^ 24 → Between t (Int.tdiv 60 n) →
      getFTToFPSInt fl ⟨t, n⟩ = .ok ⟨t, Int.tdiv 60 n⟩) := by
  have hu0 := hf.nonneg
  have a4 : (2 : ℝ) ^ 24 * 2 ^ (-24 : ℤ) = 1 := by norm_num
  refine ⟨fun h hb' => ?_, fun h hb' => ?_, fun h0 h hb' => ?_⟩
  · have hm : |(n : ℝ)| * u < 1 := by
      have a1 : |(n : ℝ)| < 2 ^ 24 := by exact_mod_cast h
      have a2 : |(n : ℝ)| * u ≤ |(n : ℝ)| * 2 ^ (-24 : ℤ) := mul_le_mul_of_nonneg_left hu (abs_nonneg _)
      have a3 : |(n : ℝ)| * 2 ^ (-24 : ℤ) < 2 ^ 24 * 2 ^ (-24 : ℤ) := mul_lt_mul_of_pos_right a1 (by positivity)
      linarith
    have q := toInt_quot hf hmono hk t n 60 (by norm_num) hm h.le hb'
    simp only [getFTToSecondsInt, secondsFTRatio, hk n h.le]
    exact_mod_cast q
  · have hn : |n| ≤ 2 ^ 24 := by
      rw [abs_mul] at h
      have := abs_nonneg n
      norm_num at h ⊢
      omega
    have e : getSecondsToFTInt fl ⟨t, n⟩ = toInt t ((n * 60 : ℤ) : ℝ) := by
      simp only [getSecondsToFTInt, secondsFTRatio, hk n hn]
      rw [← hk (n * 60) h]
      norm_num
    rw [e]
    rcases le_total 0 (n * 60) with h1 | h1
    · exact toInt_nonneg h1 hb' le_rfl (by linarith)
    · exact toInt_neg h1 hb' le_rfl (by linarith)
  · have hm : |((60 : ℤ) : ℝ)| * u < 1 := by
      have a2 : |((60 : ℤ) : ℝ)| * u ≤ 60 * 2 ^ (-24 : ℤ) := by
        norm_num at hu ⊢
        linarith
      have a4 : (60 : ℝ) * 2 ^ (-24 : ℤ) < 1 := by norm_num
      linarith
    have q := toInt_quot hf hmono hk t 60 n h0 hm (by norm_num) hb'
    have hne : (n : ℝ) ≠ 0 := by exact_mod_cast h0
    simp only [getFTToFPSInt, secondsFTRatio, hk n h, if_neg hne]
    exact_mod_cast q

/-- **C137.** So whole seconds survive the conversion to frametime and back. -/
theorem C137_integers_round_trip {fl : ℝ → ℝ} {u : ℝ} (hf : Precise fl u) (hu : u ≤ 2 ^ (-24 : ℤ))
    (hmono : Monotone fl) (hk : ∀ k : ℤ, |k| ≤ 2 ^ 24 → fl k = k) (t : ITy) (n : ℤ) (h : |n * 60| < 2 ^ 24)
    (hb : Between t (n * 60)) (hbn : Between t n) :
    (getSecondsToFTInt fl ⟨t, n⟩ >>= getFTToSecondsInt fl) = .ok ⟨t, n⟩ := by
  have e : (n * 60).tdiv 60 = n := Int.mul_tdiv_cancel n (by norm_num)
  rw [(C137_integers hf hu hmono hk t n).2.1 h.le hb, Outcome.bind_ok,
    (C137_integers hf hu hmono hk t (n * 60)).1 h (by rw [e]; exact hbn), e]

/-- **C137 fails for larger integers.** With the precision of `float`, 16777259 units of frametime are
said to be 279621 seconds, although they are one unit short of it. -/
theorem C137_large_integers_fail :
    getFTToSecondsInt (nearest 24) ⟨.i32, 16777259⟩ = .ok ⟨.i32, 279621⟩ ∧ 16777259 / 60 = 279620 := by
  refine ⟨?_, by norm_num⟩
  have h : Int.log 2 |(16777259 : ℝ)| = 24 := by
    rw [abs_of_pos (by norm_num)]
    have := Int.log_natCast (R := ℝ) 2 16777259
    have e : Nat.log 2 16777259 = 24 := by decide +kernel
    rw [e] at this
    exact_mod_cast this
  have h1 : nearest 24 (16777259 : ℝ) = 16777260 := by
    unfold nearest
    rw [h, round_eq]
    have : ⌊(16777259 : ℝ) / 2 ^ ((24 : ℤ) + 1 - (24 : ℕ)) + 1 / 2⌋ = 8388630 := by
      rw [Int.floor_eq_iff]; norm_num
    rw [this]
    norm_num
  have h2 : nearest 24 (279621 : ℝ) = 279621 := by
    have := nearest_int (p := 24) (by norm_num) 279621 (by norm_num)
    exact_mod_cast this
  have e : getFTToSecondsInt (nearest 24) ⟨.i32, 16777259⟩ = toInt .i32 279621 := by
    simp only [getFTToSecondsInt, secondsFTRatio]
    push_cast
    rw [h1, show (16777260 : ℝ) / 60 = 279621 by norm_num, h2]
  rw [e]
  exact toInt_nonneg (r := 279621) (by norm_num) (by decide) (by norm_num) (by norm_num)

/-- **C137.** No frametime at all: an infinity, or undefined behaviour for integer types. -/
theorem C137_zero {fl : ℝ → ℝ} (h : fl 0 = 0) (t : ITy) :
    getFTToFPS fl 0 = none ∧ getFTToFPSInt fl ⟨t, 0⟩ = .ub := by
  simp [getFTToFPS, getFTToFPSInt, h]

/-- The hypotheses on the rounding are met by rounding to 24 binary digits, the precision of `float`. -/
theorem C137_example : Precise (nearest 24) (2 ^ (-24 : ℤ)) ∧ Monotone (nearest 24) ∧
    ∀ k : ℤ, |k| ≤ 2 ^ 24 → nearest 24 (k : ℝ) = k :=
  ⟨nearest_precise 24, nearest_mono (by norm_num), fun k hk => nearest_int (by norm_num) k hk⟩

end

end Verif.Frame
