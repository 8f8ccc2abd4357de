import Verif.Angle.Spec
import Mathlib.Tactic.Linarith
import Mathlib.Tactic.FieldSimp
import Mathlib.Tactic.Ring
import Mathlib.Analysis.Real.Pi.Bounds

/-!
# Angles: theorems
-/

namespace Verif.Angle

open Spec

/-! ## `fmod` -/

theorem fmod_spec {x y : ℝ} (hy : 0 < y) :
    ∃ r, fmod x y = some r ∧ Same y r x ∧ -y < r ∧ r < y ∧ (0 ≤ x → 0 ≤ r) ∧ (x ≤ 0 → r ≤ 0) := by
  have hy' : y ≠ 0 := ne_of_gt hy
  have hx : x = y * (x / y) := by field_simp
  unfold fmod
  rw [if_neg hy']
  by_cases h : 0 ≤ x / y
  · rw [if_pos h]
    have h1 := Int.floor_le (x / y)
    have h2 := Int.lt_floor_add_one (x / y)
    have h3 : y * (⌊x / y⌋ : ℝ) ≤ x := by
      calc y * (⌊x / y⌋ : ℝ) ≤ y * (x / y) := mul_le_mul_of_nonneg_left h1 hy.le
        _ = x := hx.symm
    have h4 : x < y * (⌊x / y⌋ : ℝ) + y := by
      calc x = y * (x / y) := hx
        _ < y * ((⌊x / y⌋ : ℝ) + 1) := mul_lt_mul_of_pos_left h2 hy
        _ = _ := by ring
    have h0 : 0 ≤ x := by rw [hx]; exact mul_nonneg hy.le h
    refine ⟨_, rfl, ⟨-⌊x / y⌋, by push_cast; ring⟩, by linarith, by linarith,
      fun _ => by linarith, fun h5 => ?_⟩
    have : x = 0 := le_antisymm h5 h0
    subst this
    simp
  · rw [if_neg h]
    have h1 := Int.le_ceil (x / y)
    have h2 := Int.ceil_lt_add_one (x / y)
    have h3 : x ≤ y * (⌈x / y⌉ : ℝ) := by
      calc x = y * (x / y) := hx
        _ ≤ _ := mul_le_mul_of_nonneg_left h1 hy.le
    have h4 : y * (⌈x / y⌉ : ℝ) < x + y := by
      calc y * (⌈x / y⌉ : ℝ) < y * (x / y + 1) := mul_lt_mul_of_pos_left h2 hy
        _ = y * (x / y) + y := by ring
        _ = x + y := by rw [← hx]
    have h0 : x < 0 := by
      by_contra hc
      exact h (div_nonneg (not_lt.mp hc) hy.le)
    exact ⟨_, rfl, ⟨-⌈x / y⌉, by push_cast; ring⟩, by linarith, by linarith,
      fun h5 => absurd h5 (not_le.mpr h0), fun _ => by linarith⟩

theorem Same.refl (p a : ℝ) : Same p a a := ⟨0, by simp⟩

theorem Same.symm {p a b : ℝ} (h : Same p a b) : Same p b a := by
  obtain ⟨k, hk⟩ := h
  exact ⟨-k, by push_cast; linarith⟩

theorem Same.trans {p a b c : ℝ} (h : Same p a b) (h' : Same p b c) : Same p a c := by
  obtain ⟨k, hk⟩ := h
  obtain ⟨l, hl⟩ := h'
  exact ⟨k + l, by push_cast; linarith⟩

/-! ## C87 — wrapping -/

theorem wrap_aux {fl : ℝ → ℝ} {p x : ℝ} (hp : 0 < p) :
    ∃ m w, fmod x p = some m ∧ 0 ≤ w ∧ w < p ∧ Same p w x ∧
      ((0 ≤ m ∧ m = w) ∨ (m < 0 ∧ x < 0 ∧ m + p = w)) := by
  obtain ⟨m, h1, h2, h3, h4, h5, h6⟩ := fmod_spec (x := x) hp
  by_cases hm : m < 0
  · refine ⟨m, m + p, h1, by linarith, by linarith, ?_, Or.inr ⟨hm, ?_, rfl⟩⟩
    · exact Same.trans ⟨1, by push_cast; ring⟩ h2
    · by_contra hc
      exact absurd (h5 (not_lt.mp hc)) (not_le.mpr hm)
  · exact ⟨m, m, h1, not_lt.mp hm, h4, h2, Or.inl ⟨not_lt.mp hm, rfl⟩⟩

/-- **C87.** In exact arithmetic a wrapped angle is in `[0, 360)` and is the same angle. -/
theorem C87_deg (x : ℝ) : ∃ r, getWrapDeg id x = some r ∧ 0 ≤ r ∧ r < 360 ∧ Same 360 r x := by
  obtain ⟨m, w, h1, h2, h3, h4, h5⟩ := wrap_aux (fl := id) (x := x) (p := 360) (by norm_num)
  refine ⟨w, ?_, h2, h3, h4⟩
  rcases h5 with ⟨h5, h6⟩ | ⟨h5, -, h6⟩
  · simp [getWrapDeg, h1, h6, not_lt.mpr h2]
  · simp [getWrapDeg, h1, h5, h6]

theorem C87_rad (k : Consts) (hk : 0 < k.tau) (x : ℝ) :
    ∃ r, getWrapRad id k x = some r ∧ 0 ≤ r ∧ r < k.tau ∧ Same k.tau r x := by
  obtain ⟨m, w, h1, h2, h3, h4, h5⟩ := wrap_aux (fl := id) (x := x) hk
  refine ⟨w, ?_, h2, h3, h4⟩
  rcases h5 with ⟨h5, h6⟩ | ⟨h5, -, h6⟩
  · simp [getWrapRad, h1, h6, not_lt.mpr h2]
  · simp [getWrapRad, h1, h5, h6]

/-- **C87 (rounded).** With rounding, the result is the true wrapped angle, or that angle rounded; it
is in `[0, 360]`, and below 360 if the given angle is not negative. -/
theorem C87_deg_rounded_partial {fl : ℝ → ℝ} {R : Set ℝ} (hf : Rounding fl R) (hR : (360 : ℝ) ∈ R)
    (h0 : (0 : ℝ) ∈ R) (x : ℝ) :
    ∃ r w, getWrapDeg fl x = some r ∧ (0 ≤ w ∧ w < 360 ∧ Same 360 w x) ∧ (r = w ∨ r = fl w) ∧
      0 ≤ r ∧ r ≤ 360 ∧ (0 ≤ x → r < 360) := by
  obtain ⟨m, w, h1, h2, h3, h4, h5⟩ := wrap_aux (fl := fl) (x := x) (p := 360) (by norm_num)
  rcases h5 with ⟨h5, h6⟩ | ⟨h5, h7, h6⟩
  · exact ⟨w, w, by simp [getWrapDeg, h1, h6, not_lt.mpr h2], ⟨h2, h3, h4⟩, Or.inl rfl, h2, h3.le,
      fun _ => h3⟩
  · refine ⟨fl w, w, by simp [getWrapDeg, h1, h5, h6], ⟨h2, h3, h4⟩, Or.inr rfl, ?_, ?_,
      fun h => absurd h (not_le.mpr h7)⟩
    · rw [← hf.exact 0 h0]; exact hf.mono h2
    · rw [← hf.exact 360 hR]; exact hf.mono h3.le

theorem C87_rad_rounded_partial {fl : ℝ → ℝ} {R : Set ℝ} (hf : Rounding fl R) (k : Consts)
    (hk : 0 < k.tau) (hR : k.tau ∈ R) (h0 : (0 : ℝ) ∈ R) (x : ℝ) :
    ∃ r w, getWrapRad fl k x = some r ∧ (0 ≤ w ∧ w < k.tau ∧ Same k.tau w x) ∧
      (r = w ∨ r = fl w) ∧ 0 ≤ r ∧ r ≤ k.tau ∧ (0 ≤ x → r < k.tau) := by
  obtain ⟨m, w, h1, h2, h3, h4, h5⟩ := wrap_aux (fl := fl) (x := x) hk
  rcases h5 with ⟨h5, h6⟩ | ⟨h5, h7, h6⟩
  · exact ⟨w, w, by simp [getWrapRad, h1, h6, not_lt.mpr h2], ⟨h2, h3, h4⟩, Or.inl rfl, h2, h3.le,
      fun _ => h3⟩
  · refine ⟨fl w, w, by simp [getWrapRad, h1, h5, h6], ⟨h2, h3, h4⟩, Or.inr rfl, ?_, ?_,
      fun h => absurd h (not_le.mpr h7)⟩
    · rw [← hf.exact 0 h0]; exact hf.mono h2
    · rw [← hf.exact _ hR]; exact hf.mono h3.le

/-- **C87 fails in floating point.** A small negative angle is wrapped to 360, which is not less than
a full turn, whenever 360 minus that angle rounds to 360. -/
theorem C87_deg_full_turn {fl : ℝ → ℝ} {x : ℝ} (h1 : -360 < x) (h2 : x < 0)
    (h3 : fl (x + 360) = 360) : getWrapDeg fl x = some 360 := by
  have hc : ⌈x / 360⌉ = 0 := by
    rw [Int.ceil_eq_iff]
    constructor
    · push_cast; linarith
    · push_cast; linarith
  have hn : ¬ (0 ≤ x / 360) := by
    intro h
    linarith
  have : fmod x 360 = some x := by
    unfold fmod
    rw [if_neg (by norm_num), if_neg hn, hc]
    simp
  simp [getWrapDeg, this, h2, h3]

/-- Wrapping twice is wrapping once. -/
theorem C87_idempotent (x : ℝ) : (getWrapDeg id x).bind (getWrapDeg id) = getWrapDeg id x := by
  obtain ⟨r, h1, h2, h3, -⟩ := C87_deg x
  rw [h1]
  have hc : ⌊r / 360⌋ = 0 := by
    rw [Int.floor_eq_iff]
    constructor
    · push_cast; linarith
    · push_cast; linarith
  have hn : 0 ≤ r / 360 := by linarith
  have : fmod r 360 = some r := by
    unfold fmod
    rw [if_neg (by norm_num), if_pos hn, hc]
    simp
  simp [getWrapDeg, this, not_lt.mpr h2]

/-! ## C88 — cycling -/

/-- **C88.** In exact arithmetic, the cycled value is in `[min, max)` and differs from the value by a
multiple of `max - min`. -/
theorem C88_exact (x min max : ℝ) (h : min < max) :
    ∃ r, getCycledValue id x min max = some r ∧ min ≤ r ∧ r < max ∧ Same (max - min) r x := by
  obtain ⟨m, w, h1, h2, h3, h4, h5⟩ :=
    wrap_aux (fl := id) (x := x - min) (p := max - min) (by linarith)
  refine ⟨min + w, ?_, by linarith, by linarith, ?_⟩
  · rcases h5 with ⟨h5, h6⟩ | ⟨h5, -, h6⟩
    · simp [getCycledValue, h1, h6, not_lt.mpr h2]
    · simp only [getCycledValue, id, h1]
      simp only [Option.bind_eq_bind, Option.bind_some, if_pos h5, h6]
      rfl
  · obtain ⟨k, hk⟩ := h4
    exact ⟨k, by linarith⟩

/-- A value in the range is left alone. -/
theorem C88_fixed (x min max : ℝ) (h1 : min ≤ x) (h2 : x < max) :
    getCycledValue id x min max = some x := by
  obtain ⟨r, h3, h4, h5, k, hk⟩ := C88_exact x min max (by linarith)
  have hk0 : k = 0 := by
    have hp : 0 < max - min := by linarith
    have ha : (k : ℝ) < 1 := by
      by_contra hc
      have := mul_le_mul_of_nonneg_right (not_lt.mp hc) hp.le
      linarith
    have hb : (-1 : ℝ) < k := by
      by_contra hc
      have := mul_le_mul_of_nonneg_right (not_lt.mp hc) hp.le
      linarith
    have ha' : k < 1 := by exact_mod_cast ha
    have hb' : -1 < k := by exact_mod_cast hb
    omega
  rw [hk0] at hk
  rw [h3]
  congr 1
  push_cast at hk
  linarith

/-- An empty range gives NaN. -/
theorem C88_empty (fl : ℝ → ℝ) (x min : ℝ) (h : fl 0 = 0) :
    getCycledValue fl x min min = none := by
  simp [getCycledValue, h, fmod]

/-! ## C89 — distances between angles -/

theorem dist_of_min {p a b d : ℝ} (h1 : ∃ k : ℤ, d = |a - b + k * p|)
    (h2 : ∀ k : ℤ, d ≤ |a - b + k * p|) : Dist p a b d := by
  obtain ⟨k, hk⟩ := h1
  refine ⟨⟨a + k * p, b, ⟨k, by ring⟩, Same.refl _ _, by rw [hk]; congr 1; ring⟩, ?_⟩
  rintro x ⟨a', b', ⟨i, hi⟩, ⟨j, hj⟩, rfl⟩
  refine (h2 (i - j)).trans (le_of_eq ?_)
  congr 1
  push_cast
  linarith

theorem dist_iff {p a b d : ℝ} : Dist p a b d ↔
    (∃ k : ℤ, d = |a - b + k * p|) ∧ ∀ k : ℤ, d ≤ |a - b + k * p| := by
  constructor
  · rintro ⟨⟨a', b', ⟨i, hi⟩, ⟨j, hj⟩, hd⟩, h2⟩
    refine ⟨⟨i - j, ?_⟩, fun k => ?_⟩
    · rw [hd]; congr 1; push_cast; linarith
    · exact h2 ⟨a + k * p, b, ⟨k, by ring⟩, Same.refl _ _, by congr 1; ring⟩
  · rintro ⟨h1, h2⟩
    exact dist_of_min h1 h2

/-- If some representative `c` of the difference lies within half a turn, its absolute value is the
distance. -/
theorem dist_of_half {p a b c : ℝ} (hp : 0 < p) (hc : Same p c (a - b)) (h1 : -(p / 2) ≤ c)
    (h2 : c ≤ p / 2) : Dist p a b |c| := by
  obtain ⟨k, hk⟩ := hc
  refine dist_of_min ⟨k, by congr 1; linarith⟩ fun l => ?_
  have e : a - b + l * p = c + ((l - k : ℤ) : ℝ) * p := by push_cast; linarith
  rw [e]
  generalize l - k = n
  rcases lt_trichotomy n 0 with h | h | h
  · have : (n : ℝ) ≤ -1 := by exact_mod_cast (by omega : n ≤ -1)
    have hn := mul_le_mul_of_nonneg_right this hp.le
    rw [abs_of_nonpos (by linarith : c + n * p ≤ 0), abs_le]
    constructor <;> linarith
  · subst h; simp
  · have : (1 : ℝ) ≤ n := by exact_mod_cast (by omega : 1 ≤ n)
    have hn := mul_le_mul_of_nonneg_right this hp.le
    rw [abs_of_nonneg (by linarith : 0 ≤ c + n * p), abs_le]
    constructor <;> linarith

theorem dist_aux (p a b : ℝ) (hp : 0 < p) :
    ∃ m, fmod |a - b| (p * 2) = some m ∧ Dist (p * 2) a b (p - |m - p|) := by
  obtain ⟨m, h1, ⟨k, hk⟩, h3, h4, h5, -⟩ := fmod_spec (x := |a - b|) (y := p * 2) (by linarith)
  have hm := h5 (abs_nonneg _)
  refine ⟨m, h1, ?_⟩
  -- a representative of the absolute difference within half a turn
  have key : ∃ c, Same (p * 2) c |a - b| ∧ -(p * 2 / 2) ≤ c ∧ c ≤ p * 2 / 2 ∧ |c| = p - |m - p| := by
    by_cases hmp : m ≤ p
    · refine ⟨m, ⟨k, hk⟩, by linarith, by linarith, ?_⟩
      rw [abs_of_nonneg hm, abs_of_nonpos (by linarith : m - p ≤ 0)]; ring
    · have hmp := not_le.mp hmp
      refine ⟨m - p * 2, ⟨k - 1, by push_cast; linarith⟩, by linarith, by linarith, ?_⟩
      rw [abs_of_nonpos (by linarith : m - p * 2 ≤ 0), abs_of_nonneg (by linarith : 0 ≤ m - p)]
      ring
  obtain ⟨c, ⟨l, hl⟩, hc1, hc2, hc3⟩ := key
  rw [← hc3]
  rcases abs_cases (a - b) with ⟨hab, -⟩ | ⟨hab, -⟩
  · exact dist_of_half (by linarith) ⟨l, by rw [← hab]; exact hl⟩ hc1 hc2
  · rw [← abs_neg]
    exact dist_of_half (by linarith) ⟨-l, by push_cast; linarith⟩ (by linarith) (by linarith)

/-- **C89.** In exact arithmetic, `getDistDeg` is the smallest distance between the angles. -/
theorem C89_deg (a b : ℝ) : ∃ d, getDistDeg id a b = some d ∧ Dist 360 a b d := by
  obtain ⟨m, h1, h2⟩ := dist_aux 180 a b (by norm_num)
  norm_num at h1 h2
  exact ⟨_, by simp [getDistDeg, h1], h2⟩

theorem C89_rad (k : Consts) (hk : 0 < k.pi) (a b : ℝ) :
    ∃ d, getDistRad id k a b = some d ∧ Dist (k.pi * 2) a b d := by
  obtain ⟨m, h1, h2⟩ := dist_aux k.pi a b hk
  exact ⟨_, by simp [getDistRad, h1], h2⟩

/-- Facts about the smallest distance: there is only one, it is between 0 and half a turn, symmetric,
zero only for the same angle, and satisfies the triangle inequality. -/
theorem C89_dist_facts {p a b c d e f : ℝ} (hp : 0 < p) (h1 : Dist p a b d) (h2 : Dist p b c e)
    (h3 : Dist p a c f) :
    0 ≤ d ∧ d ≤ p / 2 ∧ Dist p b a d ∧ (d = 0 ↔ Same p a b) ∧ f ≤ d + e := by
  rw [dist_iff] at h1 h2 h3
  obtain ⟨⟨k, hk⟩, h1⟩ := h1
  obtain ⟨⟨l, hl⟩, h2⟩ := h2
  obtain ⟨⟨m, hm⟩, h3⟩ := h3
  have hd : 0 ≤ d := by rw [hk]; exact abs_nonneg _
  refine ⟨hd, ?_, ?_, ?_, ?_⟩
  · by_contra hc
    have hc := not_le.mp hc
    have ha := h1 (k + 1)
    have hb := h1 (k - 1)
    push_cast at ha hb
    rcases abs_cases (a - b + k * p) with ⟨hx, -⟩ | ⟨hx, -⟩
    · have : |a - b + (k - 1) * p| < d := by
        rw [abs_lt]; constructor <;> linarith
      have hb := h1 (k - 1)
      push_cast at hb
      linarith
    · have : |a - b + (k + 1) * p| < d := by
        rw [abs_lt]; constructor <;> linarith
      linarith
  · rw [dist_iff]
    refine ⟨⟨-k, ?_⟩, fun n => ?_⟩
    · rw [hk, ← abs_neg]; congr 1; push_cast; ring
    · have := h1 (-n)
      rw [← abs_neg] at this
      refine this.trans (le_of_eq ?_)
      congr 1; push_cast; ring
  · constructor
    · intro h
      rw [h] at hk
      have := abs_eq_zero.mp hk.symm
      exact ⟨-k, by push_cast; linarith⟩
    · rintro ⟨n, hn⟩
      have := h1 (-n)
      rw [show a - b + ((-n : ℤ) : ℝ) * p = 0 by push_cast; linarith, abs_zero] at this
      exact le_antisymm this hd
  · refine (h3 (k + l)).trans ?_
    rw [hk, hl]
    refine le_trans (le_of_eq ?_) (abs_add_le _ _)
    congr 1
    push_cast
    ring

/-- **C89 (rounded).** Whatever the rounding, the distance in degrees is between 0 and 180 and does
not depend on the order of the angles. -/
theorem C89_deg_rounded_partial {fl : ℝ → ℝ} {R : Set ℝ} (hf : Rounding fl R)
    (hR : (180 : ℝ) ∈ R) (h0 : (0 : ℝ) ∈ R) (a b : ℝ) :
    ∃ d, getDistDeg fl a b = some d ∧ getDistDeg fl b a = some d ∧ 0 ≤ d ∧ d ≤ 180 := by
  obtain ⟨m, h1, -, h3, h4, h5, -⟩ := fmod_spec (x := |fl (a - b)|) (y := 360) (by norm_num)
  have hm := h5 (abs_nonneg _)
  have e180 := hf.exact 180 hR
  have hx1 : fl (m - 180) ≤ 180 := by rw [← e180]; exact hf.mono (by rw [e180]; linarith)
  have hx2 : -180 ≤ fl (m - 180) := by
    have := hf.mono (show (-180 : ℝ) ≤ m - 180 by linarith)
    rwa [hf.odd, e180] at this
  have hx : |fl (m - 180)| ≤ 180 := abs_le.mpr ⟨hx2, hx1⟩
  refine ⟨fl (180 - |fl (m - 180)|), by simp [getDistDeg, h1], ?_, ?_, ?_⟩
  · have : |fl (b - a)| = |fl (a - b)| := by
      rw [← neg_sub a b, hf.odd, abs_neg]
    simp [getDistDeg, this, h1]
  · rw [← hf.exact 0 h0]; exact hf.mono (by linarith)
  · have := hf.mono (show 180 - |fl (m - 180)| ≤ 180 by linarith [abs_nonneg (fl (m - 180))])
    rwa [e180] at this

/-! ## C90 — rotating towards an angle -/

theorem rotated_aux (start stop : ℝ) : ∃ e s diff, getWrapDeg id stop = some e ∧
    getWrapDeg id start = some s ∧ getCycledValue id (e - s) (-180) 180 = some diff ∧
    -180 ≤ diff ∧ diff < 180 ∧ Same 360 diff (stop - start) := by
  obtain ⟨e, h1, -, -, k1, hk1⟩ := C87_deg stop
  obtain ⟨s, h2, -, -, k2, hk2⟩ := C87_deg start
  obtain ⟨d, h3, h4, h5, k3, hk3⟩ := C88_exact (e - s) (-180) 180 (by norm_num)
  norm_num at hk3
  exact ⟨e, s, d, h1, h2, h3, h4, h5, k3 + k1 - k2, by push_cast; linarith⟩

theorem same_neg {p a b c : ℝ} (h : Same p c (a - b)) : Same p (-c) (b - a) := by
  obtain ⟨k, hk⟩ := h
  exact ⟨-k, by push_cast; linarith⟩

theorem Dist.unique {p a b d e : ℝ} (h1 : Dist p a b d) (h2 : Dist p a b e) : d = e :=
  IsLeast.unique h1 h2

/-- **C90.** In exact arithmetic, rotating `start` towards `stop` with a speed that is not negative
reduces the distance to `stop` by the speed, without passing it: within the distance `speed` the
result is `stop` itself, and otherwise it is `speed` away from `start`. -/
theorem C90_deg (start stop speed d : ℝ) (hs : 0 ≤ speed) (hd : Dist 360 start stop d) :
    ∃ r, getRotatedDeg id start stop speed = some r ∧
      Dist 360 r stop (max 0 (d - speed)) ∧
      (d ≤ speed → r = stop) ∧
      (speed < d → r = start - speed ∨ r = start + speed) := by
  obtain ⟨e, s, c, h1, h2, h3, h4, h5, h6⟩ := rotated_aux start stop
  have hdc : d = |c| := by
    refine hd.unique ?_
    rw [← abs_neg]
    exact dist_of_half (by norm_num) (same_neg h6) (by norm_num; linarith) (by norm_num; linarith)
  have hr : getRotatedDeg id start stop speed =
      if c < -speed then some (start - speed) else if c > speed then some (start + speed)
      else some stop := by
    simp only [getRotatedDeg, h1, h2, id, Option.bind_eq_bind, Option.bind_some]
    simp only [h3, Option.bind_some]
    rfl
  obtain ⟨k, hk⟩ := h6
  by_cases ha : c < -speed
  · have hc : |c| = -c := abs_of_neg (by linarith)
    rw [if_pos ha] at hr
    refine ⟨_, hr, ?_, fun h => ?_, fun _ => Or.inl rfl⟩
    · rw [hdc, hc, max_eq_right (by linarith), ← abs_of_nonneg (by linarith : 0 ≤ -c - speed)]
      exact dist_of_half (by norm_num) ⟨-k, by push_cast; linarith⟩ (by norm_num; linarith)
        (by norm_num; linarith)
    · rw [hdc, hc] at h; linarith
  · rw [if_neg ha] at hr
    by_cases hb : c > speed
    · have hc : |c| = c := abs_of_pos (by linarith)
      rw [if_pos hb] at hr
      refine ⟨_, hr, ?_, fun h => ?_, fun _ => Or.inr rfl⟩
      · rw [hdc, hc, max_eq_right (by linarith), ← abs_of_nonneg (by linarith : 0 ≤ c - speed),
          ← abs_neg]
        exact dist_of_half (by norm_num) ⟨-k, by push_cast; linarith⟩ (by norm_num; linarith)
          (by norm_num; linarith)
      · rw [hdc, hc] at h; linarith
    · rw [if_neg hb] at hr
      have hc : |c| ≤ speed := abs_le.mpr ⟨by linarith, by linarith⟩
      refine ⟨_, hr, ?_, fun _ => rfl, fun h => absurd hc (not_le.mpr (hdc ▸ h))⟩
      rw [max_eq_left (by linarith), ← abs_zero]
      exact dist_of_half (by norm_num) ⟨0, by simp⟩ (by norm_num) (by norm_num)

/-- The value after rotating `n` times. -/
noncomputable def rotations (stop speed : ℝ) : Nat → ℝ → Option ℝ
  | 0, x => some x
  | n + 1, x => (getRotatedDeg id x stop speed).bind (rotations stop speed n)

theorem exists_dist (a b : ℝ) : ∃ d, Dist 360 a b d := by
  obtain ⟨d, -, h⟩ := C89_deg a b
  exact ⟨d, h⟩

/-- **C90 (whole motion).** Rotating again and again reaches the target exactly, and stays there: `n`
rotations are enough when `n * speed` is at least the distance. Until then each rotation brings the
angle closer by the speed. -/
theorem C90_reaches (stop speed : ℝ) (hs : 0 < speed) (n : Nat) (start d : ℝ)
    (hd : Dist 360 start stop d) :
    ∃ r, rotations stop speed n start = some r ∧
      Dist 360 r stop (max 0 (d - n * speed)) ∧ (0 < n → d ≤ n * speed → r = stop) := by
  induction n generalizing start d with
  | zero =>
    have h0 : 0 ≤ d := (C89_dist_facts (by norm_num) hd (exists_dist stop stop).choose_spec hd).1
    exact ⟨start, rfl, by simpa [max_eq_right h0] using hd, fun h => absurd h (lt_irrefl _)⟩
  | succ n ih =>
    obtain ⟨r1, h1, h2, h3, -⟩ := C90_deg start stop speed d hs.le hd
    obtain ⟨r, h4, h5, h6⟩ := ih r1 _ h2
    have hns : 0 ≤ (n : ℝ) * speed := by positivity
    refine ⟨r, by simp [rotations, h1, h4], ?_, fun _ hle => ?_⟩
    · have : max 0 (max 0 (d - speed) - n * speed) = max 0 (d - (n + 1 : ℕ) * speed) := by
        push_cast
        rcases le_total (d - speed) 0 with h | h
        · rw [max_eq_left h, max_eq_left (by linarith), max_eq_left (by linarith)]
        · rw [max_eq_right h]; congr 1; ring
      rwa [this] at h5
    · push_cast at hle
      by_cases hn : n = 0
      · subst hn
        simp only [rotations, Option.some.injEq] at h4
        subst h4
        exact h3 (by push_cast at hle; linarith)
      · exact h6 (Nat.pos_of_ne_zero hn) (max_le hns (by linarith))

/-- **C90 fails for `getRotatedRad`.** It gives degrees: with exact constants, rotating from 0 to one
degree with a large speed gives 1, which is not the target as an angle in radians. -/
theorem C90_rad_fails : ∃ start stop speed : ℝ, 0 < speed ∧
    ∃ r, getRotatedRad id ⟨Real.pi, 2 * Real.pi, Real.pi / 180⟩ start stop speed = some r ∧
      ¬ Same (2 * Real.pi) r stop ∧
      ∀ d, Dist (2 * Real.pi) start stop d → d < speed := by
  have hpi := Real.pi_gt_three
  have hpi4 := Real.pi_le_four
  refine ⟨0, Real.pi / 180, 100, by norm_num, 1, ?_, ?_, ?_⟩
  · have hd : Dist 360 0 1 1 := by
      have := dist_of_half (p := 360) (a := 0) (b := 1) (c := -1) (by norm_num) ⟨0, by norm_num⟩
        (by norm_num) (by norm_num)
      simpa using this
    obtain ⟨r, h1, -, h3, -⟩ := C90_deg 0 1 100 1 (by norm_num) hd
    rw [h3 (by norm_num)] at h1
    have e : (Real.pi / 180) / (Real.pi / 180) = 1 := div_self (by positivity)
    simp only [getRotatedRad, toDeg, id, zero_div, e]
    exact h1
  · rintro ⟨k, hk⟩
    rcases lt_trichotomy k 0 with h | h | h
    · have : (k : ℝ) ≤ -1 := by exact_mod_cast (by omega : k ≤ -1)
      have := mul_le_mul_of_nonneg_right this (by positivity : (0 : ℝ) ≤ 2 * Real.pi)
      linarith
    · subst h
      norm_num at hk
      linarith
    · have : (1 : ℝ) ≤ k := by exact_mod_cast (by omega : 1 ≤ k)
      have := mul_le_mul_of_nonneg_right this (by positivity : (0 : ℝ) ≤ 2 * Real.pi)
      linarith
  · intro d hd
    have := (C89_dist_facts (by positivity) hd
      (dist_of_half (a := Real.pi / 180) (b := Real.pi / 180) (c := 0) (by positivity)
        ⟨0, by simp⟩ (by simp; positivity) (by simp; positivity)) hd).2.1
    linarith

theorem dist_scale {p q a b d c : ℝ} (hc : 0 < c) (hq : q = p * c) :
    Dist p a b d ↔ Dist q (a * c) (b * c) (d * c) := by
  have e : ∀ k : ℤ, |a * c - b * c + k * q| = |a - b + k * p| * c := by
    intro k
    rw [← abs_of_pos hc, ← abs_mul, abs_of_pos hc, hq]
    congr 1; ring
  rw [dist_iff, dist_iff]
  simp only [e]
  constructor
  · rintro ⟨⟨k, h1⟩, h2⟩
    exact ⟨⟨k, by rw [h1]⟩, fun k => mul_le_mul_of_nonneg_right (h2 k) hc.le⟩
  · rintro ⟨⟨k, h1⟩, h2⟩
    exact ⟨⟨k, mul_right_cancel₀ hc.ne' h1⟩, fun k => le_of_mul_le_mul_right (h2 k) hc⟩

/-- **C90 for `getRotatedRad`, what holds.** The angles are given in radians, but the speed is in
degrees and so is the result. Read in that way it is a rotation as in `C90_deg`. -/
theorem C90_rad_partial (k : Consts) (hk : 0 < k.ratio) (start stop speed d : ℝ)
    (hs : 0 ≤ speed) (hd : Dist (360 * k.ratio) start stop d) :
    ∃ r, getRotatedRad id k start stop speed = some r ∧
      Dist (360 * k.ratio) (r * k.ratio) stop (max 0 (d - speed * k.ratio)) ∧
      (d ≤ speed * k.ratio → r * k.ratio = stop) := by
  have e1 : ∀ x : ℝ, x / k.ratio * k.ratio = x := fun x => div_mul_cancel₀ x hk.ne'
  have h0 : Dist 360 (start / k.ratio) (stop / k.ratio) (d / k.ratio) := by
    rw [dist_scale hk rfl, e1, e1, e1]; exact hd
  obtain ⟨r, h1, h2, h3, -⟩ := C90_deg _ _ speed _ hs h0
  refine ⟨r, by simpa [getRotatedRad, toDeg] using h1, ?_, fun h => ?_⟩
  · rw [dist_scale hk rfl, e1] at h2
    have : max 0 (d / k.ratio - speed) * k.ratio = max 0 (d - speed * k.ratio) := by
      rw [max_mul_of_nonneg _ _ hk.le, sub_mul, e1, zero_mul]
    rwa [this] at h2
  · rw [h3 ((div_le_iff₀ hk).mpr h), e1]

/-! ## C91 — distances between points -/

/-- **C91.** The distances are metrics in exact arithmetic. -/
theorem C91_manhattan : Metric (getDistManhattan id) where
  nonneg x1 y1 x2 y2 := add_nonneg (abs_nonneg _) (abs_nonneg _)
  zero x1 y1 x2 y2 := by
    simp only [getDistManhattan, id]
    rw [add_eq_zero_iff_of_nonneg (abs_nonneg _) (abs_nonneg _), abs_eq_zero, abs_eq_zero,
      sub_eq_zero, sub_eq_zero]
  symm x1 y1 x2 y2 := by simp only [getDistManhattan, id, abs_sub_comm x1, abs_sub_comm y1]
  triangle x1 y1 x2 y2 x3 y3 := by
    simp only [getDistManhattan, id]
    linarith [abs_sub_le x1 x2 x3, abs_sub_le y1 y2 y3]

theorem C91_chebyshev : Metric (getDistChebyshev id) where
  nonneg x1 y1 x2 y2 := le_max_of_le_left (abs_nonneg _)
  zero x1 y1 x2 y2 := by
    simp only [getDistChebyshev, id]
    constructor
    · intro h
      have h1 := le_of_le_of_eq (le_max_left |x2 - x1| |y2 - y1|) h
      have h2 := le_of_le_of_eq (le_max_right |x2 - x1| |y2 - y1|) h
      rw [abs_nonpos_iff, sub_eq_zero] at h1 h2
      exact ⟨h1.symm, h2.symm⟩
    · rintro ⟨rfl, rfl⟩; simp
  symm x1 y1 x2 y2 := by simp only [getDistChebyshev, id, abs_sub_comm x2, abs_sub_comm y2]
  triangle x1 y1 x2 y2 x3 y3 := by
    simp only [getDistChebyshev, id]
    have h1 := abs_sub_le x3 x2 x1
    have h2 := abs_sub_le y3 y2 y1
    have h3 := le_max_left |x2 - x1| |y2 - y1|
    have h4 := le_max_right |x2 - x1| |y2 - y1|
    have h5 := le_max_left |x3 - x2| |y3 - y2|
    have h6 := le_max_right |x3 - x2| |y3 - y2|
    exact max_le (by linarith) (by linarith)

theorem euclid_eq (x1 y1 x2 y2 : ℝ) :
    getDistEuclidean id x1 y1 x2 y2 = ‖(⟨x1 - x2, y1 - y2⟩ : ℂ)‖ := by
  rw [Complex.norm_def, Complex.normSq_mk]
  rfl

theorem C91_euclidean : Metric (getDistEuclidean id) where
  nonneg x1 y1 x2 y2 := by rw [euclid_eq]; exact norm_nonneg _
  zero x1 y1 x2 y2 := by
    rw [euclid_eq, norm_eq_zero, Complex.ext_iff]
    simp [sub_eq_zero]
  symm x1 y1 x2 y2 := by
    rw [euclid_eq, euclid_eq, ← norm_neg]
    congr 1
    apply Complex.ext <;> simp
  triangle x1 y1 x2 y2 x3 y3 := by
    rw [euclid_eq, euclid_eq, euclid_eq]
    refine le_trans (le_of_eq ?_) (norm_add_le _ _)
    congr 1
    apply Complex.ext <;> simp

/-- The squared distance is the sum of the squares of the differences, and the square of the
distance. -/
theorem C91_squared (x1 y1 x2 y2 : ℝ) :
    getDistSquaredEuclidean id x1 y1 x2 y2 = (x2 - x1) ^ 2 + (y2 - y1) ^ 2 ∧
    getDistEuclidean id x1 y1 x2 y2 ^ 2 = (x2 - x1) ^ 2 + (y2 - y1) ^ 2 := by
  have h : getDistSquaredEuclidean id x1 y1 x2 y2 = (x2 - x1) ^ 2 + (y2 - y1) ^ 2 := by
    simp only [getDistSquaredEuclidean, id]; ring
  refine ⟨h, ?_⟩
  simp only [getDistEuclidean, id]
  rw [h, Real.sq_sqrt (by positivity)]

/-- The distance along an axis is the difference, for all three; which fixes their scale. -/
theorem C91_axis (x y t : ℝ) :
    getDistManhattan id x y (x + t) y = |t| ∧ getDistChebyshev id x y (x + t) y = |t| ∧
    getDistEuclidean id x y (x + t) y = |t| ∧
    getDistManhattan id x y x (y + t) = |t| ∧ getDistChebyshev id x y x (y + t) = |t| ∧
    getDistEuclidean id x y x (y + t) = |t| := by
  refine ⟨by simp [getDistManhattan], by simp [getDistChebyshev], ?_, by simp [getDistManhattan],
    by simp [getDistChebyshev], ?_⟩
  · simp [getDistEuclidean, getDistSquaredEuclidean, Real.sqrt_mul_self_eq_abs]
  · simp [getDistEuclidean, getDistSquaredEuclidean, Real.sqrt_mul_self_eq_abs]

/-- Chebyshev ≤ Euclidean ≤ Manhattan ≤ 2 Chebyshev. -/
theorem C91_order (x1 y1 x2 y2 : ℝ) :
    getDistChebyshev id x1 y1 x2 y2 ≤ getDistEuclidean id x1 y1 x2 y2 ∧
    getDistEuclidean id x1 y1 x2 y2 ≤ getDistManhattan id x1 y1 x2 y2 ∧
    getDistManhattan id x1 y1 x2 y2 ≤ 2 * getDistChebyshev id x1 y1 x2 y2 := by
  refine ⟨?_, ?_, ?_⟩
  · rw [euclid_eq]
    simp only [getDistChebyshev, id]
    have h1 := Complex.abs_re_le_norm (⟨x1 - x2, y1 - y2⟩ : ℂ)
    have h2 := Complex.abs_im_le_norm (⟨x1 - x2, y1 - y2⟩ : ℂ)
    rw [abs_sub_comm] at h1 h2
    exact max_le h1 h2
  · rw [euclid_eq]
    exact Complex.norm_le_abs_re_add_abs_im _
  · simp only [getDistManhattan, getDistChebyshev, id, abs_sub_comm x1, abs_sub_comm y1]
    linarith [le_max_left |x2 - x1| |y2 - y1|, le_max_right |x2 - x1| |y2 - y1|]

/-- **C91 (rounded).** Whatever the rounding, the distances are not negative, do not depend on the
order of the points, and are zero between a point and itself. -/
theorem C91_rounded_partial {fl : ℝ → ℝ} {R : Set ℝ} (hf : Rounding fl R) (h0 : (0 : ℝ) ∈ R)
    (x1 y1 x2 y2 : ℝ) :
    (0 ≤ getDistManhattan fl x1 y1 x2 y2 ∧ 0 ≤ getDistChebyshev fl x1 y1 x2 y2 ∧
      0 ≤ getDistEuclidean fl x1 y1 x2 y2 ∧ 0 ≤ getDistSquaredEuclidean fl x1 y1 x2 y2) ∧
    (getDistManhattan fl x1 y1 x2 y2 = getDistManhattan fl x2 y2 x1 y1 ∧
      getDistChebyshev fl x1 y1 x2 y2 = getDistChebyshev fl x2 y2 x1 y1 ∧
      getDistEuclidean fl x1 y1 x2 y2 = getDistEuclidean fl x2 y2 x1 y1 ∧
      getDistSquaredEuclidean fl x1 y1 x2 y2 = getDistSquaredEuclidean fl x2 y2 x1 y1) ∧
    (getDistManhattan fl x1 y1 x1 y1 = 0 ∧ getDistChebyshev fl x1 y1 x1 y1 = 0 ∧
      getDistEuclidean fl x1 y1 x1 y1 = 0 ∧ getDistSquaredEuclidean fl x1 y1 x1 y1 = 0) := by
  have z := hf.exact 0 h0
  have pos : ∀ x, 0 ≤ x → 0 ≤ fl x := fun x hx => by rw [← z]; exact hf.mono hx
  have sw : ∀ a b : ℝ, fl (a - b) = -fl (b - a) := fun a b => by rw [← hf.odd, neg_sub]
  refine ⟨⟨pos _ (add_nonneg (abs_nonneg _) (abs_nonneg _)), le_max_of_le_left (abs_nonneg _),
    pos _ (Real.sqrt_nonneg _),
    pos _ (add_nonneg (pos _ (mul_self_nonneg _)) (pos _ (mul_self_nonneg _)))⟩, ?_, ?_⟩
  · have hsq : getDistSquaredEuclidean fl x1 y1 x2 y2 = getDistSquaredEuclidean fl x2 y2 x1 y1 := by
      simp only [getDistSquaredEuclidean]
      rw [sw x1 x2, sw y1 y2, neg_mul_neg, neg_mul_neg]
    refine ⟨?_, ?_, ?_, hsq⟩
    · simp only [getDistManhattan]; rw [sw x1 x2, sw y1 y2, abs_neg, abs_neg]
    · simp only [getDistChebyshev]; rw [sw x1 x2, sw y1 y2, abs_neg, abs_neg]
    · simp only [getDistEuclidean]; rw [hsq]
  · simp [getDistManhattan, getDistChebyshev, getDistEuclidean, getDistSquaredEuclidean, z]

/-! ## C92 — interpolation -/

/-- **C92.** In exact arithmetic `getLerp` with a weight in `[0, 1]` gives the point that divides the
interval in the ratio of the weight. -/
theorem C92_lerp (dbg : Bool) (w a b : ℝ) (h0 : 0 ≤ w) (h1 : w ≤ 1) :
    ∃ r, getLerp id dbg w a b = .num r ∧ r - a = w * (b - a) ∧ b - r = (1 - w) * (b - a) ∧
      (a ≤ b → a ≤ r ∧ r ≤ b) ∧ (b ≤ a → b ≤ r ∧ r ≤ a) := by
  refine ⟨a + w * (b - a), by simp [getLerp, h0, h1], by ring, by ring, fun h => ?_, fun h => ?_⟩
  · have h2 : 0 ≤ w * (b - a) := mul_nonneg h0 (by linarith)
    have h3 : 0 ≤ (1 - w) * (b - a) := mul_nonneg (by linarith) (by linarith)
    constructor <;> linarith
  · have h2 : 0 ≤ w * (a - b) := mul_nonneg h0 (by linarith)
    have h3 : 0 ≤ (1 - w) * (a - b) := mul_nonneg (by linarith) (by linarith)
    constructor <;> linarith

/-- The assertion fails exactly for weights outside `[0, 1]`, in debug builds. -/
theorem C92_lerp_assert (fl : ℝ → ℝ) (dbg : Bool) (w a b : ℝ) :
    getLerp fl dbg w a b = .assertFail ↔ dbg = true ∧ (w < 0 ∨ 1 < w) := by
  unfold getLerp
  split
  · rename_i h
    simp only [true_iff]
    refine ⟨h.1, ?_⟩
    by_contra hc
    rw [not_or, not_lt, not_lt] at hc
    exact h.2 hc
  · rename_i h
    simp only [reduceCtorEq, false_iff]
    rintro ⟨h1, h2⟩
    refine h ⟨h1, ?_⟩
    rintro ⟨h3, h4⟩
    rcases h2 with h2 | h2 <;> linarith

/-- **C92 (rounded).** Whatever the rounding, the weight 0 gives the first value, a larger weight gives
a value that is not smaller, and the result is on the right side of the first value. -/
theorem C92_lerp_rounded_partial {fl : ℝ → ℝ} {R : Set ℝ} (hf : Rounding fl R) (h0 : (0 : ℝ) ∈ R)
    (dbg : Bool) (v w a b : ℝ) (ha : a ∈ R) (hab : a ≤ b) (hv : 0 ≤ v) (hvw : v ≤ w)
    (hw : w ≤ 1) :
    getLerp fl dbg 0 a b = .num a ∧
    ∃ r s, getLerp fl dbg v a b = .num r ∧ getLerp fl dbg w a b = .num s ∧ a ≤ r ∧ r ≤ s := by
  have z := hf.exact 0 h0
  have hd : 0 ≤ fl (b - a) := by rw [← z]; exact hf.mono (by linarith)
  refine ⟨by simp [getLerp, z, hf.exact a ha], fl (a + fl (v * fl (b - a))),
    fl (a + fl (w * fl (b - a))),
    by simp [getLerp, hv, hvw.trans hw], by simp [getLerp, hv.trans hvw, hw], ?_, ?_⟩
  · have h1 : 0 ≤ fl (v * fl (b - a)) := by rw [← z]; exact hf.mono (mul_nonneg hv hd)
    have := hf.mono (show a ≤ a + fl (v * fl (b - a)) by linarith)
    rwa [hf.exact a ha] at this
  · exact hf.mono (add_le_add le_rfl (hf.mono (mul_le_mul_of_nonneg_right hvw hd)))

/-- **C92.** In exact arithmetic `getMap` maps the ends of the input range to the ends of the output
range, keeps proportions, and mapping back gives the input. -/
theorem C92_map (dbg : Bool) (i iMin iMax oMin oMax : ℝ) (h : iMin ≠ iMax) :
    ∃ r, getMap id dbg i iMin iMax oMin oMax = .num r ∧
      (r - oMin) * (iMax - iMin) = (i - iMin) * (oMax - oMin) ∧
      (i = iMin → r = oMin) ∧ (i = iMax → r = oMax) ∧
      (oMin ≠ oMax → getMap id dbg r oMin oMax iMin iMax = .num i) ∧
      (iMin ≤ i → i ≤ iMax → oMin ≤ oMax → oMin ≤ r ∧ r ≤ oMax) := by
  have hne : iMax - iMin ≠ 0 := sub_ne_zero.mpr h.symm
  refine ⟨(i - iMin) * (oMax - oMin) / (iMax - iMin) + oMin, by simp [getMap, hne],
    by field_simp; ring, fun e => by subst e; simp, fun e => by subst e; field_simp; ring,
    fun ho => ?_, fun h1 h2 h3 => ?_⟩
  · have hno : oMax - oMin ≠ 0 := sub_ne_zero.mpr ho.symm
    simp only [getMap, id, if_neg hno]
    congr 1
    field_simp
    ring
  · have hp : 0 < iMax - iMin := by
      rcases lt_or_gt_of_ne h with h | h <;> linarith
    have ha : 0 ≤ (i - iMin) * (oMax - oMin) / (iMax - iMin) :=
      div_nonneg (mul_nonneg (by linarith) (by linarith)) hp.le
    have hb : (i - iMin) * (oMax - oMin) / (iMax - iMin) ≤ oMax - oMin := by
      rw [div_le_iff₀ hp, mul_comm (oMax - oMin)]
      exact mul_le_mul_of_nonneg_right (by linarith) (by linarith)
    constructor <;> linarith

/-- An empty input range: an assertion failure in debug builds, a division by zero in others. -/
theorem C92_map_empty (fl : ℝ → ℝ) (h0 : fl 0 = 0) (dbg : Bool) (i iMin oMin oMax : ℝ) :
    getMap fl dbg i iMin iMin oMin oMax = if dbg then .assertFail else .divZero := by
  simp [getMap, h0]

/-- **C92 (rounded).** Whatever the rounding, the lower end is mapped to the lower end exactly. -/
theorem C92_map_rounded_partial {fl : ℝ → ℝ} {R : Set ℝ} (hf : Rounding fl R) (h0 : (0 : ℝ) ∈ R)
    (dbg : Bool) (iMin iMax oMin oMax : ℝ) (hne : fl (iMax - iMin) ≠ 0) (ho : oMin ∈ R) :
    getMap fl dbg iMin iMin iMax oMin oMax = .num oMin := by
  have z := hf.exact 0 h0
  simp [getMap, hne, z, hf.exact oMin ho]

/-! ## C93 — units and directions -/

/-- **C93.** In exact arithmetic the conversions between degrees and radians undo each other. -/
theorem C93_units (k : Consts) (hk : k.ratio ≠ 0) (x : ℝ) :
    toRad id k (toDeg id k x) = x ∧ toDeg id k (toRad id k x) = x := by
  constructor
  · simp [toRad, toDeg, hk]
  · simp [toRad, toDeg, hk]

/-- With the exact constant, they map half a turn to half a turn, and are linear. -/
theorem C93_half_turn (k : Consts) (hk : k.ratio = Real.pi / 180) (x y : ℝ) :
    toRad id k 180 = Real.pi ∧ toDeg id k Real.pi = 180 ∧
    toRad id k (x + y) = toRad id k x + toRad id k y ∧
    toDeg id k (x + y) = toDeg id k x + toDeg id k y := by
  have := Real.pi_ne_zero
  refine ⟨?_, ?_, ?_, ?_⟩
  · simp only [toRad, hk, id]; field_simp
  · simp only [toDeg, hk, id]; field_simp
  · simp only [toRad, id]; ring
  · simp only [toDeg, id]; ring

/-- With the constant of the file, which differs from pi / 180 by at most `eps`, half a turn is off by
at most `180 * eps`. -/
theorem C93_error (k : Consts) (eps x : ℝ) (hk : |k.ratio - Real.pi / 180| ≤ eps) :
    |toRad id k x - x * (Real.pi / 180)| ≤ |x| * eps := by
  simp only [toRad, id]
  rw [← mul_sub, abs_mul]
  exact mul_le_mul_of_nonneg_left hk (abs_nonneg _)

/-- **C93.** Going from the first point in the direction given by `getRadTowards`, for the Euclidean
distance, leads to the second point. The direction is in `(-π, π]`. -/
theorem C93_towards_rad (x1 y1 x2 y2 : ℝ) :
    x1 + getDistEuclidean id x1 y1 x2 y2 * Real.cos (getRadTowards id x1 y1 x2 y2) = x2 ∧
    y1 + getDistEuclidean id x1 y1 x2 y2 * Real.sin (getRadTowards id x1 y1 x2 y2) = y2 ∧
    -Real.pi < getRadTowards id x1 y1 x2 y2 ∧ getRadTowards id x1 y1 x2 y2 ≤ Real.pi := by
  have hn : getDistEuclidean id x1 y1 x2 y2 = ‖(⟨x2 - x1, y2 - y1⟩ : ℂ)‖ := by
    rw [C91_euclidean.symm, euclid_eq]
  rw [hn]
  simp only [getRadTowards, id]
  refine ⟨?_, ?_, Complex.neg_pi_lt_arg _, Complex.arg_le_pi _⟩
  · rw [Complex.norm_mul_cos_arg]; simp
  · rw [Complex.norm_mul_sin_arg]; simp

/-- The same in degrees, with the exact constant. -/
theorem C93_towards_deg (k : Consts) (hk : k.ratio = Real.pi / 180) (x1 y1 x2 y2 : ℝ) :
    ∃ θ, getDegTowards id k x1 y1 x2 y2 = θ ∧ -180 < θ ∧ θ ≤ 180 ∧
      x1 + getDistEuclidean id x1 y1 x2 y2 * Real.cos (θ * Real.pi / 180) = x2 ∧
      y1 + getDistEuclidean id x1 y1 x2 y2 * Real.sin (θ * Real.pi / 180) = y2 := by
  obtain ⟨h1, h2, h3, h4⟩ := C93_towards_rad x1 y1 x2 y2
  have hpi := Real.pi_pos
  have e : getDegTowards id k x1 y1 x2 y2 * Real.pi / 180 = getRadTowards id x1 y1 x2 y2 := by
    simp only [getDegTowards, toDeg, hk, id]; field_simp
  have e' : getDegTowards id k x1 y1 x2 y2 = getRadTowards id x1 y1 x2 y2 * 180 / Real.pi := by
    rw [← e]; field_simp
  refine ⟨_, rfl, ?_, ?_, by rw [e]; exact h1, by rw [e]; exact h2⟩
  · rw [e', lt_div_iff₀ hpi]; linarith
  · rw [e', div_le_iff₀ hpi]; linarith

/-! ## The hypotheses are met -/

/-- Exact arithmetic is a rounding. -/
theorem exact_rounding : Rounding id Set.univ :=
  ⟨fun _ _ h => h, fun _ => rfl, fun _ _ => rfl, fun _ => Set.mem_univ _⟩

/-- Rounding up away from zero to an integer, an actual rounding for which a small negative angle is
wrapped to 360. -/
noncomputable def away (x : ℝ) : ℝ := if 0 ≤ x then (⌈x⌉ : ℝ) else (⌊x⌋ : ℝ)

theorem away_rounding : Rounding away (Set.range (fun n : ℤ => (n : ℝ))) := by
  refine ⟨?_, ?_, ?_, ?_⟩
  · intro x y h
    unfold away
    by_cases hx : 0 ≤ x
    · rw [if_pos hx, if_pos (hx.trans h)]
      exact_mod_cast Int.ceil_mono h
    · by_cases hy : 0 ≤ y
      · rw [if_neg hx, if_pos hy]
        have h1 : (⌊x⌋ : ℝ) ≤ x := Int.floor_le x
        have h2 : y ≤ (⌈y⌉ : ℝ) := Int.le_ceil y
        linarith
      · rw [if_neg hx, if_neg hy]
        exact_mod_cast Int.floor_mono h
  · intro x
    unfold away
    rcases lt_trichotomy x 0 with h | h | h
    · rw [if_pos (by linarith), if_neg (not_le.mpr h), Int.ceil_neg]; push_cast; ring
    · subst h; simp
    · rw [if_neg (by linarith), if_pos h.le, Int.floor_neg]; push_cast; ring
  · rintro x ⟨n, rfl⟩
    simp [away]
  · intro x
    unfold away
    split
    · exact ⟨_, rfl⟩
    · exact ⟨_, rfl⟩

/-- A rounding for which wrapping a small negative angle gives a full turn. -/
theorem C87_fails_rounded : ∃ (fl : ℝ → ℝ) (R : Set ℝ), Rounding fl R ∧ (360 : ℝ) ∈ R ∧
    ∃ x, getWrapDeg fl x = some 360 := by
  refine ⟨away, _, away_rounding, ⟨360, by norm_num⟩, -1 / 4, ?_⟩
  refine C87_deg_full_turn (by norm_num) (by norm_num) ?_
  have : ⌈(-1 / 4 + 360 : ℝ)⌉ = 360 := by
    rw [Int.ceil_eq_iff]; constructor <;> norm_num
  unfold away
  rw [if_pos (by norm_num), this]
  norm_num

/-- Rotating from 350 to 20 at speed 10, which are 30 degrees apart. -/
example : Dist 360 350 20 30 := by
  have := dist_of_half (p := 360) (a := 350) (b := 20) (c := -30) (by norm_num)
    ⟨-1, by norm_num⟩ (by norm_num) (by norm_num)
  simpa using this

example : ∃ k : Consts, 0 < k.tau ∧ 0 < k.pi ∧ k.ratio = Real.pi / 180 ∧ 0 < k.ratio :=
  ⟨⟨Real.pi, 2 * Real.pi, Real.pi / 180⟩, by positivity, by positivity, rfl, by positivity⟩

end Verif.Angle
