import Verif.Angle.LemmasIeee

/-!
# Angles and distances in IEEE 754 arithmetic

The functions on the numbers of a binary floating-point format (`float`, `double`), with subnormal numbers, overflow,
infinities and NaN.
-/

namespace Verif.Angle.Fp

open Verif.Ieee Verif.Ieee.Spec Verif.Angle.Spec

noncomputable section

/-! ## The formats -/

theorem good32 : Good binary32 := ⟨by norm_num [binary32], by norm_num [binary32]⟩

theorem good64 : Good binary64 := ⟨by norm_num [binary64], by norm_num [binary64]⟩

theorem num_nat {F : Fmt} (h0 : F.qmin ≤ 0) (h1 : 0 ≤ F.qmax) {n : ℤ} (h : |n| < 2 ^ F.p) : Num F (n : ℝ) :=
  ⟨n, 0, h, h0, h1, by simp⟩

/-- 180 and 360 are numbers of both formats. -/
theorem formats_example : (Num binary32 180 ∧ Num binary32 360) ∧ Num binary64 180 ∧ Num binary64 360 := by
  have h1 := num_nat (F := binary32) (by norm_num [binary32]) (by norm_num [binary32]) (n := 180) (by norm_num [binary32])
  have h2 := num_nat (F := binary32) (by norm_num [binary32]) (by norm_num [binary32]) (n := 360) (by norm_num [binary32])
  have h3 := num_nat (F := binary64) (by norm_num [binary64]) (by norm_num [binary64]) (n := 180) (by norm_num [binary64])
  have h4 := num_nat (F := binary64) (by norm_num [binary64]) (by norm_num [binary64]) (n := 360) (by norm_num [binary64])
  push_cast at h1 h2 h3 h4
  exact ⟨⟨h1, h2⟩, h3, h4⟩

/-! ## C87 — wrapped angles -/

theorem wrap_fin {F : Fmt} (hF : Good F) {p a : ℝ} (hp0 : 0 < p) (hp : Num F p) (ha : Num F a) :
    ∃ m w r, Verif.Angle.fmod a p = some m ∧ (0 ≤ w ∧ w < p ∧ Same p w a) ∧ (r = if m < 0 then F.fl (m + p) else m) ∧
      (open Classical in if lt (.fin m) (.fin 0) then add F (.fin m) (.fin p) else .fin m) = .fin r ∧ r = F.fl w ∧ Num F r ∧
      |r - w| ≤ unit F * w ∧ 0 ≤ r ∧ r ≤ p ∧ (0 ≤ a → r = w) := by
  obtain ⟨m, w, h1, h2, h3, h4, h5⟩ := wrap_aux (fl := id) (x := a) hp0
  have hm := fmod_grid hp0 (num_grid ha) (num_grid hp) h1
  have hp1 := hF.p
  have ht := num_top hp
  rw [abs_of_pos hp0] at ht
  rcases h5 with ⟨h5, h6⟩ | ⟨h5, h7, h6⟩
  · have h6' : m = w := h6
    subst h6'
    have he : F.fl m = m := fl_exact hp1 hm
    refine ⟨m, m, m, h1, ⟨h2, h3, h4⟩, by rw [if_neg (not_lt.mpr h2)], ?_, he.symm, ?_, ?_, h2, h3.le, fun _ => rfl⟩
    · rw [if_neg (show ¬ lt (.fin m) (.fin 0) from not_lt.mpr h2)]
    · exact (num_iff hp1 hF.q).mpr ⟨hm, by rw [abs_of_nonneg h2]; linarith⟩
    · rw [sub_self, abs_zero]
      exact mul_nonneg (u_pos F).le h2
  · have h6' : m + p = w := h6
    have hno : ¬ Over F (m + p) := not_over (by rw [h6', abs_of_nonneg h2]; linarith)
    have hw0 : 0 ≤ F.fl w := by
      have := fl_mono hp1 h2
      rwa [fl_zero] at this
    have hwp : F.fl w ≤ p := by
      have := fl_mono hp1 h3.le
      rwa [fl_exact hp1 (num_grid hp)] at this
    refine ⟨m, w, F.fl w, h1, ⟨h2, h3, h4⟩, by rw [if_pos h5, h6'], ?_, rfl, ?_, ?_, hw0, hwp, fun h => absurd h (not_le.mpr h7)⟩
    · rw [if_pos (show lt (.fin m) (.fin 0) from h5), add_fin hF hno, h6']
    · exact (num_iff hp1 hF.q).mpr ⟨fl_grid F w, by rw [abs_of_nonneg hw0]; linarith⟩
    · have := fl_sum hp1 hm (num_grid hp)
      rwa [h6', abs_of_nonneg h2] at this

theorem nearest_num {F : Fmt} (hF : Good F) (x s : ℝ) (hs : Num F s) : |F.fl x - x| ≤ |s - x| :=
  fl_nearest hF.p x s (num_grid hs)

/-- **C87 (IEEE 754).** Wrapping a finite angle gives the number of the format that is nearest to the true wrapped angle `w`;
it lies between 0 and 360 and is exactly `w` for angles that are not negative. Nothing overflows, whatever the angle. -/
theorem C87_ieee_deg {F : Fmt} (hF : Good F) (h360 : Num F 360) (a : ℝ) (ha : Num F a) :
    ∃ r w, getWrapDeg F (.fin a) = .fin r ∧ Num F r ∧ (0 ≤ w ∧ w < 360 ∧ Same 360 w a) ∧
      (∀ s, Num F s → |r - w| ≤ |s - w|) ∧ |r - w| ≤ unit F * w ∧ 0 ≤ r ∧ r ≤ 360 ∧ (0 ≤ a → r = w) := by
  obtain ⟨m, w, r, h1, h2, -, h3, h4, h5, h6, h7, h8, h9⟩ := wrap_fin hF (by norm_num) h360 ha
  refine ⟨r, w, ?_, h5, h2, fun s hs => h4 ▸ nearest_num hF w s hs, h6, h7, h8, h9⟩
  unfold getWrapDeg
  rw [fmod_fin h1]
  exact h3

theorem C87_ieee_rad {F : Fmt} (hF : Good F) (k : Consts) (hk : 0 < k.tau) (hk' : Num F k.tau) (a : ℝ) (ha : Num F a) :
    ∃ r w, getWrapRad F k (.fin a) = .fin r ∧ Num F r ∧ (0 ≤ w ∧ w < k.tau ∧ Same k.tau w a) ∧
      (∀ s, Num F s → |r - w| ≤ |s - w|) ∧ |r - w| ≤ unit F * w ∧ 0 ≤ r ∧ r ≤ k.tau ∧ (0 ≤ a → r = w) := by
  obtain ⟨m, w, r, h1, h2, -, h3, h4, h5, h6, h7, h8, h9⟩ := wrap_fin hF hk hk' ha
  refine ⟨r, w, ?_, h5, h2, fun s hs => h4 ▸ nearest_num hF w s hs, h6, h7, h8, h9⟩
  unfold getWrapRad
  rw [fmod_fin h1]
  exact h3

/-- An infinity or NaN gives NaN. -/
theorem C87_ieee_special (F : Fmt) (k : Consts) (x : FP) (h : ∀ a, x ≠ .fin a) :
    getWrapDeg F x = .nan ∧ getWrapRad F k x = .nan := by
  cases x with
  | fin a => exact absurd rfl (h a)
  | inf s => simp [getWrapDeg, getWrapRad, Ieee.fmod, lt]
  | nan => simp [getWrapDeg, getWrapRad, Ieee.fmod, lt]

/-- A full turn is a possible result: it is that for all negative angles so small that 360 is the number nearest to the
wrapped angle. -/
theorem C87_ieee_full_turn {F : Fmt} (hF : Good F) (h360 : Num F 360) (hp : 9 ≤ F.p) (hq : F.qmin ≤ 9 - F.p) (a : ℝ)
    (h0 : a < 0) (h1 : -(2 : ℝ) ^ (8 - (F.p : ℤ)) < a) : getWrapDeg F (.fin a) = .fin 360 := by
  have ht := num_top h360
  rw [abs_of_pos (by norm_num)] at ht
  have hs : (2 : ℝ) ^ (8 - (F.p : ℤ)) ≤ 2 ^ (-1 : ℤ) := two_mono (by omega)
  norm_num at hs
  have hm : Verif.Angle.fmod a 360 = some a := by
    unfold Verif.Angle.fmod
    have hc : ⌈a / 360⌉ = 0 := by
      rw [Int.ceil_eq_iff]
      constructor <;> push_cast <;> linarith
    rw [if_neg (by norm_num), if_neg (by intro h; linarith), hc]
    simp
  have hfl : F.fl (a + 360) = 360 := by
    have hu : F.ulpExp (a + 360) = 9 - F.p := by
      unfold Fmt.ulpExp
      rw [log_eq (k := 8) (by norm_num; linarith) (by norm_num; linarith)]
      omega
    have he := two_pos (9 - (F.p : ℤ))
    obtain ⟨N, hN⟩ := mult_of_le (show 9 - (F.p : ℤ) ≤ 0 by omega) 360
    norm_num at hN
    have hd : (a + 360) / 2 ^ (9 - (F.p : ℤ)) = N + a / 2 ^ (9 - (F.p : ℤ)) := by
      rw [hN]; field_simp; ring
    have ha : |a / 2 ^ (9 - (F.p : ℤ))| < 1 / 2 := by
      rw [abs_div, abs_of_pos he, abs_of_neg h0, div_lt_iff₀ he]
      have : (2 : ℝ) ^ (9 - (F.p : ℤ)) = 2 * 2 ^ (8 - (F.p : ℤ)) := by
        rw [show 9 - (F.p : ℤ) = 1 + (8 - (F.p : ℤ)) by ring, zpow_add₀ (by norm_num), zpow_one]
      rw [this]
      linarith
    have hr : rne ((a + 360) / 2 ^ (9 - (F.p : ℤ))) = N := by
      have h2 := rne_nearest ((a + 360) / 2 ^ (9 - (F.p : ℤ))) N
      rw [hd] at h2 ⊢
      set t := a / 2 ^ (9 - (F.p : ℤ))
      rw [abs_lt] at ha
      have h3 : |(N : ℝ) - (N + t)| < 1 / 2 := by rw [abs_lt]; constructor <;> linarith
      have h4 := abs_lt.mp (h2.trans_lt h3)
      have h5 : ((rne (N + t) : ℤ) : ℝ) < N + 1 := by linarith
      have h6 : (N : ℝ) - 1 < (rne (N + t) : ℤ) := by linarith
      have h5' : rne (N + t) < N + 1 := by exact_mod_cast h5
      have h6' : N - 1 < rne (N + t) := by exact_mod_cast h6
      omega
    unfold Fmt.fl
    rw [hu, hr, ← hN]
  unfold getWrapDeg
  rw [fmod_fin hm]
  dsimp only
  rw [if_pos (show lt (.fin a) (.fin 0) from h0), add_fin hF (not_over (by rw [abs_of_pos (by linarith)]; linarith)), hfl]

/-- In `float` and in `double`, `getWrapDeg(-0x1p-50)` is 360. -/
theorem C87_ieee_full_turn_example : Num binary32 (-2 ^ (-50 : ℤ)) ∧ Num binary64 (-2 ^ (-50 : ℤ)) ∧
    getWrapDeg binary32 (.fin (-2 ^ (-50 : ℤ))) = .fin 360 ∧ getWrapDeg binary64 (.fin (-2 ^ (-50 : ℤ))) = .fin 360 := by
  refine ⟨⟨-1, -50, by norm_num [binary32], by norm_num [binary32], by norm_num [binary32], by push_cast; ring⟩,
    ⟨-1, -50, by norm_num [binary64], by norm_num [binary64], by norm_num [binary64], by push_cast; ring⟩,
    C87_ieee_full_turn good32 formats_example.1.2 (by norm_num [binary32]) (by norm_num [binary32]) _ (by norm_num) ?_,
    C87_ieee_full_turn good64 formats_example.2.2 (by norm_num [binary64]) (by norm_num [binary64]) _ (by norm_num) ?_⟩
  · norm_num [binary32]
  · norm_num [binary64]

/-! ## C89 — distances between angles -/

theorem dist_fin {F : Fmt} (hF : Good F) {p a b : ℝ} (hp0 : 0 < p) (hp : Num F p) (hp2 : Num F (p * 2)) (ha : Num F a)
    (hb : Num F b) (ho : ¬ Over F (a - b)) :
    ∃ r d, sub F (.fin p) (Ieee.abs (sub F (Ieee.fmod (Ieee.abs (sub F (.fin a) (.fin b))) (.fin (p * 2))) (.fin p))) = .fin r ∧
      r = F.fl (p - |F.fl ((|F.fl (a - b)| - p * 2 * ⌊|F.fl (a - b)| / (p * 2)⌋) - p)|) ∧
      Num F r ∧ Dist (p * 2) a b d ∧ |r - d| ≤ unit F * |a - b| + p * (unit F + unit F ^ 2) ∧ 0 ≤ r ∧ r ≤ p := by
  have hp1 := hF.p
  have h2p : 0 < p * 2 := by linarith
  obtain ⟨m, d, h1, h2, h3⟩ := dist_error (precise_precise F) p a b hp0
  rw [precise_diff hp1 (num_grid ha) (num_grid hb)] at h1
  have hm := fmod_grid h2p (grid_abs' (fl_grid F (a - b))) (num_grid hp2) h1
  have hpm : precise F (m - p) = F.fl (m - p) := precise_diff hp1 hm (num_grid hp)
  rw [hpm, precise_diff hp1 (num_grid hp) (grid_abs' (fl_grid F _))] at h3
  obtain ⟨m', h4, -, h5, h6, h7, -⟩ := fmod_spec (x := |F.fl (a - b)|) h2p
  rw [h1] at h4
  cases h4
  have h7 := h7 (abs_nonneg _)
  have ht := num_top hp
  rw [abs_of_pos hp0] at ht
  have hmp : |m - p| ≤ p := by rw [abs_le]; constructor <;> linarith
  have ep := fl_exact hp1 (num_grid hp)
  have hfm : |F.fl (m - p)| ≤ p := by
    rw [abs_le] at hmp ⊢
    have k1 := fl_mono hp1 hmp.1
    have k2 := fl_mono hp1 hmp.2
    rw [fl_odd, ep] at k1
    rw [ep] at k2
    exact ⟨k1, k2⟩
  have hq0 : 0 ≤ p - |F.fl (m - p)| := by linarith
  have hq1 : p - |F.fl (m - p)| ≤ p := by linarith [abs_nonneg (F.fl (m - p))]
  have hr0 := fl_mono hp1 hq0
  have hr1 := fl_mono hp1 hq1
  rw [fl_zero] at hr0
  rw [ep] at hr1
  refine ⟨F.fl (p - |F.fl (m - p)|), d, ?_, ?_, ?_, h2, by linarith, hr0, hr1⟩
  · rw [sub_fin hF ho]
    show sub F (.fin p) (Ieee.abs (sub F (Ieee.fmod (.fin |F.fl (a - b)|) _) _)) = _
    rw [fmod_fin h1, sub_fin hF (not_over (hmp.trans ht))]
    show sub F (.fin p) (.fin |F.fl (m - p)|) = _
    rw [sub_fin hF (not_over (by rw [abs_of_nonneg hq0]; linarith))]
  · have : m = |F.fl (a - b)| - p * 2 * ⌊|F.fl (a - b)| / (p * 2)⌋ := by
      unfold Verif.Angle.fmod at h1
      rw [if_neg h2p.ne', if_pos (div_nonneg (abs_nonneg _) h2p.le)] at h1
      cases h1
      rfl
    rw [← this]
  · exact (num_iff hp1 hF.q).mpr ⟨fl_grid F _, by rw [abs_of_nonneg hr0]; linarith⟩

theorem dist_nan {F : Fmt} (hF : Good F) (p q : ℝ) (a b : FP)
    (h : ∀ x y, a = .fin x → b = .fin y → Over F (x - y)) :
    sub F (.fin p) (Ieee.abs (sub F (Ieee.fmod (Ieee.abs (sub F a b)) (.fin q)) (.fin p))) = .nan := by
  have key : ∀ z : FP, (∀ t, z ≠ .fin t) → sub F (.fin p) (Ieee.abs (sub F (Ieee.fmod (Ieee.abs z) (.fin q)) (.fin p))) = .nan := by
    intro z hz
    cases z with
    | fin t => exact absurd rfl (hz t)
    | inf s => rfl
    | nan => rfl
  apply key
  cases a with
  | fin x =>
    cases b with
    | fin y => rw [sub_inf hF (h x y rfl rfl)]; simp
    | inf s => simp [sub, neg, add]
    | nan => simp [sub, neg, add]
  | inf s =>
    cases b with
    | fin y => simp [sub, neg, add]
    | inf t => simp only [sub, neg, add]; split <;> simp
    | nan => simp [sub, neg, add]
  | nan => simp [sub, add]

/-- **C89 (IEEE 754).** For finite angles whose difference does not overflow, the distance is finite, between 0 and 180, the
same in both directions, and close to the true distance. -/
theorem C89_ieee_deg {F : Fmt} (hF : Good F) (h180 : Num F 180) (h360 : Num F 360) (a b : ℝ) (ha : Num F a) (hb : Num F b)
    (ho : ¬ Over F (a - b)) :
    ∃ r d, getDistDeg F (.fin a) (.fin b) = .fin r ∧ getDistDeg F (.fin b) (.fin a) = .fin r ∧ Num F r ∧ Dist 360 a b d ∧
      |r - d| ≤ unit F * |a - b| + 180 * (unit F + unit F ^ 2) ∧ 0 ≤ r ∧ r ≤ 180 := by
  have e : (180 : ℝ) * 2 = 360 := by norm_num
  obtain ⟨r, d, h1, h2, h3, h4, h5, h6, h7⟩ := dist_fin hF (by norm_num) h180 (by rwa [e]) ha hb ho
  obtain ⟨r', d', k1, k2, -⟩ := dist_fin hF (by norm_num) h180 (by rwa [e]) hb ha (by rwa [← neg_sub, over_neg])
  have : r = r' := by rw [h2, k2, ← neg_sub b a, fl_odd, abs_neg]
  rw [e] at h1 h4 k1
  exact ⟨r, d, h1, by rw [this]; exact k1, h3, h4, h5, h6, h7⟩

theorem C89_ieee_rad {F : Fmt} (hF : Good F) (k : Consts) (hk : 0 < k.pi) (hk1 : Num F k.pi) (hk2 : Num F (k.pi * 2)) (a b : ℝ)
    (ha : Num F a) (hb : Num F b) (ho : ¬ Over F (a - b)) :
    ∃ r d, getDistRad F k (.fin a) (.fin b) = .fin r ∧ getDistRad F k (.fin b) (.fin a) = .fin r ∧ Num F r ∧
      Dist (k.pi * 2) a b d ∧ |r - d| ≤ unit F * |a - b| + k.pi * (unit F + unit F ^ 2) ∧ 0 ≤ r ∧ r ≤ k.pi := by
  obtain ⟨r, d, h1, h2, h3, h4, h5, h6, h7⟩ := dist_fin hF hk hk1 hk2 ha hb ho
  obtain ⟨r', d', k1, k2, -⟩ := dist_fin hF hk hk1 hk2 hb ha (by rwa [← neg_sub, over_neg])
  have : r = r' := by rw [h2, k2, ← neg_sub b a, fl_odd, abs_neg]
  exact ⟨r, d, h1, by rw [this]; exact k1, h3, h4, h5, h6, h7⟩

/-- In all other cases — an argument is an infinity or NaN, or the difference overflows — the result is NaN. -/
theorem C89_ieee_nan {F : Fmt} (hF : Good F) (k : Consts) (a b : FP)
    (h : ∀ x y, a = .fin x → b = .fin y → Over F (x - y)) :
    getDistDeg F a b = .nan ∧ getDistRad F k a b = .nan := ⟨dist_nan hF _ _ _ _ h, dist_nan hF _ _ _ _ h⟩

/-- The difference of the largest number and its negation overflows. -/
theorem C89_ieee_nan_example : Num binary64 binary64.top ∧ Num binary64 (-binary64.top) ∧
    Over binary64 (binary64.top - -binary64.top) := by
  refine ⟨⟨2 ^ 53 - 1, 971, by norm_num [binary64], by norm_num [binary64], by norm_num [binary64], ?_⟩,
    ⟨-(2 ^ 53 - 1), 971, by norm_num [binary64], by norm_num [binary64], by norm_num [binary64], ?_⟩, ?_⟩
  · simp only [Fmt.top, binary64]; push_cast; ring
  · simp only [Fmt.top, binary64]; push_cast; ring
  · unfold Over
    rw [sub_neg_eq_add, abs_of_nonneg (add_nonneg (top_nonneg _) (top_nonneg _))]
    unfold Fmt.top
    have := two_pos binary64.qmax
    rw [← add_mul]
    exact mul_le_mul_of_nonneg_right (by norm_num [binary64]) this.le

/-! ## C88 — cycling through a range -/

theorem unit_half {F : Fmt} (hp : 1 ≤ F.p) : unit F ≤ 1 / 2 := by
  refine (two_mono (show -(F.p : ℤ) ≤ -1 by omega)).trans (by norm_num)

theorem cycled_fin {F : Fmt} (hF : Good F) {x min max : ℝ} (hx : x ∈ Grid F) (hmin : min ∈ Grid F) (hmax : max ∈ Grid F)
    (h : min < max) (ho : ¬ Over F (x - min)) (hd : |min| + 2 * (max - min) ≤ F.top) :
    ∃ r, getCycledValue F (.fin x) (.fin min) (.fin max) = .fin r ∧
      Verif.Angle.getCycledValue (precise F) x min max = some r ∧ r ∈ Grid F ∧ |r| ≤ F.top := by
  have hp1 := hF.p
  have hu := unit_half hp1
  have hu0 := u_pos F
  have h0 : 0 < max - min := by linarith
  have hm0 := abs_nonneg min
  have hdm : |max - min| ≤ F.top := by rw [abs_of_pos h0]; linarith
  have hde := fl_diff hp1 hmax hmin
  rw [abs_of_pos h0, abs_le] at hde
  set δ := F.fl (max - min) with hδ
  have hδ0 : 0 < δ := by nlinarith
  have hδ1 : δ ≤ 3 / 2 * (max - min) := by nlinarith
  have hδg : δ ∈ Grid F := fl_grid F _
  have hδt : δ ≤ F.top := by linarith
  obtain ⟨m, h1, -, h3, h4, -, -⟩ := fmod_spec (x := F.fl (x - min)) hδ0
  have hmg := fmod_grid hδ0 (fl_grid F _) hδg h1
  obtain ⟨q, hq1, hq2, hq3, hq4, hq5⟩ : ∃ q, (open Classical in if lt (.fin m) (.fin 0) then add F (.fin m) (.fin δ) else .fin m) = .fin q ∧
      (if m < 0 then precise F (m + δ) else m) = q ∧ q ∈ Grid F ∧ 0 ≤ q ∧ q ≤ δ := by
    by_cases hm : m < 0
    · refine ⟨F.fl (m + δ), ?_, ?_, fl_grid F _, ?_, ?_⟩
      · rw [if_pos (show lt (.fin m) (.fin 0) from hm), add_fin hF (not_over (by rw [abs_of_pos (by linarith)]; linarith))]
      · rw [if_pos hm, precise_sum hp1 hmg hδg]
      · have := fl_mono hp1 (show 0 ≤ m + δ by linarith)
        rwa [fl_zero] at this
      · have := fl_mono hp1 (show m + δ ≤ δ by linarith)
        rwa [fl_exact hp1 hδg] at this
    · exact ⟨m, by rw [if_neg (show ¬ lt (.fin m) (.fin 0) from hm)], by rw [if_neg hm], hmg, not_lt.mp hm, h4.le⟩
  have hnt : |min + q| ≤ F.top := by
    refine (abs_add_le _ _).trans ?_
    rw [abs_of_nonneg hq4]
    linarith
  refine ⟨F.fl (min + q), ?_, ?_, fl_grid F _, fl_le_top hp1 hF.q hnt⟩
  · unfold getCycledValue
    rw [sub_fin hF (not_over hdm), sub_fin hF ho]
    dsimp only
    rw [fmod_fin h1, hq1, add_fin hF (not_over hnt)]
  · simp only [Verif.Angle.getCycledValue, precise_diff hp1 hmax hmin, precise_diff hp1 hx hmin, h1, ← hδ,
      Option.bind_eq_bind, Option.bind_some, hq2, precise_sum hp1 hmin hq3, Option.pure_def]

/-- **C88 (IEEE 754).** If the range is not too large and the distance to it does not overflow, the result is a number near
the true cycled value and, up to rounding, in the range. -/
theorem C88_ieee {F : Fmt} (hF : Good F) (x min max : ℝ) (hx : Num F x) (hmin : Num F min) (hmax : Num F max)
    (h : min < max) (ho : ¬ Over F (x - min)) (hd : |min| + 2 * (max - min) ≤ F.top) :
    ∃ r w, getCycledValue F (.fin x) (.fin min) (.fin max) = .fin r ∧ Num F r ∧ Same (max - min) w x ∧
      |r - w| ≤ 2 * unit F / (1 - unit F) * |x - min| + unit F * |min| + ((1 + unit F) ^ 3 - 1) * (max - min) ∧
      min - (unit F * |min| + ((1 + unit F) ^ 3 - 1) * (max - min)) ≤ r ∧
      r ≤ max + (unit F * |min| + ((1 + unit F) ^ 3 - 1) * (max - min)) := by
  have hu := unit_half hF.p
  obtain ⟨r, h1, h2, h3, h4⟩ := cycled_fin hF (num_grid hx) (num_grid hmin) (num_grid hmax) h ho hd
  obtain ⟨r', w, k1, k2, k3, k4, k5⟩ := C88_error (precise_precise F) (by linarith) x min max h
  rw [h2] at k1
  cases k1
  exact ⟨r, w, h1, (num_iff hF.p hF.q).mpr ⟨h3, h4⟩, k2, k3, k4, k5⟩

/-- A value so far from the range that the distance overflows gives NaN, and so does one that is not finite. -/
theorem C88_ieee_far {F : Fmt} (hF : Good F) (x : FP) (min : ℝ) (max : FP) (h : ∀ a, x = .fin a → Over F (a - min)) :
    getCycledValue F x (.fin min) max = .nan := by
  have key : ∀ z d : FP, (∀ t, z ≠ .fin t) → Ieee.fmod z d = .nan := by
    intro z d hz
    cases z with
    | fin t => exact absurd rfl (hz t)
    | inf s => cases d <;> rfl
    | nan => rfl
  have h1 : Ieee.fmod (sub F x (.fin min)) (sub F max (.fin min)) = .nan := by
    refine key _ _ fun t => ?_
    cases x with
    | fin a => rw [sub_inf hF (h a rfl)]; simp
    | inf s => simp [sub, neg, add]
    | nan => simp [sub, add]
  unfold getCycledValue
  dsimp only
  rw [h1]
  simp [lt, add]

/-- If the range is so large that its length overflows, values above it are not brought into it, and values below it give
infinity. -/
theorem C88_ieee_wide {F : Fmt} (hF : Good F) (x min max : ℝ) (h : min < max) (ho : ¬ Over F (x - min))
    (hd : Over F (max - min)) :
    (0 ≤ F.fl (x - min) → getCycledValue F (.fin x) (.fin min) (.fin max) = F.rnd (min + F.fl (x - min))) ∧
    (F.fl (x - min) < 0 → getCycledValue F (.fin x) (.fin min) (.fin max) = .inf false) := by
  have hs : sub F (.fin max) (.fin min) = .inf false := by
    rw [sub_inf hF hd, decide_eq_false (by linarith)]
  unfold getCycledValue
  rw [hs, sub_fin hF ho]
  dsimp only [Ieee.fmod]
  constructor
  · intro h0
    rw [if_neg (show ¬ lt (.fin (F.fl (x - min))) (.fin 0) from not_lt.mpr h0)]
    rfl
  · intro h0
    rw [if_pos (show lt (.fin (F.fl (x - min))) (.fin 0) from h0)]
    rfl

theorem C88_ieee_example : |(-180 : ℝ)| + 2 * (180 - -180) ≤ binary32.top ∧ ¬ Over binary32 (1000 - -180) ∧
    Over binary32 (binary32.top - -180 * 2 ^ 150) := by
  have ht : (2 : ℝ) ^ (100 : ℤ) ≤ binary32.top := by
    unfold Fmt.top binary32
    norm_num
  refine ⟨le_trans (by norm_num) ht, not_over (le_trans (by norm_num) ht), ?_⟩
  unfold Over Fmt.top binary32
  norm_num

/-! ## C90 — rotating -/

/-- **C90 (IEEE 754).** For finite angles and a finite, non-negative speed with which the start does not leave the numbers of
the format, the result is finite and obeys the bounds of `C90_deg_error`. -/
theorem C90_ieee {F : Fmt} (hF : Good F) (hp : 9 ≤ F.p) (h180 : Num F 180) (h360 : Num F 360) (ht : 900 ≤ F.top)
    (start stop speed d : ℝ) (h1 : Num F start) (h2 : Num F stop) (h3 : Num F speed) (hs : 0 ≤ speed)
    (hd : Dist 360 start stop d) (ho : |start| + speed ≤ F.top) :
    ∃ r, getRotatedDeg F (.fin start) (.fin stop) (.fin speed) = .fin r ∧ Num F r ∧
      ((r = stop ∧ d ≤ speed + 3500 * unit F) ∨
       ∃ d', Dist 360 r stop d' ∧ d' ≤ max 0 (d - speed) + 9600 * unit F + unit F * (|start| + speed)) := by
  have hp1 := hF.p
  have hu1 : unit F ≤ 1 / 100 := (two_mono (show -(F.p : ℤ) ≤ -9 by omega)).trans (by norm_num)
  obtain ⟨me, we, e, a1, -, a2, a3, -, a4, -, a5, a6, -⟩ := wrap_fin hF (by norm_num) h360 h2
  obtain ⟨ms, ws, s, b1, -, b2, b3, -, b4, -, b5, b6, -⟩ := wrap_fin hF (by norm_num) h360 h1
  have ae : getWrapDeg F (.fin stop) = .fin e := by unfold getWrapDeg; rw [fmod_fin a1]; exact a3
  have be : getWrapDeg F (.fin start) = .fin s := by unfold getWrapDeg; rw [fmod_fin b1]; exact b3
  have wrapP : ∀ {x m q : ℝ}, Num F x → Verif.Angle.fmod x 360 = some m → (q = if m < 0 then F.fl (m + 360) else m) →
      Verif.Angle.getWrapDeg (precise F) x = some q := by
    intro x m q hx h4 h5
    have hm := fmod_grid (by norm_num) (num_grid hx) (num_grid h360) h4
    simp only [Verif.Angle.getWrapDeg, h4, Option.bind_eq_bind, Option.bind_some, precise_sum hp1 hm (num_grid h360), h5, Option.pure_def]
  have ap := wrapP h2 a1 a2
  have bp := wrapP h1 b1 b2
  have hes : |e - s| ≤ 360 := by rw [abs_le]; constructor <;> linarith
  have hfes : |F.fl (e - s)| ≤ 360 := by
    rw [abs_le] at hes ⊢
    have k1 := fl_mono hp1 hes.1
    have k2 := fl_mono hp1 hes.2
    rw [fl_odd, fl_exact hp1 (num_grid h360)] at k1
    rw [fl_exact hp1 (num_grid h360)] at k2
    exact ⟨k1, k2⟩
  have c0 : ¬ Over F (F.fl (e - s) - -180) := by
    refine not_over ((abs_sub _ _).trans ?_)
    rw [abs_neg, abs_of_pos (show (0 : ℝ) < 180 by norm_num)]
    linarith
  obtain ⟨diff, c1, c2, -, -⟩ := cycled_fin hF (fl_grid F (e - s)) (grid_neg (num_grid h180)) (num_grid h180) (by norm_num) c0
    (by rw [abs_neg, abs_of_pos (show (0 : ℝ) < 180 by norm_num)]; linarith)
  obtain ⟨r, k1, k2⟩ := C90_deg_error (precise_precise F) hu1 start stop speed d hs hd
  have hm : |start - speed| ≤ F.top := by
    refine (abs_sub _ _).trans ?_
    rwa [abs_of_nonneg hs]
  have hpl : |start + speed| ≤ F.top := by
    refine (abs_add_le _ _).trans ?_
    rwa [abs_of_nonneg hs]
  have hrun : getRotatedDeg F (.fin start) (.fin stop) (.fin speed) =
      .fin (if diff < -speed then F.fl (start - speed) else if diff > speed then F.fl (start + speed) else stop) := by
    unfold getRotatedDeg
    rw [ae, be, sub_fin hF (not_over (hes.trans (by linarith)))]
    have : neg (.fin 180) = .fin (-180) := rfl
    rw [this, c1]
    dsimp only
    by_cases q1 : diff < -speed
    · rw [if_pos (show lt (.fin diff) (neg (.fin speed)) from q1), if_pos q1, sub_fin hF (not_over hm)]
    · rw [if_neg (show ¬ lt (.fin diff) (neg (.fin speed)) from q1), if_neg q1]
      by_cases q2 : speed < diff
      · rw [if_pos (show lt (.fin speed) (.fin diff) from q2), if_pos q2, add_fin hF (not_over hpl)]
      · rw [if_neg (show ¬ lt (.fin speed) (.fin diff) from q2), if_neg q2]
  have hr : r = if diff < -speed then F.fl (start - speed) else if diff > speed then F.fl (start + speed) else stop := by
    simp only [Verif.Angle.getRotatedDeg, ap, bp, Option.bind_eq_bind, Option.bind_some, precise_diff hp1 (num_grid a4) (num_grid b4),
      c2, precise_diff hp1 (num_grid h1) (num_grid h3), precise_sum hp1 (num_grid h1) (num_grid h3)] at k1
    split_ifs at k1 ⊢ <;> cases k1 <;> rfl
  refine ⟨r, by rw [hrun, hr], ?_, k2⟩
  rw [hr]
  split_ifs
  · exact (num_iff hp1 hF.q).mpr ⟨fl_grid F _, fl_le_top hp1 hF.q hm⟩
  · exact (num_iff hp1 hF.q).mpr ⟨fl_grid F _, fl_le_top hp1 hF.q hpl⟩
  · exact h2

/-- With an angle that is not finite, or with NaN for the speed, the result is `stop`, whatever it is. -/
theorem C90_ieee_special {F : Fmt} (hF : Good F) (start stop speed : FP)
    (h : (∀ a, start ≠ .fin a) ∨ (∀ a, stop ≠ .fin a) ∨ speed = .nan) : getRotatedDeg F start stop speed = stop := by
  have nanL : ∀ z, add F .nan z = .nan := fun z => by simp [add]
  have nanR : ∀ z, add F z .nan = .nan := fun z => by cases z <;> simp [add]
  have nlt1 : ∀ z, ¬ lt .nan z := fun z => by simp [lt]
  have nlt2 : ∀ z, ¬ lt z .nan := fun z => by cases z <;> simp [lt]
  have cyc : ∀ a b, getCycledValue F .nan a b = .nan := by
    intro a b
    have : Ieee.fmod (sub F .nan a) (sub F b a) = .nan := by simp [sub, nanL, Ieee.fmod]
    unfold getCycledValue
    dsimp only
    rw [this, if_neg (nlt1 _), nanR]
  unfold getRotatedDeg
  rcases h with h | h | h
  · rw [(C87_ieee_special F ⟨1, 1, 1⟩ start h).1]
    have : sub F (getWrapDeg F stop) .nan = .nan := nanR _
    rw [this, cyc]
    dsimp only
    rw [if_neg (nlt1 _), if_neg (nlt2 _)]
  · rw [(C87_ieee_special F ⟨1, 1, 1⟩ stop h).1]
    have : sub F .nan (getWrapDeg F start) = .nan := nanL _
    rw [this, cyc]
    dsimp only
    rw [if_neg (nlt1 _), if_neg (nlt2 _)]
  · subst h
    dsimp only
    rw [if_neg (show ¬ lt _ (neg .nan) from nlt2 _), if_neg (nlt1 _)]

theorem C90_ieee_example : 9 ≤ binary32.p ∧ (900 : ℝ) ≤ binary32.top ∧ |(350 : ℝ)| + 5 ≤ binary32.top := by
  have ht : (2 : ℝ) ^ (100 : ℤ) ≤ binary32.top := by
    unfold Fmt.top binary32
    norm_num
  exact ⟨by norm_num [binary32], le_trans (by norm_num) ht, le_trans (by norm_num) ht⟩

/-! ## C91 — distances between points -/

theorem add_pos_cases {F : Fmt} (hF : Good F) {a b : ℝ} (h : 0 ≤ a + b) :
    (add F (.fin a) (.fin b) = .fin (F.fl (a + b)) ∧ ¬ Over F (a + b)) ∨ (add F (.fin a) (.fin b) = .inf false ∧ Over F (a + b)) := by
  by_cases ho : Over F (a + b)
  · exact Or.inr ⟨by rw [add_inf hF ho, decide_eq_false (not_lt.mpr h)], ho⟩
  · exact Or.inl ⟨add_fin hF ho, ho⟩

theorem abs_sub_cases {F : Fmt} (hF : Good F) (a b : ℝ) :
    (Ieee.abs (sub F (.fin a) (.fin b)) = .fin |F.fl (a - b)| ∧ ¬ Over F (a - b)) ∨
    (Ieee.abs (sub F (.fin a) (.fin b)) = .inf false ∧ Over F (a - b)) := by
  by_cases ho : Over F (a - b)
  · exact Or.inr ⟨by rw [sub_inf hF ho]; rfl, ho⟩
  · exact Or.inl ⟨by rw [sub_fin hF ho]; rfl, ho⟩

theorem over_top {F : Fmt} {x : ℝ} (h : Over F x) : F.top < |x| := by
  by_contra hc
  exact not_over (not_lt.mp hc) h

/-- **C91 (IEEE 754), Manhattan.** For finite points the result is within two roundings of the distance, and zero only for
equal points; it is infinite only if the distance, up to these roundings, is larger than the largest number. Underflow does not occur. -/
theorem C91_ieee_manhattan {F : Fmt} (hF : Good F) (x1 y1 x2 y2 : ℝ) (h1 : Num F x1) (h2 : Num F y1) (h3 : Num F x2) (h4 : Num F y2) :
    (∃ r, getDistManhattan F (.fin x1) (.fin y1) (.fin x2) (.fin y2) = .fin r ∧ Num F r ∧
      Within (unit F) 2 r (|x1 - x2| + |y1 - y2|) ∧ (r = 0 ↔ x1 = x2 ∧ y1 = y2)) ∨
    (getDistManhattan F (.fin x1) (.fin y1) (.fin x2) (.fin y2) = .inf false ∧
      F.top < (1 + unit F) * (|x1 - x2| + |y1 - y2|)) := by
  have hp1 := hF.p
  have hu := unit_half hp1
  have hu0 := u_pos F
  have n1 := abs_nonneg (x1 - x2)
  have n2 := abs_nonneg (y1 - y2)
  have e1 := fl_diff hp1 (num_grid h1) (num_grid h3)
  have e2 := fl_diff hp1 (num_grid h2) (num_grid h4)
  have b1 : |F.fl (x1 - x2)| ≤ (1 + unit F) * |x1 - x2| := by
    have := abs_add_le (F.fl (x1 - x2) - (x1 - x2)) (x1 - x2)
    rw [sub_add_cancel] at this
    linarith
  have b2 : |F.fl (y1 - y2)| ≤ (1 + unit F) * |y1 - y2| := by
    have := abs_add_le (F.fl (y1 - y2) - (y1 - y2)) (y1 - y2)
    rw [sub_add_cancel] at this
    linarith
  unfold getDistManhattan
  rcases abs_sub_cases hF x1 x2 with ⟨k1, o1⟩ | ⟨k1, o1⟩ <;> rcases abs_sub_cases hF y1 y2 with ⟨k2, o2⟩ | ⟨k2, o2⟩ <;>
    rw [k1, k2]
  · rcases add_pos_cases hF (add_nonneg (abs_nonneg (F.fl (x1 - x2))) (abs_nonneg (F.fl (y1 - y2)))) with ⟨k3, o3⟩ | ⟨k3, o3⟩
    · left
      have hr : F.fl (|F.fl (x1 - x2)| + |F.fl (y1 - y2)|) = Verif.Angle.getDistManhattan (precise F) x1 y1 x2 y2 := by
        unfold Verif.Angle.getDistManhattan
        rw [precise_diff hp1 (num_grid h1) (num_grid h3), precise_diff hp1 (num_grid h2) (num_grid h4),
          precise_sum hp1 (grid_abs' (fl_grid F _)) (grid_abs' (fl_grid F _))]
      refine ⟨_, k3, (num_iff hp1 hF.q).mpr ⟨fl_grid F _, ?_⟩, ?_, ?_⟩
      · rw [← over_iff hF, not_lt] at o3
        exact o3
      · rw [hr]
        exact (C91_error (precise_precise F) (by linarith) x1 y1 x2 y2).1
      · rw [hr]
        exact (C91_zero_rounded (precise_precise F) (by linarith) x1 y1 x2 y2).1
    · right
      refine ⟨k3, (over_top o3).trans_le ?_⟩
      rw [abs_of_nonneg (add_nonneg (abs_nonneg _) (abs_nonneg _))]
      linarith
  · refine Or.inr ⟨rfl, (over_top o2).trans_le ?_⟩
    nlinarith
  · refine Or.inr ⟨rfl, (over_top o1).trans_le ?_⟩
    nlinarith
  · refine Or.inr ⟨rfl, (over_top o1).trans_le ?_⟩
    nlinarith

/-- **C91 (IEEE 754), Chebyshev.** -/
theorem C91_ieee_chebyshev {F : Fmt} (hF : Good F) (x1 y1 x2 y2 : ℝ) (h1 : Num F x1) (h2 : Num F y1) (h3 : Num F x2) (h4 : Num F y2) :
    (∃ r, getDistChebyshev F (.fin x1) (.fin y1) (.fin x2) (.fin y2) = .fin r ∧ Num F r ∧
      Within (unit F) 1 r (max |x1 - x2| |y1 - y2|) ∧ (r = 0 ↔ x1 = x2 ∧ y1 = y2)) ∨
    (getDistChebyshev F (.fin x1) (.fin y1) (.fin x2) (.fin y2) = .inf false ∧ F.top < max |x1 - x2| |y1 - y2|) := by
  have hp1 := hF.p
  have hu := unit_half hp1
  have hu0 := u_pos F
  unfold getDistChebyshev
  rcases abs_sub_cases hF x2 x1 with ⟨k1, o1⟩ | ⟨k1, o1⟩ <;> rcases abs_sub_cases hF y2 y1 with ⟨k2, o2⟩ | ⟨k2, o2⟩ <;>
    rw [k1, k2]
  · left
    have hr : max |F.fl (x2 - x1)| |F.fl (y2 - y1)| = Verif.Angle.getDistChebyshev (precise F) x1 y1 x2 y2 := by
      unfold Verif.Angle.getDistChebyshev
      rw [precise_diff hp1 (num_grid h3) (num_grid h1), precise_diff hp1 (num_grid h4) (num_grid h2)]
    refine ⟨max |F.fl (x2 - x1)| |F.fl (y2 - y1)|, ?_, ?_, ?_, ?_⟩
    · unfold Ieee.max
      by_cases hl : |F.fl (x2 - x1)| < |F.fl (y2 - y1)|
      · rw [if_pos (show lt (.fin |F.fl (x2 - x1)|) (.fin |F.fl (y2 - y1)|) from hl), max_eq_right hl.le]
      · rw [if_neg (show ¬ lt (.fin |F.fl (x2 - x1)|) (.fin |F.fl (y2 - y1)|) from hl), max_eq_left (not_lt.mp hl)]
    · rw [← over_iff hF, not_lt] at o1 o2
      rcases max_choice |F.fl (x2 - x1)| |F.fl (y2 - y1)| with hm | hm <;> rw [hm]
      · exact (num_iff hp1 hF.q).mpr ⟨grid_abs' (fl_grid F _), by rwa [abs_abs]⟩
      · exact (num_iff hp1 hF.q).mpr ⟨grid_abs' (fl_grid F _), by rwa [abs_abs]⟩
    · rw [hr]
      exact (C91_error (precise_precise F) (by linarith) x1 y1 x2 y2).2.1
    · rw [hr]
      exact (C91_zero_rounded (precise_precise F) (by linarith) x1 y1 x2 y2).2.1
  · refine Or.inr ⟨?_, ?_⟩
    · unfold Ieee.max
      exact if_pos rfl
    · have := over_top o2
      rw [abs_sub_comm] at this
      exact this.trans_le (le_max_right _ _)
  · refine Or.inr ⟨?_, ?_⟩
    · unfold Ieee.max
      exact if_neg (by simp [lt])
    · have := over_top o1
      rw [abs_sub_comm] at this
      exact this.trans_le (le_max_left _ _)
  · refine Or.inr ⟨?_, ?_⟩
    · unfold Ieee.max
      exact if_neg (by simp [lt])
    · have := over_top o1
      rw [abs_sub_comm] at this
      exact this.trans_le (le_max_left _ _)

/-- Zero, or not so small that the square underflows. -/
def SquareOk (F : Fmt) (t : ℝ) : Prop := t = 0 ∨ (2 : ℝ) ^ (F.qmin + F.p - 1) ≤ (1 - unit F) ^ 2 * t ^ 2

/-- **C91 (IEEE 754), Euclid.** If the square of neither difference underflows, and the sum of the squares does not overflow,
the squared distance is within four roundings, and zero only for equal points. -/
theorem C91_ieee_squared_partial {F : Fmt} (hF : Good F) (x1 y1 x2 y2 : ℝ) (h1 : Num F x1) (h2 : Num F y1) (h3 : Num F x2) (h4 : Num F y2)
    (hx : SquareOk F (x1 - x2)) (hy : SquareOk F (y1 - y2)) (h1x : |x1 - x2| ≤ F.top) (h1y : |y1 - y2| ≤ F.top)
    (ht : (1 + unit F) ^ 3 * ((x1 - x2) ^ 2 + (y1 - y2) ^ 2) ≤ F.top) :
    ∃ r, getDistSquaredEuclidean F (.fin x1) (.fin y1) (.fin x2) (.fin y2) = .fin r ∧ Num F r ∧
      Within (unit F) 4 r ((x1 - x2) ^ 2 + (y1 - y2) ^ 2) ∧ (r = 0 ↔ x1 = x2 ∧ y1 = y2) := by
  have hp1 := hF.p
  have hu := unit_half hp1
  have hu0 := u_pos F
  have sq : ∀ {a b : ℝ}, a ∈ Grid F → b ∈ Grid F → SquareOk F (a - b) →
      |F.fl (F.fl (a - b) * F.fl (a - b)) - F.fl (a - b) * F.fl (a - b)| ≤ unit F * |F.fl (a - b) * F.fl (a - b)| ∧
      F.fl (a - b) * F.fl (a - b) ≤ (1 + unit F) ^ 2 * (a - b) ^ 2 := by
    intro a b ha hb hs
    have e := fl_diff hp1 ha hb
    set D := F.fl (a - b)
    have up : |D| ≤ (1 + unit F) * |a - b| := by
      have := abs_add_le (D - (a - b)) (a - b)
      rw [sub_add_cancel] at this
      linarith
    have lo : (1 - unit F) * |a - b| ≤ |D| := by
      have := abs_sub_abs_le_abs_sub (a - b) D
      rw [abs_sub_comm (a - b) D] at this
      linarith
    have hD : D * D = |D| ^ 2 := by rw [sq_abs]; ring
    have hA : (a - b) ^ 2 = |a - b| ^ 2 := (sq_abs _).symm
    have na := abs_nonneg (a - b)
    refine ⟨?_, ?_⟩
    · rcases hs with hs | hs
      · rw [hs, abs_zero, mul_zero] at up
        have : D = 0 := abs_eq_zero.mp (le_antisymm up (abs_nonneg _))
        rw [this, mul_zero, fl_zero, sub_zero, abs_zero, mul_zero]
      · refine fl_rel (hs.trans ?_)
        rw [abs_of_nonneg (mul_self_nonneg D), hD, hA, ← mul_pow]
        exact pow_le_pow_left₀ (mul_nonneg (by linarith) na) lo 2
    · rw [hD, hA, ← mul_pow]
      exact pow_le_pow_left₀ (abs_nonneg _) up 2
  obtain ⟨a1, a2⟩ := sq (num_grid h1) (num_grid h3) hx
  obtain ⟨b1, b2⟩ := sq (num_grid h2) (num_grid h4) hy
  set P := F.fl (x1 - x2) * F.fl (x1 - x2) with hP
  set Q := F.fl (y1 - y2) * F.fl (y1 - y2) with hQ
  have P0 : 0 ≤ P := mul_self_nonneg _
  have Q0 : 0 ≤ Q := mul_self_nonneg _
  have X0 := sq_nonneg (x1 - x2)
  have Y0 := sq_nonneg (y1 - y2)
  have hP1 : F.fl P ≤ (1 + unit F) * P := by
    rw [abs_of_nonneg P0] at a1
    have := (abs_le.mp a1).2
    linarith
  have hQ1 : F.fl Q ≤ (1 + unit F) * Q := by
    rw [abs_of_nonneg Q0] at b1
    have := (abs_le.mp b1).2
    linarith
  have hP0 : 0 ≤ F.fl P := by have := fl_mono hp1 P0; rwa [fl_zero] at this
  have hQ0 : 0 ≤ F.fl Q := by have := fl_mono hp1 Q0; rwa [fl_zero] at this
  have hsum : F.fl P + F.fl Q ≤ F.top := by
    refine le_trans ?_ ht
    have k1 : (1 + unit F) * P ≤ (1 + unit F) * ((1 + unit F) ^ 2 * (x1 - x2) ^ 2) := mul_le_mul_of_nonneg_left a2 (by linarith)
    have k2 : (1 + unit F) * Q ≤ (1 + unit F) * ((1 + unit F) ^ 2 * (y1 - y2) ^ 2) := mul_le_mul_of_nonneg_left b2 (by linarith)
    nlinarith
  have hPt : ¬ Over F P := by
    rw [← over_iff hF, not_lt, abs_of_nonneg hP0]
    linarith
  have hQt : ¬ Over F Q := by
    rw [← over_iff hF, not_lt, abs_of_nonneg hQ0]
    linarith
  have hSt : |F.fl P + F.fl Q| ≤ F.top := by rwa [abs_of_nonneg (by linarith)]
  have hr : F.fl (F.fl P + F.fl Q) = Verif.Angle.getDistSquaredEuclidean (precise F) x1 y1 x2 y2 := by
    unfold Verif.Angle.getDistSquaredEuclidean
    rw [precise_diff hp1 (num_grid h1) (num_grid h3), precise_diff hp1 (num_grid h2) (num_grid h4), ← hP, ← hQ,
      precise_eq a1, precise_eq b1, precise_sum hp1 (fl_grid F _) (fl_grid F _)]
  refine ⟨F.fl (F.fl P + F.fl Q), ?_, (num_iff hp1 hF.q).mpr ⟨fl_grid F _, fl_le_top hp1 hF.q hSt⟩, ?_, ?_⟩
  · unfold getDistSquaredEuclidean
    rw [sub_fin hF (not_over h1x), sub_fin hF (not_over h1y)]
    dsimp only [mul]
    rw [rnd_fin' hF hPt, rnd_fin' hF hQt, add_fin hF (not_over hSt)]
  · rw [hr]
    exact (C91_error (precise_precise F) (by linarith) x1 y1 x2 y2).2.2.1
  · rw [hr]
    exact (C91_zero_rounded (precise_precise F) (by linarith) x1 y1 x2 y2).2.2.1

/-- Under the same conditions the distance is within three roundings. -/
theorem C91_ieee_euclid_partial {F : Fmt} (hF : Good F) (hq : F.qmin ≤ 2 - 2 * (F.p : ℤ)) (h1t : 1 ≤ F.top) (x1 y1 x2 y2 : ℝ) (h1 : Num F x1)
    (h2 : Num F y1) (h3 : Num F x2) (h4 : Num F y2) (hx : SquareOk F (x1 - x2)) (hy : SquareOk F (y1 - y2))
    (h1x : |x1 - x2| ≤ F.top) (h1y : |y1 - y2| ≤ F.top) (ht : (1 + unit F) ^ 3 * ((x1 - x2) ^ 2 + (y1 - y2) ^ 2) ≤ F.top) :
    ∃ r, getDistEuclidean F (.fin x1) (.fin y1) (.fin x2) (.fin y2) = .fin r ∧ Num F r ∧
      (1 - unit F) ^ 3 * Real.sqrt ((x1 - x2) ^ 2 + (y1 - y2) ^ 2) ≤ r ∧
      r ≤ (1 + unit F) ^ 3 * Real.sqrt ((x1 - x2) ^ 2 + (y1 - y2) ^ 2) ∧ (r = 0 ↔ x1 = x2 ∧ y1 = y2) := by
  have hp1 := hF.p
  have hu := unit_half hp1
  have hu0 := u_pos F
  obtain ⟨s, k1, k2, ⟨k3, k4⟩, k5⟩ := C91_ieee_squared_partial hF x1 y1 x2 y2 h1 h2 h3 h4 hx hy h1x h1y ht
  set E := (x1 - x2) ^ 2 + (y1 - y2) ^ 2 with hE
  have E0 : 0 ≤ E := by positivity
  have s0 : 0 ≤ s := le_trans (mul_nonneg (pow_nonneg (by linarith) _) E0) k3
  have hst := num_top k2
  rw [abs_of_nonneg s0] at hst
  have hsq : Real.sqrt s ≤ F.top := by
    rw [Real.sqrt_le_left (by linarith)]
    nlinarith
  have hn := Real.sqrt_nonneg s
  have hrel : |F.fl (Real.sqrt s) - Real.sqrt s| ≤ unit F * |Real.sqrt s| := by
    rcases eq_or_lt_of_le s0 with h0 | h0
    · rw [← h0, Real.sqrt_zero, fl_zero, sub_zero, abs_zero, mul_zero]
    · refine fl_rel ?_
      rw [abs_of_nonneg hn]
      refine Real.le_sqrt_of_sq_le ?_
      obtain ⟨n, hn⟩ := grid_mult (num_grid k2)
      have h2q := two_pos F.qmin
      have hn1 : 1 ≤ n := by
        by_contra hc
        have : (n : ℝ) ≤ 0 := by exact_mod_cast (show n ≤ 0 by omega)
        have := mul_nonpos_of_nonpos_of_nonneg this h2q.le
        linarith
      have hn1' : (1 : ℝ) ≤ n := by exact_mod_cast hn1
      refine le_trans ?_ (show (2 : ℝ) ^ F.qmin ≤ s by rw [hn]; nlinarith)
      rw [← zpow_natCast, ← zpow_mul]
      exact two_mono (by push_cast; omega)
  rw [abs_of_nonneg hn] at hrel
  obtain ⟨l1, l2⟩ := abs_le.mp hrel
  have up : Real.sqrt s ≤ (1 + unit F) ^ 2 * Real.sqrt E := by
    rw [Real.sqrt_le_left (by positivity), mul_pow, Real.sq_sqrt E0]
    refine k4.trans (le_of_eq ?_)
    ring
  have lo : (1 - unit F) ^ 2 * Real.sqrt E ≤ Real.sqrt s := by
    refine Real.le_sqrt_of_sq_le ?_
    rw [mul_pow, Real.sq_sqrt E0]
    refine le_trans (le_of_eq ?_) k3
    ring
  have hlow : (1 - unit F) * Real.sqrt s ≤ F.fl (Real.sqrt s) := by linarith
  have hr0 : 0 ≤ F.fl (Real.sqrt s) := le_trans (mul_nonneg (by linarith) hn) hlow
  refine ⟨F.fl (Real.sqrt s), ?_, ?_, ?_, ?_, ?_⟩
  · unfold getDistEuclidean
    rw [k1]
    dsimp only [Ieee.sqrt]
    rw [if_neg (not_lt.mpr s0), rnd_fin hp1 hF.q (by rwa [abs_of_nonneg hn])]
  · exact (num_iff hp1 hF.q).mpr ⟨fl_grid F _, fl_le_top hp1 hF.q (by rwa [abs_of_nonneg hn])⟩
  · refine le_trans ?_ hlow
    have := mul_le_mul_of_nonneg_left lo (show 0 ≤ 1 - unit F by linarith)
    linarith [this, show (1 - unit F) ^ 3 * Real.sqrt E = (1 - unit F) * ((1 - unit F) ^ 2 * Real.sqrt E) by ring]
  · have := mul_le_mul_of_nonneg_left up (show 0 ≤ 1 + unit F by linarith)
    linarith [this, show (1 + unit F) ^ 3 * Real.sqrt E = (1 + unit F) * ((1 + unit F) ^ 2 * Real.sqrt E) by ring]
  · rw [← k5]
    constructor
    · intro h
      rw [h] at hlow
      have : Real.sqrt s ≤ 0 := by nlinarith
      exact (Real.sqrt_eq_zero s0).mp (le_antisymm this hn)
    · intro h
      rw [h, Real.sqrt_zero, fl_zero]

/-- **C91 fails for small distances**: points so close that the squares underflow have distance 0. -/
theorem C91_ieee_underflow {F : Fmt} (hF : Good F) (x : ℝ) (hx : Num F x) (h : x ^ 2 < 2 ^ F.qmin / 2) :
    getDistSquaredEuclidean F (.fin x) (.fin 0) (.fin 0) (.fin 0) = .fin 0 ∧
    getDistEuclidean F (.fin x) (.fin 0) (.fin 0) (.fin 0) = .fin 0 := by
  have hp1 := hF.p
  have hz : F.rnd 0 = .fin 0 := by
    rw [rnd_fin hp1 hF.q (by rw [abs_zero]; exact top_nonneg F), fl_zero]
  have h0 : F.fl (x * x) = 0 := by
    have hl : |F.fl (x * x) - x * x| ≤ |0 - x * x| := fl_nearest hp1 _ 0 ⟨0, F.qmin, by positivity, le_refl _, by simp⟩
    obtain ⟨n, hn⟩ := grid_mult (fl_grid F (x * x))
    have h2q := two_pos F.qmin
    have hxx := mul_self_nonneg x
    rw [zero_sub, abs_neg, abs_of_nonneg hxx, hn, abs_le] at hl
    rw [hn]
    have h1 : (n : ℝ) < 1 := by
      by_contra hc
      have := mul_le_mul_of_nonneg_right (not_lt.mp hc) h2q.le
      nlinarith
    have h2 : (-1 : ℝ) < n := by
      by_contra hc
      have := mul_le_mul_of_nonneg_right (not_lt.mp hc) h2q.le
      nlinarith
    have h1' : n < 1 := by exact_mod_cast h1
    have h2' : -1 < n := by exact_mod_cast h2
    rw [show n = 0 by omega]
    simp
  have hsq : getDistSquaredEuclidean F (.fin x) (.fin 0) (.fin 0) (.fin 0) = .fin 0 := by
    unfold getDistSquaredEuclidean
    rw [sub_fin hF (by rw [sub_zero]; exact not_over (num_top hx)), sub_fin hF (by rw [sub_zero]; exact not_over (by rw [abs_zero]; exact top_nonneg F)),
      sub_zero, fl_exact hp1 (num_grid hx), sub_zero, fl_zero]
    dsimp only [mul]
    rw [mul_zero, hz, rnd_fin' hF, h0]
    · dsimp only [add]
      rw [add_zero, hz]
    · rw [← over_iff hF, h0, abs_zero, not_lt]
      exact top_nonneg F
  refine ⟨hsq, ?_⟩
  unfold getDistEuclidean
  rw [hsq]
  dsimp only [Ieee.sqrt]
  rw [if_neg (lt_irrefl _), Real.sqrt_zero, hz]

/-- **C91 fails for large distances**: the distance is infinite as soon as the squares overflow, although it is a number. -/
theorem C91_ieee_overflow {F : Fmt} (hF : Good F) (x : ℝ) (hx : Num F x) (h : Over F (x ^ 2)) :
    getDistSquaredEuclidean F (.fin x) (.fin 0) (.fin 0) (.fin 0) = .inf false ∧
    getDistEuclidean F (.fin x) (.fin 0) (.fin 0) (.fin 0) = .inf false := by
  have hp1 := hF.p
  have hz : F.rnd 0 = .fin 0 := by
    rw [rnd_fin hp1 hF.q (by rw [abs_zero]; exact top_nonneg F), fl_zero]
  have hsq : getDistSquaredEuclidean F (.fin x) (.fin 0) (.fin 0) (.fin 0) = .inf false := by
    unfold getDistSquaredEuclidean
    rw [sub_fin hF (by rw [sub_zero]; exact not_over (num_top hx)), sub_fin hF (by rw [sub_zero]; exact not_over (by rw [abs_zero]; exact top_nonneg F)),
      sub_zero, fl_exact hp1 (num_grid hx), sub_zero, fl_zero]
    dsimp only [mul]
    rw [mul_zero, hz, rnd_inf hF (by rwa [← pow_two]), decide_eq_false (not_lt.mpr (mul_self_nonneg x))]
    rfl
  refine ⟨hsq, ?_⟩
  unfold getDistEuclidean
  rw [hsq]
  rfl

theorem C91_ieee_example :
    (Num binary32 (2 ^ (-80 : ℤ)) ∧ ((2 : ℝ) ^ (-80 : ℤ)) ^ 2 < 2 ^ binary32.qmin / 2) ∧
    (Num binary32 (2 ^ (64 : ℤ)) ∧ Over binary32 (((2 : ℝ) ^ (64 : ℤ)) ^ 2)) ∧
    (Num binary64 (2 ^ (-540 : ℤ)) ∧ ((2 : ℝ) ^ (-540 : ℤ)) ^ 2 < 2 ^ binary64.qmin / 2) ∧
    (Num binary64 (2 ^ (512 : ℤ)) ∧ Over binary64 (((2 : ℝ) ^ (512 : ℤ)) ^ 2)) ∧
    (SquareOk binary32 3 ∧ binary32.qmin ≤ 2 - 2 * (binary32.p : ℤ) ∧ 1 ≤ binary32.top) ∧ SquareOk binary64 3 := by
  have e : ∀ a : ℤ, ((2 : ℝ) ^ a) ^ 2 = 2 ^ (a * 2) := fun a => by rw [← zpow_natCast, ← zpow_mul]; rfl
  have half : ∀ a : ℤ, (2 : ℝ) ^ a / 2 = 2 ^ (a - 1) := fun a => by rw [zpow_sub_one₀ (by norm_num)]; rfl
  have ov : ∀ (F : Fmt) (a : ℤ), (F.p : ℤ) + F.qmax ≤ a * 2 → Over F (((2 : ℝ) ^ a) ^ 2) := by
    intro F a h
    unfold Over
    rw [e, abs_of_pos (two_pos _)]
    refine le_trans ?_ (two_mono h)
    rw [← pow_cast]
    refine mul_le_mul_of_nonneg_right ?_ (two_pos _).le
    push_cast
    linarith
  have sok : ∀ F : Fmt, 1 ≤ F.p → F.qmin + F.p - 1 ≤ 0 → SquareOk F 3 := by
    intro F hp h
    right
    refine (two_mono h).trans ?_
    have := unit_half hp
    have := u_pos F
    norm_num
    nlinarith
  refine ⟨⟨⟨1, -80, by norm_num [binary32], by norm_num [binary32], by norm_num [binary32], by push_cast; ring⟩, ?_⟩,
    ⟨⟨1, 64, by norm_num [binary32], by norm_num [binary32], by norm_num [binary32], by push_cast; ring⟩, ov _ _ (by norm_num [binary32])⟩,
    ⟨⟨1, -540, by norm_num [binary64], by norm_num [binary64], by norm_num [binary64], by push_cast; ring⟩, ?_⟩,
    ⟨⟨1, 512, by norm_num [binary64], by norm_num [binary64], by norm_num [binary64], by push_cast; ring⟩, ov _ _ (by norm_num [binary64])⟩,
    ⟨sok _ (by norm_num [binary32]) (by norm_num [binary32]), by norm_num [binary32], ?_⟩,
    sok _ (by norm_num [binary64]) (by norm_num [binary64])⟩
  · rw [e, half]
    exact zpow_lt_zpow_right₀ (by norm_num) (by norm_num [binary32])
  · rw [e, half]
    exact zpow_lt_zpow_right₀ (by norm_num) (by norm_num [binary64])
  · unfold Fmt.top binary32
    norm_num

/-! ## C92 — interpolation -/

/-- **C92 (IEEE 754).** If the numbers are not too large, interpolation is finite, exact at weight 0, monotone in the weight,
and has the error bound of `C92_lerp_error` plus that of an underflow. -/
theorem C92_ieee_lerp {F : Fmt} (hF : Good F) (dbg : Bool) (w a b : ℝ) (ha : Num F a) (hb : Num F b)
    (h0 : 0 ≤ w) (h1 : w ≤ 1) (ht : |a| + 2 * |b - a| ≤ F.top) :
    ∃ r, getLerp F dbg (.fin w) (.fin a) (.fin b) = some (.fin r) ∧ Num F r ∧
      |r - (a + w * (b - a))| ≤
        unit F * |a| + ((1 + unit F) ^ 3 - 1) * |w * (b - a)| + (1 + unit F) * (2 ^ F.qmin / 2) ∧
      (w = 0 → r = a) ∧
      (∀ v, w ≤ v → v ≤ 1 → ∃ s, getLerp F dbg (.fin v) (.fin a) (.fin b) = some (.fin s) ∧ (a ≤ b → r ≤ s) ∧ (b ≤ a → s ≤ r)) := by
  have hp1 := hF.p
  have hu := unit_half hp1
  have hu0 := u_pos F
  have na := abs_nonneg a
  have nd := abs_nonneg (b - a)
  have hd := fl_diff hp1 (num_grid hb) (num_grid ha)
  set d := F.fl (b - a) with hdd
  have d1 : |d| ≤ (1 + unit F) * |b - a| := by
    have := abs_add_le (d - (b - a)) (b - a)
    rw [sub_add_cancel] at this
    linarith
  have dg : d ∈ Grid F := fl_grid F _
  have run : ∀ v : ℝ, 0 ≤ v → v ≤ 1 → |a + F.fl (v * d)| ≤ F.top ∧
      getLerp F dbg (.fin v) (.fin a) (.fin b) = some (.fin (F.fl (a + F.fl (v * d)))) := by
    intro v v0 v1
    have m1 : |v * d| ≤ |d| := by
      rw [abs_mul, abs_of_nonneg v0]
      nlinarith [abs_nonneg d]
    have m2 : |F.fl (v * d)| ≤ |d| := by
      rw [abs_le] at m1 ⊢
      have k1 := fl_mono hp1 m1.1
      have k2 := fl_mono hp1 m1.2
      rw [fl_odd, fl_exact hp1 (grid_abs' dg)] at k1
      rw [fl_exact hp1 (grid_abs' dg)] at k2
      exact ⟨k1, k2⟩
    have hdt : |d| ≤ 2 * |b - a| := by nlinarith
    have m3 : |a + F.fl (v * d)| ≤ F.top := (abs_add_le _ _).trans (by linarith)
    refine ⟨m3, ?_⟩
    unfold getLerp
    rw [if_neg]
    · rw [sub_fin hF (not_over (by linarith))]
      dsimp only [mul]
      rw [rnd_fin' hF (not_over (m1.trans (by linarith))), add_fin hF (not_over m3)]
    · rintro ⟨-, h⟩
      refine h ⟨?_, ?_⟩
      · rcases eq_or_lt_of_le v0 with h | h
        · exact Or.inr (by rw [← h])
        · exact Or.inl h
      · rcases eq_or_lt_of_le v1 with h | h
        · exact Or.inr (by rw [h])
        · exact Or.inl h
  obtain ⟨t1, t2⟩ := run w h0 h1
  refine ⟨_, t2, (num_iff hp1 hF.q).mpr ⟨fl_grid F _, fl_le_top hp1 hF.q t1⟩, ?_, ?_, ?_⟩
  · set m := F.fl (w * d) with hm
    set W := w * (b - a) with hW
    set η : ℝ := 2 ^ F.qmin / 2 with hη
    have hη0 : 0 < η := by have := two_pos F.qmin; positivity
    have e1 : |m - w * d| ≤ unit F * |w * d| + η := by
      rcases fl_err F (w * d) with h | h
      · linarith
      · have := mul_nonneg hu0.le (abs_nonneg (w * d))
        linarith
    have e2 : |w * d - W| ≤ unit F * |W| := by
      rw [hW, ← mul_sub, abs_mul, abs_mul]
      have := mul_le_mul_of_nonneg_left hd (abs_nonneg w)
      linarith
    have e3 : |w * d| ≤ (1 + unit F) * |W| := by
      have := abs_add_le (w * d - W) W
      rw [sub_add_cancel] at this
      linarith
    have e4 : |m - W| ≤ (2 * unit F + unit F ^ 2) * |W| + η := by
      have := abs_add_le (m - w * d) (w * d - W)
      rw [sub_add_sub_cancel] at this
      have := mul_le_mul_of_nonneg_left e3 hu0.le
      nlinarith
    have e5 := fl_sum hp1 (num_grid ha) (fl_grid F (w * d))
    rw [← hm] at e5
    have e6 : |a + m| ≤ |a| + (1 + 2 * unit F + unit F ^ 2) * |W| + η := by
      have q1 := abs_add_le a m
      have q2 := abs_add_le (m - W) W
      rw [sub_add_cancel] at q2
      linarith
    have e7 : |F.fl (a + m) - (a + W)| ≤ |F.fl (a + m) - (a + m)| + |m - W| := by
      have := abs_add_le (F.fl (a + m) - (a + m)) (m - W)
      refine le_trans (le_of_eq ?_) this
      congr 1
      ring
    have e8 := mul_le_mul_of_nonneg_left e6 hu0.le
    nlinarith
  · intro hw
    rw [hw, zero_mul, fl_zero, add_zero, fl_exact hp1 (num_grid ha)]
  · intro v hv hv1
    obtain ⟨-, t4⟩ := run v (h0.trans hv) hv1
    refine ⟨_, t4, fun hab => ?_, fun hab => ?_⟩
    · have d0 : 0 ≤ d := by
        have := fl_mono hp1 (show 0 ≤ b - a by linarith)
        rwa [fl_zero] at this
      exact fl_mono hp1 (add_le_add_right (fl_mono hp1 (mul_le_mul_of_nonneg_right hv d0)) a)
    · have d0 : d ≤ 0 := by
        have := fl_mono hp1 (show b - a ≤ 0 by linarith)
        rwa [fl_zero] at this
      exact fl_mono hp1 (add_le_add_right (fl_mono hp1 (mul_le_mul_of_nonpos_right hv d0)) a)

/-- **C92 fails for large numbers**: if the difference of the two values overflows, the result is NaN at weight 0 and infinite
at every other weight. -/
theorem C92_ieee_lerp_overflow {F : Fmt} (hF : Good F) (dbg : Bool) (w a b : ℝ) (h0 : 0 ≤ w) (h1 : w ≤ 1) (h : Over F (b - a)) :
    getLerp F dbg (.fin w) (.fin a) (.fin b) = some (if w = 0 then .nan else .inf (decide (b < a))) := by
  unfold getLerp
  rw [if_neg]
  · rw [sub_inf hF h]
    dsimp only [mul]
    split
    · rfl
    · have : decide (w < 0) = false := decide_eq_false (not_lt.mpr h0)
      rw [this]
      simp [add]
  · rintro ⟨-, h⟩
    refine h ⟨?_, ?_⟩
    · rcases eq_or_lt_of_le h0 with h | h
      · exact Or.inr (by rw [← h])
      · exact Or.inl h
    · rcases eq_or_lt_of_le h1 with h | h
      · exact Or.inr (by rw [h])
      · exact Or.inl h

/-- Zero, or a bit above the smallest normal number. -/
def NormalOk (F : Fmt) (t : ℝ) : Prop := t = 0 ∨ 2 * (2 : ℝ) ^ (F.qmin + F.p - 1) ≤ |t|

theorem normal_rel {F : Fmt} {t s : ℝ} (h : NormalOk F t) (h1 : |t| ≤ 2 * |s|) (h2 : |s| ≤ 2 * |t|) : |F.fl s - s| ≤ unit F * |s| := by
  rcases h with h | h
  · rw [h, abs_zero, mul_zero] at h2
    have : s = 0 := abs_eq_zero.mp (le_antisymm h2 (abs_nonneg _))
    rw [this, fl_zero, sub_zero, abs_zero, mul_zero]
  · exact fl_rel (by linarith)

/-- **C92 (IEEE 754), `getMap`.** If neither the product nor the quotient overflows or underflows, the result is finite and
has the error bound of `C92_map_error`. -/
theorem C92_ieee_map_partial {F : Fmt} (hF : Good F) (hp : 4 ≤ F.p) (dbg z : Bool) (i iMin iMax oMin oMax : ℝ) (h1 : Num F i)
    (h2 : Num F iMin) (h3 : Num F iMax) (h4 : Num F oMin) (h5 : Num F oMax) (h : iMin ≠ iMax)
    (hA : |i - iMin| ≤ F.top) (hB : |oMax - oMin| ≤ F.top) (hD : |iMax - iMin| ≤ F.top)
    (hP1 : NormalOk F ((i - iMin) * (oMax - oMin))) (hP2 : 2 * |(i - iMin) * (oMax - oMin)| ≤ F.top)
    (hQ1 : NormalOk F ((i - iMin) * (oMax - oMin) / (iMax - iMin)))
    (hQ2 : 2 * |(i - iMin) * (oMax - oMin) / (iMax - iMin)| + |oMin| ≤ F.top) :
    ∃ r, getMap F dbg z (.fin i) (.fin iMin) (.fin iMax) (.fin oMin) (.fin oMax) = some (.fin r) ∧ Num F r ∧
      |r - (oMin + (i - iMin) * (oMax - oMin) / (iMax - iMin))| ≤
        unit F * |oMin| + ((1 + unit F) ^ 5 / (1 - unit F) - 1) * |(i - iMin) * (oMax - oMin) / (iMax - iMin)| := by
  have hp1 := hF.p
  have hu : unit F ≤ 1 / 16 := (two_mono (show -(F.p : ℤ) ≤ -4 by omega)).trans (by norm_num)
  have hu0 := u_pos F
  have bnd : ∀ x y : ℝ, |x - y| ≤ unit F * |y| → 15 / 16 * |y| ≤ |x| ∧ |x| ≤ 17 / 16 * |y| := by
    intro x y hxy
    have k1 := abs_add_le (x - y) y
    rw [sub_add_cancel] at k1
    have k2 := abs_sub_abs_le_abs_sub y x
    rw [abs_sub_comm y x] at k2
    have := mul_le_mul_of_nonneg_right hu (abs_nonneg y)
    constructor <;> linarith
  have eA := fl_diff hp1 (num_grid h1) (num_grid h2)
  have eB := fl_diff hp1 (num_grid h5) (num_grid h4)
  have eD := fl_diff hp1 (num_grid h3) (num_grid h2)
  obtain ⟨A1, A2⟩ := bnd _ _ eA
  obtain ⟨B1, B2⟩ := bnd _ _ eB
  obtain ⟨D1, D2⟩ := bnd _ _ eD
  have D0 : 0 < |iMax - iMin| := abs_pos.mpr (sub_ne_zero.mpr (Ne.symm h))
  set A := i - iMin
  set B := oMax - oMin
  set D := iMax - iMin
  have pA := precise_diff hp1 (num_grid h1) (num_grid h2)
  have pB := precise_diff hp1 (num_grid h5) (num_grid h4)
  have pD := precise_diff hp1 (num_grid h3) (num_grid h2)
  have D0' : 0 < |F.fl D| := by linarith
  have hD0 : F.fl D ≠ 0 := abs_pos.mp D0'
  have nA := abs_nonneg A
  have nB := abs_nonneg B
  have P1 : 225 / 256 * |A * B| ≤ |F.fl A * F.fl B| := by
    rw [abs_mul, abs_mul]
    have := mul_le_mul A1 B1 (by positivity) (abs_nonneg _)
    linarith
  have P2 : |F.fl A * F.fl B| ≤ 289 / 256 * |A * B| := by
    rw [abs_mul, abs_mul]
    have := mul_le_mul A2 B2 (abs_nonneg _) (by positivity)
    linarith
  have nP := abs_nonneg (A * B)
  have eP := normal_rel hP1 (s := F.fl A * F.fl B) (by linarith) (by linarith)
  obtain ⟨R1, R2⟩ := bnd _ _ eP
  set P := F.fl (F.fl A * F.fl B) with hPP
  have Q1 : |A * B / D| ≤ 2 * |P / F.fl D| := by
    rw [abs_div, abs_div, div_le_iff₀ D0, mul_assoc, div_mul_eq_mul_div, mul_div_assoc', le_div_iff₀ D0']
    have k1 := mul_le_mul_of_nonneg_left D2 nP
    have k2 : |A * B| ≤ 256 / 225 * (16 / 15) * |P| := by linarith
    have k3 := mul_le_mul_of_nonneg_right k2 D0.le
    have k4 := mul_nonneg (abs_nonneg P) D0.le
    nlinarith
  have Q2 : |P / F.fl D| ≤ 2 * |A * B / D| := by
    rw [abs_div, abs_div, div_le_iff₀ D0', mul_assoc, div_mul_eq_mul_div, mul_div_assoc', le_div_iff₀ D0]
    have k1 := mul_le_mul_of_nonneg_left D1 nP
    have k2 : |P| ≤ 289 / 256 * (17 / 16) * |A * B| := by linarith
    have k3 := mul_le_mul_of_nonneg_right k2 D0.le
    have k4 := mul_nonneg nP D0.le
    nlinarith
  have Q3 : |P / F.fl D| ≤ 3 / 2 * |A * B / D| := by
    rw [abs_div, abs_div, div_le_iff₀ D0', show 3 / 2 * (|A * B| / |D|) * |F.fl D| = 3 / 2 * (|A * B| * |F.fl D|) / |D| by ring, le_div_iff₀ D0]
    have k1 := mul_le_mul_of_nonneg_left D1 nP
    have k2 : |P| ≤ 289 / 256 * (17 / 16) * |A * B| := by linarith
    have k3 := mul_le_mul_of_nonneg_right k2 D0.le
    have k4 := mul_nonneg nP D0.le
    nlinarith
  have eQ := normal_rel hQ1 (s := P / F.fl D) Q1 Q2
  obtain ⟨S1, S2⟩ := bnd _ _ eQ
  set Q := F.fl (P / F.fl D) with hQQ
  have nQ := abs_nonneg (A * B / D)
  have no := abs_nonneg oMin
  have hS : |Q + oMin| ≤ F.top := (abs_add_le _ _).trans (by linarith)
  obtain ⟨r, k1, k2⟩ := C92_map_error (precise_precise F) (by linarith) dbg i iMin iMax oMin oMax h
  have hr : r = F.fl (Q + oMin) := by
    simp only [Verif.Angle.getMap, pA, pB, pD] at k1
    rw [if_neg hD0, precise_eq eP, ← hPP, precise_eq eQ, ← hQQ, precise_sum hp1 (fl_grid F _) (num_grid h4)] at k1
    cases k1
    rfl
  refine ⟨r, ?_, ?_, k2⟩
  · unfold getMap
    rw [sub_fin hF (not_over hD), sub_fin hF (not_over hA), sub_fin hF (not_over hB)]
    dsimp only
    rw [if_neg]
    · dsimp only [mul]
      rw [rnd_fin' hF (not_over (by linarith))]
      dsimp only [div]
      rw [if_neg hD0, ← hPP, rnd_fin' hF (not_over (by linarith)), add_fin hF (not_over hS), hr]
    · rintro ⟨-, h⟩
      exact hD0 (FP.fin.inj h)
  · rw [hr]
    exact (num_iff hp1 hF.q).mpr ⟨fl_grid F _, fl_le_top hp1 hF.q hS⟩

/-- **C92 fails at the ends of the numbers**: mapping the upper end `x` of the range `[0, x]` to the range `[0, x]` gives
infinity if the square of `x` overflows, and 0 if it underflows. -/
theorem C92_ieee_map_ends {F : Fmt} (hF : Good F) (dbg z : Bool) (x : ℝ) (hx : Num F x) (hx0 : 0 < x) :
    (Over F (x ^ 2) → getMap F dbg z (.fin x) (.fin 0) (.fin x) (.fin 0) (.fin x) = some (.inf false)) ∧
    (x ^ 2 < 2 ^ F.qmin / 2 → getMap F dbg z (.fin x) (.fin 0) (.fin x) (.fin 0) (.fin x) = some (.fin 0)) := by
  have hp1 := hF.p
  have hs : sub F (.fin x) (.fin 0) = .fin x := by
    rw [sub_fin hF (by rw [sub_zero]; exact not_over (num_top hx)), sub_zero, fl_exact hp1 (num_grid hx)]
  have hz : F.rnd 0 = .fin 0 := by
    rw [rnd_fin hp1 hF.q (by rw [abs_zero]; exact top_nonneg F), fl_zero]
  have hn : ¬ (dbg = true ∧ FP.fin x = .fin 0) := by
    rintro ⟨-, h⟩
    exact hx0.ne' (FP.fin.inj h)
  constructor
  · intro h
    unfold getMap
    rw [hs]
    dsimp only
    rw [if_neg hn]
    dsimp only [mul]
    rw [rnd_inf hF (by rwa [← pow_two]), decide_eq_false (not_lt.mpr (mul_self_nonneg x))]
    dsimp only [div]
    rw [if_neg hx0.ne', decide_eq_false (not_lt.mpr hx0.le)]
    rfl
  · intro h
    have h1 := (C91_ieee_underflow hF x hx h).1
    have h0 : F.rnd (x * x) = .fin 0 := by
      unfold getDistSquaredEuclidean at h1
      rw [hs, sub_fin hF (by rw [sub_zero]; exact not_over (by rw [abs_zero]; exact top_nonneg F)), sub_zero, fl_zero] at h1
      dsimp only [mul] at h1
      rw [mul_zero, hz] at h1
      have hxx : |x * x| ≤ F.top := by
        have t1 : (2 : ℝ) ^ F.qmin ≤ F.top := by
          have := num_top (F := F) (x := 2 ^ F.qmin) ⟨1, F.qmin, by
            rw [abs_one]; exact one_lt_pow₀ (by norm_num) (by omega), le_refl _, hF.q, by simp⟩
          rwa [abs_of_pos (two_pos _)] at this
        rw [abs_of_nonneg (mul_self_nonneg x)]
        have := two_pos F.qmin
        nlinarith
      rw [rnd_fin hp1 hF.q hxx] at h1 ⊢
      dsimp only [add] at h1
      rw [add_zero, rnd_fin hp1 hF.q (fl_le_top hp1 hF.q hxx), fl_exact hp1 (fl_grid F _)] at h1
      exact h1
    unfold getMap
    rw [hs]
    dsimp only
    rw [if_neg hn]
    dsimp only [mul]
    rw [h0]
    dsimp only [div]
    rw [if_neg hx0.ne', zero_div, hz]
    dsimp only [add]
    rw [add_zero, hz]

theorem C92_ieee_example : NormalOk binary32 ((5 - 0) * (20 - 0)) ∧ NormalOk binary32 ((5 - 0) * (20 - 0) / (10 - 0)) := by
  have h : (2 : ℝ) ^ (binary32.qmin + binary32.p - 1) ≤ 1 := by
    refine (two_mono (show binary32.qmin + binary32.p - 1 ≤ 0 by norm_num [binary32])).trans (by norm_num)
  constructor <;> right <;> norm_num <;> linarith

/-! ## C93 — radians and degrees -/

theorem rnd_err {F : Fmt} (x : ℝ) : |F.fl x - x| ≤ unit F * |x| + 2 ^ F.qmin / 2 := by
  have h1 := two_pos F.qmin
  have h2 := mul_nonneg (u_pos F).le (abs_nonneg x)
  rcases fl_err F x with h | h <;> linarith

/-- **C93 (IEEE 754).** Converting a finite number to radians never overflows; converting it to degrees overflows exactly if
the quotient does. Otherwise the errors are those of `C93_error_rounded` plus that of an underflow. -/
theorem C93_ieee {F : Fmt} (hF : Good F) (k : Consts) {δ : ℝ} (hk : |k.ratio - Real.pi / 180| ≤ δ * (Real.pi / 180)) (hδ : δ < 1)
    (hk1 : |k.ratio| ≤ 1) (x : ℝ) (hx : Num F x) :
    (∃ r, toRad F k (.fin x) = .fin r ∧ Num F r ∧
      |r - x * (Real.pi / 180)| ≤ ((1 + δ) * (1 + unit F) - 1) * |x * (Real.pi / 180)| + 2 ^ F.qmin / 2) ∧
    (¬ Over F (x / k.ratio) → ∃ r, toDeg F k (.fin x) = .fin r ∧ Num F r ∧
      |r - x * (180 / Real.pi)| ≤ ((1 + unit F) / (1 - δ) - 1) * |x * (180 / Real.pi)| + 2 ^ F.qmin / 2) ∧
    (Over F (x / k.ratio) → toDeg F k (.fin x) = .inf (decide (x < 0))) := by
  have hp1 := hF.p
  have hu0 := u_pos F
  have hpi := Real.pi_pos
  have hq : (0 : ℝ) < Real.pi / 180 := by positivity
  have hlow : (1 - δ) * (Real.pi / 180) ≤ k.ratio := by
    have := (abs_le.mp hk).1
    linarith
  have hr0 : 0 < k.ratio := lt_of_lt_of_le (mul_pos (by linarith) hq) hlow
  have hδ0 : 0 ≤ δ := by
    by_contra hc
    have := mul_neg_of_neg_of_pos (not_le.mp hc) hq
    linarith [abs_nonneg (k.ratio - Real.pi / 180)]
  have hxt := num_top hx
  have nx := abs_nonneg x
  refine ⟨?_, ?_, ?_⟩
  · have ht : |x * k.ratio| ≤ F.top := by
      rw [abs_mul]
      exact (mul_le_of_le_one_right nx hk1).trans hxt
    refine ⟨F.fl (x * k.ratio), ?_, (num_iff hp1 hF.q).mpr ⟨fl_grid F _, fl_le_top hp1 hF.q ht⟩, ?_⟩
    · unfold toRad
      dsimp only [mul]
      rw [rnd_fin' hF (not_over ht)]
    · have e1 := rnd_err (F := F) (x * k.ratio)
      have e2 : |x * k.ratio - x * (Real.pi / 180)| ≤ δ * |x * (Real.pi / 180)| := by
        rw [← mul_sub, abs_mul, abs_mul x, abs_of_pos hq]
        have := mul_le_mul_of_nonneg_left hk nx
        linarith
      have e3 : |x * k.ratio| ≤ (1 + δ) * |x * (Real.pi / 180)| := by
        have := abs_add_le (x * k.ratio - x * (Real.pi / 180)) (x * (Real.pi / 180))
        rw [sub_add_cancel] at this
        linarith
      have e4 := abs_add_le (F.fl (x * k.ratio) - x * k.ratio) (x * k.ratio - x * (Real.pi / 180))
      rw [sub_add_sub_cancel] at e4
      have e5 := mul_le_mul_of_nonneg_left e3 hu0.le
      nlinarith
  · intro ho
    refine ⟨F.fl (x / k.ratio), ?_, (num_iff hp1 hF.q).mpr ⟨fl_grid F _, ?_⟩, ?_⟩
    · unfold toDeg
      dsimp only [div]
      rw [if_neg hr0.ne', rnd_fin' hF ho]
    · rw [← over_iff hF, not_lt] at ho
      exact ho
    · have e1 := rnd_err (F := F) (x / k.ratio)
      have h1δ : 0 < 1 - δ := by linarith
      set W := x * (180 / Real.pi) with hW
      have nW := abs_nonneg W
      have hxW : x = W * (Real.pi / 180) := by rw [hW]; field_simp
      have e2 : |x / k.ratio - W| ≤ (1 / (1 - δ) - 1) * |W| := by
        have : x / k.ratio - W = W * ((Real.pi / 180 - k.ratio) / k.ratio) := by
          rw [hxW]; field_simp
        rw [this, abs_mul, abs_div, abs_of_pos hr0, abs_sub_comm, mul_comm]
        refine mul_le_mul_of_nonneg_right ?_ nW
        rw [div_le_iff₀ hr0]
        refine hk.trans ?_
        have : (1 / (1 - δ) - 1) = δ / (1 - δ) := by field_simp; ring
        rw [this, div_mul_eq_mul_div, le_div_iff₀ h1δ]
        have := mul_le_mul_of_nonneg_left hlow hδ0
        linarith
      have e3 : |x / k.ratio| ≤ 1 / (1 - δ) * |W| := by
        have := abs_add_le (x / k.ratio - W) W
        rw [sub_add_cancel] at this
        linarith
      have e4 := abs_add_le (F.fl (x / k.ratio) - x / k.ratio) (x / k.ratio - W)
      rw [sub_add_sub_cancel] at e4
      have e5 := mul_le_mul_of_nonneg_left e3 hu0.le
      have e6 : (1 + unit F) / (1 - δ) = 1 / (1 - δ) + unit F * (1 / (1 - δ)) := by ring
      rw [e6]
      linarith
  · intro ho
    unfold toDeg
    dsimp only [div]
    rw [if_neg hr0.ne', rnd_inf hF ho]
    congr 1
    rw [decide_eq_decide, div_lt_iff₀ hr0, zero_mul]

theorem C93_ieee_example : Num binary64 binary64.top ∧ Over binary64 (binary64.top / (1 / 57)) := by
  refine ⟨C89_ieee_nan_example.1, ?_⟩
  have h := C89_ieee_nan_example.2.2
  unfold Over at h ⊢
  refine h.trans ?_
  have h0 := top_nonneg binary64
  rw [sub_neg_eq_add, abs_of_nonneg (by linarith), abs_of_nonneg (by positivity)]
  norm_num
  linarith

end

end Verif.Angle.Fp
