import Verif.Ieee.Lemmas
import Verif.Angle.Ieee
import Verif.Angle.PropsRound

/-! # From IEEE 754 arithmetic to rounding of real numbers -/

namespace Verif.Angle.Fp

open Verif.Ieee Verif.Ieee.Spec Verif.Angle.Spec

noncomputable section

/-- The rounding of the format where it has a small relative error, the exact number elsewhere (where there is underflow). -/
def precise (F : Fmt) (x : ℝ) : ℝ := open Classical in if |F.fl x - x| ≤ unit F * |x| then F.fl x else x

theorem precise_precise (F : Fmt) : Precise (precise F) (unit F) := by
  intro x
  unfold precise
  split
  · assumption
  · rw [sub_self, abs_zero]
    exact mul_nonneg (u_pos F).le (abs_nonneg _)

theorem precise_eq {F : Fmt} {x : ℝ} (h : |F.fl x - x| ≤ unit F * |x|) : precise F x = F.fl x := if_pos h

theorem precise_sum {F : Fmt} (hp : 1 ≤ F.p) {a b : ℝ} (ha : a ∈ Grid F) (hb : b ∈ Grid F) :
    precise F (a + b) = F.fl (a + b) := precise_eq (fl_sum hp ha hb)

theorem precise_diff {F : Fmt} (hp : 1 ≤ F.p) {a b : ℝ} (ha : a ∈ Grid F) (hb : b ∈ Grid F) :
    precise F (a - b) = F.fl (a - b) := precise_eq (fl_diff hp ha hb)

theorem precise_exact {F : Fmt} (hp : 1 ≤ F.p) {a : ℝ} (ha : a ∈ Grid F) : precise F a = a := by
  unfold precise
  split
  · exact fl_exact hp ha
  · rfl

/-! ## `fmod` -/

theorem fmod_fin {a b r : ℝ} (h : Verif.Angle.fmod a b = some r) : Ieee.fmod (.fin a) (.fin b) = .fin r := by
  unfold Verif.Angle.fmod at h
  simp only [Ieee.fmod]
  split at h
  · cases h
  · rw [if_neg ‹_›]
    cases h
    rfl

/-- The remainder is a number of the format. -/
theorem fmod_grid {F : Fmt} {a b r : ℝ} (hb0 : 0 < b) (ha : a ∈ Grid F) (hb : b ∈ Grid F)
    (h : Verif.Angle.fmod a b = some r) : r ∈ Grid F := by
  obtain ⟨r0, h1, ⟨k, hk⟩, h3, h4, h5, h6⟩ := fmod_spec (x := a) hb0
  rw [h1] at h
  cases h
  -- the remainder is not larger than `a`
  have hra : |r| ≤ |a| := by
    unfold Verif.Angle.fmod at h1
    rw [if_neg hb0.ne'] at h1
    rcases le_total 0 a with h0 | h0
    · have hq : 0 ≤ a / b := div_nonneg h0 hb0.le
      rw [if_pos hq] at h1
      cases h1
      have h7 := h5 h0
      have h8 : (0 : ℝ) ≤ (⌊a / b⌋ : ℝ) := by exact_mod_cast Int.floor_nonneg.mpr hq
      rw [abs_of_nonneg h7, abs_of_nonneg h0]
      have := mul_nonneg hb0.le h8
      linarith
    · have hq : a / b ≤ 0 := div_nonpos_of_nonpos_of_nonneg h0 hb0.le
      have h7 := h6 h0
      have h8 : b * (if 0 ≤ a / b then (⌊a / b⌋ : ℝ) else (⌈a / b⌉ : ℝ)) ≤ 0 := by
        refine mul_nonpos_of_nonneg_of_nonpos hb0.le ?_
        split
        · have : a / b = 0 := le_antisymm hq ‹_›
          rw [this]; simp
        · exact_mod_cast Int.ceil_le.mpr (by simpa using hq)
      cases h1
      rw [abs_of_nonpos h7, abs_of_nonpos h0]
      linarith
  have hrb : |r| ≤ b := by rw [abs_le]; constructor <;> linarith
  have hr : r = a + (k : ℝ) * b := by linarith
  obtain ⟨m, e, hm, he, rfl⟩ := ha
  obtain ⟨n, f, hn, hf, rfl⟩ := hb
  have key : ∀ {c g : ℤ}, |c| ≤ 2 ^ F.p → F.qmin ≤ g → (∃ j : ℤ, r = j * 2 ^ g) → |r| ≤ |(c : ℝ) * 2 ^ g| → r ∈ Grid F := by
    rintro c g hc hg ⟨j, rfl⟩ hle
    refine ⟨j, g, ?_, hg, rfl⟩
    rw [abs_mul, abs_mul, abs_of_pos (two_pos g)] at hle
    have := le_of_mul_le_mul_right hle (two_pos g)
    have : |j| ≤ |c| := by exact_mod_cast this
    omega
  rcases le_total e f with hef | hef
  · obtain ⟨n', hn'⟩ := mult_of_le hef n
    refine key hm he ⟨m + k * n', ?_⟩ hra
    rw [hr, hn']
    push_cast
    ring
  · obtain ⟨m', hm'⟩ := mult_of_le hef m
    refine key hn hf ⟨m' + k * n, ?_⟩ (by rw [abs_of_pos hb0]; exact hrb)
    rw [hr, hm']
    push_cast
    ring

/-! ## Single operations -/

theorem add_fin {F : Fmt} (hF : Good F) {a b : ℝ} (h : ¬ Over F (a + b)) : add F (.fin a) (.fin b) = .fin (F.fl (a + b)) :=
  rnd_fin' hF h

theorem add_inf {F : Fmt} (hF : Good F) {a b : ℝ} (h : Over F (a + b)) : add F (.fin a) (.fin b) = .inf (decide (a + b < 0)) :=
  rnd_inf hF h

theorem sub_fin {F : Fmt} (hF : Good F) {a b : ℝ} (h : ¬ Over F (a - b)) : sub F (.fin a) (.fin b) = .fin (F.fl (a - b)) := by
  rw [sub_eq_add_neg] at h ⊢
  exact add_fin hF h

theorem sub_inf {F : Fmt} (hF : Good F) {a b : ℝ} (h : Over F (a - b)) : sub F (.fin a) (.fin b) = .inf (decide (a - b < 0)) := by
  rw [sub_eq_add_neg] at h ⊢
  exact add_inf hF h

end

end Verif.Angle.Fp
