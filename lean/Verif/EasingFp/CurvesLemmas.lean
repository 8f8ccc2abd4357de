import Verif.EasingFp.Curves
import Verif.EasingFp.PropsLimits

/-! # The constants of `Back` and `Bounce`, rounded -/

namespace Verif.EasingFp

open Verif.Ieee Verif.Ieee.Spec Spec Verif.Clock

/-- A tie, rounded down to an even digit. -/
theorem fl_tie {F : Fmt} {x : ℝ} (k m : ℤ) (hk : F.qmin ≤ k + 1 - F.p) (h1 : (2 : ℝ) ^ k ≤ x) (h2 : x < 2 ^ (k + 1))
    (h3 : x = (m + 1 / 2) * 2 ^ (k + 1 - F.p)) : F.fl x = (if Even m then m else m + 1 : ℤ) * 2 ^ (k + 1 - F.p) := by
  have e : F.ulpExp x = k + 1 - F.p := by
    unfold Fmt.ulpExp
    rw [log_eq h1 h2]
    omega
  have hp := two_pos (k + 1 - (F.p : ℤ))
  unfold Fmt.fl
  rw [e]
  have hx : x / 2 ^ (k + 1 - (F.p : ℤ)) = m + 1 / 2 := by rw [h3]; field_simp
  rw [hx]
  have hf : ⌊((m : ℝ) + 1 / 2)⌋ = m := by rw [Int.floor_eq_iff]; constructor <;> linarith
  congr 2
  unfold rne
  rw [hf, if_neg (by norm_num), if_neg (by norm_num)]

theorem top1000 {F : Fmt} (hF : F = binary32 ∨ F = binary64) : (1000 : ℝ) ≤ F.top := by
  rcases hF with rfl | rfl
  · have := num_top (F := binary32) (x := 1000) ⟨1000, 0, by decide, by decide, by decide, by norm_num⟩
    rwa [abs_of_pos (by norm_num)] at this
  · have := num_top (F := binary64) (x := 1000) ⟨1000, 0, by decide, by decide, by decide, by norm_num⟩
    rwa [abs_of_pos (by norm_num)] at this

theorem std {F : Fmt} (hF : F = binary32 ∨ F = binary64) : Std F := by
  rcases hF with rfl | rfl
  · exact C149_formats.1
  · exact C149_formats.2

theorem rnd1000 {F : Fmt} (hF : F = binary32 ∨ F = binary64) {x : ℝ} (hx : |x| ≤ 1000) : F.rnd x = .fin (F.fl x) :=
  rnd_fin (std hF).good.p (std hF).good.q (hx.trans (top1000 hF))

/-- The factor of `Back`. -/
noncomputable def s32 : ℝ := 14273888 / 2 ^ 23
noncomputable def s64 : ℝ := 7663235053941089 / 2 ^ 52
noncomputable def k64 : ℝ := 6083417340655792 / 2 ^ 51

theorem f1 : binary64.fl (170158 / 100000) = s64 := by
  rw [fl_at (F := binary64) 0 7663235053941089 (by decide) (by norm_num) (by norm_num) (by norm_num [binary64, abs_lt])]
  norm_num [binary64, s64]

theorem f2 : binary32.fl s64 = s32 := by
  rw [fl_at (F := binary32) 0 14273888 (by decide) (by norm_num [s64]) (by norm_num [s64]) (by norm_num [binary32, abs_lt, s64])]
  norm_num [binary32, s32]

theorem f3 : binary64.fl (s64 + 1) = k64 := by
  rw [fl_tie (F := binary64) 1 6083417340655792 (by decide) (by norm_num [s64]) (by norm_num [s64]) (by norm_num [binary64, s64]),
    if_pos (by decide)]
  norm_num [binary64, k64]

/-- `T(1.525)`. -/
noncomputable def q32 : ℝ := 12792627 / 2 ^ 23
noncomputable def q64 : ℝ := 6867989431740006 / 2 ^ 52

theorem f4 : binary64.fl (1525 / 1000) = q64 := by
  rw [fl_at (F := binary64) 0 6867989431740006 (by decide) (by norm_num) (by norm_num) (by norm_num [binary64, abs_lt])]
  norm_num [binary64, q64]

theorem f5 : binary32.fl q64 = q32 := by
  rw [fl_at (F := binary32) 0 12792627 (by decide) (by norm_num [q64]) (by norm_num [q64]) (by norm_num [binary32, abs_lt, q64])]
  norm_num [binary32, q32]

noncomputable def u32 : ℝ := 10883839 / 2 ^ 22
noncomputable def u64 : ℝ := 5843216728630080 / 2 ^ 51

theorem f6 : binary32.fl (s32 * q32) = u32 := by
  rw [fl_at (F := binary32) 1 10883839 (by decide) (by norm_num [q32, s32]) (by norm_num [q32, s32])
    (by norm_num [binary32, abs_lt, q32, s32])]
  norm_num [binary32, u32]

theorem f7 : binary64.fl (s64 * q64) = u64 := by
  rw [fl_at (F := binary64) 1 5843216728630080 (by decide) (by norm_num [q64, s64]) (by norm_num [q64, s64])
    (by norm_num [binary64, abs_lt, q64, s64])]
  norm_num [binary64, u64]

theorem num32' {x : ℝ} (m e : ℤ) (h1 : |m| < 16777216) (h2 : -149 ≤ e) (h3 : e ≤ 104) (hx : x = m * 2 ^ e) : Num binary32 x :=
  ⟨m, e, by simpa [binary32] using h1, h2, h3, hx⟩

theorem num64' {x : ℝ} (m e : ℤ) (h1 : |m| < 9007199254740992) (h2 : -1074 ≤ e) (h3 : e ≤ 971) (hx : x = m * 2 ^ e) : Num binary64 x :=
  ⟨m, e, by simpa [binary64] using h1, h2, h3, hx⟩

/-- The factors of `Back` in a format, and what is lost by adding 1. -/
structure Fac (F : Fmt) (s k u e : ℝ) : Prop where
  lit : lit F (170158 / 100000) = .fin s
  inc : add F (.fin s) (.fin 1) = .fin k
  mul : mul F (.fin s) (EasingFp.lit F (1525 / 1000)) = .fin u
  inc' : add F (.fin u) (.fin 1) = .fin (u + 1)
  ns : Num F s
  nk : Num F k
  nu : Num F u
  nv : Num F (u + 1)
  diff : k - s = 1 - e
  ne : Num F (1 - e)
  ne' : Num F e

theorem fac32 : Fac binary32 s32 (s32 + 1) u32 0 := by
  have n1 : Num binary32 s32 := num32' 14273888 (-23) (by decide) (by decide) (by decide) (by norm_num [s32])
  have n2 : Num binary32 (s32 + 1) := num32' 11331248 (-22) (by decide) (by decide) (by decide) (by norm_num [s32])
  have n3 : Num binary32 u32 := num32' 10883839 (-22) (by decide) (by decide) (by decide) (by norm_num [u32])
  have n4 : Num binary32 (u32 + 1) := num32' 15078143 (-22) (by decide) (by decide) (by decide) (by norm_num [u32])
  have h := C149_formats.1
  refine ⟨?_, rnd_num h n2, ?_, rnd_num h n4, n1, n2, n3, n4, by ring, by simpa using h.one, h.zero⟩
  · unfold lit
    rw [rnd1000 (.inr rfl) (by norm_num [abs_le]), f1]
    show binary32.rnd s64 = _
    rw [rnd1000 (.inl rfl) (by norm_num [abs_le, s64]), f2]
  · unfold lit
    rw [rnd1000 (.inr rfl) (by norm_num [abs_le]), f4]
    show Ieee.mul _ _ (binary32.rnd q64) = _
    rw [rnd1000 (.inl rfl) (by norm_num [abs_le, q64]), f5]
    show binary32.rnd (s32 * q32) = _
    rw [rnd1000 (.inl rfl) (by norm_num [abs_le, s32, q32]), f6]

theorem fac64 : Fac binary64 s64 k64 u64 (1 / 2 ^ 52) := by
  have n1 : Num binary64 s64 := num64' 7663235053941089 (-52) (by decide) (by decide) (by decide) (by norm_num [s64])
  have n2 : Num binary64 k64 := num64' 6083417340655792 (-51) (by decide) (by decide) (by decide) (by norm_num [k64])
  have n3 : Num binary64 u64 := num64' 5843216728630080 (-51) (by decide) (by decide) (by decide) (by norm_num [u64])
  have n4 : Num binary64 (u64 + 1) := num64' 8095016542315328 (-51) (by decide) (by decide) (by decide) (by norm_num [u64])
  have nq : Num binary64 q64 := num64' 6867989431740006 (-52) (by decide) (by decide) (by decide) (by norm_num [q64])
  have h := C149_formats.2
  refine ⟨?_, ?_, ?_, rnd_num h n4, n1, n2, n3, n4, by norm_num [k64, s64],
    num64' 4503599627370495 (-52) (by decide) (by decide) (by decide) (by norm_num),
    num64' 1 (-52) (by decide) (by decide) (by decide) (by norm_num)⟩
  · unfold lit
    rw [rnd1000 (.inr rfl) (by norm_num [abs_le]), f1]
    exact rnd_num h n1
  · show binary64.rnd (s64 + 1) = _
    rw [rnd1000 (.inr rfl) (by norm_num [abs_le, s64]), f3]
  · unfold lit
    rw [rnd1000 (.inr rfl) (by norm_num [abs_le]), f4]
    show Ieee.mul _ _ (binary64.rnd q64) = _
    rw [rnd_num h nq]
    show binary64.rnd (s64 * q64) = _
    rw [rnd1000 (.inr rfl) (by norm_num [abs_le, s64, q64]), f7]

/-- `ssvu::pi`. -/
noncomputable def pi32 : ℝ := 13176795 / 2 ^ 22

theorem pi_eq : piF = .fin pi32 := by
  unfold piF
  rw [rnd1000 (.inl rfl) (by norm_num [abs_le]),
    fl_at (F := binary32) 1 13176795 (by decide) (by norm_num) (by norm_num) (by norm_num [binary32, abs_lt])]
  norm_num [binary32, pi32]

theorem pi_half {F : Fmt} (hF : F = binary32 ∨ F = binary64) (z : Bool) :
    div F z piF (.fin 2) = .fin (pi32 / 2) ∧ Num F (pi32 / 2) := by
  have hn : Num F (pi32 / 2) := by
    rcases hF with rfl | rfl
    · exact num32' 13176795 (-23) (by decide) (by decide) (by decide) (by norm_num [pi32])
    · exact num64' 13176795 (-23) (by decide) (by decide) (by decide) (by norm_num [pi32])
  refine ⟨?_, hn⟩
  rw [pi_eq, half (std hF) hn]

/-- The last parabola of `Bounce` ends at exactly 1. -/
theorem bounce32 (z : Bool) :
    let t := sub binary32 (.fin 1) (div binary32 z (.fin 2.625) (.fin 2.75))
    add binary32 (mul binary32 (mul binary32 (.fin 7.5625) t) t) (.fin 0.984375) = .fin 1 := by
  have h := C149_formats.1
  have g : ∀ x : ℝ, |x| ≤ 1000 → binary32.rnd x = .fin (binary32.fl x) := fun x hx => rnd1000 (.inl rfl) hx
  have e1 : div binary32 z (.fin 2.625) (.fin 2.75) = .fin (16014615 / 2 ^ 24) := by
    show (if (2.75 : ℝ) = 0 then _ else binary32.rnd (2.625 / 2.75)) = _
    rw [if_neg (by norm_num), g _ (by norm_num [abs_le]),
      fl_at (F := binary32) (-1) 16014615 (by decide) (by norm_num) (by norm_num) (by norm_num [binary32, abs_lt])]
    norm_num [binary32]
  have e2 : sub binary32 (.fin 1) (.fin (16014615 / 2 ^ 24)) = .fin (12201616 / 2 ^ 28) := by
    show binary32.rnd (1 + -(16014615 / 2 ^ 24)) = _
    rw [g _ (by norm_num [abs_le]),
      fl_at (F := binary32) (-5) 12201616 (by decide) (by norm_num) (by norm_num) (by norm_num [binary32, abs_lt])]
    norm_num [binary32]
  have e3 : mul binary32 (.fin 7.5625) (.fin (12201616 / 2 ^ 28)) = .fin (11534340 / 2 ^ 25) := by
    show binary32.rnd (7.5625 * (12201616 / 2 ^ 28)) = _
    rw [g _ (by norm_num [abs_le]),
      fl_at (F := binary32) (-2) 11534340 (by decide) (by norm_num) (by norm_num) (by norm_num [binary32, abs_lt])]
    norm_num [binary32]
  have e4 : mul binary32 (.fin (11534340 / 2 ^ 25)) (.fin (12201616 / 2 ^ 28)) = .fin (8388614 / 2 ^ 29) := by
    show binary32.rnd (11534340 / 2 ^ 25 * (12201616 / 2 ^ 28)) = _
    rw [g _ (by norm_num [abs_le]),
      fl_at (F := binary32) (-6) 8388614 (by decide) (by norm_num) (by norm_num) (by norm_num [binary32, abs_lt])]
    norm_num [binary32]
  intro t
  have ht : t = .fin (12201616 / 2 ^ 28) := by rw [← e2, ← e1]
  rw [ht, e3, e4]
  show binary32.rnd (8388614 / 2 ^ 29 + 0.984375) = _
  rw [g _ (by norm_num [abs_le]),
    fl_at (F := binary32) 0 8388608 (by decide) (by norm_num) (by norm_num) (by norm_num [binary32, abs_lt])]
  norm_num [binary32]

theorem bounce64 (z : Bool) :
    let t := sub binary64 (.fin 1) (div binary64 z (.fin 2.625) (.fin 2.75))
    add binary64 (mul binary64 (mul binary64 (.fin 7.5625) t) t) (.fin 0.984375) = .fin 1 := by
  have h := C149_formats.2
  have g : ∀ x : ℝ, |x| ≤ 1000 → binary64.rnd x = .fin (binary64.fl x) := fun x hx => rnd1000 (.inr rfl) hx
  have e1 : div binary64 z (.fin 2.625) (.fin 2.75) = .fin (8597781106798220 / 2 ^ 53) := by
    show (if (2.75 : ℝ) = 0 then _ else binary64.rnd (2.625 / 2.75)) = _
    rw [if_neg (by norm_num), g _ (by norm_num [abs_le]),
      fl_at (F := binary64) (-1) 8597781106798220 (by decide) (by norm_num) (by norm_num) (by norm_num [binary64, abs_lt])]
    norm_num [binary64]
  have e2 : sub binary64 (.fin 1) (.fin (8597781106798220 / 2 ^ 53)) = .fin (6550690367084352 / 2 ^ 57) := by
    show binary64.rnd (1 + -(8597781106798220 / 2 ^ 53)) = _
    rw [g _ (by norm_num [abs_le]),
      fl_at (F := binary64) (-5) 6550690367084352 (by decide) (by norm_num) (by norm_num) (by norm_num [binary64, abs_lt])]
    norm_num [binary64]
  have e3 : mul binary64 (.fin 7.5625) (.fin (6550690367084352 / 2 ^ 57)) = .fin (6192449487634426 / 2 ^ 54) := by
    show binary64.rnd (7.5625 * (6550690367084352 / 2 ^ 57)) = _
    rw [g _ (by norm_num [abs_le]),
      fl_tie (F := binary64) (-2) 6192449487634426 (by decide) (by norm_num) (by norm_num) (by norm_num [binary64]), if_pos (by decide)]
    norm_num [binary64]
  have e4 : mul binary64 (.fin (6192449487634426 / 2 ^ 54)) (.fin (6550690367084352 / 2 ^ 57)) = .fin (9007199254740975 / 2 ^ 59) := by
    show binary64.rnd (6192449487634426 / 2 ^ 54 * (6550690367084352 / 2 ^ 57)) = _
    rw [g _ (by norm_num [abs_le]),
      fl_at (F := binary64) (-7) 9007199254740975 (by decide) (by norm_num) (by norm_num) (by norm_num [binary64, abs_lt])]
    norm_num [binary64]
  intro t
  have ht : t = .fin (6550690367084352 / 2 ^ 57) := by rw [← e2, ← e1]
  rw [ht, e3, e4]
  show binary64.rnd (9007199254740975 / 2 ^ 59 + 0.984375) = _
  rw [g _ (by norm_num [abs_le]),
    fl_at (F := binary64) (-1) 9007199254740992 (by decide) (by norm_num) (by norm_num) (by norm_num [binary64, abs_lt])]
  norm_num [binary64]

end Verif.EasingFp
