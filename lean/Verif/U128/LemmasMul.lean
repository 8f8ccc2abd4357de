import Verif.U128.Lemmas

namespace Verif.U128

open Verif Spec

theorem split32 (w : Nat) (hw : w = 32) {x y : Nat} (hx : x < 2 ^ w) (hy : y < 2 ^ w) :
    x * y % 2 ^ (2 * w) % 2 ^ w < 2 ^ w ∧ x * y % 2 ^ (2 * w) / 2 ^ 32 % 2 ^ w < 2 ^ w ∧
      x * y % 2 ^ (2 * w) % 2 ^ w + 2 ^ w * (x * y % 2 ^ (2 * w) / 2 ^ 32 % 2 ^ w) = x * y := by
  have hB : 0 < 2 ^ w := Nat.two_pow_pos w
  have h1 : x * y < 2 ^ (2 * w) := by rw [pow2w]; exact Nat.mul_lt_mul'' hx hy
  rw [Nat.mod_eq_of_lt h1]
  have e : (2 : Nat) ^ 32 = 2 ^ w := by rw [hw]
  rw [e]
  rw [pow2w] at h1
  have h2 : x * y / 2 ^ w < 2 ^ w := div_lt_of h1
  rw [Nat.mod_eq_of_lt h2]
  exact ⟨Nat.mod_lt _ hB, h2, Nat.mod_add_div _ _⟩

theorem mul_is {w : Nat} (hw : w = 32) {a b : X4} (ha : Valid w a) (hb : Valid w b) :
    Is w (mul w a b) ((val w a * val w b) % 2 ^ (4 * w)) := by
  have hw0 : 0 < w := by omega
  have hB : 0 < 2 ^ w := Nat.two_pow_pos w
  obtain ⟨a0, a1, a2, a3⟩ := ha
  obtain ⟨b0, b1, b2, b3⟩ := hb
  obtain ⟨l00, h00, e00⟩ := split32 w hw a0 b0
  obtain ⟨l10, h10, e10⟩ := split32 w hw a1 b0
  obtain ⟨l01, h01, e01⟩ := split32 w hw a0 b1
  obtain ⟨l11, h11, e11⟩ := split32 w hw a1 b1
  unfold mul
  dsimp only
  generalize a.v0 * b.v0 % 2 ^ (2 * w) % 2 ^ w = p00 at *
  generalize a.v0 * b.v0 % 2 ^ (2 * w) / 2 ^ 32 % 2 ^ w = q00 at *
  generalize a.v1 * b.v0 % 2 ^ (2 * w) % 2 ^ w = p10 at *
  generalize a.v1 * b.v0 % 2 ^ (2 * w) / 2 ^ 32 % 2 ^ w = q10 at *
  generalize a.v0 * b.v1 % 2 ^ (2 * w) % 2 ^ w = p01 at *
  generalize a.v0 * b.v1 % 2 ^ (2 * w) / 2 ^ 32 % 2 ^ w = q01 at *
  generalize a.v1 * b.v1 % 2 ^ (2 * w) % 2 ^ w = p11 at *
  generalize a.v1 * b.v1 % 2 ^ (2 * w) / 2 ^ 32 % 2 ^ w = q11 at *
  obtain ⟨x1, y1⟩ := addc_spec h00 l10 hw0 false
  generalize addwithcarry w q00 p10 false = s1 at *
  obtain ⟨x2, y2⟩ := addc_spec h10 hB hw0 s1.2
  generalize addwithcarry w q10 0 s1.2 = s2 at *
  obtain ⟨x3, y3⟩ := addc_spec hB hB hw0 s2.2
  generalize addwithcarry w 0 0 s2.2 = s3 at *
  obtain ⟨x4, y4⟩ := addc_spec x2 h01 hw0 false
  generalize addwithcarry w s2.1 q01 false = s4 at *
  obtain ⟨x5, y5⟩ := addc_spec x3 hB hw0 s4.2
  generalize addwithcarry w s3.1 0 s4.2 = s5 at *
  obtain ⟨x6, y6⟩ := addc_spec x1 l01 hw0 false
  generalize addwithcarry w s1.1 p01 false = s6 at *
  obtain ⟨x7, y7⟩ := addc_spec x4 hB hw0 s6.2
  generalize addwithcarry w s4.1 0 s6.2 = s7 at *
  obtain ⟨x8, y8⟩ := addc_spec x5 hB hw0 s7.2
  generalize addwithcarry w s5.1 0 s7.2 = s8 at *
  obtain ⟨x9, y9⟩ := addc_spec x7 l11 hw0 false
  generalize addwithcarry w s7.1 p11 false = s9 at *
  obtain ⟨x10, y10⟩ := addc_spec x8 h11 hw0 s9.2
  generalize addwithcarry w s8.1 q11 s9.2 = s10 at *
  have hT := Nat.mod_add_div (s9.1 + 2 ^ w * s10.1 + (a.d01 w * b.d23 w + a.d23 w * b.d01 w)) (2 ^ (2 * w))
  have hlt := Nat.mod_lt (s9.1 + 2 ^ w * s10.1 + (a.d01 w * b.d23 w + a.d23 w * b.d01 w)) (Nat.two_pow_pos (2 * w))
  generalize (s9.1 + 2 ^ w * s10.1 + (a.d01 w * b.d23 w + a.d23 w * b.d01 w)) / 2 ^ (2 * w) = k at *
  generalize (s9.1 + 2 ^ w * s10.1 + (a.d01 w * b.d23 w + a.d23 w * b.d01 w)) % 2 ^ (2 * w) = T at *
  rw [pow2w] at hT hlt
  have hv : Valid w ⟨p00, s6.1, T % 2 ^ w, T / 2 ^ w⟩ := ⟨l00, x6, Nat.mod_lt _ hB, div_lt_of hlt⟩
  refine ⟨hv, eq_mod_of (val_lt hv)
    (k := k + a.d23 w * b.d23 w + s3.2.toNat + s5.2.toNat + s8.2.toNat + s10.2.toNat) ?_⟩
  rw [pow4w, val_eq, val_eq, val_eq]
  dsimp only
  rw [Nat.mod_add_div]
  unfold X4.d01 X4.d23 at *
  simp only [Bool.toNat_false, Nat.add_zero, Nat.zero_add] at *
  clear hv hlt x1 x2 x3 x4 x5 x6 x7 x8 x9 x10 l00 l01 l10 l11 h00 h01 h10 h11 hB hw0 hw a0 a1 a2 a3 b0 b1 b2 b3
  zify at *
  generalize (2 : Int) ^ w = B at *
  linear_combination e00 + B * e10 + B * e01 + B * B * e11 + B * y1 + B * y6 + B * B * (y2 + y4 + y7 + y9) +
    B * B * B * (y3 + y5 + y8 + y10) + B * B * hT

end Verif.U128
