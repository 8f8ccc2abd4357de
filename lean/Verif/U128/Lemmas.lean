import Verif.U128.Spec
import Mathlib.Tactic.Ring
import Mathlib.Tactic.LinearCombination
import Mathlib.Tactic.Zify
import Mathlib.Tactic.IntervalCases

namespace Verif.U128

open Verif Spec

theorem pow2w (w : Nat) : 2 ^ (2 * w) = 2 ^ w * 2 ^ w := by rw [Nat.two_mul, Nat.pow_add]
theorem pow3w (w : Nat) : 2 ^ (3 * w) = 2 ^ w * (2 ^ w * 2 ^ w) := by
  rw [show 3 * w = w + (w + w) by omega, Nat.pow_add, Nat.pow_add]
theorem pow4w (w : Nat) : 2 ^ (4 * w) = 2 ^ w * (2 ^ w * (2 ^ w * 2 ^ w)) := by
  rw [show 4 * w = w + (w + (w + w)) by omega, Nat.pow_add, Nat.pow_add, Nat.pow_add]

theorem val_eq (w : Nat) (v : X4) : val w v = v.v0 + 2 ^ w * (v.v1 + 2 ^ w * (v.v2 + 2 ^ w * v.v3)) := by
  unfold val; rw [pow2w, pow3w]; ring

theorem cons_lt {B x y N : Nat} (hx : x < B) (hy : y < N) : x + B * y < B * N := by
  have : B * y + B ≤ B * N := by rw [← Nat.mul_succ]; exact Nat.mul_le_mul_left _ hy
  omega

theorem val_lt {w : Nat} {v : X4} (h : Valid w v) : val w v < 2 ^ (4 * w) := by
  rw [val_eq, pow4w]
  obtain ⟨h0, h1, h2, h3⟩ := h
  exact cons_lt h0 (cons_lt h1 (cons_lt h2 h3))

/-- A number congruent to `n` and small enough is `n` modulo the bound. -/
theorem eq_mod_of {N x n k : Nat} (hx : x < N) (h : x + N * k = n) : x = n % N := by
  subst h; rw [Nat.add_mul_mod_self_left, Nat.mod_eq_of_lt hx]

/-! ## Carries -/

theorem addc_spec {w x y : Nat} (hx : x < 2 ^ w) (hy : y < 2 ^ w) (hw : 0 < w) (c : Bool) :
    (addwithcarry w x y c).1 < 2 ^ w ∧
      (addwithcarry w x y c).1 + 2 ^ w * (addwithcarry w x y c).2.toNat = x + y + c.toNat := by
  unfold addwithcarry
  have hB : 2 ≤ 2 ^ w := by
    calc 2 = 2 ^ 1 := rfl
      _ ≤ 2 ^ w := Nat.pow_le_pow_right (by omega) hw
  generalize 2 ^ w = B at *
  have hc : c.toNat ≤ 1 := Bool.toNat_le c
  dsimp only
  refine ⟨Nat.mod_lt _ (by omega), ?_⟩
  by_cases h1 : y + c.toNat < B
  · rw [Nat.mod_eq_of_lt h1]
    by_cases h2 : x + (y + c.toNat) < B
    · rw [Nat.mod_eq_of_lt h2]
      have e1 : decide (y + c.toNat < y) = false := by simp
      have e2 : decide (x + (y + c.toNat) < x) = false := by simp
      rw [e1, e2]; simp; omega
    · have : (x + (y + c.toNat)) % B = x + (y + c.toNat) - B := by
        rw [Nat.mod_eq_sub_mod (by omega), Nat.mod_eq_of_lt (by omega)]
      rw [this]
      have e2 : decide (x + (y + c.toNat) - B < x) = true := by simp; omega
      rw [e2]; simp; omega
  · have hy' : y + c.toNat = B := by omega
    rw [hy', Nat.mod_self, Nat.add_zero, Nat.mod_eq_of_lt hx]
    have e1 : decide (0 < y) = true := by simp; omega
    rw [e1]; simp; omega

theorem subc_spec {w x y : Nat} (hx : x < 2 ^ w) (hy : y < 2 ^ w) (hw : 0 < w) (c : Bool) :
    (subwithcarry w x y c).1 < 2 ^ w ∧
      (subwithcarry w x y c).1 + y + c.toNat = x + 2 ^ w * (subwithcarry w x y c).2.toNat := by
  unfold subwithcarry
  have hB : 2 ≤ 2 ^ w := by
    calc 2 = 2 ^ 1 := rfl
      _ ≤ 2 ^ w := Nat.pow_le_pow_right (by omega) hw
  generalize 2 ^ w = B at *
  have hc : c.toNat ≤ 1 := Bool.toNat_le c
  dsimp only
  refine ⟨Nat.mod_lt _ (by omega), ?_⟩
  by_cases h1 : y + c.toNat < B
  · rw [Nat.mod_eq_of_lt h1]
    have e1 : decide (y + c.toNat < y) = false := by simp
    by_cases h2 : y + c.toNat ≤ x
    · have : (x + B - (y + c.toNat)) % B = x - (y + c.toNat) := by
        rw [Nat.mod_eq_sub_mod (by omega), Nat.mod_eq_of_lt (by omega)]; omega
      rw [this]
      have e2 : decide (x - (y + c.toNat) > x) = false := by simp
      rw [e1, e2]; simp; omega
    · rw [Nat.mod_eq_of_lt (by omega)]
      have e2 : decide (x + B - (y + c.toNat) > x) = true := by simp; omega
      rw [e1, e2]; simp; omega
  · have hy' : y + c.toNat = B := by omega
    rw [hy', Nat.mod_self, Nat.sub_zero, Nat.add_mod_right, Nat.mod_eq_of_lt hx]
    have e1 : decide (0 < y) = true := by simp; omega
    rw [e1]; simp; omega

theorem add_is {w : Nat} (hw : 0 < w) {a b : X4} (ha : Valid w a) (hb : Valid w b) :
    Is w (add w a b) ((val w a + val w b) % 2 ^ (4 * w)) := by
  obtain ⟨a0, a1, a2, a3⟩ := ha
  obtain ⟨b0, b1, b2, b3⟩ := hb
  have h0 := addc_spec a0 b0 hw false
  have h1 := addc_spec a1 b1 hw (addwithcarry w a.v0 b.v0 false).2
  have h2 := addc_spec a2 b2 hw (addwithcarry w a.v1 b.v1 (addwithcarry w a.v0 b.v0 false).2).2
  have h3 := addc_spec a3 b3 hw
    (addwithcarry w a.v2 b.v2 (addwithcarry w a.v1 b.v1 (addwithcarry w a.v0 b.v0 false).2).2).2
  have hv : Valid w (add w a b) := ⟨h0.1, h1.1, h2.1, h3.1⟩
  refine ⟨hv, eq_mod_of (val_lt hv) (k := (addwithcarry w a.v3 b.v3 (addwithcarry w a.v2 b.v2
    (addwithcarry w a.v1 b.v1 (addwithcarry w a.v0 b.v0 false).2).2).2).2.toNat) ?_⟩
  rw [pow4w, val_eq, val_eq, val_eq]
  simp only [add]
  have e0 := h0.2; have e1 := h1.2; have e2 := h2.2; have e3 := h3.2
  simp only [Bool.toNat_false] at e0
  clear h0 h1 h2 h3 hv
  zify at *
  linear_combination e0 + 2 ^ w * e1 + 2 ^ w * 2 ^ w * e2 + 2 ^ w * 2 ^ w * 2 ^ w * e3

theorem sub_is {w : Nat} (hw : 0 < w) {a b : X4} (ha : Valid w a) (hb : Valid w b) :
    Is w (sub w a b) ((val w a + 2 ^ (4 * w) - val w b) % 2 ^ (4 * w)) := by
  have hvb := val_lt hb
  have hva := val_lt ha
  obtain ⟨a0, a1, a2, a3⟩ := ha
  obtain ⟨b0, b1, b2, b3⟩ := hb
  have h0 := subc_spec a0 b0 hw false
  have h1 := subc_spec a1 b1 hw (subwithcarry w a.v0 b.v0 false).2
  have h2 := subc_spec a2 b2 hw (subwithcarry w a.v1 b.v1 (subwithcarry w a.v0 b.v0 false).2).2
  have h3 := subc_spec a3 b3 hw
    (subwithcarry w a.v2 b.v2 (subwithcarry w a.v1 b.v1 (subwithcarry w a.v0 b.v0 false).2).2).2
  have hv : Valid w (sub w a b) := ⟨h0.1, h1.1, h2.1, h3.1⟩
  refine ⟨hv, ?_⟩
  have key : val w (sub w a b) + val w b = val w a + 2 ^ (4 * w) * (subwithcarry w a.v3 b.v3 (subwithcarry w a.v2 b.v2
    (subwithcarry w a.v1 b.v1 (subwithcarry w a.v0 b.v0 false).2).2).2).2.toNat := by
    rw [pow4w, val_eq, val_eq, val_eq]
    simp only [sub]
    have e0 := h0.2; have e1 := h1.2; have e2 := h2.2; have e3 := h3.2
    simp only [Bool.toNat_false] at e0
    clear h0 h1 h2 h3 hv hva hvb
    zify at *
    linear_combination e0 + 2 ^ w * e1 + 2 ^ w * 2 ^ w * e2 + 2 ^ w * 2 ^ w * 2 ^ w * e3
  have hlt := val_lt hv
  generalize (subwithcarry w a.v3 b.v3 _).2 = c at key
  cases c
  · simp at key
    rw [Nat.mod_eq_sub_mod (by omega), Nat.mod_eq_of_lt (by omega)]; omega
  · simp at key
    rw [Nat.mod_eq_of_lt (by omega)]; omega

/-! ## Double words -/

theorem d01_lt {w : Nat} {v : X4} (h : Valid w v) : v.d01 w < 2 ^ (2 * w) := by
  rw [pow2w]; exact cons_lt h.1 h.2.1

theorem d23_lt {w : Nat} {v : X4} (h : Valid w v) : v.d23 w < 2 ^ (2 * w) := by
  rw [pow2w]; exact cons_lt h.2.2.1 h.2.2.2

theorem val_d (w : Nat) (v : X4) : val w v = 2 ^ (2 * w) * v.d23 w + v.d01 w := by
  rw [val_eq, pow2w, X4.d01, X4.d23]; ring

theorem div_lt_of {B x : Nat} (h : x < B * B) : x / B < B := Nat.div_lt_of_lt_mul h

theorem mk2_is {w x y : Nat} (hx : x < 2 ^ (2 * w)) (hy : y < 2 ^ (2 * w)) :
    Is w (mk2 w x y) (2 ^ (2 * w) * x + y) := by
  have hB : 0 < 2 ^ w := Nat.two_pow_pos w
  rw [pow2w] at hx hy
  refine ⟨⟨Nat.mod_lt _ hB, div_lt_of hy, Nat.mod_lt _ hB, div_lt_of hx⟩, ?_⟩
  rw [val_d]
  simp only [mk2, X4.d01, X4.d23, Nat.mod_add_div]

theorem neg_is {w : Nat} (hw : 0 < w) {v : X4} (h : Valid w v) :
    Is w (neg w v) ((2 ^ (4 * w) - val w v) % 2 ^ (4 * w)) := by
  have h0 := mk2_is (w := w) (x := 0) (y := 0) (Nat.two_pow_pos _) (Nat.two_pow_pos _)
  have := sub_is hw h0.1 h
  rw [h0.2] at this
  simpa [neg] using this

theorem ofInt_is {w : Nat} (x : Int) : Is w (ofInt w x) (x % 2 ^ (2 * w)).toNat := by
  have hp : (0 : Int) < 2 ^ (2 * w) := by positivity
  have h1 := Int.emod_nonneg x hp.ne'
  have h2 := Int.emod_lt_of_pos x hp
  have := mk2_is (w := w) (x := 0) (y := (x % 2 ^ (2 * w)).toNat) (Nat.two_pow_pos _) (by
    zify; rw [Int.toNat_of_nonneg h1]; exact h2)
  simpa [ofInt] using this

/-! ## Comparisons -/

theorem lt_iff {w : Nat} {a b : X4} (ha : Valid w a) (hb : Valid w b) : lt w a b = true ↔ val w a < val w b := by
  have h1 := d01_lt ha
  have h2 := d01_lt hb
  rw [val_d, val_d]
  unfold lt
  generalize a.d01 w = a1 at *
  generalize b.d01 w = b1 at *
  generalize a.d23 w = a2 at *
  generalize b.d23 w = b2 at *
  generalize 2 ^ (2 * w) = N at *
  simp only [Bool.or_eq_true, decide_eq_true_eq, Bool.and_eq_true, beq_iff_eq]
  constructor
  · rintro (h | ⟨h, h'⟩)
    · have : N * a2 + N ≤ N * b2 := by rw [← Nat.mul_succ]; exact Nat.mul_le_mul_left _ h
      omega
    · subst h; omega
  · intro h
    rcases Nat.lt_trichotomy a2 b2 with g | g | g
    · exact Or.inl g
    · subst g; exact Or.inr ⟨rfl, by omega⟩
    · have : N * b2 + N ≤ N * a2 := by rw [← Nat.mul_succ]; exact Nat.mul_le_mul_left _ g
      omega

theorem eq_iff {w : Nat} {a b : X4} (ha : Valid w a) (hb : Valid w b) : eq w a b = true ↔ val w a = val w b := by
  have h1 := lt_iff ha hb
  have h2 := lt_iff hb ha
  unfold lt at h1 h2
  unfold eq
  simp only [Bool.or_eq_true, decide_eq_true_eq, Bool.and_eq_true, beq_iff_eq] at *
  constructor
  · rintro ⟨e1, e2⟩
    rw [val_d, val_d, e1, e2]
  · intro h
    constructor <;> omega

/-! ## Bitwise -/

theorem land_cat {k x x' y y' : Nat} (hx : x < 2 ^ k) (hx' : x' < 2 ^ k) :
    (2 ^ k * y + x) &&& (2 ^ k * y' + x') = 2 ^ k * (y &&& y') + (x &&& x') := by
  apply Nat.eq_of_testBit_eq
  intro i
  rw [Nat.testBit_and, Nat.testBit_two_pow_mul_add _ hx, Nat.testBit_two_pow_mul_add _ hx',
    Nat.testBit_two_pow_mul_add _ (Nat.and_lt_two_pow _ hx')]
  split <;> simp

theorem lor_cat {k x x' y y' : Nat} (hx : x < 2 ^ k) (hx' : x' < 2 ^ k) :
    (2 ^ k * y + x) ||| (2 ^ k * y' + x') = 2 ^ k * (y ||| y') + (x ||| x') := by
  apply Nat.eq_of_testBit_eq
  intro i
  rw [Nat.testBit_or, Nat.testBit_two_pow_mul_add _ hx, Nat.testBit_two_pow_mul_add _ hx',
    Nat.testBit_two_pow_mul_add _ (Nat.or_lt_two_pow hx hx')]
  split <;> simp

theorem xor_cat {k x x' y y' : Nat} (hx : x < 2 ^ k) (hx' : x' < 2 ^ k) :
    (2 ^ k * y + x) ^^^ (2 ^ k * y' + x') = 2 ^ k * (y ^^^ y') + (x ^^^ x') := by
  apply Nat.eq_of_testBit_eq
  intro i
  rw [Nat.testBit_xor, Nat.testBit_two_pow_mul_add _ hx, Nat.testBit_two_pow_mul_add _ hx',
    Nat.testBit_two_pow_mul_add _ (Nat.xor_lt_two_pow hx hx')]
  split <;> simp

theorem and_is {w : Nat} {a b : X4} (ha : Valid w a) (hb : Valid w b) : Is w (and w a b) (val w a &&& val w b) := by
  rw [val_d, val_d, land_cat (d01_lt ha) (d01_lt hb)]
  exact mk2_is (Nat.and_lt_two_pow _ (d23_lt hb)) (Nat.and_lt_two_pow _ (d01_lt hb))

theorem or_is {w : Nat} {a b : X4} (ha : Valid w a) (hb : Valid w b) : Is w (or w a b) (val w a ||| val w b) := by
  rw [val_d, val_d, lor_cat (d01_lt ha) (d01_lt hb)]
  exact mk2_is (Nat.or_lt_two_pow (d23_lt ha) (d23_lt hb)) (Nat.or_lt_two_pow (d01_lt ha) (d01_lt hb))

theorem xor_is {w : Nat} {a b : X4} (ha : Valid w a) (hb : Valid w b) : Is w (xor w a b) (val w a ^^^ val w b) := by
  rw [val_d, val_d, xor_cat (d01_lt ha) (d01_lt hb)]
  exact mk2_is (Nat.xor_lt_two_pow (d23_lt ha) (d23_lt hb)) (Nat.xor_lt_two_pow (d01_lt ha) (d01_lt hb))

theorem not_is {w : Nat} {v : X4} (h : Valid w v) : Is w (not w v) (2 ^ (4 * w) - 1 - val w v) := by
  have h1 := d01_lt h
  have h2 := d23_lt h
  have := mk2_is (w := w) (x := 2 ^ (2 * w) - 1 - v.d23 w) (y := 2 ^ (2 * w) - 1 - v.d01 w) (by omega) (by omega)
  refine ⟨this.1, this.2.trans ?_⟩
  rw [val_d, show 4 * w = 2 * w + 2 * w by omega, Nat.pow_add]
  generalize 2 ^ (2 * w) = N at *
  generalize v.d23 w = x at *
  generalize v.d01 w = y at *
  obtain ⟨z, rfl⟩ : ∃ z, N = x + 1 + z := ⟨N - x - 1, by omega⟩
  rw [show x + 1 + z - 1 - x = z by omega]
  have : (x + 1 + z) * (x + 1 + z) = (x + 1 + z) * x + (x + 1 + z) + (x + 1 + z) * z := by ring
  omega

end Verif.U128
