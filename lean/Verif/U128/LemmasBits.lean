import Verif.U128.LemmasDiv

namespace Verif.U128

open Verif Spec

/-- Every bit is set that has a set bit among itself and the `n - 1` bits above it. -/
def Smear (v : BitVec 32) (n : Nat) (u : BitVec 32) : Prop :=
  ∀ i, u.getLsbD i = true ↔ ∃ j < n, v.getLsbD (i + j) = true

theorem smear_step {v u : BitVec 32} {n : Nat} (h : Smear v n u) : Smear v (n + n) (u ||| u >>> n) := by
  intro i
  rw [BitVec.getLsbD_or, Bool.or_eq_true, BitVec.getLsbD_ushiftRight, h, h]
  constructor
  · rintro (⟨j, h1, h2⟩ | ⟨j, h1, h2⟩)
    · exact ⟨j, by omega, h2⟩
    · exact ⟨n + j, by omega, by rw [show i + (n + j) = n + i + j by omega]; exact h2⟩
  · rintro ⟨j, h1, h2⟩
    by_cases hj : j < n
    · exact Or.inl ⟨j, hj, h2⟩
    · exact Or.inr ⟨j - n, by omega, by rw [show n + i + (j - n) = i + j by omega]; exact h2⟩

theorem smear_full {v u : BitVec 32} (h : Smear v 32 u) (hv : v.toNat ≠ 0) :
    u = BitVec.ofNat 32 (2 ^ (Nat.log2 v.toNat + 1) - 1) := by
  obtain ⟨l1, l2⟩ := log2_spec hv
  have hk : Nat.log2 v.toNat < 32 := by
    have := v.isLt
    exact (Nat.pow_lt_pow_iff_right (by decide : 1 < 2)).1 (Nat.lt_of_le_of_lt l1 this)
  apply BitVec.eq_of_getLsbD_eq
  intro i hi
  rw [BitVec.getLsbD_ofNat, Nat.testBit_two_pow_sub_one]
  have hit : u.getLsbD i = true ↔ i < Nat.log2 v.toNat + 1 := by
    rw [h i]
    constructor
    · rintro ⟨j, _, hj⟩
      by_contra hc
      have : v.toNat < 2 ^ (i + j) := Nat.lt_of_lt_of_le l2 (Nat.pow_le_pow_right (by decide) (by omega))
      have hf := Nat.testBit_lt_two_pow this
      rw [BitVec.getLsbD, hf] at hj
      cases hj
    · intro hi'
      refine ⟨Nat.log2 v.toNat - i, by omega, ?_⟩
      rw [show i + (Nat.log2 v.toNat - i) = Nat.log2 v.toNat by omega, BitVec.getLsbD, Nat.testBit_eq_decide_div_mod_eq]
      have h1 : v.toNat / 2 ^ Nat.log2 v.toNat = 1 := by
        rw [Nat.pow_succ] at l2
        exact Nat.div_eq_of_lt_le (by omega) (by omega)
      rw [h1]; rfl
  cases hb : u.getLsbD i
  · rw [hb] at hit; simp at hit
    simp; intro; omega
  · rw [hb] at hit; simp at hit
    simp; omega

theorem logTable_ok (k : Nat) (hk : k < 32) :
    logTable[((BitVec.ofNat 32 (2 ^ (k + 1) - 1) * 0x07C4ACDD#32) >>> 27).toNat]? = some k := by
  interval_cases k <;> decide

theorem flog2Portable_is {v : BitVec 32} (hv : v.toNat ≠ 0) : flog2Portable v = some (Nat.log2 v.toNat) := by
  have h0 : Smear v 1 v := by
    intro i
    constructor
    · intro h; exact ⟨0, by omega, h⟩
    · rintro ⟨j, hj, h⟩
      rwa [show j = 0 by omega, Nat.add_zero] at h
  have h5 := smear_step (smear_step (smear_step (smear_step (smear_step h0))))
  have := smear_full h5 hv
  have hk : Nat.log2 v.toNat < 32 :=
    (Nat.pow_lt_pow_iff_right (by decide : 1 < 2)).1 (Nat.lt_of_le_of_lt (log2_spec hv).1 v.isLt)
  unfold flog2Portable
  dsimp only
  rw [← logTable_ok _ hk, ← this]

/-- The lowest set bit. -/
theorem lowbit {n : Nat} {v : BitVec n} {k : Nat} (h : Trailing v.toNat k) (hk : k < n) :
    v &&& -v = BitVec.twoPow n k := by
  have hlow : ∀ j < k, v.getLsbD j = false := fun j hj => by
    obtain ⟨c, hc⟩ := h.1
    rw [BitVec.getLsbD, hc, Nat.testBit_two_pow_mul]
    simp; omega
  have hbit : v.getLsbD k = true := by
    rw [BitVec.getLsbD, Nat.testBit_eq_decide_div_mod_eq, decide_eq_true_eq]
    obtain ⟨c, hc⟩ := h.1
    rw [hc, Nat.mul_div_cancel_left _ (Nat.two_pow_pos k)]
    by_contra hodd
    apply h.2
    obtain ⟨e, he⟩ : ∃ e, c = 2 * e := ⟨c / 2, by omega⟩
    exact ⟨e, by rw [hc, he, Nat.pow_succ]; ring⟩
  apply BitVec.eq_of_getLsbD_eq
  intro i hi
  rw [BitVec.getLsbD_and, BitVec.getLsbD_neg, BitVec.getLsbD_twoPow]
  rcases Nat.lt_trichotomy i k with hik | hik | hik
  · rw [hlow i hik]; simp; omega
  · subst hik
    rw [hbit]
    have : ¬ ∃ j < i, v.getLsbD j = true := by
      rintro ⟨j, hj, hb⟩; rw [hlow j hj] at hb; cases hb
    simp [this, hi]
  · have : ∃ j < i, v.getLsbD j = true := ⟨k, hik, hbit⟩
    cases hb : v.getLsbD i
    · simp; omega
    · have hne : ¬ i = k := by omega
      have hd : decide (∃ j < i, v.getLsbD j = true) = true := decide_eq_true this
      have hki : ¬ k = i := by omega
      simp only [hd]; simp [hi, hne, hki]

theorem ctzTable_ok (k : Nat) (hk : k < 32) :
    ctzTable[((BitVec.twoPow 32 k * 0x077CB531#32) >>> 27).toNat]? = some k := by
  interval_cases k <;> decide

theorem trailingzerosPortable_is {v : BitVec 32} (hv : v.toNat ≠ 0) :
    ∃ k, trailingzerosPortable v = some k ∧ Trailing v.toNat k := by
  have h := ctz_spec hv
  have hk := trailing_lt hv v.isLt h
  refine ⟨_, ?_, h⟩
  unfold trailingzerosPortable
  rw [lowbit h hk, ctzTable_ok _ hk]

theorem split64 (v : BitVec 64) :
    v.toNat = (v.setWidth 32).toNat + 2 ^ 32 * ((v >>> 32).setWidth 32).toNat := by
  rw [BitVec.toNat_setWidth, BitVec.toNat_setWidth, BitVec.toNat_ushiftRight, Nat.shiftRight_eq_div_pow]
  have := v.isLt
  omega

theorem toNat_ne_zero {n : Nat} {v : BitVec n} : v.toNat ≠ 0 ↔ v ≠ 0#n := by
  rw [Ne, Ne, ← BitVec.toNat_inj]; simp

theorem flog2Portable64_is {v : BitVec 64} (hv : v.toNat ≠ 0) : flog2Portable64 v = some (Nat.log2 v.toNat) := by
  have hs := split64 v
  unfold flog2Portable64
  dsimp only
  by_cases h : (v >>> 32).setWidth 32 = 0#32
  · rw [if_neg (by simpa using h)]
    rw [h] at hs
    simp only [BitVec.toNat_ofNat, Nat.zero_mod, Nat.mul_zero, Nat.add_zero] at hs
    rw [hs] at hv ⊢
    exact flog2Portable_is hv
  · rw [if_pos (show _ ≠ (0 : BitVec 32) from h), flog2Portable_is (toNat_ne_zero.2 h), hs, log2_cat (BitVec.isLt _) (toNat_ne_zero.2 h)]
    simp only [Option.map_some, Nat.add_comm]

theorem trailingzerosPortable64_is {v : BitVec 64} (hv : v.toNat ≠ 0) :
    ∃ k, trailingzerosPortable64 v = some k ∧ Trailing v.toNat k := by
  have hs := split64 v
  unfold trailingzerosPortable64
  dsimp only
  by_cases h : v.setWidth 32 = 0#32
  · rw [if_neg (by simpa using h)]
    rw [h] at hs
    simp only [BitVec.toNat_ofNat, Nat.zero_mod] at hs
    have h2 : ((v >>> 32).setWidth 32).toNat ≠ 0 := by
      intro h2; rw [h2] at hs; omega
    obtain ⟨k, e, t⟩ := trailingzerosPortable_is h2
    rw [e, hs]
    exact ⟨k + 32, rfl, trailing_high t⟩
  · rw [if_pos (show _ ≠ (0 : BitVec 32) from h)]
    obtain ⟨k, e, t⟩ := trailingzerosPortable_is (toNat_ne_zero.2 h)
    rw [e, hs]
    exact ⟨k, rfl, trailing_low (BitVec.isLt _) (toNat_ne_zero.2 h) t⟩

/-- The rounded up logarithm, from the rounded down one and whether the number is its own lowest bit. -/
theorem ceil_of {n : Nat} (hn : n ≠ 0) {k : Nat} (hk : Trailing n k) :
    CeilLog n (Nat.log2 n + if 2 ^ k ≠ n then 1 else 0) := by
  obtain ⟨l1, l2⟩ := log2_spec hn
  by_cases h : 2 ^ k = n
  · rw [if_neg (by simpa using h), Nat.add_zero]
    have : Nat.log2 n = k := log2_of (by omega) (by rw [← h]; exact Nat.pow_lt_pow_right (by decide) (by omega))
    rw [this]
    refine ⟨h.ge, fun j hj => ?_⟩
    rw [← h] at hj
    exact (Nat.pow_le_pow_iff_right (by decide : 1 < 2)).1 hj
  · rw [if_pos h]
    refine ⟨l2.le, fun j hj => ?_⟩
    by_contra hc
    have hj' : 2 ^ j ≤ 2 ^ Nat.log2 n := Nat.pow_le_pow_right (by decide) (by omega)
    have hn2 : n = 2 ^ Nat.log2 n := by omega
    apply h
    have t : Trailing n (Nat.log2 n) := by
      constructor
      · exact ⟨1, by omega⟩
      · intro hd
        have := Nat.le_of_dvd (by omega) hd
        omega
    rw [trailing_unique hk t]; exact hn2.symm

theorem clog2W_is {n : Nat} {v : BitVec n} (hv : v.toNat ≠ 0) :
    ∃ k, clog2W v = .ok k ∧ CeilLog v.toNat k := by
  have t := ctz_spec hv
  have hk := trailing_lt hv v.isLt t
  refine ⟨_, ?_, ceil_of hv t⟩
  unfold clog2W
  rw [flog2W, if_neg hv, Outcome.bind_ok, lowbit t hk]
  have : (BitVec.twoPow n (ctz v.toNat) != v) = decide (2 ^ ctz v.toNat ≠ v.toNat) := by
    rw [Bool.eq_iff_iff]
    simp only [bne_iff_ne, ne_eq, decide_eq_true_eq, ← BitVec.toNat_inj, BitVec.toNat_twoPow_of_lt hk]
  rw [this]
  simp

theorem ne_iff {w : Nat} {a b : X4} (ha : Valid w a) (hb : Valid w b) : ne w a b = decide (val w a ≠ val w b) := by
  have h := eq_iff ha hb
  rw [Bool.eq_iff_iff]
  unfold ne
  rw [Bool.not_eq_true', ← Bool.not_eq_true, h]
  simp

theorem clog2_is {w : Nat} (hw : w = 32 ∨ w = 64) {v : X4} (h : Valid w v) (hv : val w v ≠ 0)
    (hsmall : w = 32 ∨ val w v ≤ 2 ^ 255) : ∃ k, clog2 w v = .ok k ∧ CeilLog (val w v) k := by
  have hw0 : 0 < w := by rcases hw with rfl | rfl <;> decide
  have hlt := val_lt h
  have t := ctz_spec hv
  have hk := trailing_lt hv hlt t
  have hc := ceil_of hv t
  have hn := neg_is hw0 h
  have ha := and_is h hn.1
  rw [hn.2] at ha
  have hlow : val w (and w v (neg w v)) = 2 ^ ctz (val w v) := by
    rw [ha.2]
    have tb : Trailing (BitVec.ofNat (4 * w) (val w v)).toNat (ctz (val w v)) := by
      rw [BitVec.toNat_ofNat, Nat.mod_eq_of_lt hlt]; exact t
    have := congrArg BitVec.toNat (lowbit tb hk)
    rw [BitVec.toNat_and, BitVec.toNat_neg, BitVec.toNat_ofNat, Nat.mod_eq_of_lt hlt, BitVec.toNat_twoPow_of_lt hk] at this
    exact this
  refine ⟨_, ?_, hc⟩
  unfold clog2
  rw [flog2_is hw h hv, Outcome.bind_ok, ne_iff ha.1 h, hlow]
  simp only [decide_eq_true_eq]
  congr 1
  apply Nat.mod_eq_of_lt
  have hle : Nat.log2 (val w v) + (if 2 ^ ctz (val w v) ≠ val w v then 1 else 0) ≤ 4 * w := hc.2 _ hlt.le
  rcases hsmall with rfl | hs
  · omega
  · have := hc.2 255 hs
    omega

end Verif.U128
