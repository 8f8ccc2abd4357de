import Verif.Pcg.Output
import Verif.Pcg.SpecDraw
import Mathlib.Data.BitVec
import Mathlib.Data.FinEnum
import Mathlib.SetTheory.Cardinal.Finite
import Mathlib.Algebra.BigOperators.Ring.Finset
import Mathlib.Tactic.Ring

/-!
# The output functions: lemmas
-/

namespace Verif.Pcg

theorem lowmask_toNat (n : Nat) (h : n ≤ w) : (1#w <<< n - 1#w).toNat = 2 ^ n - 1 := by
  have hp := Nat.two_pow_pos n
  rcases Nat.eq_zero_or_pos w with rfl | hw
  · obtain rfl : n = 0 := by omega
    simp
  have h2 : 2 ^ 1 ≤ 2 ^ w := Nat.pow_le_pow_right (by omega) hw
  have h1 : (1#w).toNat = 1 := by simp; omega
  rw [BitVec.toNat_sub, BitVec.toNat_shiftLeft, h1, Nat.shiftLeft_eq, Nat.one_mul]
  rcases Nat.eq_or_lt_of_le h with rfl | hlt
  · rw [Nat.mod_self, Nat.add_zero, Nat.mod_eq_of_lt (by omega)]
  · have : 2 ^ n < 2 ^ w := Nat.pow_lt_pow_right (by omega) hlt
    rw [Nat.mod_eq_of_lt this, show 2 ^ w - 1 + 2 ^ n = 2 ^ n - 1 + 2 ^ w by omega,
      Nat.add_mod_right, Nat.mod_eq_of_lt (by omega)]

theorem lowmask_bit (n i : Nat) (h : n ≤ w) : (1#w <<< n - 1#w).getLsbD i = decide (i < n) := by
  rw [BitVec.getLsbD, lowmask_toNat n h, Nat.testBit_two_pow_sub_one]

theorem bit_false {y : BitVec w} {n : Nat} (h : y.toNat < 2 ^ n) {i : Nat} (hi : n ≤ i) :
    y.getLsbD i = false := by
  rw [BitVec.getLsbD]
  exact Nat.testBit_lt_two_pow (lt_of_lt_of_le h (Nat.pow_le_pow_right (by omega) hi))

theorem unxorshift_spec (bits : Nat) : ∀ (y : BitVec w) (shift : Nat), 0 < shift → bits ≤ w →
    y.toNat < 2 ^ bits → unxorshift (y ^^^ y >>> shift) bits shift = .ok y := by
  induction bits using Nat.strong_induction_on with
  | _ bits ih =>
    intro y shift hs hb hy
    rw [unxorshift]
    by_cases h : 2 * shift ≥ bits
    · rw [if_pos h]
      congr 1
      apply BitVec.eq_of_getLsbD_eq
      intro i hi
      have h0 : y.getLsbD (shift + (shift + i)) = false := bit_false hy (by omega)
      simp only [BitVec.getLsbD_xor, BitVec.getLsbD_ushiftRight, h0]
      cases y.getLsbD i <;> cases y.getLsbD (shift + i) <;> rfl
    · rw [if_neg h, dif_neg (by omega)]
      have hlow : ∀ i, (1#w <<< (bits - shift * 2) - 1#w).getLsbD i = decide (i < bits - shift * 2) :=
        fun i => lowmask_bit _ i (by omega)
      have hlow2 : ∀ i, (1#w <<< (bits - shift) - 1#w).getLsbD i = decide (i < bits - shift) :=
        fun i => lowmask_bit _ i (by omega)
      -- the argument of the recursive call
      have hrec := ih (bits - shift) (by omega) (y &&& (1#w <<< (bits - shift) - 1#w)) shift hs (by omega)
        (by
          rw [BitVec.toNat_and, lowmask_toNat _ (by omega), Nat.and_two_pow_sub_one_eq_mod]
          exact Nat.mod_lt _ (Nat.two_pow_pos _))
      have harg : ((y ^^^ y >>> shift ^^^ (y ^^^ y >>> shift) >>> shift) &&&
            ~~~(1#w <<< (bits - shift * 2) - 1#w) |||
            (y ^^^ y >>> shift) &&& (1#w <<< (bits - shift * 2) - 1#w)) &&&
            (1#w <<< (bits - shift) - 1#w) =
          (y &&& (1#w <<< (bits - shift) - 1#w)) ^^^ (y &&& (1#w <<< (bits - shift) - 1#w)) >>> shift := by
        apply BitVec.eq_of_getLsbD_eq
        intro i hi
        simp only [BitVec.getLsbD_xor, BitVec.getLsbD_ushiftRight, BitVec.getLsbD_and,
          BitVec.getLsbD_or, BitVec.getLsbD_not, hlow, hlow2, hi, decide_true]
        by_cases h1 : i < bits - shift * 2
        · have h2 : i < bits - shift := by omega
          have h3 : shift + i < bits - shift := by omega
          simp [h1, h2, h3]
        · have h3 : ¬ shift + i < bits - shift := by omega
          have h0 : y.getLsbD (shift + (shift + i)) = false := bit_false hy (by omega)
          by_cases h2 : i < bits - shift
          · simp [h1, h2, h3, h0]
          · simp [h1, h2, h3]
      simp only [harg, hrec, Outcome.bind_ok]
      show Outcome.ok _ = Outcome.ok _
      congr 1
      apply BitVec.eq_of_getLsbD_eq
      intro i hi
      simp only [BitVec.getLsbD_xor, BitVec.getLsbD_ushiftRight, BitVec.getLsbD_and,
        BitVec.getLsbD_or, BitVec.getLsbD_not, hlow, hlow2, hi, decide_true]
      by_cases h1 : i < bits - shift * 2
      · have h2 : i < bits - shift := by omega
        simp [h1, h2]
      · have h0 : y.getLsbD (shift + (shift + i)) = false := bit_false hy (by omega)
        simp [h1, h0]

/-! Rotations -/

/-- The sizes of the result types. -/
def Size (x : Nat) : Prop := x = 8 ∨ x = 16 ∨ x = 32 ∨ x = 64 ∨ x = 128

theorem neg_mask {x rot : Nat} (hx : Size x) (hr : rot < x) :
    (256 - rot) &&& (x - 1) = if rot = 0 then 0 else x - rot := by
  have key : ∀ k, x = 2 ^ k → (256 - rot) &&& (x - 1) = (256 - rot) % x := by
    intro k hk; rw [hk, Nat.and_two_pow_sub_one_eq_mod]
  have hk : ∃ k, x = 2 ^ k := by
    rcases hx with h | h | h | h | h
    · exact ⟨3, h⟩
    · exact ⟨4, h⟩
    · exact ⟨5, h⟩
    · exact ⟨6, h⟩
    · exact ⟨7, h⟩
  obtain ⟨k, hk⟩ := hk
  rw [key k hk]
  rcases hx with h | h | h | h | h <;> (subst h; split <;> omega)

theorem rotr_bit {v : BitVec x} {rot : Nat} (hx : Size x) (hr : rot < x) {i : Nat} (hi : i < x) :
    (rotr v rot).getLsbD i = v.getLsbD ((i + rot) % x) := by
  rw [rotr, neg_mask hx hr, BitVec.getLsbD_or, BitVec.getLsbD_ushiftRight, BitVec.getLsbD_shiftLeft]
  split
  · rename_i h0; subst h0
    simp [Nat.mod_eq_of_lt hi, hi]
  · rename_i h0
    by_cases h : i + rot < x
    · rw [Nat.mod_eq_of_lt h]
      simp [show i < x - rot by omega, Nat.add_comm]
    · rw [Nat.mod_eq_sub_mod (by omega), Nat.mod_eq_of_lt (by omega)]
      have : v.getLsbD (rot + i) = false := bit_false v.isLt (by omega)
      simp only [this, Bool.false_or, hi, decide_true, Bool.true_and,
        show ¬ i < x - rot by omega, decide_false, Bool.not_false]
      congr 1; omega

theorem rotl_bit {v : BitVec x} {rot : Nat} (hx : Size x) (hr : rot < x) {i : Nat} (hi : i < x) :
    (rotl v rot).getLsbD i = v.getLsbD ((i + (x - rot)) % x) := by
  rw [rotl, neg_mask hx hr, BitVec.getLsbD_or, BitVec.getLsbD_ushiftRight, BitVec.getLsbD_shiftLeft]
  split
  · rename_i h0; subst h0
    simp [Nat.mod_eq_of_lt hi, hi]
  · rename_i h0
    by_cases h : i < rot
    · rw [Nat.mod_eq_of_lt (by omega)]
      simp [h, Nat.add_comm]
    · rw [Nat.mod_eq_sub_mod (by omega), Nat.mod_eq_of_lt (by omega)]
      have : v.getLsbD (x - rot + i) = false := bit_false v.isLt (by omega)
      simp only [this, Bool.or_false, hi, decide_true, Bool.true_and, h, decide_false, Bool.not_false]
      congr 1; omega

theorem rotr_xor (a b : BitVec x) {rot : Nat} (hx : Size x) (hr : rot < x) :
    rotr (a ^^^ b) rot = rotr a rot ^^^ rotr b rot := by
  apply BitVec.eq_of_getLsbD_eq
  intro i hi
  rw [BitVec.getLsbD_xor, rotr_bit hx hr hi, rotr_bit hx hr hi, rotr_bit hx hr hi, BitVec.getLsbD_xor]

theorem rotr_rotl (v : BitVec x) {rot : Nat} (hx : Size x) (hr : rot < x) :
    rotr (rotl v rot) rot = v := by
  apply BitVec.eq_of_getLsbD_eq
  intro i hi
  rw [rotr_bit hx hr hi, rotl_bit hx hr (Nat.mod_lt _ (by omega)), Nat.mod_add_mod,
    show i + rot + (x - rot) = i + x by omega, Nat.add_mod_right, Nat.mod_eq_of_lt hi]

theorem rotl_rotr (v : BitVec x) {rot : Nat} (hx : Size x) (hr : rot < x) :
    rotl (rotr v rot) rot = v := by
  apply BitVec.eq_of_getLsbD_eq
  intro i hi
  rw [rotl_bit hx hr hi, rotr_bit hx hr (Nat.mod_lt _ (by omega)), Nat.mod_add_mod,
    show i + (x - rot) + rot = i + x by omega, Nat.add_mod_right, Nat.mod_eq_of_lt hi]

/-! The top bits -/

theorem topBits_eq (s : BitVec w) (op : Nat) (h : op ≤ w) : topBits s op = s.toNat / 2 ^ (w - op) := by
  unfold topBits
  have hs := s.isLt
  split
  · rw [BitVec.toNat_ushiftRight, Nat.shiftRight_eq_div_pow, Nat.shiftLeft_eq, Nat.one_mul,
      Nat.and_two_pow_sub_one_eq_mod, Nat.mod_eq_of_lt]
    rw [Nat.div_lt_iff_lt_mul (Nat.two_pow_pos _), ← Nat.pow_add]
    rwa [show op + (w - op) = w by omega]
  · rename_i h0
    have : op = 0 := by omega
    subst this
    rw [Nat.div_eq_of_lt (by simpa using hs)]

theorem topBits_lt (s : BitVec w) (op : Nat) (h : op ≤ w) : topBits s op < 2 ^ op := by
  rw [topBits_eq s op h, Nat.div_lt_iff_lt_mul (Nat.two_pow_pos _), ← Nat.pow_add,
    show op + (w - op) = w by omega]
  exact s.isLt

theorem topBits_xor (s u : BitVec w) (op : Nat) (hu : u.toNat < 2 ^ (w - op)) :
    topBits (s ^^^ u) op = topBits s op := by
  unfold topBits
  have : (s ^^^ u) >>> (w - op) = s >>> (w - op) := by
    apply BitVec.eq_of_getLsbD_eq
    intro i hi
    rw [BitVec.getLsbD_ushiftRight, BitVec.getLsbD_ushiftRight, BitVec.getLsbD_xor,
      bit_false hu (by omega), Bool.xor_false]
  rw [this]

/-! Solving for the state -/

theorem xorshift_inj (n xs : Nat) (h : 0 < xs) :
    Function.Injective fun u : BitVec n => u ^^^ u >>> xs := by
  intro a b hab
  have ha := unxorshift_spec n a xs h le_rfl a.isLt
  have hb := unxorshift_spec n b xs h le_rfl b.isLt
  simp only at hab
  rw [hab, hb] at ha
  injection ha with ha
  exact ha.symm

theorem xorshift_surj (n xs : Nat) (h : 0 < xs) (e : BitVec n) : ∃ u : BitVec n, u ^^^ u >>> xs = e :=
  Finite.surjective_of_injective (xorshift_inj n xs h) e

theorem clear_low (u : BitVec w) (k i : Nat) (hk : k ≤ w) :
    (u &&& ~~~(1#w <<< k - 1#w)).getLsbD i = (u.getLsbD i && decide (k ≤ i)) := by
  rw [BitVec.getLsbD_and, BitVec.getLsbD_not, lowmask_bit _ _ hk]
  by_cases hi : i < w
  · by_cases h : i < k
    · simp [h, hi]
    · simp [h, hi, Nat.not_lt.1 h]
  · rw [bit_false u.isLt (by omega)]; simp

theorem mod_four (u : BitVec w) (h : ∀ i < 2, u.getLsbD i = false) : u.toNat % 4 = 0 := by
  have h0 := h 0 (by omega)
  have h1 := h 1 (by omega)
  simp only [BitVec.getLsbD, Nat.testBit_eq_decide_div_mod_eq, decide_eq_false_iff_not] at h0 h1
  omega

theorem window_exists {a xs k : Nat} (d : BitVec x) (hax : a + x ≤ w) (hk : k ≤ a) (hxs : 0 < xs) :
    ∃ u : BitVec w, u.toNat < 2 ^ (a + x) ∧ (∀ i < k, u.getLsbD i = false) ∧
      ((u ^^^ u >>> xs) >>> a).setWidth x = d := by
  obtain ⟨u', hu⟩ := xorshift_surj (a + x) xs hxs (d.setWidth (a + x) <<< a)
  have hbit : ∀ i, (u'.setWidth w &&& ~~~(1#w <<< k - 1#w)).getLsbD i =
      (u'.getLsbD i && decide (k ≤ i)) := by
    intro i
    rw [clear_low _ _ _ (by omega), BitVec.getLsbD_setWidth]
    by_cases hi : i < w
    · simp [hi]
    · rw [bit_false u'.isLt (by omega)]; simp
  refine ⟨u'.setWidth w &&& ~~~(1#w <<< k - 1#w), ?_, ?_, ?_⟩
  · apply Nat.lt_pow_two_of_testBit
    intro i hi
    have := hbit i
    rw [bit_false u'.isLt hi, Bool.false_and] at this
    exact this
  · intro i hi
    rw [hbit]
    simp [show ¬ k ≤ i by omega]
  · apply BitVec.eq_of_getLsbD_eq
    intro i hi
    rw [BitVec.getLsbD_setWidth, BitVec.getLsbD_ushiftRight, BitVec.getLsbD_xor,
      BitVec.getLsbD_ushiftRight, hbit, hbit]
    have h1 := congrArg (fun v => v.getLsbD (a + i)) hu
    simp only [BitVec.getLsbD_xor, BitVec.getLsbD_ushiftRight, BitVec.getLsbD_shiftLeft,
      BitVec.getLsbD_setWidth] at h1
    simp only [show k ≤ a + i by omega, show k ≤ xs + (a + i) by omega, decide_true, Bool.and_true,
      hi, Bool.true_and, h1]
    simp [show a + i < a + x by omega, show i < a + x by omega]

theorem low_window_exists {k : Nat} (d : BitVec x) (hk : k ≤ x) (hw : x + x ≤ w) :
    ∃ u : BitVec w, u.toNat < 2 ^ (x + k) ∧ (∀ i < k, u.getLsbD i = false) ∧
      (u ^^^ u >>> x).setWidth x = d := by
  have hbit : ∀ i, (d.setWidth w &&& ~~~(1#w <<< k - 1#w) |||
      (d.setWidth w &&& (1#w <<< k - 1#w)) <<< x).getLsbD i =
      ((d.getLsbD i && decide (k ≤ i)) || (decide (x ≤ i) && d.getLsbD (i - x) && decide (i - x < k))) := by
    intro i
    rw [BitVec.getLsbD_or, clear_low _ _ _ (by omega), BitVec.getLsbD_setWidth,
      BitVec.getLsbD_shiftLeft, BitVec.getLsbD_and, lowmask_bit _ _ (by omega),
      BitVec.getLsbD_setWidth]
    by_cases hi : i < w
    · by_cases h2 : i < x
      · simp [hi, h2]
      · simp [hi, h2, show i - x < w by omega, Nat.not_lt.1 h2]
    · rw [bit_false d.isLt (by omega)]
      simp only [hi, decide_false, Bool.false_and, Bool.false_or]
      by_cases h3 : i - x < k
      · omega
      · simp [h3]
  refine ⟨d.setWidth w &&& ~~~(1#w <<< k - 1#w) |||
      (d.setWidth w &&& (1#w <<< k - 1#w)) <<< x, ?_, ?_, ?_⟩
  · apply Nat.lt_pow_two_of_testBit
    intro i hi
    have := hbit i
    rw [bit_false d.isLt (by omega)] at this
    simp only [Bool.false_and, Bool.false_or, show ¬ i - x < k by omega, decide_false,
      Bool.and_false] at this
    exact this
  · intro i hi
    rw [hbit]
    simp [show ¬ k ≤ i by omega, show ¬ x ≤ i by omega]
  · apply BitVec.eq_of_getLsbD_eq
    intro i hi
    rw [BitVec.getLsbD_setWidth, BitVec.getLsbD_xor, BitVec.getLsbD_ushiftRight, hbit, hbit,
      bit_false d.isLt (by omega : x ≤ x + i)]
    simp only [hi, decide_true, Bool.true_and, show ¬ x ≤ i by omega, decide_false, Bool.false_and,
      Bool.or_false, Bool.false_or, show x ≤ x + i by omega, Nat.add_sub_cancel_left]
    by_cases h : i < k
    · simp [h, show ¬ k ≤ i by omega]
    · simp [h, Nat.not_lt.1 h]

/-! Counting -/

theorem equi {f : BitVec w → BitVec x} {S : Set (BitVec w)}
    (h : ∀ d, ∃ σ : BitVec w → BitVec w, (∀ s, σ (σ s) = s) ∧ (∀ s ∈ S, σ s ∈ S) ∧
      ∀ s ∈ S, f (σ s) = f s ^^^ d) (y : BitVec x) :
    {s | s ∈ S ∧ f s = y}.ncard * 2 ^ x = S.ncard := by
  have hall : ∀ z, {s | s ∈ S ∧ f s = z}.ncard = {s | s ∈ S ∧ f s = y}.ncard := by
    intro z
    obtain ⟨σ, h1, h2, h3⟩ := h (y ^^^ z)
    refine Set.ncard_congr (fun s _ => σ s) ?_ ?_ ?_
    · rintro s ⟨hs, rfl⟩
      refine ⟨h2 s hs, ?_⟩
      rw [h3 s hs, BitVec.xor_comm y, ← BitVec.xor_assoc, BitVec.xor_self, BitVec.zero_xor]
    · intro a b _ _ hab
      rw [← h1 a, hab, h1]
    · rintro s ⟨hs, hf⟩
      refine ⟨σ s, ⟨h2 s hs, ?_⟩, h1 s⟩
      rw [h3 s hs, hf, ← BitVec.xor_assoc, BitVec.xor_self, BitVec.zero_xor]
  have hsum : S.ncard = ∑ z : BitVec x, {s | s ∈ S ∧ f s = z}.ncard := by
    simp only [← Nat.card_coe_set_eq]
    rw [← Nat.card_sigma]
    refine Nat.card_congr ⟨fun s => ⟨f s.1, s.1, s.2, rfl⟩, fun p => ⟨p.2.1, p.2.2.1⟩, ?_, ?_⟩
    · intro s; rfl
    · rintro ⟨z, s, hs, rfl⟩; rfl
  rw [hsum, Finset.sum_congr rfl fun z _ => hall z, Finset.sum_const, Finset.card_univ,
    ← FinEnum.card_eq_fintypeCard, FinEnum.card_bitVec, nsmul_eq_mul, Nat.cast_id, Nat.mul_comm]

end Verif.Pcg
