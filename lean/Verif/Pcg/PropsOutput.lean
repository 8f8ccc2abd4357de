import Verif.Pcg.LemmasOutput
import Verif.Pcg.Theorems
import Verif.Pcg.PropsDraw
import Mathlib.Tactic.NormNum

/-!
# The output functions: theorems
-/

namespace Verif.Pcg

open Spec

/-! ## Equidistribution (C99) -/

/-- A function of the top bits and of a part of the state that can be changed at will takes every value
equally often. -/
theorem equi_of_head (p : Par w) {f : BitVec w → BitVec x} (op : Nat)
    (h : ∀ (d : BitVec x) (hd : Nat), hd < 2 ^ op → ∃ u : BitVec w, u.toNat < 2 ^ (w - op) ∧
      (∀ i < 2, u.getLsbD i = false) ∧ ∀ s, topBits s op = hd → f (s ^^^ u) = f s ^^^ d)
    (hop : op ≤ w) (y : BitVec x) :
    {s | Reach p s ∧ f s = y}.ncard * 2 ^ x = {s : BitVec w | Reach p s}.ncard := by
  refine equi (S := {s | Reach p s}) (fun d => ?_) y
  choose u hu1 hu2 hu3 using h d
  refine ⟨fun s => s ^^^ u (topBits s op) (topBits_lt s op hop), ?_, ?_, ?_⟩
  · intro s
    have e := topBits_xor s (u (topBits s op) (topBits_lt s op hop)) op (hu1 _ _)
    simp only [e]
    rw [BitVec.xor_assoc, BitVec.xor_self, BitVec.xor_zero]
  · intro s hs hm
    have h4 : ∀ i < 2, (s ^^^ u (topBits s op) (topBits_lt s op hop)).getLsbD i = s.getLsbD i := by
      intro i hi
      rw [BitVec.getLsbD_xor, hu2 _ _ i hi, Bool.xor_false]
    have h5 := hs hm
    have b0 := h4 0 (by omega)
    have b1 := h4 1 (by omega)
    simp only [BitVec.getLsbD, Nat.testBit_eq_decide_div_mod_eq, decide_eq_decide] at b0 b1
    simp only at h5 ⊢
    omega
  · intro s hs
    exact hu3 _ _ s rfl

theorem card_reach (p : Par w) (hw : 2 ≤ w) : {s : BitVec w | Reach p s}.ncard = period p := by
  unfold Reach period
  cases hm : p.mcg
  · simp [Set.setOf_true, Set.ncard_univ, Nat.card_eq_fintype_card, ← FinEnum.card_eq_fintypeCard,
      FinEnum.card_bitVec]
  · have h4 : 2 ^ w = 4 * 2 ^ (w - 2) := by
      rw [show (4 : Nat) = 2 ^ 2 by norm_num, ← Nat.pow_add, show 2 + (w - 2) = w by omega]
    have : {s : BitVec w | true = true → s.toNat % 4 = 3} =
        ↑((Finset.range (2 ^ (w - 2))).image fun j => BitVec.ofNat w (4 * j + 3)) := by
      ext v
      have hv := v.isLt
      simp only [Set.mem_setOf_eq, forall_true_left, Finset.coe_image, Finset.coe_range,
        Set.mem_image, Set.mem_Iio]
      constructor
      · intro h
        refine ⟨v.toNat / 4, by omega, BitVec.eq_of_toNat_eq ?_⟩
        rw [BitVec.toNat_ofNat, Nat.mod_eq_of_lt (by omega)]
        omega
      · rintro ⟨j, hj, rfl⟩
        rw [BitVec.toNat_ofNat, Nat.mod_eq_of_lt (by omega : 4 * j + 3 < 2 ^ w)]
        omega
    rw [this, Set.ncard_coe_finset, Finset.card_image_of_injOn, Finset.card_range, if_pos rfl]
    intro i hi j hj hij
    simp only [Finset.coe_range, Set.mem_Iio] at hi hj
    have := congrArg BitVec.toNat hij
    simp only [BitVec.toNat_ofNat] at this
    rw [Nat.mod_eq_of_lt (by omega), Nat.mod_eq_of_lt (by omega)] at this
    omega

theorem xor_window (s u : BitVec w) (xs a : Nat) :
    (((s ^^^ u) ^^^ (s ^^^ u) >>> xs) >>> a).setWidth x =
      ((s ^^^ s >>> xs) >>> a).setWidth x ^^^ ((u ^^^ u >>> xs) >>> a).setWidth x := by
  apply BitVec.eq_of_getLsbD_eq
  intro i hi
  simp only [BitVec.getLsbD_xor, BitVec.getLsbD_setWidth, BitVec.getLsbD_ushiftRight, hi, decide_true,
    Bool.true_and]
  cases s.getLsbD (a + i) <;> cases u.getLsbD (a + i) <;> cases s.getLsbD (xs + (a + i)) <;>
    cases u.getLsbD (xs + (a + i)) <;> rfl

theorem xshRs_equi (p : Par w) (hwx : w = 2 * x) (hx : x = 8 ∨ x = 16 ∨ x = 32 ∨ x = 64) (y : BitVec x) :
    {s | Reach p s ∧ xshRs x s = y}.ncard * 2 ^ x = period p := by
  rw [← card_reach p (by omega)]
  obtain ⟨op, hop, h1, h2, h3⟩ : ∃ op, rsOpbits ((w - x : Nat) : Int) = op ∧ op ≤ w ∧
      2 ≤ w - x - op - (1 <<< op - 1) ∧ 1 <<< op - 1 ≤ w - x - op := by
    subst hwx
    rcases hx with h | h | h | h <;> (subst h; exact ⟨_, rfl, by decide, by decide, by decide⟩)
  refine equi_of_head p op (fun d hd hlt => ?_) h1 y
  have hone : 1 <<< op = 2 ^ op := by rw [Nat.shiftLeft_eq, Nat.one_mul]
  obtain ⟨u, hu1, hu2, hu3⟩ := window_exists (w := w) (a := w - x - op - (1 <<< op - 1) + hd)
    (xs := op + (x + (1 <<< op - 1)) / 2) (k := 2) d (by omega) (by omega) (by omega)
  have hle : 2 ^ (w - x - op - (1 <<< op - 1) + hd + x) ≤ 2 ^ (w - op) :=
    Nat.pow_le_pow_right (by omega) (by omega)
  refine ⟨u, by omega, hu2, ?_⟩
  intro s hs
  simp only [xshRs, hop]
  rw [topBits_xor s u op (by omega), hs, xor_window, hu3]

theorem rr_sizes {x : Nat} (hx : Size x) : 2 ^ rrWanted x = x ∧ rrWanted x ≤ x := by
  rcases hx with h | h | h | h | h <;> (subst h; decide)

theorem xshRr_equi (p : Par w) (hwx : w = 2 * x) (hx : x = 8 ∨ x = 16 ∨ x = 32 ∨ x = 64) (y : BitVec x) :
    {s | Reach p s ∧ xshRr x s = y}.ncard * 2 ^ x = period p := by
  rw [← card_reach p (by omega)]
  have hS : Size x := by rcases hx with h | h | h | h <;> simp [Size, h]
  obtain ⟨hr1, hr2⟩ := rr_sizes hS
  have h3 : rrWanted x + 2 ≤ x := by rcases hx with h | h | h | h <;> (subst h; decide)
  refine equi_of_head p (rrWanted x) (fun d hd hlt => ?_) (by omega) y
  rw [hr1] at hlt
  obtain ⟨u, hu1, hu2, hu3⟩ := window_exists (w := w) (a := w - x - rrWanted x)
    (xs := (rrWanted x + x) / 2) (k := 2) (rotl d hd) (by omega) (by omega) (by omega)
  have hle : 2 ^ (w - x - rrWanted x + x) ≤ 2 ^ (w - rrWanted x) :=
    Nat.pow_le_pow_right (by omega) (by omega)
  refine ⟨u, by omega, hu2, ?_⟩
  intro s hs
  have hop : (if w - x ≥ rrWanted x then rrWanted x else w - x) = rrWanted x := if_pos (by omega)
  have hamp : (hd <<< (rrWanted x - rrWanted x)) &&& (1 <<< rrWanted x - 1) = hd := by
    rw [Nat.sub_self, Nat.shiftLeft_zero, Nat.shiftLeft_eq, Nat.one_mul,
      Nat.and_two_pow_sub_one_eq_mod, hr1, Nat.mod_eq_of_lt hlt]
  simp only [xshRr, hop]
  rw [topBits_xor s u _ (by omega), hs, xor_window, hu3, hamp, rotr_xor _ _ hS hlt,
    rotr_rotl _ hS hlt]

theorem xslRr_equi (p : Par w) (hwx : w = 2 * x) (hx : x = 8 ∨ x = 16 ∨ x = 32 ∨ x = 64) (y : BitVec x) :
    {s | Reach p s ∧ xslRr x s = y}.ncard * 2 ^ x = period p := by
  rw [← card_reach p (by omega)]
  have hS : Size x := by rcases hx with h | h | h | h <;> simp [Size, h]
  obtain ⟨hr1, hr2⟩ := rr_sizes hS
  have h3 : rrWanted x + 2 ≤ x := by rcases hx with h | h | h | h <;> (subst h; decide)
  refine equi_of_head p (rrWanted x) (fun d hd hlt => ?_) (by omega) y
  rw [hr1] at hlt
  obtain ⟨u, hu1, hu2, hu3⟩ := low_window_exists (w := w) (k := 2) (rotl d hd) (by omega) (by omega)
  have hle : 2 ^ (x + 2) ≤ 2 ^ (w - rrWanted x) := Nat.pow_le_pow_right (by omega) (by omega)
  refine ⟨u, by omega, hu2, ?_⟩
  intro s hs
  have hop : (if w - x ≥ rrWanted x then rrWanted x else w - x) = rrWanted x := if_pos (by omega)
  have hamp : (hd <<< (rrWanted x - rrWanted x)) &&& (1 <<< rrWanted x - 1) = hd := by
    rw [Nat.sub_self, Nat.shiftLeft_zero, Nat.shiftLeft_eq, Nat.one_mul,
      Nat.and_two_pow_sub_one_eq_mod, hr1, Nat.mod_eq_of_lt hlt]
  have hxs : (w - x + x) / 2 = x := by omega
  have h0 : ((u ^^^ u >>> x) >>> 0).setWidth x = rotl d hd := by rw [BitVec.ushiftRight_zero, hu3]
  simp only [xslRr, hop, hxs, Nat.sub_self, Nat.shiftLeft_zero] at hamp ⊢
  rw [topBits_xor s u _ (by omega), hs, xor_window, h0, hamp, rotr_xor _ _ hS hlt,
    rotr_rotl _ hS hlt]

theorem value_next (p : Par w) (prev : Bool) (f : BitVec w → BitVec x) (s : BitVec w) (n : Nat) :
    value (next p prev f) s n = f ((bump p)^[n] (if prev then s else bump p s)) := by
  have e : (fun t => (next p prev f t).2) = bump p := by funext t; exact next_state p prev f t
  rw [value, e]
  cases prev
  · simp only [next, Bool.false_eq_true, if_false]
    rw [← Function.iterate_succ_apply' (bump p), Function.iterate_succ_apply]
  · simp [next]

/-- How often a value is drawn in a period is how often the output function takes it. -/
theorem frequency {p : Par w} (hp : Good p) {s : BitVec w} (hs : Reach p s) (prev : Bool)
    (f : BitVec w → BitVec x) (y : BitVec x) (k : Nat) :
    ((Finset.range (period p)).filter fun n => value (next p prev f) s (k + n) = y).card =
      {t | Reach p t ∧ f t = y}.ncard := by
  set s0 := (bump p)^[k] (if prev then s else bump p s) with hs0
  have hr : Reach p s0 := by
    apply iter_reach hp
    cases prev
    · exact bump_reach hp hs
    · exact hs
  have hv : ∀ n, value (next p prev f) s (k + n) = f ((bump p)^[n] s0) := by
    intro n
    rw [value_next, Nat.add_comm, Function.iterate_add_apply]
  rw [← Set.ncard_coe_finset]
  have key := fun t (ht : Reach p t) => C95_all_states hp hr ht
  simp only [← bump_iter_toNat, BitVec.toNat_inj] at key
  refine Set.ncard_congr (fun n _ => (bump p)^[n] s0) ?_ ?_ ?_
  · intro n hn
    simp only [Finset.coe_filter, Finset.mem_range, Set.mem_setOf_eq] at hn
    exact ⟨iter_reach hp hr n, by rw [← hv]; exact hn.2⟩
  · intro a b ha hb hab
    simp only [Finset.coe_filter, Finset.mem_range, Set.mem_setOf_eq] at ha hb
    obtain ⟨n, -, hn⟩ := key _ (iter_reach hp hr b)
    rw [hn a ⟨ha.1, hab⟩, hn b ⟨hb.1, rfl⟩]
  · rintro t ⟨ht, hft⟩
    obtain ⟨n, ⟨hn1, hn2⟩, -⟩ := key t ht
    refine ⟨n, ?_, hn2⟩
    simp only [Finset.coe_filter, Finset.mem_range, Set.mem_setOf_eq]
    exact ⟨hn1, by rw [hv, hn2, hft]⟩

/-- **C99.** An engine whose state is twice as wide as its results draws, in any `period` successive draws,
each of the `2 ^ x` results equally often: `period / 2 ^ x` times. -/
theorem C99_equidistributed {p : Par w} (hp : Good p) {s : BitVec w} (hs : Reach p s) (prev : Bool)
    (hwx : w = 2 * x) (hx : x = 8 ∨ x = 16 ∨ x = 32 ∨ x = 64) {f : BitVec w → BitVec x}
    (hf : f = xshRs x ∨ f = xshRr x ∨ f = xslRr x) (y : BitVec x) (k : Nat) :
    ((Finset.range (period p)).filter fun n => value (next p prev f) s (k + n) = y).card * 2 ^ x =
      period p := by
  rw [frequency hp hs]
  rcases hf with rfl | rfl | rfl
  · exact xshRs_equi p hwx hx y
  · exact xshRr_equi p hwx hx y
  · exact xslRr_equi p hwx hx y

theorem good_seq64 : Good ⟨mult64, 0#64, true⟩ ∧ Good ⟨mult128, 0#128, true⟩ :=
  ⟨⟨by decide, by decide⟩, ⟨by decide, by decide⟩⟩

/-- **C99** for `pcg32_fast`, the engine of `getRndEngine`: every 32-bit value is drawn exactly `2 ^ 30` times
in any `2 ^ 62` successive draws. -/
theorem C99_pcg32_fast {s : BitVec 64} (hs : s.toNat % 4 = 3) (y : BitVec 32) (k : Nat) :
    ((Finset.range (2 ^ 62)).filter fun n =>
      value (next ⟨mult64, 0#64, true⟩ true (xshRs 32)) s (k + n) = y).card = 2 ^ 30 := by
  have h := C99_equidistributed good_seq64.1 (s := s) (fun _ => hs) true rfl (by omega) (Or.inl rfl) y k
  have hper : period (⟨mult64, 0#64, true⟩ : Par 64) = 2 ^ 62 := rfl
  rw [hper] at h
  exact Nat.eq_of_mul_eq_mul_right (Nat.two_pow_pos 32) (h.trans (by norm_num))

/-- **C99** for `pcg32`, with any stream: every value `2 ^ 32` times in `2 ^ 64` draws. -/
theorem C99_pcg32 (stream s : BitVec 64) (y : BitVec 32) (k : Nat) :
    ((Finset.range (2 ^ 64)).filter fun n =>
      value (next ⟨mult64, setStream stream, false⟩ true (xshRr 32)) s (k + n) = y).card = 2 ^ 32 := by
  have h := C99_equidistributed (p := ⟨mult64, setStream stream, false⟩) ?_ (s := s)
    (fun h => by simp at h) true rfl (by omega) (Or.inr (Or.inl rfl)) y k
  · have hper : period (⟨mult64, setStream stream, false⟩ : Par 64) = 2 ^ 64 := rfl
    rw [hper] at h
    exact Nat.eq_of_mul_eq_mul_right (Nat.two_pow_pos 32) (h.trans (by norm_num))
  · exact C95_engines.2.2.2.2.1 stream

/-- **C99** for `pcg64_fast`: every value `2 ^ 62` times in `2 ^ 126` draws. -/
theorem C99_pcg64_fast {s : BitVec 128} (hs : s.toNat % 4 = 3) (y : BitVec 64) (k : Nat) :
    ((Finset.range (2 ^ 126)).filter fun n =>
      value (next ⟨mult128, 0#128, true⟩ false (xslRr 64)) s (k + n) = y).card = 2 ^ 62 := by
  have h := C99_equidistributed good_seq64.2 (s := s) (fun _ => hs) false rfl (by omega)
    (Or.inr (Or.inr rfl)) y k
  have hper : period (⟨mult128, 0#128, true⟩ : Par 128) = 2 ^ 126 := rfl
  rw [hper] at h
  exact Nat.eq_of_mul_eq_mul_right (Nat.two_pow_pos 64) (h.trans (by norm_num))

/-- **C97, C98**: a bounded draw from such an engine, and so a shuffle, always returns. -/
theorem fair_engine {p : Par w} (hp : Good p) {s : BitVec w} (hs : Reach p s) (prev : Bool)
    (hwx : w = 2 * x) (hx : x = 8 ∨ x = 16 ∨ x = 32 ∨ x = 64) {f : BitVec w → BitVec x}
    (hf : f = xshRs x ∨ f = xshRr x ∨ f = xslRr x) : Fair (next p prev f) (period p) s := by
  intro k
  have h := C99_equidistributed hp hs prev hwx hx hf (BitVec.allOnes x) k
  have hpos : 0 < ((Finset.range (period p)).filter
      fun n => value (next p prev f) s (k + n) = BitVec.allOnes x).card := by
    rcases Nat.eq_zero_or_pos ((Finset.range (period p)).filter
      fun n => value (next p prev f) s (k + n) = BitVec.allOnes x).card with h0 | h0
    · rw [h0, Nat.zero_mul] at h
      have := Nat.two_pow_pos (periodPow2 p)
      rw [← C95_period_pow2] at this
      omega
    · exact h0
  obtain ⟨n, hn⟩ := Finset.card_pos.1 hpos
  obtain ⟨h1, h2⟩ := Finset.mem_filter.1 hn
  refine ⟨n, Finset.mem_range.1 h1, ?_⟩
  rw [h2, BitVec.toNat_allOnes]
  have : 2 ^ 1 ≤ 2 ^ x := Nat.pow_le_pow_right (by omega) (by omega)
  omega

/-- **C97**, termination for the engines of the library: a draw below any bound but zero returns a value
below the bound, after at most one period. -/
theorem C97_engine {p : Par w} (hp : Good p) {s : BitVec w} (hs : Reach p s) (prev : Bool)
    (hwx : w = 2 * x) (hx : x = 8 ∨ x = 16 ∨ x = 32 ∨ x = 64) {f : BitVec w → BitVec x}
    (hf : f = xshRs x ∨ f = xshRr x ∨ f = xslRr x) {bound : BitVec x} (hb : bound ≠ 0#x) :
    ∃ r t, boundedRand (next p prev f) (period p) bound s = .ok (r, t) ∧ r.toNat < bound.toNat := by
  obtain ⟨r, t, h⟩ := C97_terminates (fair_engine hp hs prev hwx hx hf) hb
  exact ⟨r, t, h, C97_range _ _ _ _ h⟩

/-- **C98**, termination for the engines of the library. -/
theorem C98_engine {p : Par w} (hp : Good p) {s : BitVec w} (hs : Reach p s) (prev : Bool)
    (hwx : w = 2 * x) (hx : x = 8 ∨ x = 16 ∨ x = 32 ∨ x = 64) {f : BitVec w → BitVec x}
    (hf : f = xshRs x ∨ f = xshRr x ∨ f = xslRr x) (l : List α) (hl : l.length < 2 ^ x) :
    ∃ l' t, shuffle (next p prev f) (period p) l s = .ok (l', t) ∧ l'.Perm l :=
  C98_terminates (fair_engine hp hs prev hwx hx hf) l hl

/-! ## Invertible output functions (C100) -/

/-- **C100**: `unxorshift` takes back a xor-shift of numbers of up to the given number of bits, for every
shift but zero. -/
theorem C100_unxorshift (y : BitVec w) (bits shift : Nat) (hs : 0 < shift) (hb : bits ≤ w)
    (hy : y.toNat < 2 ^ bits) : unxorshift (y ^^^ y >>> shift) bits shift = .ok y :=
  unxorshift_spec bits y shift hs hb hy

theorem unRxsMXs_spec (mult unmult : BitVec w) (h : mult * unmult = 1#w) (hw : 8 ≤ w)
    (s : BitVec w) : unRxsMXs unmult (rxsMXs w mult s) = .ok s := by
  have hop : rxsOpbits w ≤ 6 ∧ 2 ≤ rxsOpbits w := by
    unfold rxsOpbits
    split
    · omega
    split
    · omega
    split
    · omega
    split <;> omega
  have h0 : (s >>> (w - w)).setWidth w = s := by simp
  simp only [unRxsMXs, rxsMXs, Nat.sub_self, BitVec.ushiftRight_zero, BitVec.setWidth_eq]
  rw [unxorshift_spec w _ _ (by omega) le_rfl (BitVec.isLt _), Outcome.bind_ok]
  rw [BitVec.mul_assoc, h, BitVec.mul_one]
  have ht : topBits (s ^^^ s >>> (rxsOpbits w + topBits s (rxsOpbits w))) (rxsOpbits w) =
      topBits s (rxsOpbits w) := by
    apply topBits_xor
    rw [BitVec.toNat_ushiftRight, Nat.shiftRight_eq_div_pow,
      Nat.div_lt_iff_lt_mul (Nat.two_pow_pos _), ← Nat.pow_add]
    exact lt_of_lt_of_le s.isLt (Nat.pow_le_pow_right (by omega) (by omega))
  rw [ht]
  exact unxorshift_spec w s _ (by omega) le_rfl s.isLt

/-- **C100**: `unoutput` gives back the state from which `output` was computed, for all five sizes. -/
theorem C100_unoutput :
    (∀ s, unRxsMXs unmcg8 (rxsMXs 8 mcg8 s) = .ok s) ∧
    (∀ s, unRxsMXs unmcg16 (rxsMXs 16 mcg16 s) = .ok s) ∧
    (∀ s, unRxsMXs unmcg32 (rxsMXs 32 mcg32 s) = .ok s) ∧
    (∀ s, unRxsMXs unmcg64 (rxsMXs 64 mcg64 s) = .ok s) ∧
    (∀ s, unRxsMXs unmcg128 (rxsMXs 128 mcg128 s) = .ok s) :=
  ⟨unRxsMXs_spec _ _ (by decide) (by omega), unRxsMXs_spec _ _ (by decide) (by omega),
    unRxsMXs_spec _ _ (by decide) (by omega), unRxsMXs_spec _ _ (by decide) (by omega),
    unRxsMXs_spec _ _ (by decide) (by omega)⟩

theorem low_half {h : Nat} (a b : BitVec h) (hw : w = 2 * h) :
    (a.setWidth w <<< (w - h) ^^^ b.setWidth w).setWidth h = b := by
  apply BitVec.eq_of_getLsbD_eq
  intro i hi
  rw [BitVec.getLsbD_setWidth, BitVec.getLsbD_xor, BitVec.getLsbD_shiftLeft, BitVec.getLsbD_setWidth,
    BitVec.getLsbD_setWidth]
  simp [hi, show i < w by omega, show i < w - h by omega]

theorem high_half {h : Nat} (a b : BitVec h) (hw : w = 2 * h) :
    ((a.setWidth w <<< (w - h) ^^^ b.setWidth w) >>> h).setWidth h = a := by
  apply BitVec.eq_of_getLsbD_eq
  intro i hi
  rw [BitVec.getLsbD_setWidth, BitVec.getLsbD_ushiftRight, BitVec.getLsbD_xor,
    BitVec.getLsbD_shiftLeft, BitVec.getLsbD_setWidth, BitVec.getLsbD_setWidth,
    bit_false b.isLt (by omega)]
  simp only [hi, show h + i < w by omega, show ¬ h + i < w - h by omega, decide_true, decide_false,
    Bool.not_false, Bool.true_and, Bool.and_false, Bool.xor_false, show h + i - (w - h) = i by omega,
    show i < w by omega]

theorem xslRrRr_inj {h : Nat} (hS : Size h) (hw : w = 2 * h) :
    Function.Injective (xslRrRr (w := w) h) := by
  obtain ⟨hr1, hr2⟩ := rr_sizes hS
  have hop : (if w - h ≥ rrWanted h then rrWanted h else w - h) = rrWanted h := if_pos (by omega)
  have hamp : ∀ n, (n <<< (rrWanted h - rrWanted h)) &&& (1 <<< rrWanted h - 1) = n % h := by
    intro n
    rw [Nat.sub_self, Nat.shiftLeft_zero, Nat.shiftLeft_eq, Nat.one_mul,
      Nat.and_two_pow_sub_one_eq_mod, hr1]
  have hpos : 0 < h := by rcases hS with h | h | h | h | h <;> omega
  intro s t hst
  have hxs : (w - h + h) / 2 = h := by omega
  simp only [xslRrRr, hop, hamp, hxs] at hst
  have hlow := congrArg (fun v : BitVec w => v.setWidth h) hst
  have hhigh := congrArg (fun v : BitVec w => (v >>> h).setWidth h) hst
  simp only [low_half _ _ hw, high_half _ _ hw] at hlow hhigh
  rw [← hlow] at hhigh
  -- the high halves
  have hh := congrArg (fun v => rotl v ((((rotr ((s ^^^ s >>> h).setWidth h)
    (topBits s (rrWanted h) % h)).toNat &&& (1 <<< rrWanted h - 1)) % h))) hhigh
  simp only [rotl_rotr _ hS (Nat.mod_lt _ hpos)] at hh
  have hbits : ∀ i, h ≤ i → s.getLsbD i = t.getLsbD i := by
    intro i hi
    by_cases hiw : i < w
    · have := congrArg (fun v => v.getLsbD (i - h)) hh
      simp only [BitVec.getLsbD_setWidth, BitVec.getLsbD_ushiftRight, BitVec.getLsbD_xor,
        show i - h < h by omega, decide_true, Bool.true_and, show w - h + (i - h) = i by omega] at this
      rwa [bit_false s.isLt (i := h + i) (by omega), bit_false t.isLt (i := h + i) (by omega), Bool.xor_false,
        Bool.xor_false] at this
    · rw [bit_false s.isLt (by omega), bit_false t.isLt (by omega)]
  have htop : topBits s (rrWanted h) = topBits t (rrWanted h) := by
    have : s >>> (w - rrWanted h) = t >>> (w - rrWanted h) := by
      apply BitVec.eq_of_getLsbD_eq
      intro i hi
      rw [BitVec.getLsbD_ushiftRight, BitVec.getLsbD_ushiftRight, hbits _ (by omega)]
    unfold topBits
    rw [this]
  rw [htop] at hlow
  have hl := congrArg (fun v => rotl v (topBits t (rrWanted h) % h)) hlow
  simp only [rotl_rotr _ hS (Nat.mod_lt _ hpos)] at hl
  apply BitVec.eq_of_getLsbD_eq
  intro i hi
  by_cases hih : i < h
  · have := congrArg (fun v => v.getLsbD i) hl
    simp only [BitVec.getLsbD_setWidth, BitVec.getLsbD_ushiftRight, BitVec.getLsbD_xor, hih,
      decide_true, Bool.true_and, hbits (h + i) (by omega)] at this
    simpa using this
  · exact hbits i (by omega)

theorem inj_of_unoutput {mult unmult : BitVec w}
    (h : ∀ s, unRxsMXs unmult (rxsMXs w mult s) = .ok s) : Function.Injective (rxsMXs w mult) := by
  intro a b hab
  have := h a
  rw [hab, h b] at this
  injection this with this
  exact this.symm

/-- **C100**: the output functions of the engines whose results are as wide as the state are
permutations. -/
theorem C100_bijective :
    Function.Bijective (rxsMXs 8 mcg8) ∧ Function.Bijective (rxsMXs 16 mcg16) ∧
    Function.Bijective (rxsMXs 32 mcg32) ∧ Function.Bijective (rxsMXs 64 mcg64) ∧
    Function.Bijective (rxsMXs 128 mcg128) ∧
    Function.Bijective (xslRrRr (w := 64) 32) ∧ Function.Bijective (xslRrRr (w := 128) 64) := by
  obtain ⟨h1, h2, h3, h4, h5⟩ := C100_unoutput
  exact ⟨Finite.injective_iff_bijective.1 (inj_of_unoutput h1),
    Finite.injective_iff_bijective.1 (inj_of_unoutput h2),
    Finite.injective_iff_bijective.1 (inj_of_unoutput h3),
    Finite.injective_iff_bijective.1 (inj_of_unoutput h4),
    Finite.injective_iff_bijective.1 (inj_of_unoutput h5),
    Finite.injective_iff_bijective.1 (xslRrRr_inj (by simp [Size]) rfl),
    Finite.injective_iff_bijective.1 (xslRrRr_inj (by simp [Size]) rfl)⟩

/-- **C100**: such an engine draws every value exactly once in any `2 ^ w` successive draws. -/
theorem C100_once {p : Par w} (hp : Good p) (hm : p.mcg = false) (s : BitVec w) (prev : Bool)
    {f : BitVec w → BitVec w} (hf : Function.Bijective f) (y : BitVec w) (k : Nat) :
    ∃! n, n < 2 ^ w ∧ value (next p prev f) s (k + n) = y := by
  have hs : Reach p s := fun h => by rw [hm] at h; cases h
  have h := frequency hp hs prev f y k
  have hper : period p = 2 ^ w := by simp [period, hm]
  obtain ⟨t, ht⟩ := hf.2 y
  have h1 : {t | Reach p t ∧ f t = y} = {t} := by
    ext u
    simp only [Set.mem_setOf_eq, Set.mem_singleton_iff]
    constructor
    · rintro ⟨-, hu⟩; exact hf.1 (hu.trans ht.symm)
    · rintro rfl; exact ⟨fun h => absurd (hm.symm.trans h) (by decide), ht⟩
  rw [h1, Set.ncard_singleton, hper, Finset.card_eq_one] at h
  obtain ⟨n, hn⟩ := h
  refine ⟨n, ?_, ?_⟩
  · have : n ∈ ({n} : Finset Nat) := Finset.mem_singleton_self n
    rw [← hn] at this
    simpa using this
  · intro m hm
    have : m ∈ (Finset.range (2 ^ w)).filter fun n => value (next p prev f) s (k + n) = y := by
      simpa using hm
    rw [hn] at this
    exact Finset.mem_singleton.1 this

theorem fair_once {p : Par w} (hp : Good p) (hm : p.mcg = false) (s : BitVec w) (prev : Bool)
    {f : BitVec w → BitVec w} (hf : Function.Bijective f) : Fair (next p prev f) (2 ^ w) s := by
  intro k
  obtain ⟨n, ⟨h1, h2⟩, -⟩ := C100_once hp hm s prev hf (BitVec.allOnes w) k
  refine ⟨n, h1, ?_⟩
  rw [h2, BitVec.toNat_allOnes]
  have : 2 ^ 1 ≤ 2 ^ w := Nat.pow_le_pow_right (by omega) (by have := width_ge hp; omega)
  omega

/-- **C97**, termination for the engines whose results are as wide as their states. -/
theorem C97_engine_once {p : Par w} (hp : Good p) (hm : p.mcg = false) (s : BitVec w) (prev : Bool)
    {f : BitVec w → BitVec w} (hf : Function.Bijective f) {bound : BitVec w} (hb : bound ≠ 0#w) :
    ∃ r t, boundedRand (next p prev f) (2 ^ w) bound s = .ok (r, t) ∧ r.toNat < bound.toNat := by
  obtain ⟨r, t, h⟩ := C97_terminates (fair_once hp hm s prev hf) hb
  exact ⟨r, t, h, C97_range _ _ _ _ h⟩

/-- **C98**, termination for the engines whose results are as wide as their states. -/
theorem C98_engine_once {p : Par w} (hp : Good p) (hm : p.mcg = false) (s : BitVec w) (prev : Bool)
    {f : BitVec w → BitVec w} (hf : Function.Bijective f) (l : List α) (hl : l.length < 2 ^ w) :
    ∃ l' t, shuffle (next p prev f) (2 ^ w) l s = .ok (l', t) ∧ l'.Perm l :=
  C98_terminates (fair_once hp hm s prev hf) l hl

/-- A case: `pcg64_once_insecure`'s way of shuffling. -/
example (seq s : BitVec 64) (l : List Char) (hl : l.length < 2 ^ 64) :
    ∃ l' t, shuffle (next ⟨mult64, setStream seq, false⟩ true (rxsMXs 64 mcg64)) (2 ^ 64) l s = .ok (l', t) ∧
      l'.Perm l :=
  C98_engine_once (C95_engines.2.2.2.2.1 seq) rfl s true C100_bijective.2.2.2.1 l hl

/-- A case: the 32-bit engine `pcg32_oneseq_once_insecure`. -/
example (s y : BitVec 32) : ∃! n, n < 2 ^ 32 ∧
    value (next ⟨mult32, inc32, false⟩ true (rxsMXs 32 mcg32)) s (0 + n) = y :=
  C100_once C95_engines.1.2.2.1 rfl s true C100_bijective.2.2.1 y 0

end Verif.Pcg
