import Verif.Pcg.SpecDraw
import Mathlib.Data.FinEnum
import Mathlib.Data.Set.Finite.List
import Mathlib.SetTheory.Cardinal.Finite
import Mathlib.Tactic.Ring
import Mathlib.Algebra.BigOperators.Ring.Finset
import Mathlib.Tactic.Linarith

/-!
# Drawing below a bound, and shuffling: theorems
-/

namespace Verif.Pcg

open Spec

/-! ## Drawing below a bound (C97) -/

theorem threshold_eq {bound : BitVec x} (h : bound ≠ 0#x) :
    ∃ thr, threshold bound = .ok thr ∧ thr.toNat = 2 ^ x % bound.toNat := by
  refine ⟨_, by simp [threshold, h]; rfl, ?_⟩
  have hb : 0 < bound.toNat := by
    rcases Nat.eq_zero_or_pos bound.toNat with h0 | h0
    · exact absurd (BitVec.eq_of_toNat_eq (by simpa using h0)) h
    · exact h0
  have e : BitVec.allOnes x + 1#x - bound = -bound := by
    have h1 : BitVec.allOnes x + 1#x = 0#x := by
      rw [← BitVec.neg_one_eq_allOnes, BitVec.add_comm, ← BitVec.sub_eq_add_neg, BitVec.sub_self]
    rw [h1, BitVec.zero_sub]
  have hlt := bound.isLt
  rw [BitVec.toNat_umod, e, BitVec.toNat_neg, Nat.mod_eq_of_lt (by omega : 2 ^ x - bound.toNat < 2 ^ x)]
  exact (Nat.mod_eq_sub_mod (by omega)).symm

theorem boundedLoop_iff (rng : S → BitVec x × S) (bound thr : BitVec x) (fuel : Nat) :
    ∀ (s : S) (r : BitVec x) (t : S), boundedLoop rng bound thr fuel s = .ok (r, t) ↔
      ∃ n < fuel, (∀ i < n, (value rng s i).toNat < thr.toNat) ∧
        thr.toNat ≤ (value rng s n).toNat ∧ r = value rng s n % bound ∧ t = after rng s (n + 1) := by
  induction fuel with
  | zero => intro s r t; simp [boundedLoop]
  | succ fuel ih =>
    intro s r t
    simp only [boundedLoop, BitVec.sub_zero]
    by_cases h : thr.toNat ≤ (rng s).1.toNat
    · rw [if_pos h]
      constructor
      · intro e
        injection e with e
        injection e with e1 e2
        exact ⟨0, by omega, by simp, h, e1.symm, e2.symm⟩
      · rintro ⟨n, -, h1, -, h3, h4⟩
        rcases n with _ | n
        · rw [h3, h4]; rfl
        · have := h1 0 (by omega)
          exact absurd this (by simpa [value] using h)
    · rw [if_neg h, ih]
      constructor
      · rintro ⟨n, h0, h1, h2, h3, h4⟩
        refine ⟨n + 1, by omega, ?_, h2, h3, h4⟩
        intro i hi
        rcases i with _ | i
        · simpa [value] using h
        · exact h1 i (by omega)
      · rintro ⟨n, h0, h1, h2, h3, h4⟩
        rcases n with _ | n
        · exact absurd h2 h
        · exact ⟨n, by omega, fun i hi => h1 (i + 1) (by omega), h2, h3, h4⟩

/-- **C97**, what is returned: the first value of the source that is not below `2 ^ x mod bound`, modulo the
bound; everything up to that value has been drawn and nothing more. The call returns exactly if there is
such a value. -/
theorem C97_first (rng : S → BitVec x × S) (fuel : Nat) {bound : BitVec x} (h : bound ≠ 0#x) (s : S)
    (r : BitVec x) (t : S) :
    boundedRand rng fuel bound s = .ok (r, t) ↔
      ∃ n < fuel, (∀ i < n, (value rng s i).toNat < 2 ^ x % bound.toNat) ∧
        2 ^ x % bound.toNat ≤ (value rng s n).toNat ∧
        r.toNat = (value rng s n).toNat % bound.toNat ∧ t = after rng s (n + 1) := by
  obtain ⟨thr, h1, h2⟩ := threshold_eq h
  simp only [boundedRand, h1, Outcome.bind_ok, boundedLoop_iff, h2]
  have : ∀ n, (r = value rng s n % bound ↔ r.toNat = (value rng s n).toNat % bound.toNat) := by
    intro n
    rw [← BitVec.toNat_umod]
    exact ⟨fun e => by rw [e], fun e => BitVec.eq_of_toNat_eq e⟩
  simp only [this]

/-- **C97**, the range: whatever the source, a value that is returned is below the bound. -/
theorem C97_range (rng : S → BitVec x × S) (fuel : Nat) (bound : BitVec x) (s : S) {r : BitVec x}
    {t : S} (h : boundedRand rng fuel bound s = .ok (r, t)) : r.toNat < bound.toNat := by
  by_cases hb : bound = 0#x
  · simp [boundedRand, threshold, hb] at h
  · obtain ⟨n, -, -, -, h3, -⟩ := (C97_first rng fuel hb s r t).1 h
    rw [h3]
    apply Nat.mod_lt
    rcases Nat.eq_zero_or_pos bound.toNat with h0 | h0
    · exact absurd (BitVec.eq_of_toNat_eq (by simpa using h0)) hb
    · exact h0

/-- **C97**: a bound of zero divides by zero. -/
theorem C97_zero (rng : S → BitVec x × S) (fuel : Nat) (s : S) :
    boundedRand rng fuel 0#x s = .ub := by simp [boundedRand, threshold]

/-! Counting sequences of draws -/

theorem finite_lists (m : Nat) (P : List (BitVec x) → Prop) :
    {ds : List (BitVec x) | ds.length = m ∧ P ds}.Finite :=
  (List.finite_length_eq (BitVec x) m).subset fun _ h => h.1

theorem ncard_cons (m : Nat) (P : List (BitVec x) → Prop) :
    {ds : List (BitVec x) | ds.length = m + 1 ∧ P ds}.ncard =
      ∑ v : BitVec x, {ds : List (BitVec x) | ds.length = m ∧ P (v :: ds)}.ncard := by
  have : ∀ v : BitVec x, Finite {ds : List (BitVec x) | ds.length = m ∧ P (v :: ds)} :=
    fun v => (finite_lists m fun ds => P (v :: ds)).to_subtype
  simp only [← Nat.card_coe_set_eq]
  rw [← Nat.card_sigma]
  refine Nat.card_congr ⟨fun ds => ?_, fun p => ⟨p.1 :: p.2.1, ?_⟩, ?_, ?_⟩
  · obtain ⟨ds, h⟩ := ds
    match ds, h with
    | v :: ds, h => exact ⟨v, ds, by simpa using h.1, h.2⟩
  · exact ⟨by simp [p.2.2.1], p.2.2.2⟩
  · rintro ⟨ds, h⟩
    match ds, h with
    | v :: ds, h => rfl
  · rintro ⟨v, ds, h⟩; rfl

/-- The number of values with a given remainder that are not below `2 ^ x mod b`. -/
theorem card_accepted (b k : Nat) (hk : k < b) :
    (Finset.univ.filter fun v : BitVec x => 2 ^ x % b ≤ v.toNat ∧ v.toNat % b = k).card =
      2 ^ x / b := by
  set t := 2 ^ x % b with ht
  have hb : 0 < b := by omega
  have htb : t < b := Nat.mod_lt _ hb
  have hdm : b * (2 ^ x / b) + t = 2 ^ x := Nat.div_add_mod _ _
  -- the first accepted value with remainder `k`
  obtain ⟨k0, hk0, hk1, hk2⟩ : ∃ k0, t ≤ k0 ∧ k0 < t + b ∧ k0 % b = k := by
    by_cases h : t ≤ k
    · exact ⟨k, h, by omega, Nat.mod_eq_of_lt hk⟩
    · exact ⟨k + b, by omega, by omega, by simp [Nat.mod_eq_of_lt hk]⟩
  have : (Finset.univ.filter fun v : BitVec x => t ≤ v.toNat ∧ v.toNat % b = k) =
      (Finset.range (2 ^ x / b)).image fun j => BitVec.ofNat x (k0 + b * j) := by
    ext v
    simp only [Finset.mem_filter, Finset.mem_univ, true_and, Finset.mem_image, Finset.mem_range]
    constructor
    · rintro ⟨h1, h2⟩
      have hv := v.isLt
      have hmod : k0 % b = v.toNat % b := by rw [hk2, h2]
      have hle : k0 ≤ v.toNat := by
        by_contra hlt
        have hd : b ∣ k0 - v.toNat := (Nat.modEq_iff_dvd' (by omega)).1 hmod.symm
        have := Nat.le_of_dvd (by omega) hd
        omega
      have hd : b ∣ v.toNat - k0 := (Nat.modEq_iff_dvd' hle).1 hmod
      obtain ⟨j, hj⟩ := hd
      refine ⟨j, ?_, ?_⟩
      · by_contra hge
        have : b * (2 ^ x / b) ≤ b * j := Nat.mul_le_mul_left b (by omega)
        omega
      · apply BitVec.eq_of_toNat_eq
        rw [BitVec.toNat_ofNat, Nat.mod_eq_of_lt (by omega)]
        omega
    · rintro ⟨j, hj, rfl⟩
      have : b * (j + 1) ≤ b * (2 ^ x / b) := Nat.mul_le_mul_left b hj
      have e : k0 + b * j < 2 ^ x := by rw [Nat.mul_succ] at this; omega
      rw [BitVec.toNat_ofNat, Nat.mod_eq_of_lt e]
      exact ⟨by omega, by rw [Nat.add_mul_mod_self_left, hk2]⟩
  rw [this, Finset.card_image_of_injOn, Finset.card_range]
  intro i hi j hj hij
  simp only [Finset.coe_range, Set.mem_Iio] at hi hj
  have h1 : b * (i + 1) ≤ b * (2 ^ x / b) := Nat.mul_le_mul_left b hi
  have h2 : b * (j + 1) ≤ b * (2 ^ x / b) := Nat.mul_le_mul_left b hj
  rw [Nat.mul_succ] at h1 h2
  have hij' := congrArg BitVec.toNat hij
  simp only [BitVec.toNat_ofNat] at hij'
  rw [Nat.mod_eq_of_lt (by omega), Nat.mod_eq_of_lt (by omega)] at hij'
  exact Nat.eq_of_mul_eq_mul_left hb (by omega)

/-- The number of values below a number. -/
theorem card_below (t : Nat) (ht : t ≤ 2 ^ x) :
    (Finset.univ.filter fun v : BitVec x => v.toNat < t).card = t := by
  have : (Finset.univ.filter fun v : BitVec x => v.toNat < t) =
      (Finset.range t).image fun j => BitVec.ofNat x j := by
    ext v
    simp only [Finset.mem_filter, Finset.mem_univ, true_and, Finset.mem_image, Finset.mem_range]
    constructor
    · intro h; exact ⟨v.toNat, h, by simp⟩
    · rintro ⟨j, hj, rfl⟩
      rw [BitVec.toNat_ofNat, Nat.mod_eq_of_lt (by omega)]; exact hj
  rw [this, Finset.card_image_of_injOn, Finset.card_range]
  intro i hi j hj hij
  simp only [Finset.coe_range, Set.mem_Iio] at hi hj
  have hij' := congrArg BitVec.toNat hij
  simp only [BitVec.toNat_ofNat] at hij'
  rwa [Nat.mod_eq_of_lt (by omega), Nat.mod_eq_of_lt (by omega)] at hij'

theorem loop_none (bound thr : BitVec x) (fuel : Nat) :
    ∀ s, s = none ∨ s = some [] → ∀ r t, boundedLoop pop bound thr fuel s = .ok (r, t) → t = none := by
  induction fuel with
  | zero => intro s _ r t h; simp [boundedLoop] at h
  | succ fuel ih =>
    intro s hs r t h
    have hp : pop s = (0#x, none) := by rcases hs with rfl | rfl <;> rfl
    simp only [boundedLoop, hp] at h
    split at h
    · injection h with h; injection h with _ h; exact h.symm
    · exact ih none (Or.inl rfl) r t h

/-- The number of sequences of draws, when `q` of the values are accepted for each of the results, `t`
are rejected and the results lead to the goal in `C m` ways altogether. -/
def ways (q t : Nat) (C : Nat → Nat) : Nat → Nat
  | 0 => 0
  | m + 1 => q * C m + t * ways q t C m

theorem sum_accepted (b : Nat) (hb : 0 < b) (hbx : b ≤ 2 ^ x) (C : Nat → Nat) (D : Nat) :
    (∑ v : BitVec x, if 2 ^ x % b ≤ v.toNat then C (v.toNat % b) else D) =
      2 ^ x / b * (∑ c ∈ Finset.range b, C c) + 2 ^ x % b * D := by
  rw [Finset.sum_ite]
  congr 1
  · have hmaps : ∀ v ∈ Finset.univ.filter (fun v : BitVec x => 2 ^ x % b ≤ v.toNat),
        v.toNat % b ∈ Finset.range b := fun v _ => Finset.mem_range.2 (Nat.mod_lt _ hb)
    rw [← Finset.sum_fiberwise_of_maps_to hmaps, Finset.mul_sum]
    refine Finset.sum_congr rfl fun c hc => ?_
    rw [Finset.filter_filter]
    rw [Finset.sum_congr rfl (g := fun _ => C c)
      (fun v hv => by rw [(Finset.mem_filter.1 hv).2.2])]
    rw [Finset.sum_const, card_accepted b c (Finset.mem_range.1 hc), nsmul_eq_mul, Nat.cast_id]
  · rw [Finset.sum_const, nsmul_eq_mul, Nat.cast_id]
    congr 1
    have := card_below (x := x) (2 ^ x % b) (by have := Nat.mod_lt (2 ^ x) hb; omega)
    simpa [not_le] using this

theorem loop_count {β : Type} (bound thr : BitVec x) (hb : 0 < bound.toNat)
    (ht : thr.toNat = 2 ^ x % bound.toNat)
    (K : BitVec x × Option (List (BitVec x)) → Outcome (β × Option (List (BitVec x)))) (a : β)
    (hK : ∀ c, K (c, none) ≠ .ok (a, some [])) (m : Nat) : ∀ fuel, m ≤ fuel →
    (leading (fun s => boundedLoop pop bound thr fuel s >>= K) m a).ncard =
      ways (2 ^ x / bound.toNat) (2 ^ x % bound.toNat)
        (fun m => ∑ c ∈ Finset.range bound.toNat,
          (leading (fun s => K (BitVec.ofNat x c, s)) m a).ncard) m := by
  induction m with
  | zero =>
    intro fuel _
    have : leading (fun s => boundedLoop pop bound thr fuel s >>= K) 0 a = ∅ := by
      ext ds
      simp only [leading, Set.mem_setOf_eq, Set.mem_empty_iff_false, iff_false, not_and]
      intro hl h
      obtain rfl := List.length_eq_zero_iff.1 hl
      obtain ⟨⟨r, t⟩, h1, h2⟩ := Outcome.bind_eq_ok.1 h
      have := loop_none bound thr fuel _ (Or.inr rfl) r t h1
      subst this
      exact hK r h2
    rw [this, Set.ncard_empty]; rfl
  | succ m ih =>
    intro fuel hf
    obtain ⟨fuel, rfl⟩ : ∃ f, fuel = f + 1 := ⟨fuel - 1, by omega⟩
    rw [ways, leading, ncard_cons, ← sum_accepted bound.toNat hb bound.isLt.le]
    refine Finset.sum_congr rfl fun v _ => ?_
    by_cases h : 2 ^ x % bound.toNat ≤ v.toNat
    · rw [if_pos h]
      have : BitVec.ofNat x (v.toNat % bound.toNat) = v % bound :=
        BitVec.eq_of_toNat_eq (by rw [← BitVec.toNat_umod, BitVec.ofNat_toNat]; simp)
      simp only [boundedLoop, pop, BitVec.sub_zero, ht, if_pos h, Outcome.bind_ok, this]
      rfl
    · rw [if_neg h, ← ih fuel (by omega)]
      simp only [boundedLoop, pop, BitVec.sub_zero, ht, if_neg h]
      rfl

theorem pos_of_ne {bound : BitVec x} (h : bound ≠ 0#x) : 0 < bound.toNat := by
  rcases Nat.eq_zero_or_pos bound.toNat with h0 | h0
  · exact absurd (BitVec.eq_of_toNat_eq (by simpa using h0)) h
  · exact h0

/-- **C97**, no bias: for every number `m` of draws that are rejected first, every result below the bound
is reached by the same number of sequences of `m + 1` draws. -/
theorem C97_uniform {bound : BitVec x} (h : bound ≠ 0#x) {k : BitVec x} (hk : k.toNat < bound.toNat)
    {m fuel : Nat} (hf : m < fuel) :
    (leading (boundedRand pop fuel bound) (m + 1) k).ncard =
      (2 ^ x % bound.toNat) ^ m * (2 ^ x / bound.toNat) := by
  obtain ⟨thr, h1, h2⟩ := threshold_eq h
  have hb := pos_of_ne h
  have e : boundedRand pop fuel bound =
      fun s => boundedLoop pop bound thr fuel s >>= fun p => .ok p := by
    funext s
    simp only [boundedRand, h1, Outcome.bind_ok]
    cases boundedLoop pop bound thr fuel s <;> rfl
  rw [e, loop_count bound thr hb h2 _ k (by simp) (m + 1) fuel (by omega)]
  have hC : ∀ m, (∑ c ∈ Finset.range bound.toNat,
      (leading (fun s : Option (List (BitVec x)) => Outcome.ok (BitVec.ofNat x c, s)) m k).ncard) = if m = 0 then 1 else 0 := by
    intro m
    rw [Finset.sum_eq_single k.toNat]
    · have : leading (fun s : Option (List (BitVec x)) => Outcome.ok (BitVec.ofNat x k.toNat, s)) m k =
          if m = 0 then {[]} else ∅ := by
        ext ds
        simp only [leading, Set.mem_setOf_eq, BitVec.ofNat_toNat, BitVec.setWidth_eq]
        split
        · rename_i h0; subst h0
          simp
        · rename_i h0
          simp only [Set.mem_empty_iff_false, iff_false, not_and]
          intro hl he
          injection he with he
          injection he with _ he
          injection he with he
          subst he
          exact h0 hl.symm
      rw [this]
      split <;> simp
    · intro c hc hne
      have : leading (fun s : Option (List (BitVec x)) => Outcome.ok (BitVec.ofNat x c, s)) m k = ∅ := by
        ext ds
        simp only [leading, Set.mem_setOf_eq, Set.mem_empty_iff_false, iff_false, not_and]
        intro _ he
        injection he with he
        injection he with he _
        apply hne
        rw [← he, BitVec.toNat_ofNat, Nat.mod_eq_of_lt]
        have := Finset.mem_range.1 hc
        have := bound.isLt
        omega
      rw [this, Set.ncard_empty]
    · intro hc
      exact absurd (Finset.mem_range.2 hk) hc
  simp only [hC]
  clear hf e
  induction m with
  | zero => simp [ways]
  | succ m ih => rw [ways, ih]; simp; ring

/-- **C97**: fewer than half of the values are rejected, so the number of draws is small on average. -/
theorem C97_reject {bound : BitVec x} (h : bound ≠ 0#x) :
    2 * {v : BitVec x | boundedRand pop 1 bound (some [v]) = .diverge}.ncard < 2 ^ x := by
  obtain ⟨thr, h1, h2⟩ := threshold_eq h
  have hb := pos_of_ne h
  have hlt := bound.isLt
  have : {v : BitVec x | boundedRand pop 1 bound (some [v]) = .diverge} =
      ↑(Finset.univ.filter fun v : BitVec x => v.toNat < 2 ^ x % bound.toNat) := by
    ext v
    simp only [boundedRand, h1, Outcome.bind_ok, boundedLoop, pop, BitVec.sub_zero, h2,
      Set.mem_setOf_eq, Finset.coe_filter, Finset.mem_univ, true_and]
    split <;> simp <;> omega
  rw [this, Set.ncard_coe_finset, card_below _ (by have := Nat.mod_lt (2 ^ x) hb; omega)]
  have hm := Nat.mod_lt (2 ^ x) hb
  by_cases h3 : 2 * bound.toNat ≤ 2 ^ x
  · omega
  · rw [Nat.mod_eq_sub_mod (by omega), Nat.mod_eq_of_lt (by omega)]
    omega

/-- **C97**, termination: with a source that delivers a value from the upper half in every `fuel` draws, the
call returns. -/
theorem C97_terminates {rng : S → BitVec x × S} {fuel : Nat} {s : S} (hr : Fair rng fuel s)
    {bound : BitVec x} (h : bound ≠ 0#x) : ∃ r t, boundedRand rng fuel bound s = .ok (r, t) := by
  have hb := pos_of_ne h
  have hlt := bound.isLt
  have hm := Nat.mod_lt (2 ^ x) hb
  have hhalf : 2 * (2 ^ x % bound.toNat) < 2 ^ x := by
    by_cases h3 : 2 * bound.toNat ≤ 2 ^ x
    · omega
    · rw [Nat.mod_eq_sub_mod (by omega), Nat.mod_eq_of_lt (by omega)]
      omega
  obtain ⟨n, hn, hv⟩ := hr 0
  rw [Nat.zero_add] at hv
  have hex : ∃ n, 2 ^ x % bound.toNat ≤ (value rng s n).toNat := ⟨n, by omega⟩
  refine ⟨value rng s (Nat.find hex) % bound, after rng s (Nat.find hex + 1),
    (C97_first rng fuel h s _ _).2 ⟨Nat.find hex, ?_, ?_, Nat.find_spec hex, BitVec.toNat_umod, rfl⟩⟩
  · exact lt_of_le_of_lt (Nat.find_min' hex (by omega)) hn
  · intro i hi
    have := Nat.find_min hex hi
    omega

/-- A case: bound 6 with 4-bit values. Values below 4 are rejected. -/
example : boundedRand pop 5 6#4 (some [3#4, 1#4, 11#4, 7#4]) = .ok (5#4, some [7#4]) ∧
    (leading (boundedRand pop 5 6#4) 3 5#4).ncard = 4 ^ 2 * 2 :=
  ⟨by decide, C97_uniform (by decide) (by decide) (by decide)⟩

/-! ## Shuffling (C98) -/

theorem swapAt_perm {l l' : List α} {i j : Nat} (h : swapAt l i j = .ok l') : l'.Perm l := by
  unfold swapAt at h
  split at h
  · rename_i a b ha hb
    injection h with h
    subst h
    obtain ⟨hi, rfl⟩ := List.getElem?_eq_some_iff.1 ha
    obtain ⟨hj, rfl⟩ := List.getElem?_eq_some_iff.1 hb
    exact List.set_set_perm hi hj
  · cases h

theorem swapAt_ok {l : List α} {i j : Nat} (hi : i < l.length) (hj : j < l.length) :
    swapAt l i j = .ok ((l.set i l[j]).set j l[i]) := by
  simp [swapAt, List.getElem?_eq_getElem hi, List.getElem?_eq_getElem hj]

theorem shuffleLoop_perm (rng : S → BitVec x × S) (fuel count : Nat) : ∀ (l l' : List α) (s t : S),
    shuffleLoop rng fuel count l s = .ok (l', t) → l'.Perm l := by
  induction count with
  | zero =>
    intro l l' s t h
    injection h with h; injection h with h _; rw [h]
  | succ count ih =>
    intro l l' s t h
    unfold shuffleLoop at h
    split at h
    · obtain ⟨⟨c, s1⟩, -, h⟩ := Outcome.bind_eq_ok.1 h
      obtain ⟨l1, h1, h⟩ := Outcome.bind_eq_ok.1 h
      exact (ih _ _ _ _ h).trans (swapAt_perm h1)
    · injection h with h; injection h with h _; rw [h]

/-- **C98**: shuffling keeps the elements, whatever the source of random numbers. -/
theorem C98_perm (rng : S → BitVec x × S) (fuel : Nat) (l l' : List α) (s t : S)
    (h : shuffle rng fuel l s = .ok (l', t)) : l'.Perm l := shuffleLoop_perm rng fuel _ l l' s t h

theorem ofNat_ne {n : Nat} (h0 : 0 < n) (h : n < 2 ^ x) :
    BitVec.ofNat x n ≠ 0#x ∧ (BitVec.ofNat x n).toNat = n := by
  have e : (BitVec.ofNat x n).toNat = n := by rw [BitVec.toNat_ofNat, Nat.mod_eq_of_lt h]
  refine ⟨fun hc => ?_, e⟩
  rw [hc] at e
  simp at e
  omega

theorem boundedLoop_cases (rng : S → BitVec x × S) (bound thr : BitVec x) (fuel : Nat) :
    ∀ s, boundedLoop rng bound thr fuel s = .diverge ∨
      ∃ p, boundedLoop rng bound thr fuel s = .ok p := by
  induction fuel with
  | zero => intro s; exact Or.inl rfl
  | succ fuel ih =>
    intro s
    simp only [boundedLoop]
    split
    · exact Or.inr ⟨_, rfl⟩
    · exact ih _

theorem boundedRand_cases (rng : S → BitVec x × S) (fuel : Nat) {bound : BitVec x} (h : bound ≠ 0#x)
    (s : S) : boundedRand rng fuel bound s = .diverge ∨
      ∃ p, boundedRand rng fuel bound s = .ok p ∧ p.1.toNat < bound.toNat := by
  obtain ⟨thr, h1, h2⟩ := threshold_eq h
  have e : boundedRand rng fuel bound s = boundedLoop rng bound thr fuel s := by
    simp only [boundedRand, h1, Outcome.bind_ok]
  rcases boundedLoop_cases rng bound thr fuel s with h3 | ⟨⟨r, t⟩, h3⟩
  · exact Or.inl (e.trans h3)
  · exact Or.inr ⟨_, e.trans h3, C97_range rng fuel bound s (e.trans h3)⟩

theorem shuffleLoop_cases (rng : S → BitVec x × S) (fuel count : Nat) : ∀ (l : List α) (s : S),
    count ≤ l.length → count < 2 ^ x → shuffleLoop rng fuel count l s = .diverge ∨
      ∃ p, shuffleLoop rng fuel count l s = .ok p := by
  induction count with
  | zero => intro l s _ _; exact Or.inr ⟨_, rfl⟩
  | succ count ih =>
    intro l s hl hx
    unfold shuffleLoop
    split
    · obtain ⟨hb, hn⟩ := ofNat_ne (x := x) (by omega : 0 < count + 1) hx
      rcases boundedRand_cases rng fuel hb s with h | ⟨⟨c, t⟩, h, hc⟩
      · left; rw [h]; rfl
      · rw [h, Outcome.bind_ok]
        rw [hn] at hc
        simp only at hc ⊢
        rw [swapAt_ok (i := c.toNat) (j := count) (by omega) (by omega), Outcome.bind_ok]
        exact ih _ _ (by simp; omega) (by omega)
    · exact Or.inr ⟨_, rfl⟩

/-- **C98**: a range of fewer than `2 ^ x` elements is shuffled without undefined behaviour: the call
returns, unless the source keeps delivering values that are rejected. -/
theorem C98_defined (rng : S → BitVec x × S) (fuel : Nat) (l : List α) (s : S) (h : l.length < 2 ^ x) :
    shuffle rng fuel l s = .diverge ∨ ∃ p, shuffle rng fuel l s = .ok p :=
  shuffleLoop_cases rng fuel _ l s le_rfl h

theorem fair_after {rng : S → BitVec x × S} {fuel : Nat} {s : S} (hr : Fair rng fuel s) (a : Nat) :
    Fair rng fuel (after rng s a) := by
  intro k
  obtain ⟨n, hn, h⟩ := hr (k + a)
  refine ⟨n, hn, ?_⟩
  rw [value, after, ← Function.iterate_add_apply]
  rwa [value, show k + a + n = k + n + a by omega] at h

theorem shuffleLoop_ok {rng : S → BitVec x × S} {fuel : Nat} (count : Nat) :
    ∀ (l : List α) (s : S), Fair rng fuel s → count ≤ l.length → count < 2 ^ x →
      ∃ p, shuffleLoop rng fuel count l s = .ok p := by
  induction count with
  | zero => intro l s _ _ _; exact ⟨_, rfl⟩
  | succ count ih =>
    intro l s hr hl hx
    unfold shuffleLoop
    split
    · obtain ⟨hb, hn⟩ := ofNat_ne (x := x) (by omega : 0 < count + 1) hx
      obtain ⟨c, t, h⟩ := C97_terminates hr hb
      have ht : Fair rng fuel t := by
        obtain ⟨n, -, -, -, -, rfl⟩ := (C97_first _ _ hb _ _ _).1 h
        exact fair_after hr _
      have hc := C97_range _ _ _ _ h
      rw [h, Outcome.bind_ok]
      rw [hn] at hc
      simp only at hc ⊢
      rw [swapAt_ok (i := c.toNat) (j := count) (by omega) (by omega), Outcome.bind_ok]
      exact ih _ _ ht (by simp; omega) (by omega)
    · exact ⟨_, rfl⟩

/-- **C98**, termination: with such a source a range of fewer than `2 ^ x` elements is shuffled. -/
theorem C98_terminates {rng : S → BitVec x × S} {fuel : Nat} {s : S} (hr : Fair rng fuel s) (l : List α)
    (h : l.length < 2 ^ x) : ∃ l' t, shuffle rng fuel l s = .ok (l', t) ∧ l'.Perm l := by
  obtain ⟨⟨l', t⟩, hp⟩ := shuffleLoop_ok l.length l s hr le_rfl h
  exact ⟨l', t, hp, C98_perm rng fuel l l' s t hp⟩

theorem shuffleLoop_long (rng : S → BitVec x × S) (fuel count : Nat) : ∀ (l : List α) (s : S),
    0 < x → 2 ^ x ≤ count → ∀ p, shuffleLoop rng fuel count l s ≠ .ok p := by
  induction count with
  | zero => intro l s _ h; exact absurd h (by have := Nat.two_pow_pos x; omega)
  | succ count ih =>
    intro l s hx h p hp
    have h2 : 2 ≤ 2 ^ x := by
      calc 2 = 2 ^ 1 := rfl
        _ ≤ 2 ^ x := Nat.pow_le_pow_right (by omega) hx
    unfold shuffleLoop at hp
    rw [if_pos (by omega)] at hp
    obtain ⟨⟨c, s1⟩, h1, hp⟩ := Outcome.bind_eq_ok.1 hp
    obtain ⟨l1, -, hp⟩ := Outcome.bind_eq_ok.1 hp
    by_cases hc : count + 1 = 2 ^ x
    · rw [hc] at h1
      have : BitVec.ofNat x (2 ^ x) = 0#x := BitVec.eq_of_toNat_eq (by simp)
      rw [this, C97_zero] at h1
      cases h1
    · exact ih l1 s1 hx (by omega) p hp

/-- **C98**, the limit: a longer range is never shuffled, because the bound passed on is truncated to the
type of the random values and becomes zero at the latest when `2 ^ x` elements are left. -/
theorem C98_long (rng : S → BitVec x × S) (fuel : Nat) (l : List α) (s : S) (hx : 0 < x)
    (h : 2 ^ x ≤ l.length) (p : List α × S) : shuffle rng fuel l s ≠ .ok p :=
  shuffleLoop_long rng fuel _ l s hx h p

/-- **C98**, the limit: with exactly `2 ^ x` elements the first step divides by zero. -/
theorem C98_truncated (rng : S → BitVec x × S) (fuel : Nat) (l : List α) (s : S) (hx : 0 < x)
    (h : l.length = 2 ^ x) : shuffle rng fuel l s = .ub := by
  have h2 : 2 ≤ 2 ^ x := by
    calc 2 = 2 ^ 1 := rfl
      _ ≤ 2 ^ x := Nat.pow_le_pow_right (by omega) hx
  obtain ⟨n, hn⟩ : ∃ n, l.length = n + 1 := ⟨l.length - 1, by omega⟩
  have : BitVec.ofNat x (n + 1) = 0#x :=
    BitVec.eq_of_toNat_eq (by rw [← hn, h]; simp)
  rw [shuffle, hn, shuffleLoop, if_pos (by omega), this, C97_zero]
  rfl

/-! Each order equally often -/

/-- The number of sequences of draws that lead from one order to another. -/
def orders (x : Nat) : Nat → Nat → Nat
  | 0, m => if m = 0 then 1 else 0
  | n + 1, m =>
    if n = 0 then if m = 0 then 1 else 0
    else ways (2 ^ x / (n + 1)) (2 ^ x % (n + 1)) (orders x n) m

theorem shuffleLoop_none (fuel count : Nat) : ∀ (l : List α) (p : List α × Option (List (BitVec x))),
    shuffleLoop pop fuel count l none = .ok p → p.2 = none := by
  induction count with
  | zero => intro l p h; injection h with h; rw [← h]
  | succ count ih =>
    intro l p h
    unfold shuffleLoop at h
    split at h
    · obtain ⟨⟨c, s1⟩, h1, hp⟩ := Outcome.bind_eq_ok.1 h
      obtain ⟨l1, -, hp⟩ := Outcome.bind_eq_ok.1 hp
      have : s1 = none := by
        unfold boundedRand at h1
        obtain ⟨thr, -, h1⟩ := Outcome.bind_eq_ok.1 h1
        exact loop_none _ _ _ _ (Or.inl rfl) _ _ h1
      subst this
      exact ih l1 p hp
    · injection h with h; rw [← h]

theorem shuffleLoop_keep (rng : S → BitVec x × S) (fuel count : Nat) : ∀ (l l' : List α) (s t : S),
    shuffleLoop rng fuel count l s = .ok (l', t) → count < 2 ^ x → count ≤ l.length →
      ∀ i, count ≤ i → l'[i]? = l[i]? := by
  induction count with
  | zero =>
    intro l l' s t h _ _
    injection h with h; injection h with h _; intros; rw [h]
  | succ count ih =>
    intro l l' s t h hx hl i hi
    unfold shuffleLoop at h
    split at h
    · obtain ⟨⟨c, s1⟩, h1, h⟩ := Outcome.bind_eq_ok.1 h
      have hc := C97_range _ _ _ _ h1
      rw [(ofNat_ne (x := x) (by omega : 0 < count + 1) hx).2] at hc
      simp only at h
      rw [swapAt_ok (by omega) (by omega), Outcome.bind_ok] at h
      rw [ih _ _ _ _ h (by omega) (by simp; omega) i (by omega),
        List.getElem?_set_ne (by omega), List.getElem?_set_ne (by omega)]
    · injection h with h; injection h with h _; rw [h]

theorem leading_ok (a : α) (m : Nat) :
    (leading (fun s : Option (List (BitVec x)) => Outcome.ok (a, s)) m a).ncard =
      if m = 0 then 1 else 0 := by
  have : leading (fun s : Option (List (BitVec x)) => Outcome.ok (a, s)) m a =
      if m = 0 then {[]} else ∅ := by
    ext ds
    simp only [leading, Set.mem_setOf_eq]
    split
    · rename_i h0; subst h0
      simp
    · rename_i h0
      simp only [Set.mem_empty_iff_false, iff_false, not_and]
      intro hl he
      injection he with he
      injection he with _ he
      injection he with he
      subst he
      exact h0 hl.symm
  rw [this]
  split <;> simp

theorem ways_congr (q t : Nat) {C D : Nat → Nat} (m : Nat) (h : ∀ i < m, C i = D i) :
    ways q t C m = ways q t D m := by
  induction m with
  | zero => rfl
  | succ m ih => rw [ways, ways, h m (by omega), ih fun i hi => h i (by omega)]

theorem shuffleLoop_count (fuel count : Nat) : ∀ (m : Nat) (l l' : List α), l.Nodup → l'.Perm l →
    (∀ i, count ≤ i → l'[i]? = l[i]?) → count ≤ l.length → count < 2 ^ x → m ≤ fuel →
    (leading (x := x) (shuffleLoop pop fuel count l) m l').ncard = orders x count m := by
  induction count with
  | zero =>
    intro m l l' hn hp hk _ _ _
    obtain rfl : l' = l := List.ext_getElem? fun i => hk i (by omega)
    have : (shuffleLoop (x := x) pop fuel 0 l') = fun s => .ok (l', s) := by funext s; rfl
    rw [this, leading_ok, orders]
  | succ count ih =>
    intro m l l' hn hp hk hl hx hm
    have hlen := hp.length_eq
    have hn' : l'.Nodup := hp.nodup_iff.2 hn
    by_cases h0 : count = 0
    · subst h0
      obtain rfl : l' = l := by
        match l, l', hl with
        | a :: l, a' :: l', _ =>
          obtain rfl : l' = l := List.ext_getElem? fun i => by simpa using hk (i + 1) (by omega)
          have : a' ∈ a :: l' := hp.subset List.mem_cons_self
          rcases List.mem_cons.1 this with h | h
          · rw [h]
          · exact absurd h (List.nodup_cons.1 hn').1
        | a :: l, [], _ => simp at hlen
      have : (shuffleLoop (x := x) pop fuel 1 l') = fun s => .ok (l', s) := by
        funext s; simp [shuffleLoop]
      rw [this, leading_ok, orders, if_pos rfl]
    · obtain ⟨hb, hbn⟩ := ofNat_ne (x := x) (by omega : 0 < count + 1) hx
      obtain ⟨thr, h1, h2⟩ := threshold_eq hb
      have e : shuffleLoop pop fuel (count + 1) l =
          fun s => boundedLoop pop (BitVec.ofNat x (count + 1)) thr fuel s >>= fun p =>
            (swapAt l p.1.toNat count >>= fun l => shuffleLoop pop fuel count l p.2) := by
        funext s
        rw [shuffleLoop, if_pos (by omega), boundedRand, h1, Outcome.bind_ok]
      rw [e, loop_count _ thr (by omega) h2 _ l' ?_ m fuel hm, orders, if_neg h0, hbn]
      swap
      · intro c h
        obtain ⟨l1, -, h⟩ := Outcome.bind_eq_ok.1 h
        exact absurd (shuffleLoop_none fuel count _ _ h) (by simp)
      apply ways_congr
      intro m' hm'
      -- the position of the element that has to come last
      have hc' : count < l'.length := by omega
      obtain ⟨c0, hc0, hc0e⟩ := List.getElem_of_mem (hp.subset (List.getElem_mem hc'))
      have hc0le : c0 ≤ count := by
        by_contra hgt
        have h3 := hk c0 (by omega)
        rw [List.getElem?_eq_getElem hc0, List.getElem?_eq_getElem (by omega)] at h3
        injection h3 with h3
        rw [hc0e] at h3
        exact absurd ((hn'.getElem_inj_iff).1 h3) (by omega)
      have hto : ∀ c, c < count + 1 → (BitVec.ofNat x c).toNat = c := fun c hc => by
        rw [BitVec.toNat_ofNat, Nat.mod_eq_of_lt (by omega)]
      rw [Finset.sum_eq_single c0]
      · simp only [hto c0 (by omega), swapAt_ok (l := l) (i := c0) (j := count) (by omega) (by omega),
          Outcome.bind_ok]
        have hps := swapAt_perm (swapAt_ok (l := l) (i := c0) (j := count) (by omega) (by omega))
        apply ih m' _ l' (hps.nodup_iff.2 hn) (hp.trans hps.symm)
        · intro i hi
          rcases Nat.eq_or_lt_of_le hi with h3 | h3
          · subst h3
            rw [List.getElem?_set_self (by simp; omega), List.getElem?_eq_getElem hc', hc0e]
          · rw [List.getElem?_set_ne (by omega), List.getElem?_set_ne (by omega), hk i h3]
        · simp; omega
        · omega
        · omega
      · intro c hc hne
        have hc := Finset.mem_range.1 hc
        have : leading (fun s : Option (List (BitVec x)) => swapAt l (BitVec.ofNat x c).toNat count >>= fun l =>
            shuffleLoop pop fuel count l s) m' l' = ∅ := by
          ext ds
          simp only [leading, Set.mem_setOf_eq, Set.mem_empty_iff_false, iff_false, not_and,
            hto c hc, swapAt_ok (l := l) (i := c) (j := count) (by omega) (by omega), Outcome.bind_ok]
          intro _ h
          have h3 := shuffleLoop_keep _ _ _ _ _ _ _ h (by omega) (by simp; omega) count le_rfl
          rw [List.getElem?_set_self (by simp; omega), List.getElem?_eq_getElem hc'] at h3
          injection h3 with h3
          rw [← hc0e] at h3
          exact hne ((hn.getElem_inj_iff).1 h3).symm
        rw [this, Set.ncard_empty]
      · intro h
        exact absurd (Finset.mem_range.2 (by omega)) h

/-- **C98**, no bias: every order of different elements is reached by the same number of sequences of `m`
draws, for every `m`. -/
theorem C98_uniform {l l₁ l₂ : List α} (hl : l.Nodup) (hx : l.length < 2 ^ x) (h₁ : l₁.Perm l)
    (h₂ : l₂.Perm l) {m fuel : Nat} (hm : m ≤ fuel) :
    (leading (x := x) (shuffle pop fuel l) m l₁).ncard = (leading (x := x) (shuffle pop fuel l) m l₂).ncard := by
  have key : ∀ l' : List α, l'.Perm l →
      (leading (x := x) (shuffle pop fuel l) m l').ncard = orders x l.length m := by
    intro l' h
    refine shuffleLoop_count fuel l.length m l l' hl h (fun i hi => ?_) le_rfl hx hm
    rw [List.getElem?_eq_none (by rw [h.length_eq]; omega), List.getElem?_eq_none (by omega)]
  rw [key l₁ h₁, key l₂ h₂]

theorem orders_few (n : Nat) : ∀ m, m + 1 < n → orders x n m = 0 := by
  induction n with
  | zero => intro m h; omega
  | succ n ih =>
    intro m h
    rw [orders, if_neg (by omega)]
    induction m with
    | zero => rfl
    | succ m ihm => rw [ways, ih m (by omega), ihm (by omega)]; rfl

theorem orders_diag (n : Nat) : orders x (n + 1) n = ∏ i ∈ Finset.Icc 2 (n + 1), 2 ^ x / i := by
  induction n with
  | zero => simp [orders]
  | succ n ih =>
    rw [orders, if_neg (by omega), ways, ih, Finset.prod_Icc_succ_top (by omega : 2 ≤ n + 1 + 1)]
    have : ways (2 ^ x / (n + 1 + 1)) (2 ^ x % (n + 1 + 1)) (orders x (n + 1)) n = 0 := by
      have := orders_few (x := x) (n + 2) n (by omega)
      rwa [orders, if_neg (by omega)] at this
    rw [this]; ring

theorem shuffle_fn (fuel : Nat) (l : List α) : shuffle (x := x) pop fuel l =
    shuffleLoop pop fuel l.length l := rfl

/-- **C98**, no bias: the number of sequences of `n - 1` draws, none of them rejected, that lead to a given
order of `n` different elements. -/
theorem C98_count {l l' : List α} (hl : l.Nodup) (hx : l.length < 2 ^ x) (h : l'.Perm l) {fuel : Nat}
    (hm : l.length ≤ fuel) :
    (leading (x := x) (shuffle pop fuel l) (l.length - 1) l').ncard =
      ∏ i ∈ Finset.Icc 2 l.length, 2 ^ x / i := by
  rw [shuffle_fn, shuffleLoop_count fuel l.length _ l l' hl h (fun i hi => ?_) le_rfl hx (by omega)]
  · rcases hn : l.length with _ | n
    · rfl
    · exact orders_diag n
  · rw [List.getElem?_eq_none (by rw [h.length_eq]; omega), List.getElem?_eq_none (by omega)]

/-- A case: three elements, 4-bit values; each of the six orders is reached by 8 * 5 pairs of draws. -/
example : shuffle pop 9 ['a', 'b', 'c'] (some [7#4, 4#4]) = .ok (['c', 'a', 'b'], some []) ∧
    (leading (x := 4) (shuffle pop 9 ['a', 'b', 'c']) 2 ['c', 'a', 'b']).ncard = 40 :=
  ⟨by decide, C98_count (by decide) (by decide) (by decide) (by decide)⟩

end Verif.Pcg
