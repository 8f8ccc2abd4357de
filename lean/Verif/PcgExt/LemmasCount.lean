import Verif.PcgExt.Lemmas
import Verif.Pcg.LemmasOutput
import Mathlib.Algebra.BigOperators.Intervals

/-!
# The extended generators: lemmas about jumps of the table and about when it is advanced
-/

namespace Verif.PcgExt

open Verif Verif.Pcg Verif.Pcg.Spec Spec

variable {w x : Nat}

theorem div_add_split {M : Nat} (hM : 0 < M) (N T : Nat) :
    (N + T) / M = N / M + T / M + if M ≤ N % M + T % M then 1 else 0 := by
  have h1 := Nat.mod_lt N hM
  have h2 := Nat.mod_lt T hM
  have e1 := Nat.div_add_mod N M
  have e2 := Nat.div_add_mod T M
  have key : N + T = N % M + T % M + M * (N / M + T / M) := by rw [Nat.mul_add]; omega
  have h3 : (N % M + T % M) / M = if M ≤ N % M + T % M then 1 else 0 := by
    split
    · rename_i h
      exact Nat.div_eq_of_lt_le (by omega) (by omega)
    · rename_i h
      exact Nat.div_eq_of_lt (by omega)
  conv_lhs => rw [key]
  rw [Nat.add_mul_div_left _ _ hM, h3, Nat.add_comm]

/-- The wrong carries of a jump: one for every entry that is zero. -/
def extra (x : Nat) : Nat → Nat → Nat
  | 0, _ => 0
  | k + 1, N => (if N % 2 ^ x = 0 then 1 else 0) + 2 ^ x * extra x k (N / 2 ^ x)

theorem carry_bound {total : Nat} (x : Nat) (h8 : 8 ≤ 2 ^ x) : total / 2 ^ x ≤ total / 8 := Nat.div_le_div_left h8 (by norm_num)

/-- A jump of the table: it adds a multiple of `11…1`, and a wrong carry for every entry that is zero. -/
theorem advTableByLoop_tab {c : Cfg w x} (hc : WellFormed c) (dbg : Bool) (fuel : Nat) (hf : x < fuel) (delta : BitVec w)
    (hd : delta.toNat ≤ 2 ^ (w - 1)) (k : Nat) : ∀ i (carry : BitVec w) N, carry.toNat ≤ delta.toNat / 4 + 1 →
    advTableByLoop c dbg fuel delta true i carry (tab c i k N) =
      .ok (tab c i k (N + delta.toNat * ones x k + carry.toNat + 2 ^ x * extra x k N)) := by
  have hx := width_ge hc.ext
  have hw := width_ge hc.base
  have h8 : 2 ^ 3 ≤ 2 ^ x := Nat.pow_le_pow_right (by norm_num) hx
  have hw2 : 2 ^ 2 ≤ 2 ^ (w - 1) := Nat.pow_le_pow_right (by norm_num) (by omega)
  have hwe : 2 ^ w = 2 * 2 ^ (w - 1) := by rw [← pow_succ', Nat.sub_add_cancel (by omega)]
  induction k with
  | zero => intros; rfl
  | succ k ih =>
    intro i carry N hcar
    have hM : 0 < 2 ^ x := by positivity
    have htot : (carry + delta).toNat = carry.toNat + delta.toNat := by
      rw [BitVec.toNat_add, Nat.mod_eq_of_lt (by omega)]
    have hshift : (if x < w then (carry + delta) >>> x else 0#w).toNat = (carry.toNat + delta.toNat) / 2 ^ x := by
      split
      · rw [BitVec.toNat_ushiftRight, Nat.shiftRight_eq_div_pow, htot]
      · rename_i h
        have : 2 ^ w ≤ 2 ^ x := Nat.pow_le_pow_right (by norm_num) (by omega)
        rw [Nat.div_eq_of_lt (by have := (carry + delta).isLt; omega)]
        simp
    have hdiv := carry_bound (total := carry.toNat + delta.toNat) x h8
    rw [tab, advTableByLoop]
    simp only [extAdvance_val hc dbg fuel hf, Outcome.bind_ok]
    have hcar' : ((if x < w then (carry + delta) >>> x else 0#w) +
        if decide (N % 2 ^ x = 0 ∨ 2 ^ x ≤ N % 2 ^ x + ((carry + delta).setWidth x).toNat) = true then 1#w else 0#w).toNat =
        (carry.toNat + delta.toNat) / 2 ^ x + (if 2 ^ x ≤ N % 2 ^ x + (carry.toNat + delta.toNat) % 2 ^ x then 1 else 0) +
          (if N % 2 ^ x = 0 then 1 else 0) := by
      rw [BitVec.toNat_add, hshift, BitVec.toNat_setWidth, htot]
      have hlt : (carry.toNat + delta.toNat) % 2 ^ x < 2 ^ x := Nat.mod_lt _ hM
      have : (if decide (N % 2 ^ x = 0 ∨ 2 ^ x ≤ N % 2 ^ x + (carry.toNat + delta.toNat) % 2 ^ x) = true then
          1#w else 0#w).toNat = (if 2 ^ x ≤ N % 2 ^ x + (carry.toNat + delta.toNat) % 2 ^ x then 1 else 0) +
          (if N % 2 ^ x = 0 then 1 else 0) := by
        simp only [decide_eq_true_eq]
        by_cases h1 : N % 2 ^ x = 0
        · rw [if_pos (Or.inl h1), if_neg (by omega), if_pos h1, BitVec.toNat_ofNat, Nat.mod_eq_of_lt (by omega)]
        · by_cases h2 : 2 ^ x ≤ N % 2 ^ x + (carry.toNat + delta.toNat) % 2 ^ x
          · rw [if_pos (Or.inr h2), if_pos h2, if_neg h1, BitVec.toNat_ofNat, Nat.mod_eq_of_lt (by omega)]
          · rw [if_neg (by tauto), if_neg h2, if_neg h1]
            simp
      rw [this, Nat.mod_eq_of_lt, Nat.add_assoc]
      split <;> split <;> omega
    have := ih (i + 1) ((if x < w then (carry + delta) >>> x else 0#w) +
        if decide (N % 2 ^ x = 0 ∨ 2 ^ x ≤ N % 2 ^ x + ((carry + delta).setWidth x).toNat) = true then 1#w else 0#w)
        (N / 2 ^ x) (by
          rw [hcar']
          have hlt : (carry.toNat + delta.toNat) % 2 ^ x < 2 ^ x := Nat.mod_lt _ hM
          split <;> split <;> omega)
    rw [this, hcar']
    simp only [Outcome.bind_ok, Outcome.pure_eq]
    have key : N + delta.toNat * ones x (k + 1) + carry.toNat + 2 ^ x * extra x (k + 1) N =
        N + (carry.toNat + delta.toNat) + 2 ^ x * (delta.toNat * ones x k + extra x (k + 1) N) := by
      rw [ones]; ring
    rw [key, tab]
    congr 2
    · rw [val_eq hc, BitVec.toNat_setWidth, htot, Nat.add_mod_mod, Nat.add_mul_mod_self_left]
    · congr 1
      rw [Nat.add_mul_div_left _ _ hM, div_add_split hM N (carry.toNat + delta.toNat), extra]
      ring

theorem advTableBy_tab {c : Cfg w x} (hc : WellFormed c) (dbg : Bool) (fuel : Nat) (hf : x < fuel) (delta : BitVec w)
    (hd : delta.toNat ≤ 2 ^ (w - 1)) (k N : Nat) :
    advTableBy c dbg fuel delta true (tab c 0 k N) = .ok (tab c 0 k (N + delta.toNat * ones x k + 2 ^ x * extra x k N)) := by
  rw [advTableBy, advTableByLoop_tab hc dbg fuel hf delta hd k 0 0#w N (by simp)]
  simp

theorem extra_mod (x : Nat) (hx : 0 < x) (m : Nat) : ∀ k N, m ≤ k →
    (extra x k N % (2 ^ x) ^ m = 0 ↔ ∀ j < m, N / (2 ^ x) ^ j % 2 ^ x ≠ 0) := by
  have hM : 2 ^ 1 ≤ 2 ^ x := Nat.pow_le_pow_right (by norm_num) hx
  induction m with
  | zero => intro k N _; simp [Nat.mod_one]
  | succ m ih =>
    intro k N h
    obtain ⟨k, rfl⟩ : ∃ j, k = j + 1 := ⟨k - 1, by omega⟩
    rw [extra, pow_succ', Nat.mod_mul, Nat.add_mul_mod_self_left, Nat.add_mul_div_left _ _ (by positivity)]
    have e1 : (if N % 2 ^ x = 0 then 1 else 0) / 2 ^ x = 0 := by split <;> exact Nat.div_eq_of_lt (by omega)
    have e2 : (if N % 2 ^ x = 0 then 1 else 0) % 2 ^ x = if N % 2 ^ x = 0 then 1 else 0 := by
      split <;> exact Nat.mod_eq_of_lt (by omega)
    rw [e1, e2, Nat.zero_add, Nat.add_eq_zero_iff, Nat.mul_eq_zero, ih k (N / 2 ^ x) (by omega)]
    constructor
    · rintro ⟨h1, h2⟩ j hj
      cases j with
      | zero => simp only [pow_zero, Nat.div_one]; intro h; simp [h] at h1
      | succ j =>
        rw [pow_succ', ← Nat.div_div_eq_div_mul]
        rcases h2 with h2 | h2
        · omega
        · exact h2 j (by omega)
    · intro h1
      refine ⟨?_, Or.inr fun j hj => ?_⟩
      · have := h1 0 (by omega)
        simp only [pow_zero, Nat.div_one] at this
        rw [if_neg this]
      · have := h1 (j + 1) (by omega)
        rwa [pow_succ', ← Nat.div_div_eq_div_mul] at this

/-- A jump back of the table, to a table without zero entries. -/
theorem retreatLoop_tab {c : Cfg w x} (hc : WellFormed c) (dbg : Bool) (fuel : Nat) (hf : x < fuel) (hx : 32 ≤ x) (delta : BitVec w)
    (hd : delta.toNat ≤ 2 ^ (w - 1)) (k : Nat) : ∀ i (carry : BitVec w) N, carry.toNat ≤ delta.toNat / 4 + 1 →
    (∀ j < k, N / (2 ^ x) ^ j % 2 ^ x ≠ 0) →
    advTableByLoop c dbg fuel delta false i carry (tab c i k (N + delta.toNat * ones x k + carry.toNat)) = .ok (tab c i k N) := by
  have hw := width_ge hc.base
  have h8 : 2 ^ 3 ≤ 2 ^ x := Nat.pow_le_pow_right (by norm_num) (by omega)
  have hw2 : 2 ^ 2 ≤ 2 ^ (w - 1) := Nat.pow_le_pow_right (by norm_num) (by omega)
  have hwe : 2 ^ w = 2 * 2 ^ (w - 1) := by rw [← pow_succ', Nat.sub_add_cancel (by omega)]
  induction k with
  | zero => intros; rfl
  | succ k ih =>
    intro i carry N hcar hN
    have hM : 0 < 2 ^ x := by positivity
    have htot : (carry + delta).toNat = carry.toNat + delta.toNat := by
      rw [BitVec.toNat_add, Nat.mod_eq_of_lt (by omega)]
    have hshift : (if x < w then (carry + delta) >>> x else 0#w).toNat = (carry.toNat + delta.toNat) / 2 ^ x := by
      split
      · rw [BitVec.toNat_ushiftRight, Nat.shiftRight_eq_div_pow, htot]
      · rename_i h
        have : 2 ^ w ≤ 2 ^ x := Nat.pow_le_pow_right (by norm_num) (by omega)
        rw [Nat.div_eq_of_lt (by have := (carry + delta).isLt; omega)]
        simp
    have hdiv := carry_bound (total := carry.toNat + delta.toNat) x h8
    have h0 : N % 2 ^ x ≠ 0 := by simpa using hN 0 (by omega)
    have key : N + delta.toNat * ones x (k + 1) + carry.toNat =
        N + (carry.toNat + delta.toNat) + 2 ^ x * (delta.toNat * ones x k) := by
      rw [ones]; ring
    have htr : ((carry + delta).setWidth x).toNat = (carry.toNat + delta.toNat) % 2 ^ x := by
      rw [BitVec.toNat_setWidth, htot]
    have hval : val c (i + 1) (N + (carry.toNat + delta.toNat) + 2 ^ x * (delta.toNat * ones x k)) =
        val c (i + 1) (N + ((carry + delta).setWidth x).toNat) := by
      rw [val_eq hc, Nat.add_mul_mod_self_left, htr, Nat.add_mod_mod]
    rw [key, tab, hval, advTableByLoop]
    simp only [extRetreat_val hc dbg fuel hf hx, Outcome.bind_ok]
    have hcar' : ((if x < w then (carry + delta) >>> x else 0#w) +
        if decide ((N + ((carry + delta).setWidth x).toNat) % 2 ^ x ≤ ((carry + delta).setWidth x).toNat) = true then
          1#w else 0#w).toNat =
        (carry.toNat + delta.toNat) / 2 ^ x + (if 2 ^ x ≤ N % 2 ^ x + (carry.toNat + delta.toNat) % 2 ^ x then 1 else 0) := by
      rw [BitVec.toNat_add, hshift, htr]
      have hlt : (carry.toNat + delta.toNat) % 2 ^ x < 2 ^ x := Nat.mod_lt _ hM
      have hlt2 : N % 2 ^ x < 2 ^ x := Nat.mod_lt _ hM
      have : (if decide ((N + (carry.toNat + delta.toNat) % 2 ^ x) % 2 ^ x ≤ (carry.toNat + delta.toNat) % 2 ^ x) = true then
          1#w else 0#w).toNat = (if 2 ^ x ≤ N % 2 ^ x + (carry.toNat + delta.toNat) % 2 ^ x then 1 else 0) := by
        simp only [decide_eq_true_eq]
        rw [← Nat.mod_add_mod]
        by_cases h2 : 2 ^ x ≤ N % 2 ^ x + (carry.toNat + delta.toNat) % 2 ^ x
        · rw [if_pos h2, Nat.mod_eq_sub_mod h2, Nat.mod_eq_of_lt (by omega), if_pos (by omega), BitVec.toNat_ofNat,
            Nat.mod_eq_of_lt (by omega)]
        · rw [if_neg h2, Nat.mod_eq_of_lt (by omega), if_neg (by omega)]
          simp
      rw [this, Nat.mod_eq_of_lt]
      split <;> omega
    have := ih (i + 1) ((if x < w then (carry + delta) >>> x else 0#w) +
        if decide ((N + ((carry + delta).setWidth x).toNat) % 2 ^ x ≤ ((carry + delta).setWidth x).toNat) = true then
          1#w else 0#w)
        (N / 2 ^ x) (by rw [hcar']; split <;> omega) (by
          intro j hj
          rw [Nat.div_div_eq_div_mul, ← pow_succ']
          exact hN (j + 1) (by omega))
    rw [hcar'] at this
    have e : (N + (carry.toNat + delta.toNat) + 2 ^ x * (delta.toNat * ones x k)) / 2 ^ x =
        N / 2 ^ x + delta.toNat * ones x k + ((carry.toNat + delta.toNat) / 2 ^ x +
          (if 2 ^ x ≤ N % 2 ^ x + (carry.toNat + delta.toNat) % 2 ^ x then 1 else 0)) := by
      rw [Nat.add_mul_div_left _ _ hM, div_add_split hM N (carry.toNat + delta.toNat)]
      ring
    rw [e, this]
    simp only [Outcome.bind_ok, Outcome.pure_eq]
    rw [tab]

theorem retreat_tab {c : Cfg w x} (hc : WellFormed c) (dbg : Bool) (fuel : Nat) (hf : x < fuel) (hx : 32 ≤ x) (delta : BitVec w)
    (hd : delta.toNat ≤ 2 ^ (w - 1)) (k N : Nat) (hN : ∀ j < k, N / (2 ^ x) ^ j % 2 ^ x ≠ 0) :
    advTableBy c dbg fuel delta false (tab c 0 k (N + delta.toNat * ones x k)) = .ok (tab c 0 k N) := by
  have := retreatLoop_tab hc dbg fuel hf hx delta hd k 0 0#w N (by simp) hN
  rw [advTableBy]
  simpa using this

theorem nonzero_digits {c : Cfg w x} (hc : WellFormed c) (k N : Nat) (j : Nat) (hj : j < k) :
    ((tab c 0 k N)[j]? = some 0#x ↔ N / (2 ^ x) ^ j % 2 ^ x = 0) := by
  rw [tab_get k 0 N j hj, Option.some.injEq, val_eq_zero hc]

/-! ## The low bits of the state -/

/-- The part of the state that changes. -/
def hi (p : Par w) (s : BitVec w) : Nat := s.toNat / 2 ^ lowBits p

theorem low_const {p : Par w} {s : BitVec w} (hs : Reach p s) : s.toNat % 2 ^ lowBits p = if p.mcg then 3 else 0 := by
  unfold lowBits
  by_cases h : p.mcg
  · simp only [h, if_true]; exact hs h
  · simp [h, Nat.mod_one]

theorem mod_hi {p : Par w} {s t : BitVec w} (hs : Reach p s) (ht : Reach p t) (m : Nat) :
    s.toNat % 2 ^ (m + lowBits p) = t.toNat % 2 ^ (m + lowBits p) ↔ hi p s % 2 ^ m = hi p t % 2 ^ m := by
  rw [Nat.add_comm m, pow_add, Nat.mod_mul, Nat.mod_mul, low_const hs, low_const ht, hi, hi, Nat.add_left_cancel_iff]
  constructor
  · exact fun h => Nat.eq_of_mul_eq_mul_left (by positivity) h
  · exact fun h => by rw [h]

theorem hi_lt {p : Par w} (hp : Good p) (s : BitVec w) : hi p s < 2 ^ (w - lowBits p) := by
  have hw := width_ge hp
  have hl : lowBits p ≤ 2 := by unfold lowBits; split <;> omega
  rw [hi, Nat.div_lt_iff_lt_mul (by positivity), ← pow_add, Nat.sub_add_cancel (by omega)]
  exact s.isLt

theorem hi_inj {p : Par w} {s t : BitVec w} (hs : Reach p s) (ht : Reach p t) (h : hi p s = hi p t) : s = t := by
  rw [← BitVec.toNat_inj, ← Nat.div_add_mod s.toNat (2 ^ lowBits p), ← Nat.div_add_mod t.toNat (2 ^ lowBits p), low_const hs,
    low_const ht]
  unfold hi at h
  rw [h]

/-- The low bits of the changing part of the state have the full period. -/
theorem hi_mod {p : Par w} (hp : Good p) {s : BitVec w} (hs : Reach p s) (m : Nat) (hm : m + lowBits p ≤ w) (i j : Nat) :
    hi p ((bump p)^[i] s) % 2 ^ m = hi p ((bump p)^[j] s) % 2 ^ m ↔ i % 2 ^ m = j % 2 ^ m := by
  have main : ∀ (s : BitVec w), Reach p s → ∀ n, hi p ((bump p)^[n] s) % 2 ^ m = hi p s % 2 ^ m ↔ 2 ^ m ∣ n := by
    intro s hs n
    have h1 := lin_period (w := m + lowBits p) (mult_mod_four hp) (first_move hp hs) n
    rw [Nat.add_sub_cancel] at h1
    rw [← mod_hi (iter_reach hp hs n) hs, ← h1, bump_iter_int]
    set t := (lin p.mult.toNat p.inc.toNat)^[n] (s.toNat : ℤ)
    have h4 : (2 ^ (m + lowBits p) : ℤ) ∣ 2 ^ w := pow_dvd_pow 2 hm
    have e : ((BitVec.ofInt w t).toNat : ℤ) % 2 ^ (m + lowBits p) = t % 2 ^ (m + lowBits p) := by
      rw [BitVec.toNat_ofInt]
      have hpos : (0 : ℤ) < ((2 ^ w : ℕ) : ℤ) := by positivity
      rw [Int.toNat_of_nonneg (Int.emod_nonneg _ hpos.ne')]
      push_cast
      exact Int.emod_emod_of_dvd _ h4
    rw [Int.dvd_iff_emod_eq_zero, ← Int.emod_eq_emod_iff_emod_sub_eq_zero, ← e]
    norm_cast
  have aux : ∀ i j : Nat, i ≤ j →
      (hi p ((bump p)^[i] s) % 2 ^ m = hi p ((bump p)^[j] s) % 2 ^ m ↔ i % 2 ^ m = j % 2 ^ m) := by
    intro i j h
    rw [show (bump p)^[j] s = (bump p)^[j - i] ((bump p)^[i] s) by
      rw [← Function.iterate_add_apply, Nat.sub_add_cancel h]]
    rw [eq_comm, main _ (iter_reach hp hs i)]
    exact (Nat.modEq_iff_dvd' h).symm
  rcases le_total i j with h | h
  · exact aux i j h
  · rw [eq_comm, aux j i h, eq_comm]

/-- Every value of the low bits is met, once in every `2 ^ m` steps. -/
theorem hi_hit {p : Par w} (hp : Good p) {s : BitVec w} (hs : Reach p s) (m : Nat) (hm : m + lowBits p ≤ w) (u : Nat)
    (hu : u < 2 ^ m) : ∃ r, r < 2 ^ m ∧ ∀ j, hi p ((bump p)^[j] s) % 2 ^ m = u ↔ j % 2 ^ m = r := by
  have hinj : Set.InjOn (fun j => hi p ((bump p)^[j] s) % 2 ^ m) (Finset.range (2 ^ m)) := by
    intro i hi' j hj h
    simp only [Finset.coe_range, Set.mem_Iio] at hi' hj
    have := (hi_mod hp hs m hm i j).mp h
    rwa [Nat.mod_eq_of_lt hi', Nat.mod_eq_of_lt hj] at this
  have himg : (Finset.range (2 ^ m)).image (fun j => hi p ((bump p)^[j] s) % 2 ^ m) = Finset.range (2 ^ m) := by
    apply Finset.eq_of_subset_of_card_le
    · intro v hv
      obtain ⟨j, -, rfl⟩ := Finset.mem_image.mp hv
      exact Finset.mem_range.mpr (Nat.mod_lt _ (by positivity))
    · rw [Finset.card_image_of_injOn hinj]
  have hmem : u ∈ (Finset.range (2 ^ m)).image (fun j => hi p ((bump p)^[j] s) % 2 ^ m) := by
    rw [himg]; exact Finset.mem_range.mpr hu
  obtain ⟨r, hr, rfl⟩ := Finset.mem_image.mp hmem
  have hr := Finset.mem_range.mp hr
  refine ⟨r, hr, fun j => ?_⟩
  rw [hi_mod hp hs m hm, Nat.mod_eq_of_lt hr]

/-- The sum over one period is the sum over all states. -/
theorem sum_period {p : Par w} (hp : Good p) {s : BitVec w} (hs : Reach p s) (f : Nat → Nat) :
    ∑ j ∈ Finset.range (2 ^ (w - lowBits p)), f (hi p ((bump p)^[j] s)) = ∑ v ∈ Finset.range (2 ^ (w - lowBits p)), f v := by
  have hw := width_ge hp
  have hl : lowBits p ≤ 2 := by unfold lowBits; split <;> omega
  have hinj : Set.InjOn (fun j => hi p ((bump p)^[j] s)) (Finset.range (2 ^ (w - lowBits p))) := by
    intro i hi' j hj h
    simp only [Finset.coe_range, Set.mem_Iio] at hi' hj
    have := (hi_mod hp hs (w - lowBits p) (by omega) i j).mp (by simp only at h; rw [h])
    rwa [Nat.mod_eq_of_lt hi', Nat.mod_eq_of_lt hj] at this
  have himg : (Finset.range (2 ^ (w - lowBits p))).image (fun j => hi p ((bump p)^[j] s)) =
      Finset.range (2 ^ (w - lowBits p)) := by
    apply Finset.eq_of_subset_of_card_le
    · intro v hv
      obtain ⟨j, -, rfl⟩ := Finset.mem_image.mp hv
      exact Finset.mem_range.mpr (hi_lt hp _)
    · rw [Finset.card_image_of_injOn hinj]
  conv_rhs => rw [← himg]
  rw [Finset.sum_image hinj]

/-- How many numbers below `n` leave the remainder `r`. -/
theorem count_mod (K r : Nat) (hr : r < K) (n : Nat) :
    ∑ j ∈ Finset.range n, (if j % K = r then 1 else 0) = n / K + if r < n % K then 1 else 0 := by
  induction n with
  | zero => simp
  | succ n ih =>
    rw [Finset.sum_range_succ, ih]
    have hlt := Nat.mod_lt n (show 0 < K by omega)
    by_cases h : n % K + 1 = K
    · have hd : K ∣ n + 1 := ⟨n / K + 1, by rw [Nat.mul_add]; have := Nat.div_add_mod n K; omega⟩
      rw [Nat.succ_div, if_pos hd, Nat.mod_eq_zero_of_dvd hd]
      simp only [Nat.not_lt_zero, if_false]
      by_cases h2 : n % K = r
      · simp only [h2, if_true, Nat.lt_irrefl, if_false]
      · have : r < n % K := by omega
        simp only [h2, if_false, this, if_true]
    · have hd : ¬ K ∣ n + 1 := by
        rintro ⟨q, hq⟩
        have h3 : (n + 1) % K = 0 := by rw [hq]; simp
        rw [Nat.add_mod] at h3
        by_cases hk : K = 1
        · subst hk; omega
        rw [Nat.mod_eq_of_lt (show 1 < K by omega), Nat.mod_eq_of_lt (by omega)] at h3
        omega
      have hm : (n + 1) % K = n % K + 1 := by
        have e := Nat.div_add_mod (n + 1) K
        have e2 := Nat.div_add_mod n K
        rw [Nat.succ_div, if_neg hd, Nat.add_zero] at e
        omega
      rw [Nat.succ_div, if_neg hd, hm]
      by_cases h2 : n % K = r
      · simp only [h2, if_true, Nat.lt_irrefl, if_false, Nat.lt_succ_self]
      · by_cases h4 : r < n % K
        · have : r < n % K + 1 := by omega
          simp only [h2, if_false, h4, if_true, this]
        · have : ¬ r < n % K + 1 := by omega
          simp only [h2, if_false, h4, this]

theorem count_multiples (a b : Nat) (h : a ≤ b) :
    ∑ v ∈ Finset.range (2 ^ b), (if v % 2 ^ a = 0 then 1 else 0) = 2 ^ (b - a) := by
  rw [count_mod _ _ (by positivity), Nat.pow_div h (by norm_num), Nat.mod_eq_zero_of_dvd (pow_dvd_pow 2 h)]
  simp

theorem count_below (a b : Nat) (h : a ≤ b) : ∑ v ∈ Finset.range b, (if v < a then 1 else 0) = a := by
  rw [← Finset.card_filter]
  have : (Finset.range b).filter (· < a) = Finset.range a := by
    ext v
    simp only [Finset.mem_filter, Finset.mem_range]
    omega
  rw [this, Finset.card_range]

/-! ## One call -/

/-- Whether the table is advanced for the first reason, in terms of the changing part of the state. -/
def tickAt (c : Cfg w x) (v : Nat) : Prop :=
  if c.kdd then v % 2 ^ c.advancePow2 = 0 else v < 2 ^ (w - lowBits c.base - c.advancePow2)

instance (c : Cfg w x) (v : Nat) : Decidable (tickAt c v) := by unfold tickAt; infer_instance

/-- Whether it is advanced for the second reason. -/
def tockAt (c : Cfg w x) (v : Nat) : Prop := v = 0 ∧ (c.kdd = true ∨ c.base.mcg = false)

instance (c : Cfg w x) (v : Nat) : Decidable (tockAt c v) := by unfold tockAt; infer_instance

/-- How often it is advanced by one call. -/
def moves (c : Cfg w x) (v : Nat) : Nat :=
  (if c.mayTick = true ∧ tickAt c v then 1 else 0) + (if c.mayTock = true ∧ tockAt c v then 1 else 0)

/-- The entry that is used. -/
def idx (c : Cfg w x) (s : BitVec w) : Nat :=
  if c.kdd then hi c.base s % 2 ^ c.tablePow2 else s.toNat / 2 ^ (w - c.tablePow2)

theorem view_kdd {c : Cfg w x} (h : c.kdd = true) (s : BitVec w) : (c.view s).toNat = hi c.base s := by
  unfold Cfg.view hi lowBits
  rw [h]
  cases hm : c.base.mcg
  · simp
  · simp [Nat.shiftRight_eq_div_pow]

theorem view_top {c : Cfg w x} (h : c.kdd = false) (s : BitVec w) : c.view s = s := by
  simp [Cfg.view, h]

theorem tickMask_toNat {c : Cfg w x} (h : c.mayTick = true) : c.tickMask.toNat = 2 ^ c.advancePow2 - 1 := by
  have h' := h
  simp only [Cfg.mayTick, Bool.and_eq_true, decide_eq_true_eq] at h'
  rw [Cfg.tickMask, if_pos h, BitVec.toNat_setWidth, lowmask_toNat _ (by omega)]
  have : 2 ^ c.advancePow2 < 2 ^ w := Nat.pow_lt_pow_right (by norm_num) h'.1
  have hp : 0 < 2 ^ c.advancePow2 := by positivity
  exact Nat.mod_eq_of_lt (by omega)

theorem tableMask_toNat {c : Cfg w x} (hc : WellFormed c) : c.tableMask.toNat = 2 ^ c.tablePow2 - 1 := by
  have := hc.table
  rw [Cfg.tableMask, lowmask_toNat _ (by omega)]

theorem index_eq {c : Cfg w x} (hc : WellFormed c) (s : BitVec w) : c.index s = .ok (idx c s) := by
  unfold Cfg.index idx
  cases h : c.kdd
  · have ht := hc.top h
    simp only [Bool.false_eq_true, if_false]
    rw [if_neg (by omega), view_top h, BitVec.toNat_ushiftRight, Nat.shiftRight_eq_div_pow]
  · simp only [if_true]
    rw [BitVec.toNat_and, view_kdd h, tableMask_toNat hc, Nat.and_two_pow_sub_one_eq_mod]

theorem idx_lt {c : Cfg w x} (hc : WellFormed c) (s : BitVec w) : idx c s < c.tableSize := by
  have ht := hc.table
  unfold idx Cfg.tableSize
  split
  · exact Nat.mod_lt _ (by positivity)
  · rw [Nat.div_lt_iff_lt_mul (by positivity), ← pow_add, Nat.add_sub_cancel' (by omega)]
    exact s.isLt

theorem tick_eq {c : Cfg w x} (hc : WellFormed c) (hm : c.mayTick = true) {s : BitVec w} (hs : Reach c.base s) :
    c.tick s = .ok (decide (tickAt c (hi c.base s))) := by
  have hw := width_ge hc.base
  have ht := hc.tick hm
  rw [fixedBits_eq] at ht
  by_cases h : c.kdd = false
  · have ht' := hc.top h
    simp only [Cfg.tick, tickAt, h, Bool.false_eq_true, if_false]
    rw [if_neg (by omega), view_top h]
    congr 1
    rw [Bool.eq_iff_iff, beq_iff_eq, decide_eq_true_iff, ← BitVec.toNat_inj, BitVec.toNat_ushiftRight,
      Nat.shiftRight_eq_div_pow, hi]
    simp only [BitVec.toNat_ofNat, Nat.zero_mod]
    rw [Nat.div_eq_zero_iff_lt (by positivity)]
    have e : 2 ^ (w - c.advancePow2) = 2 ^ (w - lowBits c.base - c.advancePow2) * 2 ^ lowBits c.base := by
      rw [← pow_add]; congr 1; omega
    rw [Nat.div_lt_iff_lt_mul (by positivity), ← e]
  · rw [Bool.not_eq_false] at h
    simp only [Cfg.tick, tickAt, h, if_true]
    congr 1
    rw [Bool.eq_iff_iff, beq_iff_eq, decide_eq_true_iff, ← BitVec.toNat_inj, BitVec.toNat_and, view_kdd h, tickMask_toNat hm,
      Nat.and_two_pow_sub_one_eq_mod]
    simp

theorem tock_eq {c : Cfg w x} {s : BitVec w} (hs : Reach c.base s) : (c.view s == 0#w) = decide (tockAt c (hi c.base s)) := by
  rw [Bool.eq_iff_iff, beq_iff_eq, decide_eq_true_iff, ← BitVec.toNat_inj]
  unfold tockAt
  cases h : c.kdd
  · rw [view_top h]
    cases hm : c.base.mcg
    · simp [hi, lowBits, hm]
    · have := hs hm
      simp
      intro h0
      omega
  · rw [view_kdd h]
    simp

theorem getExtended_tab {c : Cfg w x} (hc : WellFormed c) {s : BitVec w} (hs : Reach c.base s) (k N : Nat) :
    getExtended c ⟨s, tab c 0 k N⟩ = .ok (idx c s, tab c 0 k (N + moves c (hi c.base s) * ones x k)) := by
  rw [getExtended, index_eq hc]
  simp only [Outcome.bind_ok, Outcome.pure_eq, tock_eq hs, decide_eq_true_eq]
  by_cases hm : c.mayTick = true <;> by_cases hk : c.mayTock = true <;> by_cases h1 : tickAt c (hi c.base s) <;>
    by_cases h2 : tockAt c (hi c.base s) <;>
    simp only [hm, hk, h1, h2, if_true, if_false, tick_eq hc, hs, Outcome.bind_ok, decide_true, decide_false, advTable_tab hc,
      moves, and_self, and_false, false_and, and_true, Bool.false_eq_true, Nat.zero_mul, Nat.add_zero, Nat.one_mul, Nat.zero_add] <;>
    congr 3 <;> ring

/-- What a call returns, given the entry. -/
def lhs (c : Cfg w x) (s : BitVec w) : BitVec x := (next c.base c.prev c.out s).1

theorem call_tab {c : Cfg w x} (hc : WellFormed c) {s : BitVec w} (hs : Reach c.base s) (N : Nat) :
    call c ⟨s, tab c 0 c.tableSize N⟩ = .ok
      (lhs c s ^^^ val c (idx c s + 1) ((N + moves c (hi c.base s) * ones x c.tableSize) / (2 ^ x) ^ idx c s),
        ⟨bump c.base s, tab c 0 c.tableSize (N + moves c (hi c.base s) * ones x c.tableSize)⟩) := by
  rw [call, getExtended_tab hc hs]
  simp only [Outcome.bind_ok]
  rw [tab_get _ _ _ _ (idx_lt hc s)]
  simp only [Outcome.ofOption, Outcome.bind_ok, Outcome.pure_eq]
  rw [Nat.zero_add]
  have : (next c.base c.prev c.out s).2 = bump c.base s := next_state _ _ _ _
  rw [this]
  rfl

/-- How often the table is advanced by `n` calls. -/
def moved (c : Cfg w x) (s : BitVec w) (n : Nat) : Nat := ∑ j ∈ Finset.range n, moves c (hi c.base ((bump c.base)^[j] s))

theorem moved_succ (c : Cfg w x) (s : BitVec w) (n : Nat) :
    moved c s (n + 1) = moves c (hi c.base s) + moved c (bump c.base s) n := by
  unfold moved
  rw [Finset.sum_range_succ']
  simp only [Function.iterate_succ_apply, Function.iterate_zero, id]
  rw [Nat.add_comm]

theorem after_tab {c : Cfg w x} (hc : WellFormed c) (n : Nat) : ∀ {s : BitVec w}, Reach c.base s → ∀ N,
    afterCalls c n ⟨s, tab c 0 c.tableSize N⟩ = .ok
      ⟨(bump c.base)^[n] s, tab c 0 c.tableSize (N + moved c s n * ones x c.tableSize)⟩ := by
  induction n with
  | zero => intro s hs N; simp [afterCalls, moved]
  | succ n ih =>
    intro s hs N
    rw [afterCalls, call_tab hc hs]
    simp only [Outcome.bind_ok]
    rw [ih (bump_reach hc.base hs), moved_succ, Function.iterate_succ_apply]
    congr 3
    ring

theorem results_tab {c : Cfg w x} (hc : WellFormed c) (n : Nat) : ∀ {s : BitVec w}, Reach c.base s → ∀ N,
    results c n ⟨s, tab c 0 c.tableSize N⟩ = .ok ((List.range n).map fun j =>
      lhs c ((bump c.base)^[j] s) ^^^ val c (idx c ((bump c.base)^[j] s) + 1)
        ((N + moved c s (j + 1) * ones x c.tableSize) / (2 ^ x) ^ idx c ((bump c.base)^[j] s))) := by
  induction n with
  | zero => intro s hs N; rfl
  | succ n ih =>
    intro s hs N
    rw [results, call_tab hc hs]
    simp only [Outcome.bind_ok]
    rw [ih (bump_reach hc.base hs)]
    simp only [Outcome.bind_ok, Outcome.pure_eq]
    rw [List.range_succ_eq_map, List.map_cons, List.map_map]
    have h0 : moved c s (0 + 1) = moves c (hi c.base s) := by simp [moved]
    rw [h0, List.map_congr_left (g := (fun j => lhs c ((bump c.base)^[j] s) ^^^ val c (idx c ((bump c.base)^[j] s) + 1)
        ((N + moved c s (j + 1) * ones x c.tableSize) / (2 ^ x) ^ idx c ((bump c.base)^[j] s))) ∘ Nat.succ)]
    · rfl
    · intro j _
      simp only [Function.comp, Nat.succ_eq_add_one, Function.iterate_succ_apply, moved_succ c s (j + 1)]
      congr 3
      ring

end Verif.PcgExt
