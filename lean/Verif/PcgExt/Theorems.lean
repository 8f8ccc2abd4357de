import Verif.PcgExt.LemmasCount
import Verif.Pcg.PropsOutput

/-!
# The extended generators: theorems
-/

namespace Verif.PcgExt

open Verif Verif.Pcg Verif.Pcg.Spec Spec

variable {w x : Nat}

theorem valid_tab {c : Cfg w x} (hc : WellFormed c) {g : Gen w x} (hg : Valid c g) :
    ∃ N, N < (2 ^ x) ^ c.tableSize ∧ g = ⟨g.s, tab c 0 c.tableSize N⟩ := by
  obtain ⟨N, h, e⟩ := tab_surj hc c.tableSize 0 g.data hg.size
  exact ⟨N, h, by rw [e]⟩

/-- **C127.** A call of a proper generator is always defined and leaves a proper generator. -/
theorem C127_defined {c : Cfg w x} (hc : WellFormed c) {g : Gen w x} (hg : Valid c g) :
    ∃ y g', call c g = .ok (y, g') ∧ Valid c g' ∧ g'.s = bump c.base g.s := by
  obtain ⟨N, -, e⟩ := valid_tab hc hg
  rw [e]
  exact ⟨_, _, call_tab hc hg.state N, ⟨bump_reach hc.base hg.state, tab_length _ _ _ _⟩, rfl⟩

/-! ## C127 — equidistribution -/

/-- Prescribing every digit, each after adding its own number, determines a number. -/
theorem digits_unique {M : Nat} (hM : 0 < M) (D p : Nat → Nat) (k : Nat) :
    ∃! N, N < M ^ k ∧ ∀ i < k, (N + D i) / M ^ i % M = p i % M := by
  induction k with
  | zero => exact ⟨0, by simp, fun N h => by simpa using h.1⟩
  | succ k ih =>
    obtain ⟨N, ⟨h1, h2⟩, h3⟩ := ih
    have hMk : 0 < M ^ k := by positivity
    have shift : ∀ d i a, i < k → (a + M ^ k * d) / M ^ i % M = a / M ^ i % M := by
      intro d i a hi
      rw [show M ^ k * d = M ^ i * (M * (M ^ (k - i - 1) * d)) by
        rw [← Nat.mul_assoc, ← Nat.mul_assoc, ← pow_succ, ← pow_add]; congr 2; omega]
      rw [Nat.add_mul_div_left _ _ (by positivity), Nat.add_mul_mod_self_left]
    -- the leading digit
    let q := (N + D k) / M ^ k
    obtain ⟨d, hd1, hd2⟩ : ∃ d, d < M ∧ (q + d) % M = p k % M := by
      refine ⟨(p k % M + (M - q % M)) % M, Nat.mod_lt _ hM, ?_⟩
      have := Nat.mod_lt q hM
      rw [Nat.add_mod_mod, ← Nat.mod_add_mod, show q % M + (p k % M + (M - q % M)) = p k % M + M by omega, Nat.add_mod_right,
        Nat.mod_mod]
    refine ⟨N + M ^ k * d, ⟨?_, ?_⟩, ?_⟩
    · rw [pow_succ]
      have : M ^ k * (d + 1) ≤ M ^ k * M := Nat.mul_le_mul_left _ hd1
      rw [Nat.mul_add] at this
      omega
    · intro i hi
      rcases Nat.lt_succ_iff_lt_or_eq.mp hi with h | rfl
      · rw [show N + M ^ k * d + D i = N + D i + M ^ k * d by ring, shift d i _ h, h2 i h]
      · rw [show N + M ^ i * d + D i = N + D i + M ^ i * d by ring, Nat.add_mul_div_left _ _ hMk]
        exact hd2
    · rintro N' ⟨g1, g2⟩
      have e : N' = N' % M ^ k + M ^ k * (N' / M ^ k) := (Nat.mod_add_div N' (M ^ k)).symm
      have hN : N' % M ^ k = N := by
        apply h3
        refine ⟨Nat.mod_lt _ hMk, fun i hi => ?_⟩
        rw [← g2 i (by omega)]
        conv_rhs => rw [e, show N' % M ^ k + M ^ k * (N' / M ^ k) + D i = N' % M ^ k + D i + M ^ k * (N' / M ^ k) by ring,
          shift _ i _ hi]
      rw [hN] at e
      have hq : N' / M ^ k < M := by
        rw [Nat.div_lt_iff_lt_mul hMk, ← pow_succ']
        exact g1
      have g := g2 k (by omega)
      rw [e, show N + M ^ k * (N' / M ^ k) + D k = N + D k + M ^ k * (N' / M ^ k) by ring,
        Nat.add_mul_div_left _ _ hMk] at g
      have hqd : N' / M ^ k = d := by
        have h5 : q + N' / M ^ k ≡ q + d [MOD M] := g.trans hd2.symm
        have h6 := Nat.ModEq.add_left_cancel' q h5
        exact Nat.ModEq.eq_of_lt_of_lt h6 hq hd1
      rw [e, hqd]

/-- The entries used by the first `tableSize` calls are all different. -/
theorem idx_bij {c : Cfg w x} (hc : WellFormed c) (hk : c.kdd = true) {s : BitVec w} (hs : Reach c.base s) :
    ∃ f : Nat → Nat, (∀ i < c.tableSize, f i < c.tableSize) ∧
      (∀ i < c.tableSize, idx c ((bump c.base)^[f i] s) = i) ∧
      (∀ j < c.tableSize, f (idx c ((bump c.base)^[j] s)) = j) := by
  have ht := hc.table
  rw [fixedBits_eq] at ht
  have hidx : ∀ j, idx c ((bump c.base)^[j] s) = hi c.base ((bump c.base)^[j] s) % 2 ^ c.tablePow2 := by
    intro j; simp [idx, hk]
  choose f hf using fun (i : Fin c.tableSize) => hi_hit hc.base hs c.tablePow2 ht i.val i.isLt
  refine ⟨fun i => if h : i < c.tableSize then f ⟨i, h⟩ else 0, ?_, ?_, ?_⟩
  · intro i h
    simp only [h, dif_pos]
    exact (hf ⟨i, h⟩).1
  · intro i h
    simp only [h, dif_pos, hidx]
    rw [(hf ⟨i, h⟩).2]
    exact Nat.mod_eq_of_lt (hf ⟨i, h⟩).1
  · intro j hj
    have hlt := idx_lt hc ((bump c.base)^[j] s)
    simp only [hlt, dif_pos]
    have := ((hf ⟨_, hlt⟩).2 j).mp (hidx j).symm
    rw [← this]
    exact Nat.mod_eq_of_lt hj

theorem xor_eq_iff (a b y : BitVec x) : a ^^^ b = y ↔ b = a ^^^ y := by
  constructor
  · rintro rfl; rw [← BitVec.xor_assoc, BitVec.xor_self, BitVec.zero_xor]
  · rintro rfl; rw [← BitVec.xor_assoc, BitVec.xor_self, BitVec.zero_xor]

/-- **C127.** Whatever the state of the base engine, every sequence of `table_size` results comes from exactly one table: the
`k`-dimensional equidistribution that the library claims for these generators. -/
theorem C127_equidistributed {c : Cfg w x} (hc : WellFormed c) (hk : c.kdd = true) {s : BitVec w} (hs : Reach c.base s)
    (ys : List (BitVec x)) (hy : ys.length = c.tableSize) :
    ∃! data : List (BitVec x), data.length = c.tableSize ∧ results c c.tableSize ⟨s, data⟩ = .ok ys := by
  obtain ⟨f, hf1, hf2, hf3⟩ := idx_bij hc hk hs
  -- what the digits have to be
  choose p hp using fun (i : Nat) => val_surj hc (i + 1) (lhs c ((bump c.base)^[f i] s) ^^^ (ys[f i]?.getD 0#x))
  have key : ∀ N, results c c.tableSize ⟨s, tab c 0 c.tableSize N⟩ = .ok ys ↔
      ∀ i < c.tableSize, (N + moved c s (f i + 1) * ones x c.tableSize) / (2 ^ x) ^ i % 2 ^ x = p i % 2 ^ x := by
    intro N
    rw [results_tab hc c.tableSize hs, Outcome.ok.injEq, List.ext_getElem?_iff]
    constructor
    · intro h i hi'
      have h1 := h (f i)
      rw [List.getElem?_map, List.getElem?_range (hf1 i hi'), Option.map_some] at h1
      rw [hf2 i hi'] at h1
      have h2 := (xor_eq_iff _ _ _).mp (Option.some.inj (h1.trans (List.getElem?_eq_getElem (by rw [hy]; exact hf1 i hi'))))
      rw [← val_eq hc (i + 1), (hp i).2, h2, List.getElem?_eq_getElem (by rw [hy]; exact hf1 i hi')]
      rfl
    · intro h j
      by_cases hj : j < c.tableSize
      · rw [List.getElem?_map, List.getElem?_range hj, Option.map_some]
        have h1 := h _ (idx_lt hc ((bump c.base)^[j] s))
        rw [hf3 j hj, ← val_eq hc (idx c ((bump c.base)^[j] s) + 1), (hp _).2, hf3 j hj] at h1
        rw [(xor_eq_iff _ _ _).mpr h1, List.getElem?_eq_getElem (by rw [hy]; exact hj)]
        rfl
      · rw [List.getElem?_eq_none (by simp; omega), List.getElem?_eq_none (by omega)]
  obtain ⟨N, ⟨h1, h2⟩, h3⟩ := digits_unique (M := 2 ^ x) (by positivity)
    (fun i => moved c s (f i + 1) * ones x c.tableSize) p c.tableSize
  refine ⟨tab c 0 c.tableSize N, ⟨tab_length _ _ _ _, (key N).mpr h2⟩, ?_⟩
  rintro data ⟨g1, g2⟩
  obtain ⟨N', hN', rfl⟩ := tab_surj hc c.tableSize 0 data g1
  rw [h3 N' ⟨hN', (key N').mp g2⟩]

/-! ## C128 — the period -/

theorem moved_add (c : Cfg w x) (s : BitVec w) (a b : Nat) :
    moved c s (a + b) = moved c s a + moved c ((bump c.base)^[a] s) b := by
  unfold moved
  rw [Finset.sum_range_add]
  congr 1
  apply Finset.sum_congr rfl
  intro j _
  rw [← Function.iterate_add_apply, Nat.add_comm]

/-- How often the table is advanced in one period of the base engine. -/
def perPeriod (c : Cfg w x) : Nat := ∑ v ∈ Finset.range (2 ^ (w - lowBits c.base)), moves c v

theorem moved_periods {c : Cfg w x} (hc : WellFormed c) {s : BitVec w} (hs : Reach c.base s) (q : Nat) :
    moved c s (2 ^ (w - lowBits c.base) * q) = perPeriod c * q := by
  induction q with
  | zero => simp [moved]
  | succ q ih =>
    rw [Nat.mul_succ, moved_add, ih, Nat.mul_succ]
    congr 1
    exact sum_period hc.base (iter_reach hc.base hs _) (moves c)

theorem perPeriod_eq {c : Cfg w x} (hc : WellFormed c) : perPeriod c =
    (if c.mayTick = true then 2 ^ (w - lowBits c.base - c.advancePow2) else 0) +
    (if w < 64 ∧ (c.kdd = true ∨ c.base.mcg = false) then 1 else 0) := by
  have hp : 0 < 2 ^ (w - lowBits c.base) := by positivity
  unfold perPeriod moves
  rw [Finset.sum_add_distrib]
  congr 1
  · by_cases hm : c.mayTick = true
    · have ht := hc.tick hm
      rw [fixedBits_eq] at ht
      simp only [hm, true_and, if_true]
      by_cases hk : c.kdd = true
      · simp only [tickAt, hk, if_true]
        exact count_multiples _ _ (by omega)
      · simp only [tickAt, hk, if_false]
        exact count_below _ _ (Nat.pow_le_pow_right (by norm_num) (by omega))
    · simp [hm]
  · by_cases hm : w < 64 ∧ (c.kdd = true ∨ c.base.mcg = false)
    · simp only [Cfg.mayTock, hm.1, decide_true, true_and, tockAt, hm.2, and_true, if_true]
      refine Eq.trans ?_ (count_below 1 (2 ^ (w - lowBits c.base)) hp)
      apply Finset.sum_congr rfl
      intro v _
      simp only [Nat.lt_one_iff]
    · rw [if_neg hm]
      apply Finset.sum_eq_zero
      intro v _
      rw [if_neg]
      simp only [Cfg.mayTock, decide_eq_true_eq, tockAt]
      tauto

theorem ones_coprime {c : Cfg w x} (hc : WellFormed c) (e : Nat) : Nat.Coprime (2 ^ e) (ones x c.tableSize) := by
  have hx := width_ge hc.ext
  have := ones_odd x c.tableSize (by omega) (by unfold Cfg.tableSize; positivity)
  exact Nat.Coprime.pow_left _ (by rw [Nat.coprime_two_left]; exact Nat.odd_iff.mpr this)

theorem after_eq_iff {c : Cfg w x} (hc : WellFormed c) {g : Gen w x} (hg : Valid c g) (n : Nat) :
    afterCalls c n g = .ok g ↔ 2 ^ (w - lowBits c.base) ∣ n ∧
      2 ^ (x * c.tableSize) ∣ perPeriod c * (n / 2 ^ (w - lowBits c.base)) := by
  obtain ⟨N, hN, e⟩ := valid_tab hc hg
  have hs := hg.state
  rw [e, after_tab hc n hs, Outcome.ok.injEq, Gen.mk.injEq, tab_eq hc, bump_iter_eq_self hc.base hs, period_eq]
  refine and_congr_right fun hd => ?_
  obtain ⟨q, rfl⟩ := hd
  rw [moved_periods hc hs, Nat.mul_div_cancel_left _ (by positivity), pow_mul]
  have h1 : (N + perPeriod c * q * ones x c.tableSize) % (2 ^ x) ^ c.tableSize = N % (2 ^ x) ^ c.tableSize ↔
      (2 ^ x) ^ c.tableSize ∣ perPeriod c * q * ones x c.tableSize := by
    have := Nat.modEq_iff_dvd' (n := (2 ^ x) ^ c.tableSize) (Nat.le_add_right N (perPeriod c * q * ones x c.tableSize))
    rw [Nat.add_sub_cancel_left] at this
    rw [← this]
    exact eq_comm
  rw [h1]
  exact (Nat.Coprime.dvd_mul_right (by rw [← pow_mul]; exact ones_coprime hc _)).trans Iff.rfl

theorem ext_period {c : Cfg w x} (hc : WellFormed c) : c.periodPow2 = (w - lowBits c.base) + x * c.tableSize := by
  unfold Cfg.periodPow2 Pcg.periodPow2 lowBits
  rw [hc.lcg, Nat.mul_comm c.tableSize]
  cases c.base.mcg <;> simp

theorem two_pow_div_dvd (P k T n : Nat) (h : Nat.Coprime (2 ^ k) T) :
    (2 ^ P ∣ n ∧ 2 ^ k ∣ T * (n / 2 ^ P)) ↔ 2 ^ (P + k) ∣ n := by
  constructor
  · rintro ⟨⟨q, rfl⟩, h2⟩
    rw [Nat.mul_div_cancel_left _ (by positivity), h.dvd_mul_left] at h2
    rw [pow_add]
    exact Nat.mul_dvd_mul_left _ h2
  · intro h1
    have h2 : 2 ^ P ∣ n := dvd_trans (pow_dvd_pow 2 (by omega)) h1
    refine ⟨h2, ?_⟩
    obtain ⟨q, rfl⟩ := h2
    rw [Nat.mul_div_cancel_left _ (by positivity), h.dvd_mul_left]
    rw [pow_add] at h1
    exact Nat.dvd_of_mul_dvd_mul_left (by positivity) h1

theorem perPeriod_odd {c : Cfg w x} (hc : WellFormed c) (hw : w < 64) (hk : c.kdd = true ∨ c.base.mcg = false)
    (ha : c.mayTick = true → c.advancePow2 + fixedBits c.base < w) (e : Nat) : Nat.Coprime (2 ^ e) (perPeriod c) := by
  apply Nat.Coprime.pow_left
  rw [Nat.coprime_two_left, Nat.odd_iff, perPeriod_eq hc, if_pos (show w < 64 ∧ _ from ⟨hw, hk⟩)]
  split
  · rename_i hm
    have h1 := ha hm
    rw [fixedBits_eq] at h1
    have : 2 ∣ 2 ^ (w - lowBits c.base - c.advancePow2) := dvd_pow_self 2 (by omega)
    omega
  · rfl

/-- **C128.** For states narrower than 64 bits the period is the one that `period_pow2` gives: after `n` calls the generator is as
it was exactly if `n` is a multiple of it. -/
theorem C128_period_narrow {c : Cfg w x} (hc : WellFormed c) (hw : w < 64) (hk : c.kdd = true ∨ c.base.mcg = false)
    (ha : c.mayTick = true → c.advancePow2 + fixedBits c.base < w) {g : Gen w x} (hg : Valid c g) (n : Nat) :
    afterCalls c n g = .ok g ↔ 2 ^ c.periodPow2 ∣ n := by
  have hT := perPeriod_odd hc hw hk ha (x * c.tableSize)
  rw [after_eq_iff hc hg, ext_period hc]
  exact two_pow_div_dvd _ _ _ _ hT

/-- **C128.** For states of 64 bits and more, as in all generators that the library defines, the table is advanced a power of two
times in a period of the base engine, and the period is shorter than `period_pow2` gives. -/
theorem C128_period_wide {c : Cfg w x} (hc : WellFormed c) (hw : 64 ≤ w) (hm : c.mayTick = true) {g : Gen w x} (hg : Valid c g)
    (n : Nat) : afterCalls c n g = .ok g ↔
      2 ^ max (w - fixedBits c.base) (c.advancePow2 + x * c.tableSize) ∣ n := by
  have ht := hc.tick hm
  rw [fixedBits_eq] at ht ⊢
  have hT : perPeriod c = 2 ^ (w - lowBits c.base - c.advancePow2) := by
    rw [perPeriod_eq hc, if_pos hm, if_neg (by omega), Nat.add_zero]
  rw [after_eq_iff hc hg, hT]
  constructor
  · rintro ⟨⟨q, rfl⟩, h2⟩
    rw [Nat.mul_div_cancel_left _ (by positivity)] at h2
    rcases le_total (w - lowBits c.base) (c.advancePow2 + x * c.tableSize) with h | h
    · rw [max_eq_right h, pow_add]
      rw [show 2 ^ (w - lowBits c.base) * q = 2 ^ c.advancePow2 * (2 ^ (w - lowBits c.base - c.advancePow2) * q) by
        rw [← Nat.mul_assoc, ← pow_add]; congr 2; omega]
      exact Nat.mul_dvd_mul_left _ h2
    · rw [max_eq_left h]
      exact Dvd.intro _ rfl
  · intro h1
    have h2 : 2 ^ (w - lowBits c.base) ∣ n := dvd_trans (pow_dvd_pow 2 (le_max_left _ _)) h1
    have h3 : 2 ^ (c.advancePow2 + x * c.tableSize) ∣ n := dvd_trans (pow_dvd_pow 2 (le_max_right _ _)) h1
    refine ⟨h2, ?_⟩
    obtain ⟨q, rfl⟩ := h2
    rw [Nat.mul_div_cancel_left _ (by positivity)]
    rw [show 2 ^ (w - lowBits c.base) * q = 2 ^ c.advancePow2 * (2 ^ (w - lowBits c.base - c.advancePow2) * q) by
        rw [← Nat.mul_assoc, ← pow_add]; congr 2; omega, pow_add] at h3
    exact Nat.dvd_of_mul_dvd_mul_left (by positivity) h3

/-- The defect: this is less than what `period_pow2` gives, whenever the base engine has more than `2 ^ advance_pow2` states. -/
theorem C128_claim_wrong {c : Cfg w x} (hc : WellFormed c) (hw : 64 ≤ w) (hm : c.mayTick = true)
    (ha : c.advancePow2 + fixedBits c.base < w) {g : Gen w x} (hg : Valid c g) :
    ∃ n, 0 < n ∧ n < 2 ^ c.periodPow2 ∧ afterCalls c n g = .ok g := by
  refine ⟨2 ^ max (w - fixedBits c.base) (c.advancePow2 + x * c.tableSize), by positivity, ?_,
    (C128_period_wide hc hw hm hg _).mpr dvd_rfl⟩
  have hx := width_ge hc.ext
  have : 0 < x * c.tableSize := Nat.mul_pos (by omega) (by unfold Cfg.tableSize; positivity)
  rw [fixedBits_eq] at ha ⊢
  rw [ext_period hc]
  apply Nat.pow_lt_pow_right (by norm_num)
  rw [max_lt_iff]
  omega

/-- **C128.** Where the table is never advanced, which is so for `advance_pow2` of 64 and more, it stays as it is, and the period is
that of the base engine. -/
theorem C128_period_fixed {c : Cfg w x} (hc : WellFormed c) (hw : 64 ≤ w) (hm : c.mayTick = false) {g : Gen w x}
    (hg : Valid c g) (n : Nat) : (∃ g', afterCalls c n g = .ok g' ∧ g'.data = g.data) ∧
      (afterCalls c n g = .ok g ↔ 2 ^ (w - fixedBits c.base) ∣ n) := by
  have hT : perPeriod c = 0 := by
    rw [perPeriod_eq hc, if_neg (by simp [hm]), if_neg (by omega)]
  constructor
  · obtain ⟨N, hN, e⟩ := valid_tab hc hg
    rw [e, after_tab hc n hg.state]
    refine ⟨_, rfl, ?_⟩
    have : moved c g.s n = 0 := by
      apply Finset.sum_eq_zero
      intro j _
      simp [moves, hm, Cfg.mayTock]
      omega
    rw [this]
    simp
  · rw [after_eq_iff hc hg, hT, fixedBits_eq]
    simp

/-- **C128.** With a state of 64 bits and more, the first entries of the table return to their values with every period of the base
engine: as many of them as fit into the `w - advance_pow2` bits by which the table has moved on. -/
theorem C128_stuck {c : Cfg w x} (hc : WellFormed c) (hw : 64 ≤ w) (hm : c.mayTick = true) {g g' : Gen w x} (hg : Valid c g)
    (q i : Nat) (hi : (i + 1) * x + c.advancePow2 + fixedBits c.base ≤ w) (hil : i < c.tableSize)
    (h : afterCalls c (2 ^ (w - fixedBits c.base) * q) g = .ok g') : g'.data[i]? = g.data[i]? := by
  rw [fixedBits_eq] at hi h
  obtain ⟨N, hN, e⟩ := valid_tab hc hg
  rw [e, after_tab hc _ hg.state, moved_periods hc hg.state] at h
  injection h with h
  have hT : perPeriod c = 2 ^ (w - lowBits c.base - c.advancePow2) := by
    rw [perPeriod_eq hc, if_pos hm, if_neg (by omega), Nat.add_zero]
  rw [← h, e]
  simp only
  rw [tab_get _ _ _ _ hil, tab_get _ _ _ _ hil, Option.some.injEq, val_eq hc, hT]
  have e2 : w - lowBits c.base - c.advancePow2 = x * i + x + (w - lowBits c.base - c.advancePow2 - (x * i + x)) := by
    have : (i + 1) * x = x * i + x := by ring
    omega
  rw [e2, pow_add, pow_add, pow_mul]
  rw [show N + (2 ^ x) ^ i * 2 ^ x * 2 ^ (w - lowBits c.base - c.advancePow2 - (x * i + x)) * q * ones x c.tableSize =
    N + (2 ^ x) ^ i * (2 ^ x * (2 ^ (w - lowBits c.base - c.advancePow2 - (x * i + x)) * q * ones x c.tableSize)) by ring]
  rw [Nat.add_mul_div_left _ _ (by positivity), Nat.add_mul_mod_self_left]

theorem afterCalls_add (c : Cfg w x) (a b : Nat) : ∀ g, afterCalls c (a + b) g = afterCalls c a g >>= afterCalls c b := by
  induction a with
  | zero => intro g; rw [Nat.zero_add]; rfl
  | succ a ih =>
    intro g
    rw [Nat.succ_add, afterCalls, afterCalls]
    cases h : call c g with
    | ok r => simp only [Outcome.bind_ok]; exact ih r.2
    | _ => rfl

/-- **C128.** For states narrower than 64 bits every state of the engine together with every table is reached, exactly once per
period. -/
theorem C128_visits {c : Cfg w x} (hc : WellFormed c) (hw : w < 64) (hk : c.kdd = true ∨ c.base.mcg = false)
    (ha : c.mayTick = true → c.advancePow2 + fixedBits c.base < w) {g g' : Gen w x} (hg : Valid c g) (hg' : Valid c g') :
    ∃! n, n < 2 ^ c.periodPow2 ∧ afterCalls c n g = .ok g' := by
  have hs := hg.state
  obtain ⟨N, hN, e⟩ := valid_tab hc hg
  obtain ⟨N', hN', e'⟩ := valid_tab hc hg'
  obtain ⟨j, ⟨hj, hj'⟩, -⟩ := C95_all_states hc.base hs hg'.state
  rw [← bump_iter_toNat, BitVec.toNat_inj] at hj'
  rw [period_eq] at hj
  set Q := (2 ^ x) ^ c.tableSize with hQ
  have hQpos : 0 < Q := by positivity
  have hcop : Nat.Coprime Q (perPeriod c * ones x c.tableSize) := by
    rw [hQ, ← pow_mul]
    exact Nat.Coprime.mul_right (perPeriod_odd hc hw hk ha _) (ones_coprime hc _)
  have hinj : Set.InjOn (fun q => (N + moved c g.s j * ones x c.tableSize + perPeriod c * ones x c.tableSize * q) % Q)
      (Finset.range Q) := by
    intro a ha' b hb' h
    simp only [Finset.coe_range, Set.mem_Iio] at ha' hb'
    have h1 := Nat.ModEq.add_left_cancel' _ (show N + moved c g.s j * ones x c.tableSize +
      perPeriod c * ones x c.tableSize * a ≡ _ [MOD Q] from h)
    have h2 := Nat.ModEq.cancel_left_of_coprime hcop h1
    exact Nat.ModEq.eq_of_lt_of_lt h2 ha' hb'
  have himg : (Finset.range Q).image (fun q => (N + moved c g.s j * ones x c.tableSize +
      perPeriod c * ones x c.tableSize * q) % Q) = Finset.range Q := by
    apply Finset.eq_of_subset_of_card_le
    · intro v hv
      obtain ⟨j, -, rfl⟩ := Finset.mem_image.mp hv
      exact Finset.mem_range.mpr (Nat.mod_lt _ hQpos)
    · rw [Finset.card_image_of_injOn hinj]
  have hmem : N' ∈ (Finset.range Q).image (fun q => (N + moved c g.s j * ones x c.tableSize +
      perPeriod c * ones x c.tableSize * q) % Q) := by
    rw [himg]; exact Finset.mem_range.mpr hN'
  obtain ⟨q, hq, hq'⟩ := Finset.mem_image.mp hmem
  have hq := Finset.mem_range.mp hq
  refine existsUnique_of_exists_of_unique ⟨j + 2 ^ (w - lowBits c.base) * q, ?_, ?_⟩ ?_
  · rw [ext_period hc, pow_add, pow_mul, ← hQ]
    have : 2 ^ (w - lowBits c.base) * (q + 1) ≤ 2 ^ (w - lowBits c.base) * Q := Nat.mul_le_mul_left _ hq
    rw [Nat.mul_add] at this
    omega
  · rw [e, after_tab hc _ hs, e', Outcome.ok.injEq, Gen.mk.injEq, tab_eq hc]
    constructor
    · rw [Nat.add_comm, Function.iterate_add_apply, hj']
      exact (bump_iter_eq_self hc.base hg'.state _).mpr ⟨q, by rw [period_eq]⟩
    · rw [moved_add, moved_periods hc (iter_reach hc.base hs _), ← hQ, Nat.mod_eq_of_lt hN', ← hq']
      congr 1
      ring
  · have aux : ∀ a b, a ≤ b → b < 2 ^ c.periodPow2 → afterCalls c a g = .ok g' → afterCalls c b g = .ok g' → a = b := by
      intro a b hab hb h1 h2
      obtain ⟨d, rfl⟩ : ∃ d, b = a + d := ⟨b - a, by omega⟩
      rw [afterCalls_add, h1] at h2
      have h3 := (C128_period_narrow hc hw hk ha hg' d).mp h2
      have := Nat.eq_zero_of_dvd_of_lt h3 (by omega)
      omega
    rintro a b ⟨ha1, ha2⟩ ⟨hb1, hb2⟩
    rcases le_total a b with h | h
    · exact aux a b h hb1 ha2 hb2
    · exact (aux b a h ha1 hb2 ha2).symm

/-- **C127.** For states narrower than 64 bits, in one period every sequence of `table_size` results appears, and all of them
appear equally often. -/
theorem C127_frequency {c : Cfg w x} (hc : WellFormed c) (hw : w < 64) (hk : c.kdd = true)
    (ha : c.mayTick = true → c.advancePow2 + fixedBits c.base < w) {g : Gen w x} (hg : Valid c g)
    (ys : List (BitVec x)) (hy : ys.length = c.tableSize) :
    {n | n < 2 ^ c.periodPow2 ∧ ∃ g', afterCalls c n g = .ok g' ∧ results c c.tableSize g' = .ok ys}.ncard =
      2 ^ (w - fixedBits c.base) := by
  have hw3 := width_ge hc.base
  choose D hD1 hD2 using fun (s : {s : BitVec w // Reach c.base s}) => C127_equidistributed hc hk s.2 ys hy
  choose n hn1 hn2 using fun (s : {s : BitVec w // Reach c.base s}) =>
    C128_visits hc hw (Or.inl hk) ha hg (g' := ⟨s.1, D s⟩) ⟨s.2, (hD1 s).1⟩
  have hset : {n | n < 2 ^ c.periodPow2 ∧ ∃ g', afterCalls c n g = .ok g' ∧ results c c.tableSize g' = .ok ys} =
      Set.range n := by
    ext m
    constructor
    · rintro ⟨h1, g', h2, h3⟩
      have hv : Valid c g' := by
        obtain ⟨N, -, e⟩ := valid_tab hc hg
        rw [e, after_tab hc _ hg.state] at h2
        injection h2 with h2
        rw [← h2]
        exact ⟨iter_reach hc.base hg.state _, tab_length _ _ _ _⟩
      refine ⟨⟨g'.s, hv.state⟩, ?_⟩
      have := hD2 ⟨g'.s, hv.state⟩ g'.data ⟨hv.size, h3⟩
      exact (hn2 ⟨g'.s, hv.state⟩ m ⟨h1, by rw [h2, ← this]⟩).symm
    · rintro ⟨s, rfl⟩
      exact ⟨(hn1 s).1, _, (hn1 s).2, (hD1 s).2⟩
  rw [hset]
  have hinj : Function.Injective n := by
    intro s t h
    have h1 := (hn1 s).2
    have h2 := (hn1 t).2
    rw [h] at h1
    rw [h1] at h2
    injection h2 with h2
    injection h2 with h2
    exact Subtype.ext h2
  rw [← Set.image_univ, Set.ncard_image_of_injective _ hinj, Set.ncard_univ, fixedBits_eq, ← period_eq,
    ← card_reach c.base (by omega)]
  rfl

end Verif.PcgExt
