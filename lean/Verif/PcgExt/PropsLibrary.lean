import Verif.PcgExt.Theorems
import Verif.PcgExt.Typedefs
import Mathlib.Combinatorics.Pigeonhole
import Mathlib.Data.Fintype.BigOperators

/-!
# The extended generators of the library

The parameters of the types that the library defines are proper, so that the theorems about extended generators apply to them; their
periods; the claims of the comments.
-/

namespace Verif.PcgExt

open Verif Verif.Pcg Verif.Pcg.Spec Spec

variable {w x : Nat}

theorem std32_wf {base : Par w} (hb : Good base) (prev : Bool) (out : BitVec w → BitVec 32) (table adv : Nat) (kdd : Bool)
    (h1 : table + fixedBits base ≤ w) (h2 : adv < w → adv < 64 → adv + fixedBits base ≤ w) (h3 : 0 < table) (h4 : 0 < adv) :
    WellFormed (extStd32 base prev out table adv kdd) := by
  refine ⟨hb, C95_engines.1.2.2.1, rfl, C100_unoutput.2.2.1, (by decide : rxsMXs 32 mcg32 0#32 = 0#32), h1, ?_, fun _ => ⟨h3, h4⟩⟩
  intro h
  simp only [Cfg.mayTick, extStd32, Bool.and_eq_true, decide_eq_true_eq] at h
  exact h2 (of_decide_eq_true h.1) (of_decide_eq_true h.2)

theorem std64_wf {base : Par w} (hb : Good base) (prev : Bool) (out : BitVec w → BitVec 64) (table adv : Nat) (kdd : Bool)
    (h1 : table + fixedBits base ≤ w) (h2 : adv < w → adv < 64 → adv + fixedBits base ≤ w) (h3 : 0 < table) (h4 : 0 < adv) :
    WellFormed (extStd64 base prev out table adv kdd) := by
  refine ⟨hb, C95_engines.1.2.2.2.1, rfl, C100_unoutput.2.2.2.1, (by decide : rxsMXs 64 mcg64 0#64 = 0#64), h1, ?_, fun _ => ⟨h3, h4⟩⟩
  intro h
  simp only [Cfg.mayTick, extStd64, Bool.and_eq_true, decide_eq_true_eq] at h
  exact h2 (of_decide_eq_true h.1) (of_decide_eq_true h.2)

/-- **C127.** The families of generators from which the library takes its types have proper parameters. -/
theorem C127_families (kdd : Bool) (table adv : Nat) (ht : 0 < table) (ha : 0 < adv) :
    (table ≤ 32 → WellFormed (extOneseq32 table adv kdd)) ∧
    (table ≤ 62 → adv ≤ 62 → WellFormed (extMcg64 table adv kdd)) ∧
    (table ≤ 64 → WellFormed (extOneseq64 table adv kdd)) ∧
    (table ≤ 64 → ∀ seq, WellFormed (extSetseq64 seq table adv kdd)) ∧
    (table ≤ 126 → WellFormed (extMcg128 table adv kdd)) ∧
    (table ≤ 128 → WellFormed (extOneseq128 table adv kdd)) ∧
    (table ≤ 128 → ∀ seq, WellFormed (extSetseq128 seq table adv kdd)) := by
  obtain ⟨⟨-, -, g32, g64, g128⟩, -, -, -, s64, s128, -, -, -, -, -, -, -, -, m64, m128⟩ := C95_engines
  refine ⟨fun h => std32_wf g32 _ _ _ _ _ ?_ ?_ ht ha, fun h h' => std32_wf m64 _ _ _ _ _ ?_ ?_ ht ha,
    fun h => std32_wf g64 _ _ _ _ _ ?_ ?_ ht ha, fun h seq => std32_wf (s64 seq) _ _ _ _ _ ?_ ?_ ht ha,
    fun h => std64_wf m128 _ _ _ _ _ ?_ ?_ ht ha, fun h => std64_wf g128 _ _ _ _ _ ?_ ?_ ht ha,
    fun h seq => std64_wf (s128 seq) _ _ _ _ _ ?_ ?_ ht ha⟩ <;> simp [fixedBits] <;> omega

/-- **C127.** All the types that the library defines have proper parameters. -/
theorem C127_library (seq : BitVec 64) (seq' : BitVec 128) :
    WellFormed (pcg32_k2 seq) ∧ WellFormed pcg32_k2_fast ∧
    WellFormed (pcg32_k64 seq) ∧ WellFormed pcg32_k64_oneseq ∧ WellFormed pcg32_k64_fast ∧
    WellFormed (pcg32_c64 seq) ∧ WellFormed pcg32_c64_oneseq ∧ WellFormed pcg32_c64_fast ∧
    WellFormed (pcg64_k32 seq') ∧ WellFormed pcg64_k32_oneseq ∧ WellFormed pcg64_k32_fast ∧
    WellFormed (pcg64_c32 seq') ∧ WellFormed pcg64_c32_oneseq ∧ WellFormed pcg64_c32_fast ∧
    WellFormed (pcg32_k1024 seq) ∧ WellFormed pcg32_k1024_fast ∧ WellFormed (pcg32_c1024 seq) ∧ WellFormed pcg32_c1024_fast ∧
    WellFormed (pcg64_k1024 seq') ∧ WellFormed pcg64_k1024_fast ∧ WellFormed (pcg64_c1024 seq') ∧ WellFormed pcg64_c1024_fast ∧
    WellFormed (pcg32_k16384 seq) ∧ WellFormed pcg32_k16384_fast := by
  have F := fun kdd table adv ht ha => C127_families kdd table adv ht ha
  refine ⟨(F true 6 16 (by omega) (by omega)).2.2.2.1 (by omega) seq, (F true 6 32 (by omega) (by omega)).2.2.1 (by omega),
    (F true 6 16 (by omega) (by omega)).2.2.2.1 (by omega) seq, (F true 6 32 (by omega) (by omega)).2.1 (by omega) (by omega),
    (F true 6 32 (by omega) (by omega)).2.2.1 (by omega),
    (F false 6 16 (by omega) (by omega)).2.2.2.1 (by omega) seq, (F false 6 32 (by omega) (by omega)).2.2.1 (by omega),
    (F false 6 32 (by omega) (by omega)).2.1 (by omega) (by omega),
    (F true 5 16 (by omega) (by omega)).2.2.2.2.2.2 (by omega) seq', (F true 5 128 (by omega) (by omega)).2.2.2.2.2.1 (by omega),
    (F true 5 128 (by omega) (by omega)).2.2.2.2.1 (by omega),
    (F false 5 16 (by omega) (by omega)).2.2.2.2.2.2 (by omega) seq', (F false 5 128 (by omega) (by omega)).2.2.2.2.2.1 (by omega),
    (F false 5 128 (by omega) (by omega)).2.2.2.2.1 (by omega),
    (F true 10 16 (by omega) (by omega)).2.2.2.1 (by omega) seq, (F true 10 32 (by omega) (by omega)).2.2.1 (by omega),
    (F false 10 16 (by omega) (by omega)).2.2.2.1 (by omega) seq, (F false 10 32 (by omega) (by omega)).2.2.1 (by omega),
    (F true 10 16 (by omega) (by omega)).2.2.2.2.2.2 (by omega) seq', (F true 10 128 (by omega) (by omega)).2.2.2.2.2.1 (by omega),
    (F false 10 16 (by omega) (by omega)).2.2.2.2.2.2 (by omega) seq', (F false 10 128 (by omega) (by omega)).2.2.2.2.2.1 (by omega),
    (F true 14 16 (by omega) (by omega)).2.2.2.1 (by omega) seq, (F true 14 32 (by omega) (by omega)).2.2.1 (by omega)⟩

theorem hasPeriod_wide {c : Cfg w x} (hc : WellFormed c) (hw : 64 ≤ w) (hm : c.mayTick = true) {p : Nat}
    (hp : p = max (w - fixedBits c.base) (c.advancePow2 + x * c.tableSize)) : HasPeriod c p := by
  intro g hg n
  rw [hp]
  exact C128_period_wide hc hw hm hg n

theorem hasPeriod_fixed {c : Cfg w x} (hc : WellFormed c) (hw : 64 ≤ w) (hm : c.mayTick = false) {p : Nat}
    (hp : p = w - fixedBits c.base) : HasPeriod c p := by
  intro g hg n
  rw [hp]
  exact (C128_period_fixed hc hw hm hg n).2

/-- **C128.** The periods of the types that the library defines. -/
theorem C128_library (seq : BitVec 64) (seq' : BitVec 128) :
    HasPeriod (pcg32_k64 seq) 2064 ∧ HasPeriod pcg32_k64_oneseq 2080 ∧ HasPeriod pcg32_k64_fast 2080 ∧
    HasPeriod (pcg32_c64 seq) 2064 ∧ HasPeriod pcg32_c64_oneseq 2080 ∧ HasPeriod pcg32_c64_fast 2080 ∧
    HasPeriod (pcg64_k32 seq') 2064 ∧ HasPeriod pcg64_k32_oneseq 128 ∧ HasPeriod pcg64_k32_fast 126 ∧
    HasPeriod (pcg64_c32 seq') 2064 ∧ HasPeriod pcg64_c32_oneseq 128 ∧ HasPeriod pcg64_c32_fast 126 ∧
    HasPeriod (pcg32_k1024 seq) 32784 ∧ HasPeriod pcg32_k1024_fast 32800 ∧
    HasPeriod (pcg32_c1024 seq) 32784 ∧ HasPeriod pcg32_c1024_fast 32800 ∧
    HasPeriod (pcg64_k1024 seq') 65552 ∧ HasPeriod pcg64_k1024_fast 128 ∧
    HasPeriod (pcg64_c1024 seq') 65552 ∧ HasPeriod pcg64_c1024_fast 128 ∧
    HasPeriod (pcg32_k16384 seq) 524304 ∧ HasPeriod pcg32_k16384_fast 524320 := by
  obtain ⟨-, -, a1, a2, a3, b1, b2, b3, c1, c2, c3, d1, d2, d3, e1, e2, e3, e4, f1, f2, f3, f4, h1, h2⟩ := C127_library seq seq'
  have k6 : (2 : Nat) ^ 6 = 64 := by norm_num
  have k5 : (2 : Nat) ^ 5 = 32 := by norm_num
  have k10 : (2 : Nat) ^ 10 = 1024 := by norm_num
  have k14 : (2 : Nat) ^ 14 = 16384 := by norm_num
  refine ⟨hasPeriod_wide a1 ?_ ?_ ?_, hasPeriod_wide a2 ?_ ?_ ?_, hasPeriod_wide a3 ?_ ?_ ?_,
    hasPeriod_wide b1 ?_ ?_ ?_, hasPeriod_wide b2 ?_ ?_ ?_, hasPeriod_wide b3 ?_ ?_ ?_,
    hasPeriod_wide c1 ?_ ?_ ?_, hasPeriod_fixed c2 ?_ ?_ ?_, hasPeriod_fixed c3 ?_ ?_ ?_,
    hasPeriod_wide d1 ?_ ?_ ?_, hasPeriod_fixed d2 ?_ ?_ ?_, hasPeriod_fixed d3 ?_ ?_ ?_,
    hasPeriod_wide e1 ?_ ?_ ?_, hasPeriod_wide e2 ?_ ?_ ?_, hasPeriod_wide e3 ?_ ?_ ?_, hasPeriod_wide e4 ?_ ?_ ?_,
    hasPeriod_wide f1 ?_ ?_ ?_, hasPeriod_fixed f2 ?_ ?_ ?_, hasPeriod_wide f3 ?_ ?_ ?_, hasPeriod_fixed f4 ?_ ?_ ?_,
    hasPeriod_wide h1 ?_ ?_ ?_, hasPeriod_wide h2 ?_ ?_ ?_⟩
  all_goals first
    | omega
    | simp only [Cfg.tableSize, pcg32_k64, pcg32_k64_oneseq, pcg32_k64_fast, pcg32_c64, pcg32_c64_oneseq, pcg32_c64_fast, pcg64_k32,
        pcg64_c32, pcg32_k1024, pcg32_k1024_fast, pcg32_c1024, pcg32_c1024_fast, pcg64_k1024, pcg64_c1024, pcg32_k16384,
        pcg32_k16384_fast, extSetseq64, extMcg64, extOneseq64, extSetseq128, extStd32, extStd64, fixedBits, Bool.false_eq_true,
        if_false, if_true, k5, k6, k10, k14]
      norm_num
      done
    | rfl

/-- What `period_pow2` says about some of them. For `pcg32_k16384` it is the number of the comment. -/
theorem C128_documented (seq : BitVec 64) (seq' : BitVec 128) :
    (pcg32_k16384 seq).periodPow2 = 524352 ∧ pcg32_k16384_fast.periodPow2 = 524352 ∧
    (pcg32_k64 seq).periodPow2 = 2112 ∧ pcg32_k64_oneseq.periodPow2 = 2110 ∧ (pcg64_k32 seq').periodPow2 = 2176 ∧
    pcg64_k32_oneseq.periodPow2 = 2176 ∧ pcg64_k32_fast.periodPow2 = 2174 ∧ pcg64_k1024_fast.periodPow2 = 65664 := by
  have k6 : (2 : Nat) ^ 6 = 64 := by norm_num
  have k5 : (2 : Nat) ^ 5 = 32 := by norm_num
  have k10 : (2 : Nat) ^ 10 = 1024 := by norm_num
  have k14 : (2 : Nat) ^ 14 = 16384 := by norm_num
  simp only [Cfg.periodPow2, Pcg.periodPow2, Cfg.tableSize, pcg32_k64, pcg32_k64_oneseq, pcg64_k32, pcg64_k32_oneseq, pcg64_k32_fast,
    pcg64_k1024_fast, pcg32_k16384, pcg32_k16384_fast, extSetseq64, extMcg64, extOneseq64, extSetseq128, extOneseq128, extMcg128,
    extStd32, extStd64, Bool.false_eq_true, if_false, if_true, k5, k6, k10, k14]
  norm_num

/-- The defect, as to equidistribution over the period: for states of 64 bits and more, some sequence of `table_size` results appears
at most `2 ^ advance_pow2` times in a period. -/
theorem C127_claim_wrong {c : Cfg w x} (hc : WellFormed c) (hw : 64 ≤ w) (hm : c.mayTick = true)
    (hp : w - fixedBits c.base ≤ c.advancePow2 + x * c.tableSize) {g : Gen w x} (hg : Valid c g) :
    HasPeriod c (c.advancePow2 + x * c.tableSize) ∧
    ∃ ys : List (BitVec x), ys.length = c.tableSize ∧
      {n | n < 2 ^ (c.advancePow2 + x * c.tableSize) ∧
        ∃ g', afterCalls c n g = .ok g' ∧ results c c.tableSize g' = .ok ys}.ncard ≤ 2 ^ c.advancePow2 := by
  refine ⟨hasPeriod_wide hc hw hm (max_eq_right hp).symm, ?_⟩
  obtain ⟨N, -, e⟩ := valid_tab hc hg
  have hpos : ∀ n, ∃ ys : List.Vector (BitVec x) c.tableSize, ∃ g', afterCalls c n g = .ok g' ∧
      results c c.tableSize g' = .ok ys.1 := by
    intro n
    rw [e, after_tab hc n hg.state]
    exact ⟨⟨_, by simp⟩, _, rfl, results_tab hc _ (iter_reach hc.base hg.state _) _⟩
  choose R hR using hpos
  have hcard : (Finset.univ : Finset (List.Vector (BitVec x) c.tableSize)).card = 2 ^ (x * c.tableSize) := by
    rw [Finset.card_univ, card_vector, ← Nat.card_eq_fintype_card, Nat.card_congr BitVec.equivFin.toEquiv, Nat.card_fin, pow_mul]
  obtain ⟨ys, -, hys⟩ := Finset.exists_card_fiber_le_of_card_le_mul (s := Finset.range (2 ^ (c.advancePow2 + x * c.tableSize)))
    (t := Finset.univ) (f := R) (n := 2 ^ c.advancePow2) ⟨R 0, Finset.mem_univ _⟩
    (by rw [Finset.card_range, hcard, pow_add, Nat.mul_comm])
  refine ⟨ys.1, ys.2, le_trans (le_of_eq ?_) hys⟩
  rw [← Set.ncard_coe_finset]
  congr 1
  ext n
  simp only [Set.mem_setOf_eq, Finset.coe_filter, Finset.mem_range]
  refine and_congr_right fun _ => ?_
  obtain ⟨g', h1, h2⟩ := hR n
  constructor
  · rintro ⟨g'', h3, h4⟩
    rw [h1] at h3
    injection h3 with h3
    rw [← h3, h2] at h4
    injection h4 with h4
    exact Subtype.ext h4
  · rintro rfl
    exact ⟨g', h1, h2⟩

/-- The defect, for the generator of the comment "over the full period of the generator, it will produce every 64 KB ZIP file 2^64
times": some sequence of 16384 results, which is 64 KB, appears at most `2 ^ 16` times in the full period. -/
theorem C127_zip_files (seq : BitVec 64) {g : Gen 64 32} (hg : Valid (pcg32_k16384 seq) g) :
    HasPeriod (pcg32_k16384 seq) 524304 ∧
    ∃ ys : List (BitVec 32), ys.length = 16384 ∧
      {n | n < 2 ^ 524304 ∧ ∃ g', afterCalls (pcg32_k16384 seq) n g = .ok g' ∧
        results (pcg32_k16384 seq) 16384 g' = .ok ys}.ncard ≤ 2 ^ 16 := by
  have hc : WellFormed (pcg32_k16384 seq) := (C127_families true 14 16 (by omega) (by omega)).2.2.2.1 (by omega) seq
  have hk : (pcg32_k16384 seq).tableSize = 16384 := by
    show 2 ^ 14 = 16384
    norm_num
  have ha : (pcg32_k16384 seq).advancePow2 = 16 := rfl
  have := C127_claim_wrong hc (by norm_num) rfl (by rw [hk, ha]; omega) hg
  rw [hk, ha] at this
  exact this

end Verif.PcgExt
