import Verif.PcgExt.Inherit
import Verif.PcgExt.PropsExamples

/-!
# The inherited functions of extended generators
-/

namespace Verif.PcgExt

open Verif Verif.Pcg Verif.Pcg.Spec Spec

variable {w x : Nat}

theorem moves_quiet {c : Cfg w x} (hk : c.kdd = true) {s : BitVec w} : moves c (hi c.base s) = 0 ↔ Quiet c s := by
  refine ⟨fun h => ?_, quiet_moves hk⟩
  unfold moves at h
  refine ⟨fun h1 h2 => ?_, fun h1 h2 => ?_⟩
  · rw [if_pos ⟨h1, by simp only [tickAt, hk, if_true]; exact h2⟩] at h
    omega
  · have h3 : c.mayTock = true ∧ tockAt c (hi c.base s) :=
      ⟨by simp only [Cfg.mayTock, decide_eq_true_eq]; exact h1, h2, Or.inl hk⟩
    rw [if_pos h3] at h
    omega

theorem moved_le {c : Cfg w x} (s : BitVec w) (n : Nat) : moved c s n ≤ n * (if w < 64 then 2 else 1) := by
  unfold moved
  refine le_trans (Finset.sum_le_card_nsmul _ _ (if w < 64 then 2 else 1) ?_) (by simp)
  intro j _
  unfold moves
  simp only [Cfg.mayTock, decide_eq_true_eq]
  by_cases hw : w < 64
  · simp only [hw, if_true]
    split <;> split <;> omega
  · simp only [hw, if_false, false_and]
    split <;> omega

theorem discard_moved {c : Cfg w x} (hc : WellFormed c) (hw : w ≤ x * c.tableSize)
    (hn : w < 64 → w < x * c.tableSize) (d : BitVec w) {g : Gen w x} (hg : Valid c g) :
    afterCalls c d.toNat g = .ok (discard c d g) ↔ moved c g.s d.toNat = 0 := by
  have hs := hg.state
  obtain ⟨N, -, e⟩ := valid_tab hc hg
  have ed : g.data = tab c 0 c.tableSize N := by rw [e]
  rw [discard, ed, advance_iter]
  conv_lhs => rw [e, after_tab hc _ hs]
  rw [Outcome.ok.injEq, Gen.mk.injEq, tab_shift hc, ← Nat.dvd_iff_mod_eq_zero, ← pow_mul]
  have hlt : moved c g.s d.toNat < 2 ^ (x * c.tableSize) := by
    have h1 := moved_le (c := c) g.s d.toNat
    have h2 := d.isLt
    by_cases h64 : w < 64
    · rw [if_pos h64] at h1
      have h3 : 2 ^ (w + 1) ≤ 2 ^ (x * c.tableSize) := Nat.pow_le_pow_right (by norm_num) (hn h64)
      rw [pow_succ] at h3
      omega
    · rw [if_neg h64] at h1
      have h3 : 2 ^ w ≤ 2 ^ (x * c.tableSize) := Nat.pow_le_pow_right (by norm_num) hw
      omega
  constructor
  · rintro ⟨-, h⟩
    have := (Nat.Coprime.dvd_mul_right (ones_coprime hc _)).mp h
    exact Nat.eq_zero_of_dvd_of_lt this hlt
  · intro h
    rw [h, Nat.zero_mul]
    exact ⟨rfl, dvd_zero _⟩

/-- **C161.** `discard(d)` does what `d` calls do exactly if none of these calls changes the table. -/
theorem C161_discard_iff {c : Cfg w x} (hc : WellFormed c) (hw : w ≤ x * c.tableSize)
    (hn : w < 64 → w < x * c.tableSize) (d : BitVec w) {g : Gen w x} (hg : Valid c g) :
    afterCalls c d.toNat g = .ok (discard c d g) ↔
      ∀ j < d.toNat, ∀ g' y g'', afterCalls c j g = .ok g' → call c g' = .ok (y, g'') → g''.data = g'.data := by
  have hs := hg.state
  obtain ⟨N, -, e⟩ := valid_tab hc hg
  rw [discard_moved hc hw hn d hg]
  unfold moved
  rw [Finset.sum_eq_zero_iff]
  refine forall_congr' fun j => ?_
  rw [Finset.mem_range]
  refine imp_congr_right fun _ => ?_
  have hs' : Reach c.base ((bump c.base)^[j] g.s) := iter_reach hc.base hs _
  have hmv : moves c (hi c.base ((bump c.base)^[j] g.s)) ≤ 2 := by
    unfold moves
    split <;> split <;> omega
  have hk : ∀ M, tab c 0 c.tableSize (M + moves c (hi c.base ((bump c.base)^[j] g.s)) * ones x c.tableSize) = tab c 0 c.tableSize M ↔
      moves c (hi c.base ((bump c.base)^[j] g.s)) = 0 := by
    intro M
    rw [tab_shift hc, ← Nat.dvd_iff_mod_eq_zero, ← pow_mul, Nat.Coprime.dvd_mul_right (ones_coprime hc _)]
    constructor
    · intro h
      refine Nat.eq_zero_of_dvd_of_lt h (lt_of_le_of_lt hmv ?_)
      have h3 := width_ge hc.base
      calc 2 < 2 ^ 3 := by norm_num
        _ ≤ 2 ^ (x * c.tableSize) := Nat.pow_le_pow_right (by norm_num) (by omega)
    · intro h
      rw [h]
      exact dvd_zero _
  rw [e, after_tab hc j hs]
  constructor
  · intro h g' y g'' h1 h2
    injection h1 with h1
    subst h1
    rw [call_tab hc hs'] at h2
    injection h2 with h2
    injection h2 with _ h2
    subst h2
    exact (hk _).mpr h
  · intro h
    exact (hk _).mp (h _ _ _ rfl (call_tab hc hs' _))

/-- **C161.** For the generators that look at the low bits of the state: `discard(d)` does what `d` calls do exactly if none of the
states passed is one in which the table is advanced. -/
theorem C161_discard_quiet {c : Cfg w x} (hc : WellFormed c) (hk : c.kdd = true) (hw : w ≤ x * c.tableSize)
    (hn : w < 64 → w < x * c.tableSize) (d : BitVec w) {g : Gen w x} (hg : Valid c g) :
    afterCalls c d.toNat g = .ok (discard c d g) ↔ ∀ j < d.toNat, ∀ g', afterCalls c j g = .ok g' → Quiet c g'.s := by
  have hs := hg.state
  obtain ⟨N, -, e⟩ := valid_tab hc hg
  rw [discard_moved hc hw hn d hg]
  unfold moved
  rw [Finset.sum_eq_zero_iff]
  refine forall_congr' fun j => ?_
  rw [Finset.mem_range]
  refine imp_congr_right fun _ => ?_
  rw [moves_quiet hk, e, after_tab hc j hs]
  constructor
  · intro h g' h1
    injection h1 with h1
    rw [← h1]
    exact h
  · intro h
    exact h _ rfl

/-- **C161 fails.** Where the table is advanced every `2 ^ advance_pow2` calls, `discard` by that many or more is never what as many
calls are. -/
theorem C161_discard_wrong {c : Cfg w x} (hc : WellFormed c) (hk : c.kdd = true) (hw : w ≤ x * c.tableSize)
    (hn : w < 64 → w < x * c.tableSize) (hm : c.mayTick = true) (d : BitVec w) (hd : 2 ^ c.advancePow2 ≤ d.toNat) {g : Gen w x}
    (hg : Valid c g) : ∃ g', afterCalls c d.toNat g = .ok g' ∧ g'.s = (discard c d g).s ∧ g'.data ≠ (discard c d g).data := by
  have hs := hg.state
  obtain ⟨N, -, e⟩ := valid_tab hc hg
  obtain ⟨r, hr, h⟩ := hi_hit hc.base hs c.advancePow2 (hc.tick hm) 0 (by positivity)
  have hne : ¬ afterCalls c d.toNat g = .ok (discard c d g) := by
    rw [C161_discard_quiet hc hk hw hn d hg]
    intro hq
    have := hq r (by omega) _ (by rw [e]; exact after_tab hc r hs N)
    exact this.1 hm ((h r).mpr (Nat.mod_eq_of_lt hr))
  have ha := after_tab hc d.toNat hs N
  rw [← e] at ha
  refine ⟨_, ha, ?_, fun h => hne ?_⟩
  · rw [discard, advance_iter]
  · rw [ha]
    congr 1
    have h1 : (discard c d g).s = (bump c.base)^[d.toNat] g.s := by rw [discard, advance_iter]
    generalize discard c d g = k at h h1
    obtain ⟨s', data'⟩ := k
    simp only at h h1
    rw [h1, ← h]

/-- **C161.** Generators whose table is never advanced, as `pcg64_k32_oneseq` and the other 128-bit generators without selectable stream:
`discard` is right. -/
theorem C161_discard_fixed {c : Cfg w x} (hc : WellFormed c) (hw : 64 ≤ w) (hm : c.mayTick = false) (d : BitVec w)
    {g : Gen w x} (hg : Valid c g) : afterCalls c d.toNat g = .ok (discard c d g) := by
  have hs := hg.state
  obtain ⟨N, -, e⟩ := valid_tab hc hg
  have ed : g.data = tab c 0 c.tableSize N := by rw [e]
  have h0 : moved c g.s d.toNat = 0 := by
    apply Finset.sum_eq_zero
    intro j _
    have h1 : ¬ c.mayTock = true := by simp only [Cfg.mayTock, decide_eq_true_eq]; omega
    simp [moves, hm, h1]
  rw [discard, ed, advance_iter]
  conv_lhs => rw [e, after_tab hc _ hs, h0, Nat.zero_mul, Nat.add_zero]

/-- **C161.** The difference of a generator after `n` calls and before is `n`, up to whole periods of the base engine; the loop ends
and its assertion holds. -/
theorem C161_minus {c : Cfg w x} (hc : WellFormed c) (dbg : Bool) (fuel : Nat) (hf : w < fuel) {g g' : Gen w x} (hg : Valid c g) (n : Nat)
    (h : afterCalls c n g = .ok g') :
    ∃ d, minus dbg fuel c g' g = .ok d ∧ d.toNat = n % 2 ^ (w - fixedBits c.base) := by
  have hs := hg.state
  obtain ⟨N, -, e⟩ := valid_tab hc hg
  rw [e, after_tab hc _ hs] at h
  injection h with h
  have hw := width_ge hc.base
  have hlt : n % 2 ^ (w - fixedBits c.base) < 2 ^ w :=
    lt_of_lt_of_le (Nat.mod_lt _ (by positivity)) (Nat.pow_le_pow_right (by norm_num) (by omega))
  have hst : g'.s = Pcg.advance c.base g.s (BitVec.ofNat w (n % 2 ^ (w - fixedBits c.base))) := by
    rw [advance_iter, BitVec.toNat_ofNat, Nat.mod_eq_of_lt hlt, ← h, bump_iter_congr hc.base hs, fixedBits_eq, period_eq, Nat.mod_mod]
  obtain ⟨d, h1, h2⟩ := C96_minus_advance hc.base dbg hs (BitVec.ofNat w (n % 2 ^ (w - fixedBits c.base))) fuel hf
  refine ⟨d, ?_, ?_⟩
  · rw [minus, hst, h1]
  · rw [h2, BitVec.toNat_ofNat, Nat.mod_eq_of_lt hlt, period_eq, fixedBits_eq, Nat.mod_mod]

/-- **C161.** The difference looks at the base engine only: it is zero exactly if the states of the base engines are equal, whatever
the tables contain. -/
theorem C161_minus_zero {c : Cfg w x} (hc : WellFormed c) (dbg : Bool) (fuel : Nat) (hf : w < fuel) {g h : Gen w x} (hg : Valid c g)
    (hh : Valid c h) : minus dbg fuel c g h = .ok 0#w ↔ g.s = h.s := by
  obtain ⟨d, h1, h2, h3⟩ := C96_minus hc.base dbg hg.state hh.state fuel hf
  rw [minus, h1, Outcome.ok.injEq]
  constructor
  · rintro rfl
    rw [← h2, advance_iter]
    simp
  · intro he
    have hd : period c.base ∣ d.toNat := by
      rw [← bump_iter_eq_self hc.base hh.state, ← advance_iter, h2, he]
    rw [← BitVec.toNat_inj, Nat.eq_zero_of_dvd_of_lt hd h3]
    simp

/-- **C161 fails** for the difference: two generators whose difference is zero need not be equal. One is the other after as many calls
as the base engine has states, when the table is advanced in between. -/
theorem C161_minus_zero_differs {c : Cfg w x} (hc : WellFormed c) (hw : w ≤ x * c.tableSize) (hq : 1 ≤ c.advancePow2)
    (hm : c.mayTick = true) (dbg : Bool) (fuel : Nat) (hf : w < fuel) {g : Gen w x} (hg : Valid c g) :
    ∃ g', afterCalls c (2 ^ (w - fixedBits c.base)) g = .ok g' ∧ minus dbg fuel c g' g = .ok 0#w ∧ g' ≠ g := by
  have hs := hg.state
  obtain ⟨N, -, e⟩ := valid_tab hc hg
  have ha := after_tab hc (2 ^ (w - fixedBits c.base)) hs N
  rw [← e] at ha
  obtain ⟨d, h1, h2⟩ := C161_minus hc dbg fuel hf hg _ ha
  rw [Nat.mod_self] at h2
  refine ⟨_, ha, by rw [h1, ← BitVec.toNat_inj.mp (show d.toNat = (0#w).toNat by rw [h2]; simp)], fun h => ?_⟩
  rw [h, after_eq_iff hc hg, fixedBits_eq, Nat.div_self (by positivity), Nat.mul_one] at ha
  have hlow := width_ge hc.base
  have hb : 2 ^ (w - lowBits c.base - c.advancePow2) ≤ 2 ^ (w - 1) := Nat.pow_le_pow_right (by norm_num) (by omega)
  have hpos : 0 < 2 ^ (w - lowBits c.base - c.advancePow2) := by positivity
  have h2w : 2 ^ w = 2 * 2 ^ (w - 1) := by rw [← pow_succ']; congr 1; omega
  have h4 : 2 ^ 2 ≤ 2 ^ (w - 1) := Nat.pow_le_pow_right (by norm_num) (by omega)
  have hlt : perPeriod c < 2 ^ (x * c.tableSize) := by
    rw [perPeriod_eq hc, if_pos hm]
    have := Nat.pow_le_pow_right (n := 2) (by norm_num) hw
    split <;> omega
  have hz := Nat.eq_zero_of_dvd_of_lt ha.2 hlt
  rw [perPeriod_eq hc, if_pos hm] at hz
  omega

/-- **C161.** `wrapped()` holds after exactly one of the numbers of calls below the period of the base engine, whatever the table
contains. -/
theorem C161_wrapped {c : Cfg w x} (hc : WellFormed c) {g : Gen w x} (hg : Valid c g) :
    ∃! n, n < 2 ^ (w - fixedBits c.base) ∧ ∃ g', afterCalls c n g = .ok g' ∧ wrapped c g' = true := by
  have hs := hg.state
  obtain ⟨N, -, e⟩ := valid_tab hc hg
  have hle : 2 ^ (w - fixedBits c.base) ≤ 2 ^ w := Nat.pow_le_pow_right (by norm_num) (by omega)
  have key : ∀ n, n < 2 ^ (w - fixedBits c.base) → ((∃ g', afterCalls c n g = .ok g' ∧ wrapped c g' = true) ↔
      Pcg.wrapped c.base (Pcg.advance c.base g.s (BitVec.ofNat w n)) = true) := by
    intro n hn
    rw [e, after_tab hc n hs, advance_iter, BitVec.toNat_ofNat, Nat.mod_eq_of_lt (by omega)]
    constructor
    · rintro ⟨g', h1, h2⟩
      injection h1 with h1
      rw [← h1] at h2
      exact h2
    · intro h
      exact ⟨_, rfl, h⟩
  obtain ⟨n, ⟨h1, h2⟩, h3⟩ := C95_wrapped hc.base hs
  rw [period_eq] at h1
  refine ⟨n, ⟨h1, (key n h1).mpr h2⟩, fun m hm => h3 m ⟨by rw [period_eq]; exact hm.1, (key m hm.1).mp hm.2⟩⟩

/-! ## Generators of the library -/

/-- `pcg32_k64`: `discard(100000)` is never 100000 calls. -/
example (seq s : BitVec 64) (data : List (BitVec 32)) (h : data.length = 64) :
    ∃ g', afterCalls (pcg32_k64 seq) 100000 ⟨s, data⟩ = .ok g' ∧ g'.data ≠ data := by
  obtain ⟨g', h1, -, h3⟩ := C161_discard_wrong (k64 seq) rfl (show 64 ≤ 32 * 2 ^ 6 by norm_num) (by norm_num) rfl 100000#64
    (show 2 ^ 16 ≤ 100000 by norm_num) (k64_valid seq s data h)
  exact ⟨g', h1, h3⟩

/-- From the state 1, `discard(2)` is two calls. -/
example (data : List (BitVec 32)) (h : data.length = 64) :
    afterCalls (pcg32_k64 0#64) 2 ⟨1#64, data⟩ = .ok (discard (pcg32_k64 0#64) 2#64 ⟨1#64, data⟩) := by
  have hc := k64 0#64
  have hv := k64_valid 0#64 1#64 data h
  refine (C161_discard_quiet hc rfl (show 64 ≤ 32 * 2 ^ 6 by norm_num) (by norm_num) 2#64 hv).mpr ?_
  intro j hj h hh
  obtain ⟨N, -, e⟩ := valid_tab hc hv
  rw [e, after_tab hc j hv.state] at hh
  injection hh with hh
  rw [← hh]
  have hj : j < 2 := hj
  refine ⟨fun _ => ?_, fun h => absurd h (by norm_num)⟩
  rw [k64_tick]
  show ¬ ((bump (pcg32_k64 0#64).base)^[j] 1#64).toNat % 65536 = 0
  rcases (show j = 0 ∨ j = 1 by omega) with rfl | rfl <;> decide

/-- A 32-bit generator, back at its first state with another table: the difference is zero. -/
example (s a b : BitVec 32) : ∃ g', afterCalls (extOneseq32 1 4 true) (2 ^ 32) ⟨s, [a, b]⟩ = .ok g' ∧
    minus true 33 (extOneseq32 1 4 true) g' ⟨s, [a, b]⟩ = .ok 0#32 ∧ g' ≠ ⟨s, [a, b]⟩ :=
  C161_minus_zero_differs small (show 32 ≤ 32 * 2 ^ 1 by norm_num) (show 1 ≤ 4 by norm_num) rfl true 33 (by norm_num) (small_valid s a b)

end Verif.PcgExt
