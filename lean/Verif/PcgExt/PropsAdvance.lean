import Verif.PcgExt.Theorems

/-!
# The extended generators: jumping ahead and back
-/

namespace Verif.PcgExt

open Verif Verif.Pcg Verif.Pcg.Spec Spec

variable {w x : Nat}

theorem and_three {s : BitVec w} (hw : 3 ≤ w) : (s &&& 3#w).toNat = s.toNat % 4 := by
  have : 2 ^ 3 ≤ 2 ^ w := Nat.pow_le_pow_right (by norm_num) hw
  rw [BitVec.toNat_and, BitVec.toNat_ofNat, Nat.mod_eq_of_lt (by omega), show (3 : Nat) = 2 ^ 2 - 1 from rfl,
    Nat.and_two_pow_sub_one_eq_mod]

theorem zeroOf_spec {c : Cfg w x} (hc : WellFormed c) {s : BitVec w} (hs : Reach c.base s) :
    Reach c.base (zeroOf c s) ∧ hi c.base (zeroOf c s) = 0 := by
  have hw := width_ge hc.base
  unfold zeroOf hi lowBits
  cases h : c.base.mcg
  · refine ⟨fun h' => ?_, by simp⟩
    rw [h] at h'
    cases h'
  · simp only [if_true]
    have h3 := hs h
    refine ⟨fun _ => ?_, ?_⟩
    · rw [and_three hw, Nat.mod_mod, h3]
    · rw [and_three hw, h3]
      rfl

/-- The mask of `advance` compares the low bits. -/
theorem tick_mask_eq {c : Cfg w x} (hc : WellFormed c) (hm : c.mayTick = true) {s t : BitVec w} (hs : Reach c.base s)
    (ht : Reach c.base t) :
    s &&& (if c.base.mcg then c.tickMask <<< 2 else c.tickMask) = t &&& (if c.base.mcg then c.tickMask <<< 2 else c.tickMask) ↔
      s.toNat % 2 ^ (c.advancePow2 + lowBits c.base) = t.toNat % 2 ^ (c.advancePow2 + lowBits c.base) := by
  have hT := tickMask_toNat hm
  have hfit := hc.tick hm
  rw [mod_hi hs ht]
  cases h : c.base.mcg
  · simp only [Bool.false_eq_true, if_false]
    rw [and_mask_eq _ _ _ _ hT]
    simp [hi, lowBits, h]
  · simp only [if_true]
    have hfit' : c.advancePow2 + 2 ≤ w := by simpa [fixedBits, h] using hfit
    have hbit : ∀ (u : BitVec w) i, (u &&& c.tickMask <<< 2).toNat.testBit i =
        (decide (2 ≤ i ∧ i < c.advancePow2 + 2) && u.toNat.testBit i) := by
      intro u i
      rw [BitVec.toNat_and, BitVec.toNat_shiftLeft, hT, Nat.testBit_and, Nat.testBit_mod_two_pow, Nat.testBit_shiftLeft,
        Nat.testBit_two_pow_sub_one]
      by_cases h1 : 2 ≤ i <;> by_cases h2 : i < c.advancePow2 + 2
      · simp [h1, h2, show i < w by omega, show i - 2 < c.advancePow2 by omega, Bool.and_comm]
      · simp [h1, h2, show ¬ i - 2 < c.advancePow2 by omega]
      · simp [h1]
      · simp [h1]
    have hhi : ∀ (u : BitVec w) i, (hi c.base u).testBit i = u.toNat.testBit (i + 2) := by
      intro u i
      rw [hi, lowBits, if_pos h, Nat.testBit_div_two_pow]
    rw [← BitVec.toNat_inj]
    constructor
    · intro e
      apply Nat.eq_of_testBit_eq
      intro i
      rw [Nat.testBit_mod_two_pow, Nat.testBit_mod_two_pow, hhi, hhi]
      by_cases h2 : i < c.advancePow2
      · have := congrArg (fun n => n.testBit (i + 2)) e
        simp only [hbit, show 2 ≤ i + 2 ∧ i + 2 < c.advancePow2 + 2 by omega] at this
        simpa [h2] using this
      · simp [h2]
    · intro e
      apply Nat.eq_of_testBit_eq
      intro i
      rw [hbit, hbit]
      by_cases h2 : 2 ≤ i ∧ i < c.advancePow2 + 2
      · have := congrArg (fun n => n.testBit (i - 2)) e
        simp only [Nat.testBit_mod_two_pow, hhi, show i - 2 < c.advancePow2 by omega, Nat.sub_add_cancel h2.1] at this
        simp only [decide_true, Bool.true_and] at this
        simp [this]
      · simp [h2]

/-- The distance to the next state that advances the table. -/
theorem tick_distance {c : Cfg w x} (hc : WellFormed c) (hm : c.mayTick = true) (dbg : Bool) (fuel : Nat) (hf : w < fuel)
    {s : BitVec w} (hs : Reach c.base s) :
    ∃ d, distance dbg fuel c.base s (zeroOf c s) (if c.base.mcg then c.tickMask <<< 2 else c.tickMask) = .ok d ∧
      d.toNat < 2 ^ c.advancePow2 ∧
      ∀ j, hi c.base ((bump c.base)^[j] s) % 2 ^ c.advancePow2 = 0 ↔ j % 2 ^ c.advancePow2 = d.toNat := by
  have hfit := hc.tick hm
  rw [fixedBits_eq] at hfit
  obtain ⟨hz1, hz2⟩ := zeroOf_spec hc hs
  obtain ⟨d, h1, h2, h3⟩ := distance_mask hc.base dbg hs hz1 (c.advancePow2 + lowBits c.base) hfit
    (fun a ha => tick_mask_eq hc hm ha hz1) fuel hf
  rw [Nat.add_sub_cancel] at h3
  have hp : 0 < 2 ^ c.advancePow2 := by positivity
  have hlt : d.toNat < 2 ^ c.advancePow2 := by omega
  refine ⟨d, h1, hlt, fun j => ?_⟩
  rw [mod_hi (iter_reach hc.base hs _) hz1, hz2, Nat.zero_mod] at h2
  rw [← h2, hi_mod hc.base hs _ hfit, Nat.mod_eq_of_lt hlt]

/-- The distance to the zero state. -/
theorem zero_distance {c : Cfg w x} (hc : WellFormed c) (dbg : Bool) (fuel : Nat) (hf : w < fuel) {s : BitVec w}
    (hs : Reach c.base s) :
    ∃ d, distance dbg fuel c.base s (zeroOf c s) (BitVec.allOnes w) = .ok d ∧ d.toNat < 2 ^ (w - lowBits c.base) ∧
      ∀ j, hi c.base ((bump c.base)^[j] s) = 0 ↔ j % 2 ^ (w - lowBits c.base) = d.toNat := by
  have hw := width_ge hc.base
  have hl : lowBits c.base ≤ 2 := by unfold lowBits; split <;> omega
  obtain ⟨hz1, hz2⟩ := zeroOf_spec hc hs
  obtain ⟨d, h1, h2, h3⟩ := C96_minus hc.base dbg hz1 hs fuel hf
  rw [period_eq] at h3
  rw [advance_iter] at h2
  refine ⟨d, h1, h3, fun j => ?_⟩
  have h4 := hi_mod hc.base hs (w - lowBits c.base) (by omega) j d.toNat
  rw [h2, hz2, Nat.zero_mod, Nat.mod_eq_of_lt (hi_lt hc.base _), Nat.mod_eq_of_lt h3] at h4
  exact h4

/-- How often the first reason advances the table. -/
def ticked (c : Cfg w x) (s : BitVec w) (n : Nat) : Nat :=
  ∑ j ∈ Finset.range n, if c.mayTick = true ∧ tickAt c (hi c.base ((bump c.base)^[j] s)) then 1 else 0

/-- How often the second reason does. -/
def tocked (c : Cfg w x) (s : BitVec w) (n : Nat) : Nat :=
  ∑ j ∈ Finset.range n, if c.mayTock = true ∧ tockAt c (hi c.base ((bump c.base)^[j] s)) then 1 else 0

theorem moved_split (c : Cfg w x) (s : BitVec w) (n : Nat) : moved c s n = ticked c s n + tocked c s n := by
  unfold moved moves ticked tocked
  rw [Finset.sum_add_distrib]

theorem ticked_eq {c : Cfg w x} (hm : c.mayTick = true) (hk : c.kdd = true) {s : BitVec w} {r : Nat}
    (hr : r < 2 ^ c.advancePow2)
    (h : ∀ j, hi c.base ((bump c.base)^[j] s) % 2 ^ c.advancePow2 = 0 ↔ j % 2 ^ c.advancePow2 = r) (n : Nat) :
    ticked c s n = n / 2 ^ c.advancePow2 + if r < n % 2 ^ c.advancePow2 then 1 else 0 := by
  rw [← count_mod _ _ hr]
  apply Finset.sum_congr rfl
  intro j _
  simp only [hm, true_and, tickAt, hk, if_true, h]

/-- The number of ticks that `advance` computes, given the distance `r` that it uses. -/
theorem ticks_toNat {c : Cfg w x} (hc : WellFormed c) (hm : c.mayTick = true) (ha : 1 ≤ c.advancePow2) (d r : BitVec w) :
    (if r < d &&& c.tickMask then d >>> c.advancePow2 + 1#w else d >>> c.advancePow2).toNat =
      d.toNat / 2 ^ c.advancePow2 + (if r.toNat < d.toNat % 2 ^ c.advancePow2 then 1 else 0) ∧
    (if r < d &&& c.tickMask then d >>> c.advancePow2 + 1#w else d >>> c.advancePow2).toNat ≤ 2 ^ (w - 1) := by
  have hw := width_ge hc.base
  have hw2 : 2 ^ 2 ≤ 2 ^ (w - 1) := Nat.pow_le_pow_right (by norm_num) (by omega)
  have hwe : 2 ^ w = 2 * 2 ^ (w - 1) := by rw [← pow_succ', Nat.sub_add_cancel (by omega)]
  have hK : 2 ^ 1 ≤ 2 ^ c.advancePow2 := Nat.pow_le_pow_right (by norm_num) ha
  have hq : d.toNat / 2 ^ c.advancePow2 ≤ d.toNat / 2 := Nat.div_le_div_left hK (by norm_num)
  have hd := d.isLt
  have hand : (d &&& c.tickMask).toNat = d.toNat % 2 ^ c.advancePow2 := by
    rw [BitVec.toNat_and, tickMask_toNat hm, Nat.and_two_pow_sub_one_eq_mod]
  have hsh : (d >>> c.advancePow2).toNat = d.toNat / 2 ^ c.advancePow2 := by
    rw [BitVec.toNat_ushiftRight, Nat.shiftRight_eq_div_pow]
  have hlt : (r < d &&& c.tickMask) ↔ r.toNat < d.toNat % 2 ^ c.advancePow2 := by rw [BitVec.lt_def, hand]
  by_cases h : r < d &&& c.tickMask
  · rw [if_pos h, if_pos (hlt.mp h), BitVec.toNat_add, hsh, BitVec.toNat_ofNat, Nat.mod_eq_of_lt (show 1 < 2 ^ w by omega),
      Nat.mod_eq_of_lt (by omega)]
    exact ⟨rfl, by omega⟩
  · rw [if_neg h, if_neg (fun h' => h (hlt.mpr h')), hsh]
    exact ⟨rfl, by omega⟩

/-- What `advance` makes of the table for the first reason. -/
theorem tick_part {c : Cfg w x} (hc : WellFormed c) (hk : c.kdd = true) (ha : c.mayTick = true → 1 ≤ c.advancePow2) (dbg : Bool)
    (fuel : Nat) (hfw : w < fuel) (hfx : x < fuel) (d : BitVec w) {s : BitVec w} (hs : Reach c.base s) (N : Nat) :
    advanceTick c dbg fuel d true s (tab c 0 c.tableSize N) =
    .ok (tab c 0 c.tableSize (N + ticked c s d.toNat * ones x c.tableSize +
      if ticked c s d.toNat = 0 then 0 else 2 ^ x * extra x c.tableSize N)) := by
  unfold advanceTick
  by_cases hm : c.mayTick = true
  · rw [if_pos hm]
    obtain ⟨r, h1, h2, h3⟩ := tick_distance hc hm dbg fuel hfw hs
    simp only [h1, Outcome.bind_ok, if_true]
    obtain ⟨h4, h5⟩ := ticks_toNat hc hm (ha hm) d r
    set ticks := if r < d &&& c.tickMask then d >>> c.advancePow2 + 1#w else d >>> c.advancePow2 with hticks
    rw [← ticked_eq hm hk h2 h3] at h4
    by_cases h0 : ticks = 0#w
    · rw [if_neg (by simp [h0])]
      have : ticked c s d.toNat = 0 := by rw [← h4, h0]; simp
      simp [this]
    · have hne : ticked c s d.toNat ≠ 0 := by
        rw [← h4]
        intro h
        apply h0
        rw [← BitVec.toNat_inj, h]
        simp
      rw [if_pos h0, advTableBy_tab hc dbg fuel hfx _ h5, h4, if_neg hne]
  · rw [if_neg hm]
    have : ticked c s d.toNat = 0 := by
      apply Finset.sum_eq_zero
      intro j _
      simp [hm]
    simp [this]

theorem tocked_wide {c : Cfg w x} (hw : 64 ≤ w) (s : BitVec w) (n : Nat) : tocked c s n = 0 := by
  apply Finset.sum_eq_zero
  intro j _
  rw [if_neg]
  simp only [Cfg.mayTock, decide_eq_true_eq]
  omega

theorem advanceTock_wide {c : Cfg w x} (hw : 64 ≤ w) (dbg : Bool) (fuel : Nat) (d : BitVec w) (forwards : Bool) (s : BitVec w)
    (data : List (BitVec x)) : advanceTock c dbg fuel d forwards s data = .ok data := by
  unfold advanceTock
  rw [if_neg]
  simp only [Cfg.mayTock, decide_eq_true_eq]
  omega

theorem tab_shift {c : Cfg w x} (hc : WellFormed c) (k A B : Nat) :
    tab c 0 k (A + B) = tab c 0 k A ↔ B % (2 ^ x) ^ k = 0 := by
  rw [tab_eq hc]
  have := Nat.modEq_iff_dvd' (n := (2 ^ x) ^ k) (Nat.le_add_right A B)
  rw [Nat.add_sub_cancel_left] at this
  rw [← Nat.dvd_iff_mod_eq_zero, ← this]
  exact eq_comm

/-- Whether an entry before the last is zero. -/
theorem zero_mem {c : Cfg w x} (hc : WellFormed c) (k N : Nat) :
    0#x ∉ (tab c 0 k N).dropLast ↔ ∀ j < k - 1, N / (2 ^ x) ^ j % 2 ^ x ≠ 0 := by
  rw [List.mem_iff_getElem?]
  constructor
  · intro h j hj h0
    apply h
    refine ⟨j, ?_⟩
    rw [List.getElem?_dropLast, tab_length, if_pos hj]
    exact (nonzero_digits hc k N j (by omega)).mpr h0
  · rintro h ⟨j, hj⟩
    rw [List.getElem?_dropLast, tab_length] at hj
    split at hj
    · rename_i hlt
      exact h j hlt ((nonzero_digits hc k N j (by omega)).mp hj)
    · cases hj

theorem extra_zero {c : Cfg w x} (hc : WellFormed c) (k N : Nat) (hk : 0 < k) :
    (2 ^ x * extra x k N) % (2 ^ x) ^ k = 0 ↔ 0#x ∉ (tab c 0 k N).dropLast := by
  have hx := width_ge hc.ext
  obtain ⟨k, rfl⟩ : ∃ j, k = j + 1 := ⟨k - 1, by omega⟩
  rw [zero_mem hc, Nat.add_sub_cancel, ← extra_mod x (by omega) k (k + 1) N (by omega), pow_succ', Nat.mul_mod_mul_left,
    Nat.mul_eq_zero]
  have : 2 ^ x ≠ 0 := by positivity
  tauto

theorem ticked_pos {c : Cfg w x} (hk : c.kdd = true) (s : BitVec w) (n : Nat) :
    ticked c s n ≠ 0 ↔ c.mayTick = true ∧ ∃ j < n, OnTick c ((bump c.base)^[j] s) := by
  unfold ticked
  rw [Ne, Finset.sum_eq_zero_iff]
  simp only [Finset.mem_range, tickAt, hk, if_true, OnTick, fixedBits_eq]
  constructor
  · intro h
    by_contra hc
    apply h
    intro j hj
    rw [if_neg]
    rintro ⟨h1, h2⟩
    exact hc ⟨h1, j, hj, h2⟩
  · rintro ⟨h1, j, h2, h3⟩ h
    have := h j h2
    rw [if_pos ⟨h1, h3⟩] at this
    omega

/-- **C129.** For states of 64 bits and more: `advance(d)` does what `d` calls do exactly if none of these calls would advance the
table, or no entry of the table but the last is zero. -/
theorem C129_advance_iff {c : Cfg w x} (hc : WellFormed c) (hw : 64 ≤ w) (hk : c.kdd = true)
    (ha : c.mayTick = true → 1 ≤ c.advancePow2) (dbg : Bool) (fuel : Nat) (hfw : w < fuel) (hfx : x < fuel) (d : BitVec w)
    {g : Gen w x} (hg : Valid c g) :
    advance c dbg fuel d true g = afterCalls c d.toNat g ↔
      ((c.mayTick = true ∧ ∃ j < d.toNat, ∃ g', afterCalls c j g = .ok g' ∧ OnTick c g'.s) → 0#x ∉ g.data.dropLast) := by
  have hs := hg.state
  obtain ⟨N, -, e⟩ := valid_tab hc hg
  have hsize : 0 < c.tableSize := by unfold Cfg.tableSize; positivity
  have htk : (c.mayTick = true ∧ ∃ j < d.toNat, ∃ g', afterCalls c j g = .ok g' ∧ OnTick c g'.s) ↔
      ticked c g.s d.toNat ≠ 0 := by
    rw [ticked_pos hk]
    refine and_congr_right fun _ => exists_congr fun j => and_congr_right fun _ => ?_
    rw [e, after_tab hc j hs]
    constructor
    · rintro ⟨g', h1, h2⟩
      injection h1 with h1
      rw [← h1] at h2
      exact h2
    · intro h
      exact ⟨_, rfl, h⟩
  rw [htk]
  have hadv : advance c dbg fuel d true g = .ok ⟨(bump c.base)^[d.toNat] g.s, tab c 0 c.tableSize
      (N + ticked c g.s d.toNat * ones x c.tableSize +
        if ticked c g.s d.toNat = 0 then 0 else 2 ^ x * extra x c.tableSize N)⟩ := by
    have ed : g.data = tab c 0 c.tableSize N := by rw [e]
    rw [advance, ed, tick_part hc hk ha dbg fuel hfw hfx d hs N]
    simp only [Outcome.bind_ok, advanceTock_wide hw, Outcome.pure_eq, if_true]
    rw [advance_iter]
  have haft : afterCalls c d.toNat g = .ok ⟨(bump c.base)^[d.toNat] g.s, tab c 0 c.tableSize
      (N + ticked c g.s d.toNat * ones x c.tableSize)⟩ := by
    rw [e, after_tab hc _ hs, moved_split, tocked_wide hw, Nat.add_zero]
  rw [hadv, haft, Outcome.ok.injEq, Gen.mk.injEq, tab_shift hc]
  have ed : g.data = tab c 0 c.tableSize N := by rw [e]
  rw [ed, ← extra_zero hc _ N hsize]
  constructor
  · rintro ⟨-, h⟩ hne
    rwa [if_neg hne] at h
  · intro h
    refine ⟨rfl, ?_⟩
    split
    · simp
    · rename_i hne
      exact h hne

theorem tocked_eq {c : Cfg w x} (hc : WellFormed c) (hw : w < 64) (hk : c.kdd = true) {s : BitVec w} {r : Nat}
    (h : ∀ j, hi c.base ((bump c.base)^[j] s) = 0 ↔ j % 2 ^ (w - lowBits c.base) = r) (n : Nat)
    (hn : n < 2 ^ (w - lowBits c.base)) : tocked c s n = if r < n then 1 else 0 := by
  have hr : r < 2 ^ (w - lowBits c.base) ∨ 2 ^ (w - lowBits c.base) ≤ r := by omega
  have e : tocked c s n = ∑ j ∈ Finset.range n, if j % 2 ^ (w - lowBits c.base) = r then 1 else 0 := by
    apply Finset.sum_congr rfl
    intro j _
    simp only [Cfg.mayTock, hw, decide_true, true_and, tockAt, hk, true_or, and_true, h]
  rw [e]
  rcases hr with hr | hr
  · rw [count_mod _ _ hr, Nat.div_eq_of_lt hn, Nat.mod_eq_of_lt hn, Nat.zero_add]
  · rw [if_neg (by omega)]
    apply Finset.sum_eq_zero
    intro j _
    rw [if_neg]
    have := Nat.mod_lt j (show 0 < 2 ^ (w - lowBits c.base) by positivity)
    omega

/-- **C129.** For states narrower than 64 bits and jumps within one period of the base engine, with no zero in the table: `advance(d)`
does what `d` calls do exactly if they do not end in the zero state. -/
theorem C129_advance_narrow_iff {c : Cfg w x} (hc : WellFormed c) (hw : w < 64) (hk : c.kdd = true)
    (ha : c.mayTick = true → 1 ≤ c.advancePow2) (dbg : Bool) (fuel : Nat) (hfw : w < fuel) (hfx : x < fuel) (d : BitVec w)
    (hd : d.toNat < 2 ^ (w - fixedBits c.base)) {g : Gen w x} (hg : Valid c g) (hz : 0#x ∉ g.data.dropLast) :
    advance c dbg fuel d true g = afterCalls c d.toNat g ↔
      ∀ g', afterCalls c d.toNat g = .ok g' → ¬ OnZero c g'.s := by
  have hs := hg.state
  obtain ⟨N, -, e⟩ := valid_tab hc hg
  have ed : g.data = tab c 0 c.tableSize N := by rw [e]
  have hsize : 0 < c.tableSize := by unfold Cfg.tableSize; positivity
  rw [fixedBits_eq] at hd
  rw [ed, ← extra_zero hc _ N hsize] at hz
  obtain ⟨dz, h1, h2, h3⟩ := zero_distance hc dbg fuel hfw hs
  have htock := tocked_eq hc hw hk h3 d.toNat hd
  have hzero : (∀ g', afterCalls c d.toNat g = .ok g' → ¬ OnZero c g'.s) ↔ d.toNat ≠ dz.toNat := by
    rw [e, after_tab hc _ hs]
    have := h3 d.toNat
    rw [Nat.mod_eq_of_lt hd] at this
    rw [Ne, ← this]
    constructor
    · intro h
      exact h _ rfl
    · intro h g' e
      injection e with e
      rw [← e]
      exact h
  rw [hzero]
  have htab : tab c 0 c.tableSize (N + ticked c g.s d.toNat * ones x c.tableSize +
      if ticked c g.s d.toNat = 0 then 0 else 2 ^ x * extra x c.tableSize N) =
      tab c 0 c.tableSize (N + ticked c g.s d.toNat * ones x c.tableSize) := by
    rw [tab_shift hc]
    split
    · simp
    · exact hz
  have hmt : c.mayTock = true := by simp [Cfg.mayTock, hw]
  have hadv : advance c dbg fuel d true g = .ok ⟨(bump c.base)^[d.toNat] g.s, tab c 0 c.tableSize
      (N + ticked c g.s d.toNat * ones x c.tableSize + if dz.toNat ≤ d.toNat then ones x c.tableSize else 0)⟩ := by
    rw [advance, ed, tick_part hc hk ha dbg fuel hfw hfx d hs N, htab]
    simp only [Outcome.bind_ok, advanceTock, hmt, if_true, h1, BitVec.le_def, advTable_tab hc]
    split
    · simp only [Outcome.bind_ok, Outcome.pure_eq]
      rw [advance_iter]
    · simp only [Outcome.bind_ok, Outcome.pure_eq]
      rw [advance_iter, Nat.add_zero]
  have haft : afterCalls c d.toNat g = .ok ⟨(bump c.base)^[d.toNat] g.s, tab c 0 c.tableSize
      (N + ticked c g.s d.toNat * ones x c.tableSize + if dz.toNat < d.toNat then ones x c.tableSize else 0)⟩ := by
    rw [e, after_tab hc _ hs, moved_split, htock]
    congr 3
    split <;> ring
  rw [hadv, haft, Outcome.ok.injEq, Gen.mk.injEq]
  simp only [true_and]
  by_cases h4 : dz.toNat = d.toNat
  · rw [if_pos (by omega), if_neg (by omega), Nat.add_zero, tab_shift hc]
    have hodd := ones_odd x c.tableSize (by have := width_ge hc.ext; omega) hsize
    have hne : ¬ ones x c.tableSize % (2 ^ x) ^ c.tableSize = 0 := by
      intro h0
      have hdvd := Nat.dvd_of_mod_eq_zero h0
      have h2 : 2 ∣ (2 ^ x) ^ c.tableSize := by
        rw [← pow_mul]
        exact dvd_pow_self 2 (Nat.mul_ne_zero (by have := width_ge hc.ext; omega) (by omega))
      have := Nat.dvd_trans h2 hdvd
      omega
    exact ⟨fun h => absurd h hne, fun h => absurd h4.symm h⟩
  · by_cases h5 : dz.toNat < d.toNat
    · rw [if_pos (by omega), if_pos h5]
      simp only [true_iff]
      omega
    · rw [if_neg (by omega), if_neg h5]
      simp only [true_iff]
      omega

/-! ## Going back -/

theorem neg_and_mask {c : Cfg w x} (hm : c.mayTick = true) (r : BitVec w) (hr : r.toNat < 2 ^ c.advancePow2) :
    (-r &&& c.tickMask).toNat = if r.toNat = 0 then 0 else 2 ^ c.advancePow2 - r.toNat := by
  have h' := hm
  simp only [Cfg.mayTick, Bool.and_eq_true, decide_eq_true_eq] at h'
  rw [BitVec.toNat_and, tickMask_toNat hm, Nat.and_two_pow_sub_one_eq_mod, BitVec.toNat_neg]
  split
  · rename_i h; simp [h]
  · have hK : 2 ^ w = 2 ^ c.advancePow2 * 2 ^ (w - c.advancePow2) := by rw [← pow_add, Nat.add_sub_cancel' (by omega)]
    obtain ⟨m, hm⟩ : ∃ m, 2 ^ (w - c.advancePow2) = m + 1 := ⟨2 ^ (w - c.advancePow2) - 1, by
      have : 0 < 2 ^ (w - c.advancePow2) := by positivity
      omega⟩
    have e1 : (2 ^ w - r.toNat) % 2 ^ w = 2 ^ w - r.toNat := Nat.mod_eq_of_lt (by
      have : 0 < 2 ^ w := by positivity
      omega)
    rw [e1, hK, hm, Nat.mul_add, Nat.mul_one,
      show 2 ^ c.advancePow2 * m + 2 ^ c.advancePow2 - r.toNat = 2 ^ c.advancePow2 - r.toNat + 2 ^ c.advancePow2 * m by omega,
      Nat.add_mul_mod_self_left, Nat.mod_eq_of_lt (by omega)]

/-- What `backstep` makes of the table, for states of 64 bits and more, given the distance to the next tick. -/
theorem back_ticks {c : Cfg w x} (hc : WellFormed c) (hm : c.mayTick = true) (ha : 1 ≤ c.advancePow2) (dbg : Bool)
    (fuel : Nat) (hfw : w < fuel) (d : BitVec w) {s : BitVec w} (hs : Reach c.base s) (data : List (BitVec x)) :
    ∃ (r : Nat) (ticks : BitVec w), r < 2 ^ c.advancePow2 ∧
      (∀ j, hi c.base ((bump c.base)^[j] s) % 2 ^ c.advancePow2 = 0 ↔ j % 2 ^ c.advancePow2 = r) ∧
      ticks.toNat = d.toNat / 2 ^ c.advancePow2 +
        (if (if r = 0 then 0 else 2 ^ c.advancePow2 - r) < d.toNat % 2 ^ c.advancePow2 then 1 else 0) ∧
      ticks.toNat ≤ 2 ^ (w - 1) ∧
      advanceTick c dbg fuel d false s data = if ticks ≠ 0#w then advTableBy c dbg fuel ticks false data else .ok data := by
  obtain ⟨r, h1, h2, h3⟩ := tick_distance hc hm dbg fuel hfw hs
  obtain ⟨h4, h5⟩ := ticks_toNat hc hm ha d (-r &&& c.tickMask)
  rw [neg_and_mask hm r h2] at h4
  refine ⟨r.toNat, _, h2, h3, h4, h5, ?_⟩
  unfold advanceTick
  simp only [hm, if_true, h1, Outcome.bind_ok, Bool.false_eq_true, if_false]

/-- **C129.** For states of 64 bits and more: `backstep(d)` undoes `d` calls, if the table was without zero entries before them and if
either `d` is a multiple of `2 ^ advance_pow2` or neither the first nor the last of the two states is one in which the table is
advanced. -/
theorem C129_backstep_partial {c : Cfg w x} (hc : WellFormed c) (hw : 64 ≤ w) (hx : 32 ≤ x) (hk : c.kdd = true)
    (ha : c.mayTick = true → 1 ≤ c.advancePow2) (dbg : Bool) (fuel : Nat) (hfw : w < fuel) (hfx : x < fuel) (d : BitVec w)
    {g g' : Gen w x} (hg : Valid c g) (h : afterCalls c d.toNat g = .ok g') (hz : 0#x ∉ g.data)
    (ht : c.mayTick = true → d.toNat % 2 ^ c.advancePow2 = 0 ∨ (¬ OnTick c g.s ∧ ¬ OnTick c g'.s)) :
    backstep c dbg fuel d g' = .ok g := by
  have hs := hg.state
  obtain ⟨N, -, e⟩ := valid_tab hc hg
  have ed : g.data = tab c 0 c.tableSize N := by rw [e]
  rw [e, after_tab hc _ hs, moved_split, tocked_wide hw, Nat.add_zero] at h
  injection h with h
  have hs' : Reach c.base ((bump c.base)^[d.toNat] g.s) := iter_reach hc.base hs _
  have hback : Pcg.advance c.base ((bump c.base)^[d.toNat] g.s) (-d) = g.s := by
    have := (C96_backstep hc.base hs d).1
    rwa [Pcg.backstep, advance_iter c.base g.s d] at this
  have hdig : ∀ j < c.tableSize, N / (2 ^ x) ^ j % 2 ^ x ≠ 0 := by
    intro j hj h0
    apply hz
    rw [ed]
    exact List.mem_of_getElem? ((nonzero_digits hc _ N j hj).mpr h0)
  suffices hdata : advanceTick c dbg fuel d false ((bump c.base)^[d.toNat] g.s)
      (tab c 0 c.tableSize (N + ticked c g.s d.toNat * ones x c.tableSize)) = .ok (tab c 0 c.tableSize N) by
    rw [backstep, advance, ← h]
    simp only [hdata, Outcome.bind_ok, advanceTock_wide hw, Outcome.pure_eq, Bool.false_eq_true, if_false]
    rw [hback, ← ed]
  by_cases hm : c.mayTick = true
  · obtain ⟨r, ticks, h1, h2, h3, h4, h5⟩ := back_ticks hc hm (ha hm) dbg fuel hfw d hs'
      (tab c 0 c.tableSize (N + ticked c g.s d.toNat * ones x c.tableSize))
    obtain ⟨t, -, g1, g2⟩ := tick_distance hc hm dbg fuel hfw hs
    have hK : 0 < 2 ^ c.advancePow2 := by positivity
    have hticks : ticks.toNat = ticked c g.s d.toNat := by
      rw [h3, ticked_eq hm hk g1 g2]
      congr 1
      -- the state `r` steps after the last one is a tick
      have hr : (r + d.toNat) % 2 ^ c.advancePow2 = t.toNat := by
        rw [← g2, Function.iterate_add_apply, h2, Nat.mod_eq_of_lt h1]
      rcases ht hm with h0 | ⟨h6, h7⟩
      · rw [h0]
        simp
      · have ht0 : t.toNat ≠ 0 := by
          intro h0
          apply h6
          have := (g2 0).mpr (by rw [h0]; simp)
          exact this
        have hr0 : r ≠ 0 := by
          intro h0
          apply h7
          have := (h2 0).mpr (by rw [h0]; simp)
          rw [← h]
          exact this
        have hlt := Nat.mod_lt d.toNat hK
        rw [← Nat.add_mod_mod] at hr
        rw [if_neg hr0]
        by_cases h8 : r + d.toNat % 2 ^ c.advancePow2 < 2 ^ c.advancePow2
        · rw [Nat.mod_eq_of_lt h8] at hr
          rw [if_neg (by omega), if_neg (by omega)]
        · rw [Nat.mod_eq_sub_mod (by omega), Nat.mod_eq_of_lt (by omega)] at hr
          rw [if_pos (by omega), if_pos (by omega)]
    rw [h5, ← hticks]
    by_cases h0 : ticks = 0#w
    · rw [if_neg (by simp [h0]), h0]
      simp
    · rw [if_pos h0, retreat_tab hc dbg fuel hfx hx ticks h4 _ _ hdig]
  · have : ticked c g.s d.toNat = 0 := by
      apply Finset.sum_eq_zero
      intro j _
      simp [hm]
    rw [this]
    simp [advanceTick, hm]

theorem ones_not_zero {c : Cfg w x} (hc : WellFormed c) : ¬ ones x c.tableSize % (2 ^ x) ^ c.tableSize = 0 := by
  have hx := width_ge hc.ext
  have hsize : 0 < c.tableSize := by unfold Cfg.tableSize; positivity
  have hodd := ones_odd x c.tableSize (by omega) hsize
  intro h0
  have hdvd := Nat.dvd_of_mod_eq_zero h0
  have h2 : 2 ∣ (2 ^ x) ^ c.tableSize := by
    rw [← pow_mul]
    exact dvd_pow_self 2 (Nat.mul_ne_zero (by omega) (by omega))
  have := Nat.dvd_trans h2 hdvd
  omega

/-- The defect: after a call that has advanced the table, `backstep(1)` goes back to the state before it but leaves the table as it
is, for every generator whose state has 64 bits or more. -/
theorem C129_backstep_misses_tick {c : Cfg w x} (hc : WellFormed c) (hw : 64 ≤ w) (hk : c.kdd = true)
    (hm : c.mayTick = true) (ha : 1 ≤ c.advancePow2) (dbg : Bool) (fuel : Nat) (hfw : w < fuel)
    {g : Gen w x} (hg : Valid c g) (ht : OnTick c g.s) {y : BitVec x} {g' : Gen w x} (h : call c g = .ok (y, g')) :
    backstep c dbg fuel 1#w g' = .ok ⟨g.s, g'.data⟩ ∧ g'.data ≠ g.data := by
  have hs := hg.state
  have hw3 := width_ge hc.base
  obtain ⟨N, -, e⟩ := valid_tab hc hg
  have ed : g.data = tab c 0 c.tableSize N := by rw [e]
  have hmove : moves c (hi c.base g.s) = 1 := by
    have h1 : tickAt c (hi c.base g.s) := by simp only [tickAt, hk, if_true]; exact ht
    have h2 : ¬ c.mayTock = true := by simp only [Cfg.mayTock, decide_eq_true_eq]; omega
    simp [moves, hm, h1, h2]
  rw [e, call_tab hc hs, hmove, Nat.one_mul] at h
  injection h with h
  injection h with h0 h
  have hone : (1#w).toNat = 1 := by
    have : 2 ^ 1 ≤ 2 ^ w := Nat.pow_le_pow_right (by norm_num) (by omega)
    rw [BitVec.toNat_ofNat, Nat.mod_eq_of_lt (by omega)]
  have hs' : Reach c.base (bump c.base g.s) := bump_reach hc.base hs
  have hback : Pcg.advance c.base (bump c.base g.s) (-1#w) = g.s := by
    have := (C96_backstep hc.base hs 1#w).1
    rwa [Pcg.backstep, advance_iter c.base g.s 1#w, hone] at this
  obtain ⟨r, ticks, h1, h2, h3, h4, h5⟩ := back_ticks hc hm ha dbg fuel hfw 1#w hs' g'.data
  have hK : 2 ^ 1 ≤ 2 ^ c.advancePow2 := Nat.pow_le_pow_right (by norm_num) ha
  have hr : r = 2 ^ c.advancePow2 - 1 := by
    have hit := hi_mod hc.base hs c.advancePow2 (hc.tick hm) (r + 1) 0
    rw [Function.iterate_succ_apply, (h2 r).mpr (Nat.mod_eq_of_lt h1)] at hit
    have h6 := hit.mp ht.symm
    rw [Nat.zero_mod] at h6
    by_contra hne
    rw [Nat.mod_eq_of_lt (by omega)] at h6
    omega
  have ht0 : ticks = 0#w := by
    have hr0 : ¬ r = 0 := by omega
    rw [← BitVec.toNat_inj, h3, hone, Nat.div_eq_of_lt (show 1 < 2 ^ c.advancePow2 by omega),
      Nat.mod_eq_of_lt (show 1 < 2 ^ c.advancePow2 by omega), if_neg hr0, if_neg (by omega)]
    simp
  constructor
  · rw [backstep, advance, ← h]
    rw [← h] at h5
    simp only [h5, ht0, ne_eq, not_true_eq_false, if_false, Outcome.bind_ok, advanceTock_wide hw, Outcome.pure_eq,
      Bool.false_eq_true]
    rw [hback]
  · rw [← h, ed]
    intro h6
    exact ones_not_zero hc ((tab_shift hc _ _ _).mp h6)

end Verif.PcgExt
