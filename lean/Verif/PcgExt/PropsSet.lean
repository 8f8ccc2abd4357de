import Verif.PcgExt.PropsAdvance
import Verif.PcgExt.Typedefs

/-!
# Planting values in extended generators
-/

namespace Verif.PcgExt

open Verif Verif.Pcg Verif.Pcg.Spec Spec

variable {w x : Nat}

/-- **C130.** `set(y)` is always defined and leaves a proper generator: the one that a call which returns `y` would have left, from the
state that the generator was in and from exactly one table. Apart from the one entry, it is what a call would have left. -/
theorem C130_set {c : Cfg w x} (hc : WellFormed c) {g : Gen w x} (hg : Valid c g) (y : BitVec x) :
    ∃ g', set c y g = .ok g' ∧ Valid c g' ∧
      (∃! data : List (BitVec x), data.length = c.tableSize ∧ call c ⟨g.s, data⟩ = .ok (y, g')) ∧
      ∃ (y' : BitVec x) (g'' : Gen w x) (i : Nat), call c g = .ok (y', g'') ∧ g'.s = g''.s ∧ ∀ j : Nat, j ≠ i → g'.data[j]? = g''.data[j]? := by
  obtain ⟨N, -, e⟩ := valid_tab hc hg
  have hs := hg.state
  set m := moves c (hi c.base g.s)
  have hset : set c y g = .ok ⟨bump c.base g.s,
      (tab c 0 c.tableSize (N + m * ones x c.tableSize)).set (idx c g.s) (lhs c g.s ^^^ y)⟩ := by
    rw [e, set, getExtended_tab hc hs]
    simp only [Outcome.bind_ok]
    rw [tab_get _ _ _ _ (idx_lt hc _)]
    simp only [Outcome.ofOption, Outcome.bind_ok, Outcome.pure_eq]
    have : (next c.base c.prev c.out g.s).2 = bump c.base g.s := next_state _ _ _ _
    rw [this]
    rfl
  have hlen : ((tab c 0 c.tableSize (N + m * ones x c.tableSize)).set (idx c g.s) (lhs c g.s ^^^ y)).length = c.tableSize := by
    rw [List.length_set, tab_length]
  refine ⟨_, hset, ⟨bump_reach hc.base hs, hlen⟩, ?_, ?_⟩
  · obtain ⟨N2, hN2, e2⟩ := tab_surj hc c.tableSize 0 _ hlen
    have hQ : 0 < (2 ^ x) ^ c.tableSize := by positivity
    have hcall : ∀ M, call c ⟨g.s, tab c 0 c.tableSize M⟩ = .ok (y, ⟨bump c.base g.s,
        (tab c 0 c.tableSize (N + m * ones x c.tableSize)).set (idx c g.s) (lhs c g.s ^^^ y)⟩) ↔
        (M + m * ones x c.tableSize) % (2 ^ x) ^ c.tableSize = N2 := by
      intro M
      rw [call_tab hc hs, Outcome.ok.injEq, Prod.mk.injEq, Gen.mk.injEq, ← e2, tab_eq hc, Nat.mod_eq_of_lt hN2]
      constructor
      · exact fun h => h.2.2
      · intro h
        refine ⟨?_, rfl, h⟩
        have h1 : tab c 0 c.tableSize (M + m * ones x c.tableSize) = tab c 0 c.tableSize N2 :=
          (tab_eq hc _ _ _ _).mpr (by rw [h, Nat.mod_eq_of_lt hN2])
        have h2 := tab_get (c := c) c.tableSize 0 (M + m * ones x c.tableSize) (idx c g.s) (idx_lt hc _)
        rw [h1, e2, List.getElem?_set_self (by rw [tab_length]; exact idx_lt hc _)] at h2
        injection h2 with h2
        rw [Nat.zero_add] at h2
        exact (xor_eq_iff _ _ _).mpr h2.symm
    refine ⟨tab c 0 c.tableSize (N2 + ((2 ^ x) ^ c.tableSize - 1) * (m * ones x c.tableSize)), ⟨tab_length _ _ _ _, ?_⟩, ?_⟩
    · rw [hcall]
      have : N2 + ((2 ^ x) ^ c.tableSize - 1) * (m * ones x c.tableSize) + m * ones x c.tableSize =
          N2 + (2 ^ x) ^ c.tableSize * (m * ones x c.tableSize) := by
        obtain ⟨q, hq⟩ : ∃ q, (2 ^ x) ^ c.tableSize = q + 1 := ⟨_, (Nat.sub_add_cancel hQ).symm⟩
        rw [hq, Nat.add_sub_cancel]
        ring
      rw [this, Nat.add_mul_mod_self_left, Nat.mod_eq_of_lt hN2]
    · rintro data ⟨h1, h2⟩
      obtain ⟨M, hM, rfl⟩ := tab_surj hc c.tableSize 0 data h1
      rw [hcall] at h2
      rw [tab_eq hc]
      have h3 : M + m * ones x c.tableSize ≡
          N2 + ((2 ^ x) ^ c.tableSize - 1) * (m * ones x c.tableSize) + m * ones x c.tableSize [MOD (2 ^ x) ^ c.tableSize] := by
        have : N2 + ((2 ^ x) ^ c.tableSize - 1) * (m * ones x c.tableSize) + m * ones x c.tableSize =
            N2 + (2 ^ x) ^ c.tableSize * (m * ones x c.tableSize) := by
          obtain ⟨q, hq⟩ : ∃ q, (2 ^ x) ^ c.tableSize = q + 1 := ⟨_, (Nat.sub_add_cancel hQ).symm⟩
          rw [hq, Nat.add_sub_cancel]
          ring
        rw [this]
        show _ % _ = _ % _
        rw [h2, Nat.add_mul_mod_self_left, Nat.mod_eq_of_lt hN2]
      exact Nat.ModEq.add_right_cancel' _ h3
  · rw [e, call_tab hc hs]
    exact ⟨_, _, idx c g.s, rfl, rfl, fun j hj => List.getElem?_set_ne (Ne.symm hj)⟩

/-! ## Planting a sequence -/

theorem quiet_moves {c : Cfg w x} (hk : c.kdd = true) {s : BitVec w} (h : Quiet c s) : moves c (hi c.base s) = 0 := by
  have h1 : ¬ (c.mayTick = true ∧ tickAt c (hi c.base s)) := by
    rintro ⟨h1, h2⟩
    simp only [tickAt, hk, if_true] at h2
    exact h.1 h1 h2
  have h2 : ¬ (c.mayTock = true ∧ tockAt c (hi c.base s)) := by
    rintro ⟨h1, h2⟩
    simp only [Cfg.mayTock, decide_eq_true_eq] at h1
    exact h.2 h1 h2.1
  simp [moves, h1, h2]

theorem quiet_ext {c : Cfg w x} (hc : WellFormed c) (hk : c.kdd = true) {s : BitVec w} (hs : Reach c.base s) (h : Quiet c s)
    (data : List (BitVec x)) (hl : data.length = c.tableSize) : getExtended c ⟨s, data⟩ = .ok (idx c s, data) := by
  obtain ⟨N, -, rfl⟩ := tab_surj hc c.tableSize 0 data hl
  rw [getExtended_tab hc hs, quiet_moves hk h, Nat.zero_mul, Nat.add_zero]

theorem quiet_set {c : Cfg w x} (hc : WellFormed c) (hk : c.kdd = true) {s : BitVec w} (hs : Reach c.base s) (h : Quiet c s)
    (data : List (BitVec x)) (hl : data.length = c.tableSize) (y : BitVec x) :
    set c y ⟨s, data⟩ = .ok ⟨bump c.base s, data.set (idx c s) (lhs c s ^^^ y)⟩ := by
  rw [set, quiet_ext hc hk hs h data hl]
  simp only [Outcome.bind_ok]
  rw [List.getElem?_eq_getElem (by rw [hl]; exact idx_lt hc s)]
  simp only [Outcome.ofOption, Outcome.bind_ok, Outcome.pure_eq]
  have : (next c.base c.prev c.out s).2 = bump c.base s := next_state _ _ _ _
  rw [this]
  rfl

theorem quiet_call {c : Cfg w x} (hc : WellFormed c) (hk : c.kdd = true) {s : BitVec w} (hs : Reach c.base s) (h : Quiet c s)
    (data : List (BitVec x)) (hl : data.length = c.tableSize) {v : BitVec x} (hv : data[idx c s]? = some v) :
    call c ⟨s, data⟩ = .ok (lhs c s ^^^ v, ⟨bump c.base s, data⟩) := by
  rw [call, quiet_ext hc hk hs h data hl]
  simp only [Outcome.bind_ok]
  rw [hv]
  simp only [Outcome.ofOption, Outcome.bind_ok, Outcome.pure_eq]
  have : (next c.base c.prev c.out s).2 = bump c.base s := next_state _ _ _ _
  rw [this]
  rfl

theorem idx_ne {c : Cfg w x} (hc : WellFormed c) (hk : c.kdd = true) {s : BitVec w} (hs : Reach c.base s) {i j : Nat}
    (h : i % c.tableSize ≠ j % c.tableSize) : idx c ((bump c.base)^[i] s) ≠ idx c ((bump c.base)^[j] s) := by
  simp only [idx, hk, if_true]
  rw [Ne, hi_mod hc.base hs c.tablePow2 hc.table]
  exact h

/-- The values planted by `sets`, as long as the table is not advanced. -/
theorem sets_quiet {c : Cfg w x} (hc : WellFormed c) (hk : c.kdd = true) (ys : List (BitVec x)) : ∀ {s : BitVec w}, Reach c.base s →
    (∀ j < ys.length, Quiet c ((bump c.base)^[j] s)) → ys.length ≤ c.tableSize →
    ∀ data : List (BitVec x), data.length = c.tableSize →
    ∃ data', sets c ys ⟨s, data⟩ = .ok ⟨(bump c.base)^[ys.length] s, data'⟩ ∧ data'.length = c.tableSize ∧
      results c ys.length ⟨s, data'⟩ = .ok ys ∧
      (∀ i : Nat, (∀ j < ys.length, idx c ((bump c.base)^[j] s) ≠ i) → data'[i]? = data[i]?) := by
  induction ys with
  | nil => intro s hs _ _ data hl; exact ⟨data, rfl, hl, rfl, fun _ _ => rfl⟩
  | cons y ys ih =>
    intro s hs hq hn data hl
    have hq0 : Quiet c s := hq 0 (by simp)
    simp only [List.length_cons] at hq hn
    obtain ⟨data', h1, h2, h3, h4⟩ := ih (bump_reach hc.base hs) (fun j hj => by
      rw [← Function.iterate_succ_apply]; exact hq (j + 1) (by omega)) (by omega)
      (data.set (idx c s) (lhs c s ^^^ y)) (by rw [List.length_set, hl])
    have h5 : data'[idx c s]? = some (lhs c s ^^^ y) := by
      rw [h4, List.getElem?_set_self (by rw [hl]; exact idx_lt hc s)]
      intro j hj
      rw [← Function.iterate_succ_apply]
      exact idx_ne hc hk hs (i := j + 1) (j := 0) (by rw [Nat.mod_eq_of_lt (by omega), Nat.zero_mod]; omega)
    refine ⟨data', ?_, h2, ?_, ?_⟩
    · rw [sets, quiet_set hc hk hs hq0 data hl]
      simp only [Outcome.bind_ok]
      rw [h1, List.length_cons, Function.iterate_succ_apply]
    · rw [List.length_cons, results, quiet_call hc hk hs hq0 data' h2 h5]
      simp only [Outcome.bind_ok, h3, Outcome.pure_eq]
      rw [← BitVec.xor_assoc, BitVec.xor_self, BitVec.zero_xor]
    · intro i hi
      rw [h4 i fun j hj => by rw [← Function.iterate_succ_apply]; exact hi (j + 1) (by simp; omega)]
      exact List.getElem?_set_ne (by have := hi 0 (by simp); exact this)

/-- **C129.** Where none of the states passed, the first and the last included, is one in which the table is advanced, `backstep`
goes back and leaves the table as it is, whatever it contains. -/
theorem C129_backstep_quiet {c : Cfg w x} (hc : WellFormed c) (hw : 64 ≤ w) (hk : c.kdd = true)
    (ha : c.mayTick = true → 1 ≤ c.advancePow2) (dbg : Bool) (fuel : Nat) (hfw : w < fuel) (d : BitVec w)
    {g g' : Gen w x} (hg : Valid c g) (h : afterCalls c d.toNat g = .ok g')
    (ht : ∀ j ≤ d.toNat, ∀ h, afterCalls c j g = .ok h → Quiet c h.s) (data : List (BitVec x)) :
    backstep c dbg fuel d ⟨g'.s, data⟩ = .ok ⟨g.s, data⟩ := by
  have hs := hg.state
  obtain ⟨N, -, e⟩ := valid_tab hc hg
  have hq : ∀ j ≤ d.toNat, Quiet c ((bump c.base)^[j] g.s) := fun j hj => ht j hj _ (by rw [e]; exact after_tab hc j hs N)
  rw [e, after_tab hc _ hs] at h
  injection h with h
  have hs' : Reach c.base ((bump c.base)^[d.toNat] g.s) := iter_reach hc.base hs _
  have hback : Pcg.advance c.base ((bump c.base)^[d.toNat] g.s) (-d) = g.s := by
    have := (C96_backstep hc.base hs d).1
    rwa [Pcg.backstep, advance_iter c.base g.s d] at this
  suffices hdata : advanceTick c dbg fuel d false ((bump c.base)^[d.toNat] g.s) data = .ok data by
    rw [backstep, advance, ← h]
    simp only [hdata, Outcome.bind_ok, advanceTock_wide hw, Outcome.pure_eq, Bool.false_eq_true, if_false]
    rw [hback]
  by_cases hm : c.mayTick = true
  · obtain ⟨r, ticks, h1, h2, h3, h4, h5⟩ := back_ticks hc hm (ha hm) dbg fuel hfw d hs' data
    obtain ⟨t, -, g1, g2⟩ := tick_distance hc hm dbg fuel hfw hs
    have hK : 0 < 2 ^ c.advancePow2 := by positivity
    have hd : d.toNat < t.toNat := by
      by_contra hlt
      have := (g2 t.toNat).mpr (Nat.mod_eq_of_lt g1)
      exact (hq t.toNat (by omega)).1 hm this
    have hr : (r + d.toNat) % 2 ^ c.advancePow2 = t.toNat := by
      rw [← g2, Function.iterate_add_apply, h2, Nat.mod_eq_of_lt h1]
    have hr' : r = t.toNat - d.toNat := by
      by_cases h8 : r + d.toNat < 2 ^ c.advancePow2
      · rw [Nat.mod_eq_of_lt h8] at hr
        omega
      · rw [Nat.mod_eq_sub_mod (by omega), Nat.mod_eq_of_lt (by omega)] at hr
        omega
    have hr0 : ¬ r = 0 := by omega
    have h0 : ticks = 0#w := by
      rw [← BitVec.toNat_inj, h3, Nat.div_eq_of_lt (by omega), Nat.mod_eq_of_lt (by omega), if_neg hr0, if_neg (by omega)]
      simp
    rw [h5, if_neg (by simp [h0])]
  · simp [advanceTick, hm]

/-- **C130.** The party trick of the comment: with `n ≤ table_size` calls of `set`, going back and calling again, the planted values
come out, provided that none of the states passed is one in which the table is advanced. -/
theorem C130_plant {c : Cfg w x} (hc : WellFormed c) (hw : 64 ≤ w) (hk : c.kdd = true)
    (ha : c.mayTick = true → 1 ≤ c.advancePow2) (dbg : Bool) (fuel : Nat) (hfw : w < fuel) {g : Gen w x} (hg : Valid c g)
    (ys : List (BitVec x)) (d : BitVec w) (hd : d.toNat = ys.length) (hn : ys.length ≤ c.tableSize)
    (ht : ∀ j ≤ ys.length, ∀ h, afterCalls c j g = .ok h → Quiet c h.s) :
    ∃ g1 g2, sets c ys g = .ok g1 ∧ backstep c dbg fuel d g1 = .ok g2 ∧ results c ys.length g2 = .ok ys := by
  have hs := hg.state
  obtain ⟨N, -, e⟩ := valid_tab hc hg
  have hq : ∀ j ≤ ys.length, Quiet c ((bump c.base)^[j] g.s) := fun j hj => ht j hj _ (by rw [e]; exact after_tab hc j hs N)
  obtain ⟨data', h1, h2, h3, -⟩ := sets_quiet hc hk ys hs (fun j hj => hq j (by omega)) hn g.data hg.size
  refine ⟨_, ⟨g.s, data'⟩, h1, ?_, h3⟩
  have := C129_backstep_quiet hc hw hk ha dbg fuel hfw d hg (by rw [e]; exact after_tab hc d.toNat hs N) (by rw [hd]; exact ht) data'
  rwa [hd] at this

/-! ## Going back over a tick -/

theorem retreat_defined {c : Cfg w x} (hc : WellFormed c) (dbg : Bool) (fuel : Nat) (hf : x < fuel) (hx : 32 ≤ x) (delta : BitVec w)
    (data : List (BitVec x)) : ∀ i carry, ∃ data', advTableByLoop c dbg fuel delta false i carry data = .ok data' := by
  induction data with
  | nil => intro i carry; exact ⟨[], rfl⟩
  | cons v vs ih =>
    intro i carry
    obtain ⟨n, -, rfl⟩ := val_surj hc (i + 1) v
    have e := (val_eq hc (i + 1) (n + (-((carry + delta).setWidth x)).toNat + ((carry + delta).setWidth x).toNat) n).mpr (by
      have h := BitVec.toNat_add (-((carry + delta).setWidth x)) ((carry + delta).setWidth x)
      rw [BitVec.add_comm, ← BitVec.sub_eq_add_neg, BitVec.sub_self, BitVec.toNat_ofNat, Nat.zero_mod] at h
      rw [Nat.add_assoc, Nat.add_mod, ← h, Nat.add_zero, Nat.mod_mod])
    rw [advTableByLoop, ← e]
    simp only [extRetreat_val hc dbg fuel hf hx, Outcome.bind_ok]
    obtain ⟨vs', h⟩ := ih (i + 1) _
    rw [h]
    exact ⟨_, rfl⟩

/-- The defect: after a call that leads to a state in which the table is to be advanced, `backstep(1)` takes the table back by one
step that has not been made yet. -/
theorem C129_backstep_extra_tick {c : Cfg w x} (hc : WellFormed c) (hw : 64 ≤ w) (hx : 32 ≤ x) (hk : c.kdd = true)
    (hm : c.mayTick = true) (ha : 1 ≤ c.advancePow2) (dbg : Bool) (fuel : Nat) (hfw : w < fuel) (hfx : x < fuel)
    {g : Gen w x} (hg : Valid c g) {y : BitVec x} {g' : Gen w x} (h : call c g = .ok (y, g')) (ht : OnTick c g'.s) :
    g'.data = g.data ∧ ∃ g'', backstep c dbg fuel 1#w g' = .ok g'' ∧ g''.s = g.s ∧ g''.data[0]? ≠ g.data[0]? := by
  have hs := hg.state
  have hw3 := width_ge hc.base
  have hx3 := width_ge hc.ext
  obtain ⟨N, -, e⟩ := valid_tab hc hg
  have ed : g.data = tab c 0 c.tableSize N := by rw [e]
  have hone : (1#w).toNat = 1 := by
    have : 2 ^ 1 ≤ 2 ^ w := Nat.pow_le_pow_right (by norm_num) (by omega)
    rw [BitVec.toNat_ofNat, Nat.mod_eq_of_lt (by omega)]
  have hK : 2 ^ 1 ≤ 2 ^ c.advancePow2 := Nat.pow_le_pow_right (by norm_num) ha
  have hs' : Reach c.base (bump c.base g.s) := bump_reach hc.base hs
  rw [e, call_tab hc hs] at h
  injection h with h
  injection h with h0 h
  have hgs : g'.s = bump c.base g.s := by rw [← h]
  rw [hgs] at ht
  have hmove : moves c (hi c.base g.s) = 0 := by
    have h1 : ¬ tickAt c (hi c.base g.s) := by
      simp only [tickAt, hk, if_true]
      intro h1
      have := (hi_mod hc.base hs c.advancePow2 (hc.tick hm) 0 1).mp (by
        rw [Function.iterate_one]
        exact h1.trans ht.symm)
      rw [Nat.zero_mod, Nat.mod_eq_of_lt (by omega)] at this
      omega
    have h2 : ¬ c.mayTock = true := by simp only [Cfg.mayTock, decide_eq_true_eq]; omega
    simp [moves, h1, h2]
  have hgd : g'.data = tab c 0 c.tableSize N := by rw [← h, hmove, Nat.zero_mul, Nat.add_zero]
  refine ⟨by rw [hgd, ed], ?_⟩
  have hback : Pcg.advance c.base (bump c.base g.s) (-1#w) = g.s := by
    have := (C96_backstep hc.base hs 1#w).1
    rwa [Pcg.backstep, advance_iter c.base g.s 1#w, hone] at this
  obtain ⟨r, ticks, h1, h2, h3, h4, h5⟩ := back_ticks hc hm ha dbg fuel hfw 1#w hs' g'.data
  have hr : r = 0 := by
    have := (h2 0).mp ht
    rw [← this, Nat.zero_mod]
  have ht1 : ticks = 1#w := by
    rw [← BitVec.toNat_inj, h3, hone, Nat.div_eq_of_lt (show 1 < 2 ^ c.advancePow2 by omega),
      Nat.mod_eq_of_lt (show 1 < 2 ^ c.advancePow2 by omega), if_pos hr, if_pos (by omega)]
  obtain ⟨data', hd'⟩ := retreat_defined hc dbg fuel hfx hx 1#w g'.data 0 0#w
  refine ⟨⟨g.s, data'⟩, ?_, rfl, ?_⟩
  · rw [backstep, advance, hgs]
    have hne : (1#w : BitVec w) ≠ 0#w := by
      intro h6
      have := congrArg BitVec.toNat h6
      rw [hone] at this
      simp at this
    simp only [h5, ht1, ne_eq, hne, not_false_eq_true, if_true, advTableBy, hd', Outcome.bind_ok, advanceTock_wide hw, Outcome.pure_eq,
      Bool.false_eq_true, if_false]
    rw [hback]
  · -- the first entry
    obtain ⟨k, hk'⟩ : ∃ k, c.tableSize = k + 1 := ⟨c.tableSize - 1, by
      have : 0 < c.tableSize := by unfold Cfg.tableSize; positivity
      omega⟩
    have hx1 : ((0#w + 1#w).setWidth x).toNat = 1 := by
      rw [BitVec.zero_add, BitVec.toNat_setWidth, hone, Nat.mod_eq_of_lt]
      have : 2 ^ 1 ≤ 2 ^ x := Nat.pow_le_pow_right (by norm_num) (by omega)
      omega
    have hM : 2 ^ 1 ≤ 2 ^ x := Nat.pow_le_pow_right (by norm_num) (by omega)
    have ev := (val_eq hc (0 + 1) (N + (2 ^ x - 1) + ((0#w + 1#w).setWidth x).toNat) N).mpr (by
      rw [hx1, Nat.add_assoc, Nat.sub_add_cancel (by omega), Nat.add_mod_right])
    rw [hgd, hk', tab, advTableByLoop, ← ev] at hd'
    simp only [extRetreat_val hc dbg fuel hfx hx, Outcome.bind_ok] at hd'
    rw [Outcome.bind_eq_ok] at hd'
    obtain ⟨vs, -, h7⟩ := hd'
    injection h7 with h7
    rw [ed, hk', tab, ← h7]
    simp only [List.getElem?_cons_zero, Ne, Option.some.injEq]
    rw [val_eq hc]
    intro h8
    have h9 : 2 ^ x ∣ 2 ^ x - 1 := by
      have : N + (2 ^ x - 1) ≡ N + 0 [MOD 2 ^ x] := h8
      exact (Nat.modEq_zero_iff_dvd).mp (Nat.ModEq.add_left_cancel' _ this)
    have := Nat.le_of_dvd (by omega) h9
    omega

end Verif.PcgExt
