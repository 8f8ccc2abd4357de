import Verif.PcgExt.PropsIo

/-!
# The theorems about extended generators, on generators of the library
-/

namespace Verif.PcgExt

open Verif Verif.Pcg Verif.Pcg.Spec Spec

theorem k64 (seq : BitVec 64) : WellFormed (pcg32_k64 seq) := (C127_library seq 0#128).2.2.1

theorem size64 : 2 ^ 6 = 64 := by norm_num

theorem k64_valid (seq s : BitVec 64) (data : List (BitVec 32)) (h : data.length = 64) : Valid (pcg32_k64 seq) ⟨s, data⟩ :=
  ⟨fun h => absurd h Bool.false_ne_true, by rw [h]; exact size64.symm⟩

theorem k64_tick (seq s : BitVec 64) : OnTick (pcg32_k64 seq) s ↔ s.toNat % 65536 = 0 := by
  show s.toNat / 2 ^ 0 % 2 ^ 16 = 0 ↔ _
  norm_num

/-- Every 64 results come from exactly one table, for `pcg32_k64`. -/
example (seq s : BitVec 64) (ys : List (BitVec 32)) (hy : ys.length = 64) :
    ∃! data : List (BitVec 32), data.length = (pcg32_k64 seq).tableSize ∧
      results (pcg32_k64 seq) (pcg32_k64 seq).tableSize ⟨s, data⟩ = .ok ys :=
  C127_equidistributed (k64 seq) rfl (fun h => absurd h Bool.false_ne_true) ys (by rw [hy]; exact size64.symm)

/-- A 32-bit generator with a table of two: the period is the one claimed, and every pair of results appears equally often. -/
theorem small : WellFormed (extOneseq32 1 4 true) := (C127_families true 1 4 (by norm_num) (by norm_num)).1 (by norm_num)

theorem small_valid (s : BitVec 32) (a b : BitVec 32) : Valid (extOneseq32 1 4 true) ⟨s, [a, b]⟩ :=
  ⟨fun h => absurd h Bool.false_ne_true, rfl⟩

example (s a b : BitVec 32) (n : Nat) : afterCalls (extOneseq32 1 4 true) n ⟨s, [a, b]⟩ = .ok ⟨s, [a, b]⟩ ↔ 2 ^ 96 ∣ n :=
  C128_period_narrow small (by norm_num) (Or.inl rfl) (fun _ => show 4 + 0 < 32 by norm_num) (small_valid s a b) n

example (s a b y z : BitVec 32) :
    {n | n < 2 ^ 96 ∧ ∃ g', afterCalls (extOneseq32 1 4 true) n ⟨s, [a, b]⟩ = .ok g' ∧
      results (extOneseq32 1 4 true) 2 g' = .ok [y, z]}.ncard = 2 ^ 32 :=
  C127_frequency small (by norm_num) rfl (fun _ => show 4 + 0 < 32 by norm_num) (small_valid s a b) [y, z] rfl

example (s a b t d e : BitVec 32) : ∃! n, n < 2 ^ 96 ∧ afterCalls (extOneseq32 1 4 true) n ⟨s, [a, b]⟩ = .ok ⟨t, [d, e]⟩ :=
  C128_visits small (by norm_num) (Or.inl rfl) (fun _ => show 4 + 0 < 32 by norm_num) (small_valid s a b) (small_valid t d e)

/-- Three calls that reach a tick, from a table without zeros: `advance` is right. -/
example (seq : BitVec 64) : advance (pcg32_k64 seq) true 65 3#64 true ⟨0#64, List.replicate 64 1#32⟩ =
    afterCalls (pcg32_k64 seq) 3 ⟨0#64, List.replicate 64 1#32⟩ :=
  (C129_advance_iff (k64 seq) (by norm_num) rfl (fun _ => show 1 ≤ 16 by norm_num) true 65 (by norm_num) (by norm_num) 3#64
    (k64_valid seq _ _ (by simp))).mpr (fun _ => by decide)

/-- From a table with a zero in the first place it is wrong. -/
example (seq : BitVec 64) : advance (pcg32_k64 seq) true 65 3#64 true ⟨0#64, 0#32 :: List.replicate 63 1#32⟩ ≠
    afterCalls (pcg32_k64 seq) 3 ⟨0#64, 0#32 :: List.replicate 63 1#32⟩ := by
  intro h
  exact (C129_advance_iff (k64 seq) (by norm_num) rfl (fun _ => show 1 ≤ 16 by norm_num) true 65 (by norm_num) (by norm_num) 3#64
    (k64_valid seq _ _ (by simp))).mp h ⟨rfl, 0, by decide, _, rfl, (k64_tick seq _).mpr (by decide)⟩ (by decide)

/-- A 32-bit generator whose call leads to the state zero: `advance(1)` advances the table, the call does not. -/
example : advance (extOneseq32 1 4 true) true 33 1#32 true ⟨449710063#32, [5#32, 6#32]⟩ ≠
    afterCalls (extOneseq32 1 4 true) 1 ⟨449710063#32, [5#32, 6#32]⟩ := by
  intro h
  exact (C129_advance_narrow_iff small (by norm_num) rfl (fun _ => show 1 ≤ 4 by norm_num) true 33 (by norm_num) (by norm_num) 1#32
    (by decide) (small_valid 449710063#32 5#32 6#32) (by decide)).mp h _ rfl (by show BitVec.toNat _ / 2 ^ 0 = 0; decide)

/-- Stepping back over a tick: the table stays advanced. -/
example (seq : BitVec 64) (data : List (BitVec 32)) (hd : data.length = 64) {y : BitVec 32} {g' : Gen 64 32}
    (h : call (pcg32_k64 seq) ⟨0#64, data⟩ = .ok (y, g')) :
    backstep (pcg32_k64 seq) true 65 1#64 g' = .ok ⟨0#64, g'.data⟩ ∧ g'.data ≠ data :=
  C129_backstep_misses_tick (k64 seq) (by norm_num) rfl rfl (show 1 ≤ 16 by norm_num) true 65 (by norm_num) (k64_valid seq _ _ hd)
    ((k64_tick seq 0#64).mpr (by decide)) h

/-- The states 1, 2, 3, … of the engine with stream 0: none of the first is one where the table is advanced. -/
example (a b c : BitVec 32) (data : List (BitVec 32)) (hd : data.length = 64) :
    ∃ g1 g2, sets (pcg32_k64 0#64) [a, b, c] ⟨1#64, data⟩ = .ok g1 ∧
      backstep (pcg32_k64 0#64) true 65 3#64 g1 = .ok g2 ∧ results (pcg32_k64 0#64) 3 g2 = .ok [a, b, c] := by
  have hc := k64 0#64
  have hv := k64_valid 0#64 1#64 data hd
  refine C130_plant hc (by norm_num) rfl (fun _ => show 1 ≤ 16 by norm_num) true 65 (by norm_num) hv [a, b, c] 3#64 rfl ?_ ?_
  · show 3 ≤ 2 ^ 6
    norm_num
  · intro j hj h hh
    obtain ⟨N, -, e⟩ := valid_tab hc hv
    rw [e, after_tab hc j hv.state] at hh
    injection hh with hh
    rw [← hh]
    have hj : j ≤ 3 := hj
    refine ⟨fun _ => ?_, fun h => absurd h (by norm_num)⟩
    rw [k64_tick]
    show ¬ ((bump (pcg32_k64 0#64).base)^[j] 1#64).toNat % 65536 = 0
    rcases (show j = 0 ∨ j = 1 ∨ j = 2 ∨ j = 3 by omega) with rfl | rfl | rfl | rfl <;> decide

/-- A generator without increment: its states end in two one bits. -/
example : Valid pcg32_k64_oneseq ⟨3#64, List.replicate 64 7#32⟩ ∧ OnTick pcg32_k64_oneseq 3#64 ∧ ¬ OnTick pcg32_k64_oneseq 7#64 :=
  ⟨⟨fun _ => by decide, by rw [List.length_replicate]; exact size64.symm⟩,
    by show 3 / 2 ^ 2 % 2 ^ 32 = 0; norm_num, by show ¬ 7 / 2 ^ 2 % 2 ^ 32 = 0; norm_num⟩

/-- The order of evaluation matters: for the seed 1 the two orders give different generators. -/
example : ofSeed (extOneseq32 1 4 true) true 1#32 ≠ ofSeed (extOneseq32 1 4 true) false 1#32 := by
  intro h
  exact absurd ((C130_seed_order small 1#32).mp h) (by decide)

/-- Writing and reading. -/
example (s : BitVec 64) (g : Gen 64 32) :
    read true ⟨mult64, inc64, false⟩ s (pcg32_k64 0#64) g
      ⟨write (pcg32_k64 5#64) ⟨9#64, List.replicate 64 7#32⟩ ++ ['\n'], false, false⟩ =
      some (((pcg32_k64 5#64).base, ⟨9#64, List.replicate 64 7#32⟩), ⟨['\n'], false, false⟩) := by
  have := C130_roundtrip true (pcg32_k64 5#64) (pcg32_k64 0#64) ⟨mult64, inc64, false⟩ s
    (g := ⟨9#64, List.replicate 64 7#32⟩) g (by simp; exact size64.symm) rfl rfl rfl rfl (by decide) [] ['\n'] (by simp) (by
      intro c hc
      simp only [List.head?_cons, Option.some.injEq] at hc
      subst hc
      decide)
  simpa using this

end Verif.PcgExt
