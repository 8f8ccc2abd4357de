import Verif.PcgExt.PropsLibrary
import Verif.PcgExt.PropsSet
import Verif.PcgExt.Io
import Verif.Pcg.PropsIo
import Mathlib.Tactic.Ring

/-!
# Seeding, comparing, writing and reading extended generators
-/

namespace Verif.PcgExt

open Verif Verif.Pcg Verif.Pcg.Spec Spec

variable {w x : Nat}

/-! ## Text -/

theorem data_roundtrip (tail : List Char) (ht : ∀ c, tail.head? = some c → c.isDigit = false) (data : List (BitVec x)) :
    ∀ b : Bool, (data ≠ [] → b = false) → (data = [] → b = tail.isEmpty) →
    readData x data.length ⟨(data.flatMap fun v => ' ' :: Nat.toDigits 10 v.toNat) ++ tail, b, false⟩ =
      (some data, ⟨tail, tail.isEmpty, false⟩) := by
  induction data with
  | nil =>
    intro b _ h
    rw [h rfl]
    rfl
  | cons v vs ih =>
    intro b h _
    rw [h (by simp), List.flatMap_cons, List.length_cons, readData]
    have hs1 : ∀ c ∈ [' '], isWs c = true := by
      intro c hc
      simp only [List.mem_singleton] at hc
      subst hc
      decide
    have hnext : ∀ c, ((vs.flatMap fun v => ' ' :: Nat.toDigits 10 v.toNat) ++ tail).head? = some c → c.isDigit = false := by
      intro c hc
      cases vs with
      | nil => exact ht c hc
      | cons u us =>
        simp only [List.flatMap_cons, List.cons_append, List.head?_cons, Option.some.injEq] at hc
        subst hc
        decide
    have e := readU_written v [' '] ((vs.flatMap fun v => ' ' :: Nat.toDigits 10 v.toNat) ++ tail) hs1 hnext
    simp only [List.cons_append, List.nil_append, List.append_assoc] at e ⊢
    rw [e]
    simp only [Bool.false_eq_true, if_false]
    rw [ih]
    · intro hne
      cases vs with
      | nil => exact absurd rfl hne
      | cons u us => simp
    · intro h0
      rw [h0]
      simp

/-- **C130.** Writing a generator and reading it back — behind any white space, before any text that does not continue the last
number, and into any generator of the same type — restores it and leaves what follows, unless the stream is derived from the address of
the object. -/
theorem C130_roundtrip (canSpecify : Bool) (c d : Cfg w x) (fresh : Par w) (s : BitVec w) {g : Gen w x} (g' : Gen w x)
    (hg : g.data.length = c.tableSize) (hd : d.tablePow2 = c.tablePow2) (hk : d.kdd = true)
    (hm : fresh.mult = c.base.mult) (hmcg : fresh.mcg = c.base.mcg)
    (hi : if canSpecify then c.base.inc.toNat % 2 = 1 else fresh.inc = c.base.inc) (ws tail : List Char)
    (hws : ∀ c ∈ ws, isWs c = true) (ht : ∀ c, tail.head? = some c → c.isDigit = false) :
    read canSpecify fresh s d g' ⟨ws ++ (write c g ++ tail), false, false⟩ =
      some ((c.base, g), ⟨tail, tail.isEmpty, false⟩) := by
  have hne : g.data ≠ [] := by
    intro h0
    rw [h0] at hg
    have : 0 < c.tableSize := by unfold Cfg.tableSize; positivity
    simp at hg
    omega
  have e := C102_roundtrip canSpecify c.base fresh g.s s ws
    ((g.data.flatMap fun v => ' ' :: Nat.toDigits 10 v.toNat) ++ tail) hm hmcg hi hws (by
      intro c hc
      cases h : g.data with
      | nil => exact absurd h hne
      | cons u us =>
        rw [h] at hc
        simp only [List.flatMap_cons, List.cons_append, List.head?_cons, Option.some.injEq] at hc
        subst hc
        decide)
  rw [read, if_neg (by simp [hk]), write, List.append_assoc, e]
  simp only [Bool.false_eq_true, if_false]
  have hl : d.tableSize = g.data.length := by rw [hg, Cfg.tableSize, Cfg.tableSize, hd]
  rw [hl, data_roundtrip tail ht g.data _ (by
    intro _
    cases h : g.data with
    | nil => exact absurd h hne
    | cons u us => simp) (fun h => absurd h hne)]

theorem readData_spec (n : Nat) : ∀ i : In, (readData x n i).1 = none ∧ ((readData x n i).2.fail = true) ∨
    ∃ vs, (readData x n i).1 = some vs ∧ vs.length = n ∧ (n ≠ 0 → (readData x n i).2.fail = false) := by
  have hU : ∀ i : In, (readU x i).1 = none → (readU x i).2.fail = true := by
    intro i h
    unfold readU at h ⊢
    split at h
    · rename_i h1; rw [if_pos h1]
    · rename_i h1
      rw [if_neg h1]
      simp only [] at h ⊢
      split at h
      · rename_i h2; rw [if_pos h2]
      · cases h
  induction n with
  | zero => intro i; exact Or.inr ⟨[], rfl, rfl, fun h => absurd rfl h⟩
  | succ n ih =>
    intro i
    rw [readData]
    have h1 := hU i
    generalize readU x i = r at *
    obtain ⟨v, j⟩ := r
    cases v with
    | none => exact Or.inl ⟨rfl, h1 rfl⟩
    | some v =>
      simp only []
      by_cases hf : j.fail = true
      · rw [if_pos hf]; exact Or.inl ⟨rfl, hf⟩
      · rw [if_neg hf]
        have h2 := ih j
        cases n with
        | zero =>
          refine Or.inr ⟨[v], rfl, rfl, fun _ => ?_⟩
          simpa [readData] using hf
        | succ n =>
          generalize readData x (n + 1) j = r at *
          obtain ⟨vs, k⟩ := r
          rcases h2 with ⟨h3, h4⟩ | ⟨us, h3, h4, h5⟩
          · simp only at h3
            subst h3
            exact Or.inl ⟨rfl, h4⟩
          · simp only at h3
            subst h3
            exact Or.inr ⟨v :: us, rfl, by simp [h4], fun _ => h5 (by omega)⟩

/-- **C130.** Whatever the text, a read that fails leaves the generator as it was, and one that does not fail replaces the whole
table. -/
theorem C130_read (canSpecify : Bool) (fresh : Par w) (s : BitVec w) (c : Cfg w x) (g : Gen w x) (i : In) {p : Par w} {g' : Gen w x}
    {j : In} (h : read canSpecify fresh s c g i = some ((p, g'), j)) :
    (j.fail = true → p = c.base ∧ g' = g) ∧ (j.fail = false → g'.data.length = c.tableSize ∧ p.mult = fresh.mult) := by
  have hmult : (readEngine canSpecify fresh s i).1.1.mult = fresh.mult := by
    unfold readEngine
    generalize readU w i = a
    obtain ⟨m, i1⟩ := a
    simp only []
    generalize readU w i1 = b
    obtain ⟨c, i2⟩ := b
    simp only []
    generalize readU w i2 = d
    obtain ⟨t, i3⟩ := d
    simp only []
    split
    · rfl
    · split
      · split
        · rfl
        · split
          · rfl
          · split <;> rfl
      · rfl
  rw [read] at h
  split at h
  · cases h
  · generalize readEngine canSpecify fresh s i = r at *
    obtain ⟨⟨p', t⟩, i1⟩ := r
    simp only at h hmult
    split at h
    · rename_i hf
      injection h with h
      injection h with h1 h2
      injection h1 with h1 h3
      subst h1 h2 h3
      exact ⟨fun _ => ⟨rfl, rfl⟩, fun h4 => by rw [hf] at h4; cases h4⟩
    · have hn : c.tableSize ≠ 0 := by unfold Cfg.tableSize; positivity
      have hd := readData_spec (x := x) c.tableSize i1
      generalize readData x c.tableSize i1 = r at *
      obtain ⟨vs, k⟩ := r
      rcases hd with ⟨h3, h4⟩ | ⟨us, h3, h4, h5⟩
      · simp only at h3 h4
        subst h3
        injection h with h
        injection h with h1 h2
        injection h1 with h1 h6
        subst h1 h2 h6
        exact ⟨fun _ => ⟨rfl, rfl⟩, fun h7 => by rw [h4] at h7; cases h7⟩
      · simp only at h3 h5
        subst h3
        injection h with h
        injection h with h1 h2
        injection h1 with h1 h6
        subst h1 h2 h6
        exact ⟨fun h7 => absurd h7 (by rw [h5 hn]; decide), fun _ => ⟨h4, hmult⟩⟩

/-- The defect: generators whose stream is derived from their address cannot be read back, as the temporary object has another address:
the read fails. -/
theorem C130_unique_unreadable (c : Cfg w x) (fresh : Par w) (s : BitVec w) (g g' : Gen w x) (hk : c.kdd = true)
    (hl : g.data.length = c.tableSize) (hi : fresh.inc ≠ c.base.inc) {r : (Par w × Gen w x) × In}
    (h : read false fresh s c g' ⟨write c g, false, false⟩ = some r) : r.2.fail = true := by
  have hne : g.data ≠ [] := by
    intro h0
    rw [h0] at hl
    have : 0 < c.tableSize := by unfold Cfg.tableSize; positivity
    simp at hl
    omega
  have hsp : ∀ l : List Char, ∀ c, (' ' :: l).head? = some c → c.isDigit = false := by
    intro l c hc
    simp only [List.head?_cons, Option.some.injEq] at hc
    subst hc
    decide
  have hs1 : ∀ c ∈ [' '], isWs c = true := by
    intro c hc
    simp only [List.mem_singleton] at hc
    subst hc
    decide
  obtain ⟨u, us, hu⟩ := List.exists_cons_of_ne_nil hne
  have hf : (readEngine false fresh s ⟨write c g, false, false⟩).2.fail = true := by
    have e1 := readU_written c.base.mult []
      (' ' :: (Nat.toDigits 10 c.base.inc.toNat ++ ' ' :: Nat.toDigits 10 g.s.toNat) ++
        g.data.flatMap fun v => ' ' :: Nat.toDigits 10 v.toNat) (by simp) (hsp _)
    have e2 := readU_written c.base.inc [' '] (' ' :: (Nat.toDigits 10 g.s.toNat ++
        g.data.flatMap fun v => ' ' :: Nat.toDigits 10 v.toNat)) hs1 (hsp _)
    have e3 := readU_written g.s [' '] (g.data.flatMap fun v => ' ' :: Nat.toDigits 10 v.toNat) hs1 (by
      rw [hu]; exact hsp _)
    rw [readEngine, write, writeEngine]
    simp only [List.append_assoc, List.cons_append, List.nil_append, List.isEmpty_cons] at e1 e2 e3 ⊢
    rw [e1]
    simp only []
    rw [e2]
    simp only []
    rw [e3]
    simp only [Bool.false_eq_true, if_false]
    split
    · rfl
    · rw [if_pos (Ne.symm hi)]
  rw [read, if_neg (by simp [hk])] at h
  generalize readEngine false fresh s ⟨write c g, false, false⟩ = q at *
  obtain ⟨⟨p', t⟩, i1⟩ := q
  simp only at hf
  simp only [hf, if_true, Option.some.injEq] at h
  rw [← h]
  exact hf

/-- The defect: generators without `kdd`, the cryptographic variants of the library, cannot be read: the operator does not compile. -/
theorem C130_read_c_variants (canSpecify : Bool) (fresh : Par 64) (s : BitVec 64) (g : Gen 64 32) (i : In) (seq : BitVec 64) :
    read canSpecify fresh s (pcg32_c64 seq) g i = none ∧ read canSpecify fresh s pcg32_c64_oneseq g i = none ∧
      read canSpecify fresh s pcg32_c64_fast g i = none := ⟨rfl, rfl, rfl⟩

/-! ## Comparing -/

/-- **C130.** Two generators of a type are equal exactly if their streams, their states and their tables are. -/
theorem C130_eq (c d : Cfg w x) (g h : Gen w x) :
    eq c d g h = true ↔ c.base.mult = d.base.mult ∧ c.base.inc = d.base.inc ∧ g = h := by
  obtain ⟨s, a⟩ := g
  obtain ⟨t, b⟩ := h
  simp only [eq, Pcg.eq, Bool.and_eq_true, beq_iff_eq, Gen.mk.injEq]
  tauto

/-- The defect: `!=` of two generators never returns. -/
theorem C130_ne_diverges (c d : Cfg w x) (g h : Gen w x) (fuel : Nat) : ne c d g h fuel = .diverge := by
  induction fuel with
  | zero => rfl
  | succ n ih => exact ih

/-! ## Seeding -/

theorem fill_spec (c : Cfg w x) (hb : Good c.base) (xdiff : BitVec x) (n : Nat) : ∀ s, Reach c.base s →
    (fill c xdiff n s).1.length = n ∧ (fill c xdiff n s).2 = (bump c.base)^[n] s ∧
      ∀ i < n, (fill c xdiff n s).1[i]? = some (lhs c ((bump c.base)^[i] s) ^^^ xdiff) := by
  induction n with
  | zero => intro s _; exact ⟨rfl, rfl, fun i hi => absurd hi (by omega)⟩
  | succ n ih =>
    intro s hs
    have hn : (next c.base c.prev c.out s).2 = bump c.base s := next_state _ _ _ _
    obtain ⟨h1, h2, h3⟩ := ih (bump c.base s) (bump_reach hb hs)
    have e : fill c xdiff (n + 1) s =
        ((lhs c s ^^^ xdiff) :: (fill c xdiff n (bump c.base s)).1, (fill c xdiff n (bump c.base s)).2) := by
      rw [fill]
      simp only [hn]
      rfl
    rw [e]
    refine ⟨by simp [h1], by rw [h2, Function.iterate_succ_apply], ?_⟩
    intro i hi
    cases i with
    | zero => rfl
    | succ i =>
      rw [List.getElem?_cons_succ, h3 i (by omega), Function.iterate_succ_apply]

/-- **C130.** A generator made from a seed is proper, in whatever order the two first numbers are drawn; its state is that of the base
engine after `table_size + 2` draws. -/
theorem C130_seed {c : Cfg w x} (hc : WellFormed c) (leftFirst : Bool) (seed : BitVec w) :
    Valid c (ofSeed c leftFirst seed) ∧ (ofSeed c leftFirst seed).s = (bump c.base)^[c.tableSize + 2] (init c.base seed) := by
  have hs := (C95_init hc.base seed).1
  have hn : ∀ s, (next c.base c.prev c.out s).2 = bump c.base s := fun s => next_state _ _ _ _
  have h2 : Reach c.base (bump c.base (bump c.base (init c.base seed))) := bump_reach hc.base (bump_reach hc.base hs)
  set xdiff := if leftFirst then lhs c (init c.base seed) - lhs c (bump c.base (init c.base seed))
    else lhs c (bump c.base (init c.base seed)) - lhs c (init c.base seed) with hx
  have e : ofSeed c leftFirst seed = ⟨(fill c xdiff c.tableSize (bump c.base (bump c.base (init c.base seed)))).2,
      (fill c xdiff c.tableSize (bump c.base (bump c.base (init c.base seed)))).1⟩ := by
    rw [hx]
    unfold ofSeed lhs
    simp only [hn]
  obtain ⟨h3, h4, -⟩ := fill_spec c hc.base xdiff c.tableSize _ h2
  rw [e]
  refine ⟨⟨?_, h3⟩, ?_⟩
  · show Reach c.base _
    rw [h4]
    exact iter_reach hc.base h2 _
  · show (fill c xdiff c.tableSize _).2 = _
    rw [h4, Function.iterate_add_apply]
    rfl

/-- **C130.** Apart from that order: the tables of a seed agree if and only if the first two numbers differ by zero or by half of the
range. -/
theorem C130_seed_order {c : Cfg w x} (hc : WellFormed c) (seed : BitVec w) :
    ofSeed c true seed = ofSeed c false seed ↔
      2 * ((next c.base c.prev c.out (init c.base seed)).1 -
        (next c.base c.prev c.out (bump c.base (init c.base seed))).1) = 0#x := by
  have hs := (C95_init hc.base seed).1
  have hn : ∀ s, (next c.base c.prev c.out s).2 = bump c.base s := fun s => next_state _ _ _ _
  have h2 : Reach c.base (bump c.base (bump c.base (init c.base seed))) := bump_reach hc.base (bump_reach hc.base hs)
  set a := (next c.base c.prev c.out (init c.base seed)).1 with ha
  set b := (next c.base c.prev c.out (bump c.base (init c.base seed))).1 with hb
  have e : ∀ l, ofSeed c l seed =
      ⟨(fill c (if l then a - b else b - a) c.tableSize (bump c.base (bump c.base (init c.base seed)))).2,
      (fill c (if l then a - b else b - a) c.tableSize (bump c.base (bump c.base (init c.base seed)))).1⟩ := by
    intro l
    rw [ha, hb]
    unfold ofSeed
    simp only [hn]
  have hpos : 0 < c.tableSize := by unfold Cfg.tableSize; positivity
  have hab : a - b = b - a ↔ 2 * (a - b) = 0#x := by
    rw [two_mul]
    constructor
    · intro h
      nth_rewrite 2 [h]
      show (a - b) + (b - a) = 0
      ring
    · intro h
      have : (a - b) + (a - b) = 0 := h
      have h1 : a - b = -(a - b) := eq_neg_of_add_eq_zero_left this
      rw [h1]
      ring
  rw [e, e, ← hab]
  simp only [if_true, Bool.false_eq_true, if_false]
  constructor
  · intro h
    injection h with h3 h4
    have h5 := (fill_spec c hc.base (a - b) c.tableSize _ h2).2.2 0 hpos
    have h6 := (fill_spec c hc.base (b - a) c.tableSize _ h2).2.2 0 hpos
    rw [h4, h6] at h5
    injection h5 with h5
    exact ((BitVec.xor_right_inj _).mp h5).symm
  · intro h
    rw [h]

/-- **C130.** A generator made from a table and a seed is proper and has that table; a shorter table is read beyond its end. -/
theorem C130_table {c : Cfg w x} (hc : WellFormed c) (data : List (BitVec x)) (seed : BitVec w) :
    (c.tableSize ≤ data.length → ∃ g, ofData c data seed = .ok g ∧ Valid c g ∧ g.data <+: data) ∧
      (data.length < c.tableSize → ofData c data seed = .ub) := by
  unfold ofData
  constructor
  · intro h
    rw [if_neg (by omega)]
    exact ⟨_, rfl, ⟨(C95_init hc.base seed).1, by simp [h]⟩, List.take_prefix _ _⟩
  · intro h
    rw [if_pos h]

/-- **C130.** A generator made from a seed sequence is proper; its table consists of the groups of bits of the number whose words the
sequence delivers. -/
theorem C130_seq {c : Cfg w x} (hc : WellFormed c) (hw : IntSize w) (hx : IntSize x) {gen gen' : Nat → List (BitVec 32)}
    (hg : SeedSeq gen) (hg' : SeedSeq gen') :
    ∃ g, ofSeq c gen gen' = .ok g ∧ Valid c g ∧ g.s = init c.base (BitVec.ofNat w (number (gen (fromElems w 1)))) ∧
      ∀ (i : Nat) (v : BitVec x), g.data[i]? = some v → v.toNat = piece x i (number (gen' (fromElems x c.tableSize))) := by
  obtain ⟨r, h1, h2, h3⟩ := C101_pieces hx c.tableSize hg'
  rw [ofSeq, C101_seed hw c.base hg, h1]
  exact ⟨_, rfl, ⟨(C95_init hc.base _).1, h2⟩, rfl, h3⟩

/-! ## The type definitions -/

/-- The defects of the type definitions: the types that are called two-dimensional have 64 entries (and are the ones called
64-dimensional), and the types called `oneseq` and `fast` are exchanged for `k64`: the one called `oneseq` is the one without
increment. -/
theorem C130_typedefs (seq : BitVec 64) :
    (pcg32_k2 seq).tableSize = 64 ∧ pcg32_k2_fast.tableSize = 64 ∧ pcg32_k2 seq = pcg32_k64 seq ∧ pcg32_k2_fast = pcg32_k64_fast ∧
    pcg32_k64_oneseq.base.mcg = true ∧ pcg32_k64_fast.base.mcg = false ∧
    pcg32_c64_oneseq.base.mcg = false ∧ pcg32_c64_fast.base.mcg = true ∧
    pcg64_k32_oneseq.base.mcg = false ∧ pcg64_k32_fast.base.mcg = true := by
  have k6 : (2 : Nat) ^ 6 = 64 := by norm_num
  exact ⟨k6, k6, rfl, rfl, rfl, rfl, rfl, rfl, rfl, rfl⟩

end Verif.PcgExt
