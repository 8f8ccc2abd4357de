import Verif.Pcg.Theorems
import Verif.Pcg.Io
import Verif.Pcg.SpecIo
import Mathlib.Tactic.Linarith
import Mathlib.Data.FinEnum
import Mathlib.Tactic.Ring

/-!
# Seeding and text: theorems
-/

namespace Verif.Pcg

open Spec

/-! ## C101 — seeding -/

theorem number_lt (l : List (BitVec 32)) : number l < 2 ^ (32 * l.length) := by
  induction l with
  | nil => simp [number]
  | cons v vs ih =>
    have := v.isLt
    rw [number, List.length_cons, Nat.mul_add, Nat.mul_one, Nat.add_comm (32 * _), pow_add]
    have : 2 ^ 32 * (number vs + 1) ≤ 2 ^ 32 * 2 ^ (32 * vs.length) := Nat.mul_le_mul_left _ ih
    omega

theorem number_take (l : List (BitVec 32)) (k : Nat) : number (l.take k) = number l % 2 ^ (32 * k) := by
  induction l generalizing k with
  | nil => simp [number]
  | cons v vs ih =>
    cases k with
    | zero => simp [number, Nat.mod_one]
    | succ k =>
      have hv := v.isLt
      rw [List.take_succ_cons, number, ih, number, Nat.mul_add, Nat.mul_one, Nat.add_comm (32 * _), pow_add,
        Nat.mod_mul, Nat.add_mul_mod_self_left, Nat.mod_eq_of_lt hv,
        Nat.add_mul_div_left _ _ (by norm_num : 0 < 2 ^ 32), Nat.div_eq_of_lt hv, Nat.zero_add]

theorem number_drop (l : List (BitVec 32)) (k : Nat) : number (l.drop k) = number l / 2 ^ (32 * k) := by
  induction l generalizing k with
  | nil => simp [number]
  | cons v vs ih =>
    cases k with
    | zero => simp [number]
    | succ k =>
      have hv := v.isLt
      rw [List.drop_succ_cons, ih, number, Nat.mul_add, Nat.mul_one, Nat.add_comm (32 * _), pow_add,
        ← Nat.div_div_eq_div_mul,
        Nat.add_mul_div_left _ _ (by norm_num : 0 < 2 ^ 32), Nat.div_eq_of_lt hv, Nat.zero_add]

theorem gather_spec (d k : Nat) (hd : d = 32 * k) (i : Nat) : ∀ (a : Nat) (value : BitVec d)
    (src : List (BitVec 32)), a + i = k → value.toNat < 2 ^ (32 * a) → i ≤ src.length →
    ∃ v : BitVec d, gather d i (32 * a) value src = .ok (v, src.drop i) ∧
      v.toNat = value.toNat + 2 ^ (32 * a) * number (src.take i) := by
  induction i with
  | zero => intro a value src _ _ _; exact ⟨value, rfl, by simp [number]⟩
  | succ i ih =>
    intro a value src ha hv hl
    cases src with
    | nil => simp at hl
    | cons word src =>
      rw [gather]
      have hw := word.isLt
      have hle : 32 * a + 32 ≤ d := by omega
      have e1 : (word.setWidth d <<< (32 * a)).toNat = 2 ^ (32 * a) * word.toNat := by
        have h32 : word.toNat < 2 ^ d := lt_of_lt_of_le hw (Nat.pow_le_pow_right (by norm_num) (by omega))
        rw [BitVec.toNat_shiftLeft, BitVec.toNat_setWidth, Nat.mod_eq_of_lt h32, Nat.shiftLeft_eq,
          Nat.mul_comm, Nat.mod_eq_of_lt]
        calc 2 ^ (32 * a) * word.toNat < 2 ^ (32 * a) * 2 ^ 32 := Nat.mul_lt_mul_of_pos_left hw (by positivity)
          _ = 2 ^ (32 * a + 32) := by rw [pow_add]
          _ ≤ 2 ^ d := Nat.pow_le_pow_right (by norm_num) hle
      have e2 : (value ||| word.setWidth d <<< (32 * a)).toNat =
          value.toNat + 2 ^ (32 * a) * word.toNat := by
        rw [BitVec.toNat_or, e1, Nat.mul_comm, ← Nat.shiftLeft_eq, Nat.or_comm,
          ← Nat.shiftLeft_add_eq_or_of_lt hv, Nat.add_comm]
      obtain ⟨v, h1, h2⟩ := ih (a + 1) (value ||| word.setWidth d <<< (32 * a)) src (by omega)
        (by
          rw [e2, Nat.mul_add, Nat.mul_one, pow_add]
          have : 2 ^ (32 * a) * (word.toNat + 1) ≤ 2 ^ (32 * a) * 2 ^ 32 := Nat.mul_le_mul_left _ hw
          rw [Nat.mul_add] at this
          omega) (by simpa using hl)
      refine ⟨v, h1, ?_⟩
      rw [h2, e2, List.take_succ_cons, number, Nat.mul_add 32, pow_add]
      ring

theorem copyLarge_spec (d k : Nat) (hd : d = 32 * k) (n : Nat) : ∀ src : List (BitVec 32),
    n * k ≤ src.length → ∃ r : List (BitVec d), copyLarge d k n src = .ok r ∧ r.length = n ∧
      ∀ (i : Nat) (v : BitVec d), r[i]? = some v → v.toNat = piece d i (number src) := by
  induction n with
  | zero => intro src _; exact ⟨[], rfl, rfl, by simp⟩
  | succ n ih =>
    intro src hl
    have hl' : n * k + k ≤ src.length := by rw [← Nat.succ_mul]; exact hl
    obtain ⟨v, h1, h2⟩ := gather_spec d k hd k 0 0#d src (by omega) (by simp) (by omega)
    obtain ⟨r, h3, h4, h5⟩ := ih (src.drop k) (by rw [List.length_drop]; omega)
    refine ⟨v :: r, ?_, by simp [h4], ?_⟩
    · have h1' : gather d k 0 0#d src = .ok (v, src.drop k) := h1
      rw [copyLarge, h1']
      simp only [Outcome.bind_ok]
      rw [h3]
      rfl
    · intro i u hu
      cases i with
      | zero =>
        simp only [List.getElem?_cons_zero, Option.some.injEq] at hu
        subst hu
        rw [h2, number_take]
        simp [piece, hd]
      | succ i =>
        rw [List.getElem?_cons_succ] at hu
        rw [h5 i u hu, piece, piece, number_drop, Nat.div_div_eq_div_mul, ← pow_add, ← hd, Nat.mul_add,
          Nat.mul_one, Nat.add_comm]

theorem copySmall_spec (d scale : Nat) (hd : 0 < d) (hs : 1 < scale) (h32 : scale * d = 32) (n : Nat) :
    ∀ (count : Nat) (value : BitVec 32) (src : List (BitVec 32)),
    (count % scale ≠ 0 → value.toNat / 2 ^ d < 2 ^ (32 - d * (count % scale))) →
    n ≤ (if count % scale = 0 then 0 else scale - count % scale) + scale * src.length →
    ∃ r : List (BitVec d), copySmall d scale n count value src = .ok r ∧ r.length = n ∧
      ∀ (i : Nat) (v : BitVec d), r[i]? = some v → v.toNat = piece d i
        (if count % scale = 0 then number src
          else value.toNat / 2 ^ d + 2 ^ (32 - d * (count % scale)) * number src) := by
  induction n with
  | zero => intro count value src _ _; exact ⟨[], rfl, rfl, by simp⟩
  | succ n ih =>
    intro count value src hv hl
    have hstep : ∀ a b : Nat, piece d (a + 1) b = piece d a (b / 2 ^ d) := by
      intro a b
      rw [piece, piece, Nat.div_div_eq_div_mul, ← pow_add, Nat.mul_add, Nat.mul_one, Nat.add_comm]
    have hd32 : d < 32 := by nlinarith
    by_cases hc : count % scale = 0
    · rw [if_pos hc] at hl
      simp only [hc, if_true]
      cases src with
      | nil => simp at hl
      | cons value' src =>
        have hm : (count + 1) % scale = 1 := by rw [Nat.add_mod, hc]; simp [Nat.mod_eq_of_lt hs]
        have hv' := value'.isLt
        have hpow : (2 : Nat) ^ 32 = 2 ^ d * 2 ^ (32 - d) := by rw [← pow_add]; congr 1; omega
        obtain ⟨r, h1, h2, h3⟩ := ih (count + 1) value' src
          (by
            intro _
            rw [hm, Nat.mul_one]
            rw [hpow] at hv'
            exact Nat.div_lt_of_lt_mul hv')
          (by
            rw [hm]
            rw [List.length_cons, Nat.mul_add] at hl
            simp only [one_ne_zero, if_false]
            omega)
        rw [hm, if_neg one_ne_zero, Nat.mul_one] at h3
        refine ⟨value'.setWidth d :: r, ?_, by simp [h2], ?_⟩
        · rw [copySmall, if_pos hc]
          simp only [h1, Outcome.bind_ok]
          rfl
        · intro i u hu
          cases i with
          | zero =>
            simp only [List.getElem?_cons_zero, Option.some.injEq] at hu
            subst hu
            rw [BitVec.toNat_setWidth, piece, number, hpow, Nat.mul_zero, pow_zero, Nat.div_one,
              Nat.mul_assoc, Nat.add_mul_mod_self_left]
          | succ i =>
            rw [List.getElem?_cons_succ] at hu
            rw [h3 i u hu, hstep, number]
            congr 1
            rw [hpow, Nat.mul_assoc, Nat.add_mul_div_left _ _ (by positivity)]
    · have hv := hv hc
      simp only [if_neg hc] at hl ⊢
      set c := count % scale with hcd
      have hcl : c < scale := Nat.mod_lt _ (by omega)
      have hdc : d * c + d ≤ 32 := by
        calc d * c + d = d * (c + 1) := by ring
          _ ≤ d * scale := Nat.mul_le_mul_left _ hcl
          _ = 32 := by rw [Nat.mul_comm]; exact h32
      have hsh : (value >>> d).toNat = value.toNat / 2 ^ d := by
        rw [BitVec.toNat_ushiftRight, Nat.shiftRight_eq_div_pow]
      have hpow : (2 : Nat) ^ (32 - d * c) = 2 ^ d * 2 ^ (32 - (d * c + d)) := by
        rw [← pow_add]; congr 1; omega
      have hv2 : value.toNat / 2 ^ d / 2 ^ d < 2 ^ (32 - (d * c + d)) := by
        rw [hpow] at hv
        exact Nat.div_lt_of_lt_mul hv
      have hm : (count + 1) % scale = if c + 1 = scale then 0 else c + 1 := by
        rw [Nat.add_mod, ← hcd, Nat.mod_eq_of_lt hs]
        split
        · rename_i h; rw [h, Nat.mod_self]
        · exact Nat.mod_eq_of_lt (by omega)
      have hnext : (if (count + 1) % scale = 0 then number src
          else (value >>> d).toNat / 2 ^ d + 2 ^ (32 - d * ((count + 1) % scale)) * number src) =
          (value.toNat / 2 ^ d + 2 ^ (32 - d * c) * number src) / 2 ^ d := by
        rw [hpow, Nat.mul_assoc, Nat.add_mul_div_left _ _ (by positivity), hm, hsh]
        by_cases h : c + 1 = scale
        · have h0 : 32 - (d * c + d) = 0 := by
            have : d * c + d = 32 := by rw [← h32, ← h]; ring
            omega
          rw [h0, pow_zero] at hv2
          rw [h0]
          have : value.toNat / 2 ^ d / 2 ^ d = 0 := Nat.lt_one_iff.mp hv2
          simp [h, this]
        · simp only [if_neg h, Nat.succ_ne_zero, if_false]
          rw [Nat.mul_add, Nat.mul_one]
      obtain ⟨r, h1, h2, h3⟩ := ih (count + 1) (value >>> d) src
        (by
          intro hne
          rw [hm] at hne ⊢
          by_cases h : c + 1 = scale
          · simp [h] at hne
          · rw [if_neg h, hsh, Nat.mul_add, Nat.mul_one]
            exact hv2)
        (by
          rw [hm]
          by_cases h : c + 1 = scale
          · simp only [h, if_true]; omega
          · simp only [if_neg h, Nat.succ_ne_zero, if_false]; omega)
      rw [hnext] at h3
      refine ⟨(value >>> d).setWidth d :: r, ?_, by simp [h2], ?_⟩
      · rw [copySmall.eq_def]
        simp only [← hcd, if_neg hc, h1, Outcome.bind_ok]
        rfl
      · intro i u hu
        cases i with
        | zero =>
          simp only [List.getElem?_cons_zero, Option.some.injEq] at hu
          subst hu
          rw [BitVec.toNat_setWidth, hsh, piece, hpow, Nat.mul_zero, pow_zero, Nat.div_one,
            Nat.mul_assoc, Nat.add_mul_mod_self_left]
        | succ i =>
          rw [List.getElem?_cons_succ] at hu
          rw [h3 i u hu, hstep]

/-- **C101.** The smallest number of 32-bit words that hold `size` integers of `d` bits is requested from
the seed sequence. -/
theorem C101_words {d : Nat} (hd : IntSize d) (size : Nat) :
    d * size ≤ 32 * fromElems d size ∧ 32 * fromElems d size < d * size + 32 := by
  rcases hd with rfl | rfl | rfl | rfl | rfl <;> simp [fromElems] <;> omega

/-- **C101.** The integers made from a seed sequence are the consecutive groups of bits of the number
whose little-endian words the sequence delivers; every request is served, and nothing is read behind the
words delivered. -/
theorem C101_pieces {d : Nat} (hd : IntSize d) (size : Nat) {gen : Nat → List (BitVec 32)}
    (hg : SeedSeq gen) :
    ∃ r : List (BitVec d), generateTo d size gen = .ok r ∧ r.length = size ∧
      ∀ (i : Nat) (v : BitVec d), r[i]? = some v →
        v.toNat = piece d i (number (gen (fromElems d size))) := by
  have hl := hg (fromElems d size)
  generalize hgen : gen (fromElems d size) = src at hl
  unfold generateTo
  rw [hgen]
  rcases hd with rfl | rfl | rfl | rfl | rfl
  · simp only [fromElems, Nat.reduceDiv, Nat.reduceLT, Nat.reduceEqDiff, if_false] at hl
    exact copySmall_spec 8 4 (by norm_num) (by norm_num) rfl size 0 0#32 src (by simp) (by simp; omega)
  · simp only [fromElems, Nat.reduceDiv, Nat.reduceLT, Nat.reduceEqDiff, if_false] at hl
    exact copySmall_spec 16 2 (by norm_num) (by norm_num) rfl size 0 0#32 src (by simp) (by simp; omega)
  · refine ⟨src, rfl, by rw [hl]; rfl, ?_⟩
    clear hl hgen
    intro i v hv
    rw [piece, ← number_drop]
    have : (src.drop i)[0]? = some v := by rw [List.getElem?_drop]; simpa using hv
    cases h : src.drop i with
    | nil => simp [h] at this
    | cons a as =>
      rw [h] at this
      simp only [List.getElem?_cons_zero, Option.some.injEq] at this
      subst this
      rw [number, Nat.add_mul_mod_self_left, Nat.mod_eq_of_lt a.isLt]
  · simp only [fromElems, Nat.reduceDiv, Nat.reduceAdd, Nat.reduceSub, Nat.reduceLT, Nat.reduceEqDiff, if_false,
      if_true] at hl
    exact copyLarge_spec 64 2 rfl size src (by omega)
  · simp only [fromElems, Nat.reduceDiv, Nat.reduceAdd, Nat.reduceSub, Nat.reduceLT, Nat.reduceEqDiff, if_false,
      if_true] at hl
    exact copyLarge_spec 128 4 rfl size src (by omega)

theorem generateOne_spec {d : Nat} (hd : IntSize d) (i n : Nat) (hi : i < n)
    {gen : Nat → List (BitVec 32)} (hg : SeedSeq gen) :
    ∃ v : BitVec d, generateOne d i n gen = .ok v ∧
      v.toNat = piece d i (number (gen (fromElems d n))) := by
  obtain ⟨r, h1, h2, h3⟩ := C101_pieces hd n hg
  have hlt : i < r.length := by omega
  refine ⟨r[i], ?_, h3 i _ (List.getElem?_eq_getElem hlt)⟩
  rw [generateOne, h1, Outcome.bind_ok, List.getElem?_eq_getElem hlt]
  rfl

theorem ofNat_of_toNat {d : Nat} {v : BitVec d} {n : Nat} (h : v.toNat = n) : v = BitVec.ofNat d n := by
  rw [← h, BitVec.ofNat_toNat, BitVec.setWidth_eq]

/-- **C101.** Seeding an engine whose stream cannot be specified is constructing it from the number that
the seed sequence delivers. -/
theorem C101_seed {w : Nat} (hw : IntSize w) (p : Par w) {gen : Nat → List (BitVec 32)}
    (hg : SeedSeq gen) :
    seedOne p gen = .ok (init p (BitVec.ofNat w (number (gen (fromElems w 1))))) := by
  obtain ⟨v, h1, h2⟩ := generateOne_spec hw 0 1 (by norm_num) hg
  rw [seedOne, h1, Outcome.bind_ok]
  have : v = BitVec.ofNat w (number (gen (fromElems w 1))) := by
    apply BitVec.eq_of_toNat_eq
    rw [h2, piece, BitVec.toNat_ofNat]
    simp
  rw [this]
  rfl

/-- **C101.** Seeding an engine with streams takes the stream from the low and the state from the high half
of the numbers that the seed sequence delivers. -/
theorem C101_seed_stream {w : Nat} (hw : IntSize w) (mult : BitVec w) {gen gen' : Nat → List (BitVec 32)}
    (hg : SeedSeq gen) (hg' : SeedSeq gen') :
    seedTwo mult gen gen' =
      let inc := setStream (BitVec.ofNat w (number (gen' (fromElems w 2))))
      .ok (inc, init ⟨mult, inc, false⟩ (BitVec.ofNat w (number (gen (fromElems w 2)) / 2 ^ w))) := by
  obtain ⟨v, h1, h2⟩ := generateOne_spec hw 1 2 (by norm_num) hg
  obtain ⟨u, h3, h4⟩ := generateOne_spec hw 0 2 (by norm_num) hg'
  rw [seedTwo, h1, Outcome.bind_ok, h3, Outcome.bind_ok]
  have e1 : v = BitVec.ofNat w (number (gen (fromElems w 2)) / 2 ^ w) := by
    apply BitVec.eq_of_toNat_eq
    rw [h2, piece, BitVec.toNat_ofNat, Nat.mul_one]
  have e2 : u = BitVec.ofNat w (number (gen' (fromElems w 2))) := by
    apply BitVec.eq_of_toNat_eq
    rw [h4, piece, BitVec.toNat_ofNat]
    simp
  rw [e1, e2]
  rfl

/-- Words for every number. -/
def wordsOf (n : Nat) : Nat → List (BitVec 32)
  | 0 => []
  | k + 1 => BitVec.ofNat 32 n :: wordsOf (n / 2 ^ 32) k

theorem wordsOf_seq (n : Nat) : SeedSeq (wordsOf n) := by
  intro k
  induction k generalizing n with
  | zero => rfl
  | succ k ih => simp [wordsOf, ih]

theorem number_wordsOf (k : Nat) : ∀ n, number (wordsOf n k) = n % 2 ^ (32 * k) := by
  induction k with
  | zero => intro n; simp [wordsOf, number, Nat.mod_one]
  | succ k ih =>
    intro n
    rw [wordsOf, number, ih, BitVec.toNat_ofNat, Nat.mul_add, Nat.mul_one, Nat.add_comm (32 * k), pow_add,
      Nat.mod_mul]

/-- The states of the engine are the values of the constructor. -/
theorem init_surj {p : Par w} (hp : Good p) {s : BitVec w} (hs : Reach p s) : ∃ seed, init p seed = s := by
  cases hm : p.mcg with
  | true =>
    refine ⟨s, ?_⟩
    have h3 := hs hm
    have hw := width_ge hp
    rw [init, hm, if_pos rfl]
    apply BitVec.eq_of_toNat_eq
    have e : (3#w).toNat = 3 := by
      rw [BitVec.toNat_ofNat]
      exact Nat.mod_eq_of_lt (lt_of_lt_of_le (by norm_num : 3 < 2 ^ 3) (Nat.pow_le_pow_right (by norm_num) hw))
    rw [BitVec.toNat_or, e]
    have hdec : s.toNat = (s.toNat / 4) <<< 2 + 3 := by rw [Nat.shiftLeft_eq]; omega
    rw [hdec, Nat.shiftLeft_add_eq_or_of_lt (by norm_num : 3 < 2 ^ 2), Nat.or_assoc, Nat.or_self]
  | false =>
    have hsurj : Function.Surjective (bump p) := Finite.surjective_of_injective (bump_inj hp)
    obtain ⟨t, ht⟩ := hsurj s
    refine ⟨t - p.inc, ?_⟩
    rw [init, hm, if_neg Bool.false_ne_true, BitVec.sub_add_cancel, ht]

theorem setStream_shift {inc : BitVec w} (h : inc.toNat % 2 = 1) : setStream (inc >>> 1) = inc := by
  apply BitVec.eq_of_getLsbD_eq
  intro i hi
  rw [setStream, BitVec.getLsbD_or, BitVec.getLsbD_shiftLeft, BitVec.getLsbD_one]
  cases i with
  | zero =>
    have : inc.getLsbD 0 = true := by rw [← BitVec.testBit_toNat, Nat.testBit_zero]; simpa using h
    simp [this, hi]
  | succ i => simp [hi, Nat.add_comm 1]

/-- **C101.** Seeding gives a valid state, and every valid state is obtained by some seed sequence. -/
theorem C101_states {w : Nat} (hw : IntSize w) {p : Par w} (hp : Good p) (s : BitVec w) :
    Reach p s ↔ ∃ gen, SeedSeq gen ∧ seedOne p gen = .ok s := by
  constructor
  · intro hs
    obtain ⟨seed, h⟩ := init_surj hp hs
    refine ⟨wordsOf seed.toNat, wordsOf_seq _, ?_⟩
    rw [C101_seed hw p (wordsOf_seq _), number_wordsOf, Nat.mod_eq_of_lt, BitVec.ofNat_toNat,
      BitVec.setWidth_eq, h]
    refine lt_of_lt_of_le seed.isLt (Nat.pow_le_pow_right (by norm_num) ?_)
    have := (C101_words hw 1).1
    omega
  · rintro ⟨gen, hg, h⟩
    rw [C101_seed hw p hg] at h
    cases h
    exact (C95_init hp _).1

/-- **C101.** Seeding an engine with streams gives an odd increment, and every odd increment together with
every state is obtained by some seed sequence. -/
theorem C101_streams {w : Nat} (hw : IntSize w) {mult : BitVec w} (hm : mult.toNat % 8 = 5)
    (inc s : BitVec w) :
    inc.toNat % 2 = 1 ↔ ∃ gen, SeedSeq gen ∧ seedTwo mult gen gen = .ok (inc, s) := by
  have hw0 : 0 < w := by rcases hw with rfl | rfl | rfl | rfl | rfl <;> norm_num
  constructor
  · intro hi
    have hp : Good (⟨mult, inc, false⟩ : Par w) := ⟨hm, hi⟩
    obtain ⟨seed, h⟩ := init_surj hp (s := s) (fun h => absurd h Bool.false_ne_true)
    refine ⟨wordsOf (inc.toNat / 2 + 2 ^ w * seed.toNat), wordsOf_seq _, ?_⟩
    rw [C101_seed_stream hw mult (wordsOf_seq _) (wordsOf_seq _), number_wordsOf]
    have hlt : inc.toNat / 2 + 2 ^ w * seed.toNat < 2 ^ (32 * fromElems w 2) := by
      have h1 := inc.isLt
      have h2 : 2 ^ w * (seed.toNat + 1) ≤ 2 ^ w * 2 ^ w := Nat.mul_le_mul_left _ seed.isLt
      have h3 : 2 ^ w * 2 ^ w ≤ 2 ^ (32 * fromElems w 2) := by
        rw [← pow_add]
        refine Nat.pow_le_pow_right (by norm_num) ?_
        have := (C101_words hw 2).1
        omega
      rw [Nat.mul_add] at h2
      omega
    rw [Nat.mod_eq_of_lt hlt]
    have e1 : BitVec.ofNat w ((inc.toNat / 2 + 2 ^ w * seed.toNat) / 2 ^ w) = seed := by
      rw [Nat.add_mul_div_left _ _ (by positivity), Nat.div_eq_of_lt (by have := inc.isLt; omega), Nat.zero_add,
        BitVec.ofNat_toNat, BitVec.setWidth_eq]
    have e2 : setStream (BitVec.ofNat w (inc.toNat / 2 + 2 ^ w * seed.toNat)) = inc := by
      have h2 : BitVec.ofNat w (inc.toNat / 2 + 2 ^ w * seed.toNat) = inc >>> 1 := by
        apply BitVec.eq_of_toNat_eq
        rw [BitVec.toNat_ofNat, Nat.add_mul_mod_self_left, Nat.mod_eq_of_lt (by have := inc.isLt; omega),
          BitVec.toNat_ushiftRight, Nat.shiftRight_eq_div_pow, pow_one]
      rw [h2]
      exact setStream_shift hi
    simp only [e1, e2, h]
  · rintro ⟨gen, hg, h⟩
    rw [C101_seed_stream hw mult hg hg] at h
    cases h
    exact or_one_odd _ hw0

/-- Seed sequences: all words are the same, or count up. -/
example : SeedSeq (fun k => List.replicate k 7#32) ∧ SeedSeq (fun k => (List.range k).map (BitVec.ofNat 32)) :=
  ⟨fun k => by simp, fun k => by simp⟩

example : generateTo 8 5 (fun k => (List.replicate k 0x04030201#32)) =
    .ok [1#8, 2#8, 3#8, 4#8, 1#8] := by decide

example : generateTo 64 2 (fun k => ((List.range k).map (BitVec.ofNat 32))) =
    .ok [0x100000000#64, 0x300000002#64] := by decide

/-! ## C102 — text -/

theorem digitsVal_toDigits (n : Nat) : digitsVal (Nat.toDigits 10 n) = n := by
  have h := Nat.ofDigitChars_ten_toDigits (n := n)
  rw [Nat.ofDigitChars_eq_foldl] at h
  exact h

theorem takeWhile_digits (l : List Char) (h : ∀ c ∈ l, c.isDigit = true) (t : List Char)
    (ht : ∀ c, t.head? = some c → c.isDigit = false) :
    (l ++ t).takeWhile Char.isDigit = l ∧ (l ++ t).dropWhile Char.isDigit = t := by
  induction l with
  | nil =>
    cases t with
    | nil => simp
    | cons c t => simp [ht c rfl]
  | cons c l ih =>
    have hc := h c (by simp)
    have := ih (fun c hc => h c (by simp [hc]))
    simp [hc, this]

theorem dropWhile_ws (l : List Char) (h : ∀ c ∈ l, isWs c = true) (t : List Char)
    (ht : ∀ c, t.head? = some c → isWs c = false) : (l ++ t).dropWhile isWs = t := by
  induction l with
  | nil =>
    cases t with
    | nil => simp
    | cons c t => simp [ht c rfl]
  | cons c l ih => simp [h c (by simp), ih (fun c hc => h c (by simp [hc]))]

theorem digit_not (c : Char) (h : c.isDigit = true) : isWs c = false ∧ c ≠ '-' ∧ c ≠ '+' := by
  refine ⟨?_, ?_, ?_⟩
  · cases hw : isWs c with
    | false => rfl
    | true =>
      simp only [isWs, Bool.or_eq_true, beq_iff_eq] at hw
      rcases hw with ((((rfl | rfl) | rfl) | rfl) | rfl) | rfl <;> exact absurd h (by decide)
  · rintro rfl; exact absurd h (by decide)
  · rintro rfl; exact absurd h (by decide)

theorem readU_written (v : BitVec w) (ws t : List Char) (hws : ∀ c ∈ ws, isWs c = true)
    (ht : ∀ c, t.head? = some c → c.isDigit = false) :
    readU w ⟨ws ++ (Nat.toDigits 10 v.toNat ++ t), false, false⟩ =
      (some v, ⟨t, t.isEmpty, false⟩) := by
  have hdig : ∀ c ∈ Nat.toDigits 10 v.toNat, c.isDigit = true := fun c hc =>
    Nat.isDigit_of_mem_toDigits (by norm_num) (by norm_num) hc
  have hne : Nat.toDigits 10 v.toNat ≠ [] := Nat.toDigits_ne_nil
  obtain ⟨h1, h2⟩ := takeWhile_digits _ hdig t ht
  have hval := digitsVal_toDigits v.toNat
  generalize Nat.toDigits 10 v.toNat = ds at *
  cases ds with
  | nil => exact absurd rfl hne
  | cons c cs =>
    obtain ⟨hc1, hc2, hc3⟩ := digit_not c (hdig c (by simp))
    have hd : (ws ++ (c :: cs ++ t)).dropWhile isWs = c :: cs ++ t :=
      dropWhile_ws ws hws _ (by simpa using hc1)
    have hlt : ¬ 2 ^ w ≤ v.toNat := by have := v.isLt; omega
    rw [readU]
    simp only [Bool.or_self, Bool.false_eq_true, if_false]
    rw [hd]
    simp only [List.cons_append, List.head?_cons, Option.some.injEq, hc2, hc3, or_self, if_false,
      reduceCtorEq]
    simp only [List.cons_append] at h1 h2
    rw [h1, h2, hval]
    simp [hlt]

/-- **C102.** Writing an engine and reading it back — behind any white space, before any text that
does not continue the last number, and into any engine of the same type — restores the engine and
leaves what follows: if streams can be specified, any engine of that type will do; otherwise one with
the same increment. -/
theorem C102_roundtrip (canSpecify : Bool) (p q : Par w) (s t : BitVec w) (ws tail : List Char)
    (hm : q.mult = p.mult) (hg : q.mcg = p.mcg)
    (hi : if canSpecify then p.inc.toNat % 2 = 1 else q.inc = p.inc)
    (hws : ∀ c ∈ ws, isWs c = true) (ht : ∀ c, tail.head? = some c → c.isDigit = false) :
    readEngine canSpecify q t ⟨ws ++ (writeEngine p s ++ tail), false, false⟩ =
      ((p, s), ⟨tail, tail.isEmpty, false⟩) := by
  have hsp : ∀ l : List Char, ∀ c, (' ' :: l).head? = some c → c.isDigit = false := by
    intro l c hc
    simp only [List.head?_cons, Option.some.injEq] at hc
    subst hc
    decide
  have hs1 : ∀ c ∈ [' '], isWs c = true := by
    intro c hc
    simp only [List.mem_singleton] at hc
    subst hc
    decide
  have e1 := readU_written p.mult ws
    (' ' :: (Nat.toDigits 10 p.inc.toNat ++ ' ' :: Nat.toDigits 10 s.toNat) ++ tail) hws (hsp _)
  have e2 := readU_written p.inc [' '] (' ' :: (Nat.toDigits 10 s.toNat ++ tail)) hs1 (hsp _)
  have e3 := readU_written s [' '] tail hs1 ht
  rw [readEngine, writeEngine]
  simp only [List.append_assoc, List.cons_append, List.nil_append, List.isEmpty_cons] at e1 e2 e3 ⊢
  rw [e1]
  simp only []
  rw [e2]
  simp only []
  rw [e3]
  simp only [Bool.false_eq_true, if_false, hm, ne_eq, not_true_eq_false]
  cases canSpecify with
  | true =>
    simp only [if_true] at hi ⊢
    rw [setStream_shift hi]
    cases p; cases q; simp_all
  | false =>
    simp only [Bool.false_eq_true, if_false] at hi ⊢
    cases p; cases q; simp_all

/-- **C102.** Whatever the text, a read that fails leaves the engine as it was. -/
theorem C102_fail (canSpecify : Bool) (p : Par w) (s : BitVec w) (i : In)
    (h : (readEngine canSpecify p s i).2.fail = true) : (readEngine canSpecify p s i).1 = (p, s) := by
  unfold readEngine at h ⊢
  generalize readU w i = a at *
  obtain ⟨m, i1⟩ := a
  simp only [] at h ⊢
  generalize readU w i1 = b at *
  obtain ⟨c, i2⟩ := b
  simp only [] at h ⊢
  generalize readU w i2 = d at *
  obtain ⟨t, i3⟩ := d
  simp only [] at h ⊢
  by_cases hf : i3.fail = true
  · simp [hf]
  · simp only [hf, Bool.false_eq_true, if_false] at h ⊢
    rcases m with _ | m <;> rcases c with _ | c <;> rcases t with _ | t <;> simp_all
    by_cases h1 : m = p.mult <;> by_cases h2 : canSpecify = true <;> by_cases h3 : c = p.inc <;> simp_all

/-- **C102.** Whatever the text, the engine keeps its multiplier and has a valid increment afterwards. -/
theorem C102_parameters (canSpecify : Bool) {p : Par w} (hp : Good p) (hc : canSpecify = true → p.mcg = false)
    (s : BitVec w) (i : In) : Good (readEngine canSpecify p s i).1.1 ∧
      (readEngine canSpecify p s i).1.1.mult = p.mult := by
  have hw := width_ge hp
  unfold readEngine
  generalize readU w i = a
  obtain ⟨m, i1⟩ := a
  simp only []
  generalize readU w i1 = b
  obtain ⟨c, i2⟩ := b
  simp only []
  generalize readU w i2 = d
  obtain ⟨t, i3⟩ := d
  simp only []
  by_cases hf : i3.fail = true
  · simpa [hf] using hp
  · simp only [hf, Bool.false_eq_true, if_false]
    rcases m with _ | m <;> rcases c with _ | c <;> rcases t with _ | t <;> try exact ⟨hp, rfl⟩
    simp only []
    by_cases h1 : m = p.mult
    · simp only [h1, ne_eq, not_true_eq_false, if_false]
      by_cases h2 : canSpecify = true
      · simp only [h2, if_true]
        refine ⟨⟨hp.mult, ?_⟩, trivial⟩
        simp only [hc h2, Bool.false_eq_true, if_false]
        exact or_one_odd _ (by omega)
      · simp only [h2, Bool.false_eq_true, if_false]
        split <;> exact ⟨hp, rfl⟩
    · simp only [ne_eq, h1, not_false_eq_true, if_true]
      exact ⟨hp, trivial⟩

/-- **C102.** A failed stream stays failed, and text without three numbers is refused. -/
theorem C102_failed_stream (canSpecify : Bool) (p : Par w) (s : BitVec w) (i : In)
    (h : i.fail = true ∨ i.eof = true ∨ ∀ c ∈ i.rest, isWs c = true) :
    (readEngine canSpecify p s i).2.fail = true := by
  have hstep : ∀ j : In, (readU w j).2.fail = true → (readU w (readU w j).2).2.fail = true := by
    intro j hj
    generalize (readU w j).2 = k at *
    simp [readU, hj]
  have h0 : (readU w i).2.fail = true := by
    unfold readU
    rcases h with h | h | h
    · simp [h]
    · simp [h]
    · have hd : i.rest.dropWhile isWs = [] := by simpa using dropWhile_ws i.rest h [] (by simp)
      by_cases hb : (i.eof || i.fail) = true
      · rw [if_pos hb]
      · rw [if_neg hb]
        simp only [hd, if_true]
  have h1 := hstep i h0
  have h2 := hstep (readU w i).2 h1
  unfold readEngine
  simp only []
  rw [if_pos h2]
  exact h2

/-- **C102, the missing check.** Reading does not check the state: a text with an even state is accepted by
an engine without increment, which then delivers states outside those the constructors produce. -/
theorem C102_state_unchecked :
    ∃ (p : Par 64) (s : BitVec 64) (i : In), Good p ∧ Reach p s ∧
      (readEngine false p s i).2.fail = false ∧ ¬ Reach p (readEngine false p s i).1.2 ∧
      ∀ n, (bump p)^[n] (readEngine false p s i).1.2 = 0#64 := by
  refine ⟨⟨mult64, 0#64, true⟩, 3#64, ⟨writeEngine ⟨mult64, 0#64, true⟩ 0#64, false, false⟩,
    ⟨by decide, by decide⟩, fun _ => by decide, ?_⟩
  have h := C102_roundtrip false ⟨mult64, 0#64, true⟩ ⟨mult64, 0#64, true⟩ (0#64 : BitVec 64) 3#64 [] [] rfl rfl
    rfl (by simp) (by simp)
  simp only [List.nil_append, List.append_nil] at h
  rw [h]
  refine ⟨rfl, ?_, ?_⟩
  · intro hr
    exact absurd (hr rfl) (by decide)
  · intro n
    induction n with
    | zero => rfl
    | succ n ih => rw [Function.iterate_succ_apply', ih]; decide

/-- The engine with streams: written on one stream and read into another. -/
example : readEngine true (⟨mult16, inc16, false⟩ : Par 16) 0#16
    ⟨writeEngine ⟨mult16, setStream 5#16, false⟩ 77#16 ++ ['\n', 'x'], false, false⟩ =
      ((⟨mult16, setStream 5#16, false⟩, 77#16), ⟨['\n', 'x'], false, false⟩) :=
  C102_roundtrip true ⟨mult16, setStream 5#16, false⟩ ⟨mult16, inc16, false⟩ 77#16 0#16 [] ['\n', 'x'] rfl rfl
    (by decide) (by simp) (by simp)

end Verif.Pcg
