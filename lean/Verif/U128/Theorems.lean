import Verif.U128.LemmasBits

/-!
# Wide integers: theorems C116 to C119

`w = 32` is `pcg128_t` on platforms without a native type of 128 bits; `w = 64` is the wider instantiation of the same template.
-/

namespace Verif.U128

open Verif Spec

/-- Two operands that make every word carry. -/
def exA : X4 := ⟨0xFFFFFFFF, 0xFFFFFFFF, 0xFFFFFFFE, 7⟩
def exB : X4 := ⟨3, 0x80000000, 1, 0x12345678⟩

example : Valid 32 exA ∧ Valid 32 exB ∧ val 32 exA ≠ 0 := by decide +kernel

/-! ## C116: arithmetic -/

/-- Addition is addition modulo `2^(4w)`, for all operands. -/
theorem C116_add {w : Nat} (hw : 0 < w) {a b : X4} (ha : Valid w a) (hb : Valid w b) :
    Is w (add w a b) ((val w a + val w b) % 2 ^ (4 * w)) := add_is hw ha hb

theorem C116_sub {w : Nat} (hw : 0 < w) {a b : X4} (ha : Valid w a) (hb : Valid w b) :
    Is w (sub w a b) ((val w a + 2 ^ (4 * w) - val w b) % 2 ^ (4 * w)) := sub_is hw ha hb

theorem C116_neg {w : Nat} (hw : 0 < w) {v : X4} (h : Valid w v) :
    Is w (neg w v) ((2 ^ (4 * w) - val w v) % 2 ^ (4 * w)) := neg_is hw h

/-- Multiplication is multiplication modulo `2^128`, for words of 32 bits. -/
theorem C116_mul_partial {a b : X4} (ha : Valid 32 a) (hb : Valid 32 b) :
    Is 32 (mul 32 a b) ((val 32 a * val 32 b) % 2 ^ 128) := mul_is rfl ha hb

/-- With words of 64 bits the partial products are cut at the wrong place: `2^32 * 1` gives another number. -/
theorem C116_mul_wide_fails :
    ∃ a b : X4, Valid 64 a ∧ Valid 64 b ∧ val 64 (mul 64 a b) ≠ (val 64 a * val 64 b) % 2 ^ 256 :=
  ⟨⟨2 ^ 32, 0, 0, 0⟩, ⟨1, 0, 0, 0⟩, by decide +kernel, by decide +kernel, by decide +kernel⟩

theorem C116_bitwise {w : Nat} {a b : X4} (ha : Valid w a) (hb : Valid w b) :
    Is w (and w a b) (val w a &&& val w b) ∧ Is w (or w a b) (val w a ||| val w b) ∧
      Is w (xor w a b) (val w a ^^^ val w b) ∧ Is w (not w a) (2 ^ (4 * w) - 1 - val w a) :=
  ⟨and_is ha hb, or_is ha hb, xor_is ha hb, not_is ha⟩

/-- The comparisons are those of the numbers. -/
theorem C116_order {w : Nat} {a b : X4} (ha : Valid w a) (hb : Valid w b) :
    (lt w a b = true ↔ val w a < val w b) ∧ (gt w a b = true ↔ val w a > val w b) ∧
      (le w a b = true ↔ val w a ≤ val w b) ∧ (ge w a b = true ↔ val w a ≥ val w b) ∧
      (eq w a b = true ↔ val w a = val w b) ∧ (ne w a b = true ↔ val w a ≠ val w b) := by
  have h1 := lt_iff ha hb
  have h2 := lt_iff hb ha
  have h3 := eq_iff ha hb
  refine ⟨h1, h2, ?_, ?_, h3, ?_⟩
  · unfold le; rw [Bool.not_eq_true', ← Bool.not_eq_true, h2]; omega
  · unfold ge; rw [Bool.not_eq_true', ← Bool.not_eq_true, h1]; omega
  · unfold ne; rw [Bool.not_eq_true', ← Bool.not_eq_true, h3]

/-- A value is determined by its number. -/
theorem C116_faithful {w : Nat} {a b : X4} (ha : Valid w a) (hb : Valid w b) (h : val w a = val w b) : a = b := by
  rw [val_eq, val_eq] at h
  obtain ⟨a0, a1, a2, a3⟩ := ha
  obtain ⟨b0, b1, b2, b3⟩ := hb
  have key : ∀ {x y x' y' B : Nat}, x < B → x' < B → x + B * y = x' + B * y' → x = x' ∧ y = y' := by
    intro x y x' y' B hx hx' he
    have e1 : (x + B * y) % B = (x' + B * y') % B := by rw [he]
    rw [Nat.add_mul_mod_self_left, Nat.add_mul_mod_self_left, Nat.mod_eq_of_lt hx, Nat.mod_eq_of_lt hx'] at e1
    subst e1
    exact ⟨rfl, Nat.eq_of_mul_eq_mul_left (Nat.zero_lt_of_lt hx) (Nat.add_left_cancel he)⟩
  obtain ⟨e0, h⟩ := key a0 b0 h
  obtain ⟨e1, h⟩ := key a1 b1 h
  obtain ⟨e2, e3⟩ := key a2 b2 h
  cases a; cases b; simp_all

/-- A number that fits in the double word is stored, and read back. -/
theorem C116_convert {x : Nat} (hx : x < 2 ^ 64) :
    Is 32 (ofInt 32 x) x ∧ toU64 32 (ofInt 32 x) = x ∧ toU32 (ofInt 32 x) = x % 2 ^ 32 ∧
      toU16 (ofInt 32 x) = x % 2 ^ 16 ∧ toU8 (ofInt 32 x) = x % 2 ^ 8 ∧ (toBool 32 (ofInt 32 x) = true ↔ x ≠ 0) := by
  have e : ((x : Int) % 2 ^ (2 * 32)).toNat = x := by omega
  have h := ofInt_is (w := 32) (x : Int)
  rw [e] at h
  refine ⟨h, ?_, ?_, ?_, ?_, ?_⟩ <;>
    simp only [toU64, toU32, toU16, toU8, toBool, ofInt, mk2, e, X4.d01, X4.d23] <;> norm_num <;> omega

/-- What is read from any value. -/
theorem C116_read {v : X4} (h : Valid 32 v) :
    toU64 32 v = val 32 v % 2 ^ 64 ∧ toU32 v = val 32 v % 2 ^ 32 ∧ toU16 v = val 32 v % 2 ^ 16 ∧
      toU8 v = val 32 v % 2 ^ 8 ∧ (toBool 32 v = true ↔ val 32 v ≠ 0) := by
  obtain ⟨h0, h1, h2, h3⟩ := h
  refine ⟨?_, ?_, ?_, ?_, ?_⟩ <;> simp only [toU64, toU32, toU16, toU8, toBool, val, X4.d01, X4.d23]
  · omega
  · omega
  · omega
  · omega
  · simp only [Bool.or_eq_true, bne_iff_ne]; omega

/-- A negative number is extended with zeros above the double word, not with its sign. -/
theorem C116_negative {x : Int} (h1 : x < 0) (h2 : -2 ^ 63 ≤ x) :
    val 32 (ofInt 32 x) = (2 ^ 64 + x).toNat ∧ (val 32 (ofInt 32 x) : Int) ≠ 2 ^ 128 + x := by
  have h := (ofInt_is (w := 32) x).2
  rw [h]
  omega

/-- One step of a generator with an emulated state is the step of the native type. -/
theorem C116_lcg_step {s m i : X4} (hs : Valid 32 s) (hm : Valid 32 m) (hi : Valid 32 i) :
    Valid 32 (add 32 (mul 32 s m) i) ∧ BitVec.ofNat 128 (val 32 (add 32 (mul 32 s m) i)) =
      BitVec.ofNat 128 (val 32 s) * BitVec.ofNat 128 (val 32 m) + BitVec.ofNat 128 (val 32 i) := by
  have h1 := C116_mul_partial hs hm
  have h2 := C116_add (by decide) h1.1 hi
  refine ⟨h2.1, ?_⟩
  rw [h2.2, h1.2]
  apply BitVec.eq_of_toNat_eq
  simp [BitVec.toNat_ofNat, Nat.add_mod, Nat.mul_mod]

example : add 32 exA exB = ⟨2, 0x80000000, 0, 0x12345680⟩ := by decide +kernel
example : (val 32 (mul 32 exA exB)) = (val 32 exA * val 32 exB) % 2 ^ 128 := by decide +kernel

/-! ## C117: shifts -/

/-- Every shift to the left, also by more than the width. -/
theorem C117_left {w : Nat} (hw : w = 32 ∨ w = 64) {v : X4} (h : Valid w v) (s : Nat) (_ : s < 256) :
    ∃ r, shl w v s = .ok r ∧ Is w r (val w v * 2 ^ s % 2 ^ (4 * w)) := shl_is hw h s

theorem C117_right_partial {w : Nat} (hw : w = 32 ∨ w = 64) {v : X4} (h : Valid w v) (s : Nat) (hs : s < 5 * w) :
    ∃ r, shr w v s = .ok r ∧ Is w r (val w v / 2 ^ s) := shr_is hw h s hs

/-- A shift to the right by 160 or more writes outside of the value, whereas by 128 to 159 gives zero. -/
theorem C117_right_ub (v : X4) (s : Nat) (hs : 160 ≤ s) (h8 : s < 256) : shr 32 v s = .ub :=
  shr_ub (Or.inl rfl) v s hs h8

example : shl 32 exA 33 = .ok ⟨0, 0xFFFFFFFE, 0xFFFFFFFF, 0xFFFFFFFD⟩ := by decide +kernel

/-! ## C118: division -/

/-- Quotient and remainder, for every divisor that is not zero; the loops end. -/
theorem C118_divmod {w : Nat} (hw : w = 32 ∨ w = 64) {a d : X4} (ha : Valid w a) (hd : Valid w d) (h0 : val w d ≠ 0) :
    ∃ N q r, (∀ fuel, N < fuel → divmod w fuel a d = .ok (q, r)) ∧
      Is w q (val w a / val w d) ∧ Is w r (val w a % val w d) := by
  obtain ⟨q, r, _, h2, h3⟩ := divmod_is hw ha hd h0 (val w a + 1) (by omega)
  refine ⟨val w a, q, r, fun fuel hf => ?_, h2, h3⟩
  obtain ⟨q', r', e', h2', h3'⟩ := divmod_is hw ha hd h0 fuel hf
  rw [e', C116_faithful h2.1 h2'.1 (h2.2.trans h2'.2.symm), C116_faithful h3.1 h3'.1 (h3.2.trans h3'.2.symm)]

/-- Division by zero ends the program. -/
theorem C118_by_zero {w : Nat} {a d : X4} (ha : Valid w a) (hd : Valid w d) (h0 : val w d = 0) (fuel : Nat) :
    divmod w fuel a d = .assertFail := divmod_zero ha hd h0 fuel

example : divmod 32 100 ⟨1000, 0, 0, 0⟩ ⟨7, 0, 0, 0⟩ = .ok (⟨142, 0, 0, 0⟩, ⟨6, 0, 0, 0⟩) := by decide +kernel

/-! ## C119: counting bits -/

/-- The logarithm rounded down, with the intrinsics and without, of words and of wide integers. -/
theorem C119_flog2 {w : Nat} (hw : w = 32 ∨ w = 64) {v : X4} (h : Valid w v) (h0 : val w v ≠ 0) :
    ∃ k, flog2 w v = .ok k ∧ FloorLog (val w v) k :=
  ⟨_, flog2_is hw h h0, log2_spec h0⟩

theorem C119_flog2_portable (v : BitVec 32) (h0 : v ≠ 0) :
    ∃ k, flog2Portable v = some k ∧ FloorLog v.toNat k ∧ flog2W v.toNat = .ok k := by
  have h := toNat_ne_zero.2 h0
  exact ⟨_, flog2Portable_is h, log2_spec h, by rw [flog2W, if_neg h]⟩

theorem C119_flog2_portable64 (v : BitVec 64) (h0 : v ≠ 0) :
    ∃ k, flog2Portable64 v = some k ∧ FloorLog v.toNat k ∧ flog2W v.toNat = .ok k := by
  have h := toNat_ne_zero.2 h0
  exact ⟨_, flog2Portable64_is h, log2_spec h, by rw [flog2W, if_neg h]⟩

/-- The zero bits at the end. -/
theorem C119_trailing {w : Nat} (hw : w = 32 ∨ w = 64) {v : X4} (h : Valid w v) (h0 : val w v ≠ 0) :
    ∃ k, trailingzeros w v = .ok k ∧ Trailing (val w v) k := trailingzeros_is hw h h0

theorem C119_trailing_portable (v : BitVec 32) (h0 : v ≠ 0) :
    ∃ k, trailingzerosPortable v = some k ∧ Trailing v.toNat k ∧ trailingzerosW v.toNat = .ok k := by
  have h := toNat_ne_zero.2 h0
  obtain ⟨k, e, t⟩ := trailingzerosPortable_is h
  exact ⟨k, e, t, by rw [trailingzerosW, if_neg h, trailing_unique (ctz_spec h) t]⟩

theorem C119_trailing_portable64 (v : BitVec 64) (h0 : v ≠ 0) :
    ∃ k, trailingzerosPortable64 v = some k ∧ Trailing v.toNat k ∧ trailingzerosW v.toNat = .ok k := by
  have h := toNat_ne_zero.2 h0
  obtain ⟨k, e, t⟩ := trailingzerosPortable64_is h
  exact ⟨k, e, t, by rw [trailingzerosW, if_neg h, trailing_unique (ctz_spec h) t]⟩

/-- The logarithm rounded up of a word. -/
theorem C119_clog2 {n : Nat} (v : BitVec n) (h0 : v ≠ 0) : ∃ k, clog2W v = .ok k ∧ CeilLog v.toNat k :=
  clog2W_is (toNat_ne_zero.2 h0)

theorem C119_clog2_wide {v : X4} (h : Valid 32 v) (h0 : val 32 v ≠ 0) :
    ∃ k, clog2 32 v = .ok k ∧ CeilLog (val 32 v) k := clog2_is (Or.inl rfl) h h0 (Or.inl rfl)

/-- With words of 64 bits only up to `2^255`: the largest numbers have the logarithm 256, and 0 is returned. -/
theorem C119_clog2_wider_partial {v : X4} (h : Valid 64 v) (h0 : val 64 v ≠ 0) (hs : val 64 v ≤ 2 ^ 255) :
    ∃ k, clog2 64 v = .ok k ∧ CeilLog (val 64 v) k := clog2_is (Or.inr rfl) h h0 (Or.inr hs)

theorem C119_clog2_wider_fails :
    ∃ v : X4, Valid 64 v ∧ 2 ^ 255 < val 64 v ∧ clog2 64 v = .ok 0 :=
  ⟨⟨1, 0, 0, 2 ^ 63⟩, by decide +kernel, by decide +kernel, by decide +kernel⟩

/-- Zero: no logarithm (the program ends, or the behaviour is undefined for a word), and all 128 bits are zeros at the end. With
words of 64 bits the count of 256 does not fit, and 0 is returned as for an odd number. -/
theorem C119_zero {v : X4} :
    (val 32 v = 0 → flog2 32 v = .assertFail ∧ trailingzeros 32 v = .ok 128) ∧
      (val 64 v = 0 → flog2 64 v = .assertFail ∧ trailingzeros 64 v = .ok 0) ∧
      flog2W 0 = .ub ∧ trailingzerosW 0 = .ub :=
  ⟨fun h => ⟨flog2_zero h, trailingzeros_zero h⟩, fun h => ⟨flog2_zero h, trailingzeros_zero h⟩, rfl, rfl⟩

/-- Without intrinsics the functions of a word answer 0 for zero. -/
theorem C119_zero_portable : flog2Portable 0 = some 0 ∧ trailingzerosPortable 0 = some 0 := by decide +kernel

end Verif.U128
