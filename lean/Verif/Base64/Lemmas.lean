import Verif.Base64.Model
import Verif.Base64.Spec

namespace Verif.Base64

open Verif

/-! ### Single characters -/

theorem charAt_ok : ∀ x : Byte, x.val < 64 → charAt x = .ok (chr (Rfc.letter x.val)) := by decide +kernel

theorem indexOf_letter : ∀ x : Byte, x.val < 64 → indexOf (chr (Rfc.letter x.val)) = x := by decide +kernel

theorem letter_valid : ∀ x : Byte, x.val < 64 →
    chr (Rfc.letter x.val) ≠ chr '=' ∧ isBase64 (chr (Rfc.letter x.val)) = true := by decide +kernel

theorem valid_index : ∀ c : Byte, isBase64 c = true → (indexOf c).val < 64 ∧ chr (Rfc.letter (indexOf c).val) = c := by
  decide +kernel

theorem eq_invalid : isBase64 (chr '=') = false := by decide +kernel

theorem and_fc : ∀ a : Byte, (a.val &&& 0xfc) >>> 2 = a.val / 4 := by decide +kernel
theorem and_03 : ∀ a : Byte, (a.val &&& 0x03) <<< 4 = 16 * (a.val % 4) := by decide +kernel
theorem and_f0 : ∀ a : Byte, (a.val &&& 0xf0) >>> 4 = a.val / 16 := by decide +kernel
theorem and_0f : ∀ a : Byte, (a.val &&& 0x0f) <<< 2 = 4 * (a.val % 16) := by decide +kernel
theorem and_c0 : ∀ a : Byte, (a.val &&& 0xc0) >>> 6 = a.val / 64 := by decide +kernel
theorem and_3f : ∀ a : Byte, a.val &&& 0x3f = a.val % 64 := by decide +kernel
theorem shl_2 (a : Nat) : a <<< 2 = 4 * a := by rw [Nat.shiftLeft_eq]; omega
theorem and_30 : ∀ a : Byte, (a.val &&& 0x30) >>> 4 = a.val / 16 % 4 := by decide +kernel
theorem and_0f' : ∀ a : Byte, (a.val &&& 0xf) <<< 4 = 16 * (a.val % 16) := by decide +kernel
theorem and_3c : ∀ a : Byte, (a.val &&& 0x3c) >>> 2 = a.val / 4 % 16 := by decide +kernel
theorem and_03' : ∀ a : Byte, (a.val &&& 0x3) <<< 6 = 64 * (a.val % 4) := by decide +kernel

/-- The four 6-bit numbers of three bytes. -/
def q0 (a : Byte) : Byte := byte (a.val / 4)
def q1 (a b : Byte) : Byte := byte (16 * (a.val % 4) + b.val / 16)
def q2 (b c : Byte) : Byte := byte (4 * (b.val % 16) + c.val / 64)
def q3 (c : Byte) : Byte := byte (c.val % 64)

theorem split3_eq (a b c : Byte) : split3 a b c = [q0 a, q1 a b, q2 b c, q3 c] := by
  simp only [split3, q0, q1, q2, q3, and_fc, and_03, and_f0, and_0f, and_c0, and_3f]

theorem q0_val (a : Byte) : (q0 a).val = a.val / 4 := by simp only [q0, byte]; omega
theorem q1_val (a b : Byte) : (q1 a b).val = 16 * (a.val % 4) + b.val / 16 := by simp only [q1, byte]; omega
theorem q2_val (b c : Byte) : (q2 b c).val = 4 * (b.val % 16) + c.val / 64 := by simp only [q2, byte]; omega
theorem q3_val (c : Byte) : (q3 c).val = c.val % 64 := by simp only [q3, byte]; omega

theorem join4_split (a b c : Byte) : join4 (q0 a) (q1 a b) (q2 b c) (q3 c) = [a, b, c] := by
  simp only [join4, shl_2, and_30, and_0f', and_3c, and_03']
  simp only [q0_val, q1_val, q2_val, q3_val, byte]
  congr 1
  · apply Fin.ext; simp only; omega
  · congr 1
    · apply Fin.ext; simp only; omega
    · congr 1
      apply Fin.ext; simp only; omega

/-! ### Encoding -/

/-- The letter for a 6-bit number. -/
def lett (x : Byte) : Byte := chr (Rfc.letter x.val)

/-- The encoding, three bytes at a time. -/
def enc : List Byte → List Byte
  | [] => []
  | [a] => [lett (q0 a), lett (q1 a 0), chr '=', chr '=']
  | [a, b] => [lett (q0 a), lett (q1 a b), lett (q2 b 0), chr '=']
  | a :: b :: c :: l => lett (q0 a) :: lett (q1 a b) :: lett (q2 b c) :: lett (q3 c) :: enc l

theorem q0_lt (a : Byte) : (q0 a).val < 64 := by rw [q0_val]; omega
theorem q1_lt (a b : Byte) : (q1 a b).val < 64 := by rw [q1_val]; omega
theorem q2_lt (a b : Byte) : (q2 a b).val < 64 := by rw [q2_val]; omega
theorem q3_lt (a : Byte) : (q3 a).val < 64 := by rw [q3_val]; omega

theorem putChars_eq (l ret : List Byte) (h : ∀ x ∈ l, x.val < 64) : putChars l ret = .ok (ret ++ l.map lett) := by
  induction l generalizing ret with
  | nil => simp [putChars]
  | cons x l ih =>
    rw [putChars, charAt_ok x (h x List.mem_cons_self), Outcome.bind_ok, ih _ (fun y hy => h y (List.mem_cons_of_mem _ hy))]
    simp [lett]

theorem mem3 {a b c : Byte} : ∀ x ∈ [q0 a, q1 a b, q2 b c, q3 c], x.val < 64 := by
  intro x hx
  simp at hx
  rcases hx with rfl | rfl | rfl | rfl
  · exact q0_lt _
  · exact q1_lt _ _
  · exact q2_lt _ _
  · exact q3_lt _

theorem enc_spec (s ret : List Byte) : (do let r ← encLoop s [] ret; encTail r.1 r.2) = .ok (ret ++ enc s) := by
  match s with
  | [] => simp [encLoop, encTail, enc]
  | [a] =>
    simp only [encLoop, List.nil_append, Outcome.bind_ok, encTail, split3_eq]
    rw [putChars_eq _ _ (fun x hx => mem3 x (List.mem_of_mem_take hx))]
    simp [enc]
  | [a, b] =>
    simp only [encLoop, List.nil_append, List.singleton_append, Outcome.bind_ok, encTail, split3_eq]
    rw [putChars_eq _ _ (fun x hx => mem3 x (List.mem_of_mem_take hx))]
    simp [enc]
  | a :: b :: c :: l =>
    simp only [encLoop, List.nil_append, List.singleton_append, List.cons_append, split3_eq]
    rw [putChars_eq _ _ mem3, Outcome.bind_ok, enc_spec l]
    simp [enc]

theorem encode_eq {s : List Byte} (h : s.length < 2 ^ 32) : encode s = .ok (enc s) := by
  unfold encode
  rw [Nat.mod_eq_of_lt h, List.take_length, enc_spec]
  simp

theorem enc_length (s : List Byte) : (enc s).length = 4 * ((s.length + 2) / 3) := by
  match s with
  | [] => rfl
  | [a] => simp [enc]
  | [a, b] => simp [enc]
  | a :: b :: c :: l => simp only [enc, List.length_cons, enc_length l]; omega

/-! ### The specification, three bytes at a time -/

theorem toNat_bit (b : Byte) (i : Nat) : (b.val.testBit i).toNat = b.val / 2 ^ i % 2 := Nat.toNat_testBit _ _

theorem num6 (a b c d e f : Bool) : Rfc.number [a, b, c, d, e, f] =
    32 * a.toNat + 16 * b.toNat + 8 * c.toNat + 4 * d.toNat + 2 * e.toNat + f.toNat := by
  simp only [Rfc.number, List.foldl]
  omega

theorem bits_cons (a : Byte) (l : List Byte) : Rfc.bits (a :: l) =
    [a.val.testBit 7, a.val.testBit 6, a.val.testBit 5, a.val.testBit 4, a.val.testBit 3, a.val.testBit 2, a.val.testBit 1,
      a.val.testBit 0] ++ Rfc.bits l := by
  simp [Rfc.bits]

theorem sum0 (a : Byte) : 32 * (a.val / 128 % 2) + 16 * (a.val / 64 % 2) + 8 * (a.val / 32 % 2) + 4 * (a.val / 16 % 2) +
    2 * (a.val / 8 % 2) + a.val / 4 % 2 = (q0 a).val := by rw [q0_val]; omega
theorem sum1 (a b : Byte) : 32 * (a.val / 2 % 2) + 16 * (a.val % 2) + 8 * (b.val / 128 % 2) + 4 * (b.val / 64 % 2) +
    2 * (b.val / 32 % 2) + b.val / 16 % 2 = (q1 a b).val := by rw [q1_val]; omega
theorem sum2 (b c : Byte) : 32 * (b.val / 8 % 2) + 16 * (b.val / 4 % 2) + 8 * (b.val / 2 % 2) + 4 * (b.val % 2) +
    2 * (c.val / 128 % 2) + c.val / 64 % 2 = (q2 b c).val := by rw [q2_val]; omega
theorem sum3 (c : Byte) : 32 * (c.val / 32 % 2) + 16 * (c.val / 16 % 2) + 8 * (c.val / 8 % 2) + 4 * (c.val / 4 % 2) +
    2 * (c.val / 2 % 2) + c.val % 2 = (q3 c).val := by rw [q3_val]; omega
theorem sum1' (a : Byte) : 32 * (a.val / 2 % 2) + 16 * (a.val % 2) + 8 * 0 + 4 * 0 + 2 * 0 + 0 = (q1 a 0).val := by
  rw [q1_val]; simp; omega
theorem sum2' (b : Byte) : 32 * (b.val / 8 % 2) + 16 * (b.val / 4 % 2) + 8 * (b.val / 2 % 2) + 4 * (b.val % 2) +
    2 * 0 + 0 = (q2 b 0).val := by rw [q2_val]; simp; omega

theorem rfc_chars (s : List Byte) : ∃ cs : List Char, (Rfc.groups (Rfc.bits s)).map (fun g => Rfc.letter (Rfc.number g)) = cs ∧
    cs.length = (4 * s.length + 2) / 3 ∧
    (cs ++ List.replicate ((4 - cs.length % 4) % 4) '=').map chr = enc s := by
  match s with
  | [] => exact ⟨[], rfl, rfl, rfl⟩
  | [a] =>
    refine ⟨_, rfl, ?_⟩
    rw [bits_cons, show Rfc.bits [] = [] from rfl]
    simp only [List.append_nil, Rfc.groups, List.map_cons, List.map_nil, num6, toNat_bit, Nat.reducePow, Nat.div_one,
      List.length_cons, List.length_nil, Bool.toNat_false, sum0, sum1']
    refine ⟨trivial, ?_⟩
    simp [enc, lett]
  | [a, b] =>
    refine ⟨_, rfl, ?_⟩
    rw [bits_cons, bits_cons, show Rfc.bits [] = [] from rfl]
    simp only [List.append_nil, List.cons_append, List.nil_append, Rfc.groups, List.map_cons, List.map_nil, num6, toNat_bit,
      Nat.reducePow, Nat.div_one, List.length_cons, List.length_nil, Bool.toNat_false, sum0, sum1, sum2']
    refine ⟨trivial, ?_⟩
    simp [enc, lett]
  | a :: b :: c :: l =>
    obtain ⟨cs, h1, h2, h3⟩ := rfc_chars l
    refine ⟨Rfc.letter (q0 a).val :: Rfc.letter (q1 a b).val :: Rfc.letter (q2 b c).val :: Rfc.letter (q3 c).val :: cs, ?_, ?_, ?_⟩
    · rw [bits_cons, bits_cons, bits_cons]
      simp only [List.cons_append, List.nil_append, Rfc.groups, List.map_cons, h1, num6, toNat_bit, Nat.reducePow, Nat.div_one,
        sum0, sum1, sum2, sum3]
    · simp only [List.length_cons, h2]; omega
    · simp only [List.length_cons, List.cons_append, List.map_cons, enc, lett]
      rw [show (cs.length + 1 + 1 + 1 + 1) % 4 = cs.length % 4 by omega, h3]

theorem enc_rfc (s : List Byte) : (Rfc.encode s).map chr = enc s := by
  obtain ⟨cs, h1, -, h3⟩ := rfc_chars s
  simp only [Rfc.encode, h1]
  exact h3

/-! ### Decoding -/

theorem decLoop_stop {len : Int} (hlen : 0 ≤ len) {x : Byte} (hx : isBase64 x = false) (xs buf ret : List Byte) :
    decLoop len (x :: xs) buf ret = .ok (buf, ret) := by
  rw [decLoop.eq_def]
  split
  · rfl
  · rw [if_neg (by omega)]
    simp [hx]

theorem decLoop_end {len : Int} (hlen : 0 ≤ len) (buf ret : List Byte) : decLoop len [] buf ret = .ok (buf, ret) := by
  rw [decLoop.eq_def]
  split
  · rfl
  · rw [if_neg (by omega)]

theorem isBase64_ne {x : Byte} (hx : isBase64 x = true) : x ≠ chr '=' := by
  rintro rfl
  rw [eq_invalid] at hx
  cases hx

theorem decLoop_step {len : Int} (hlen : 0 < len) {x : Byte} (hx : isBase64 x = true) {xs buf ret : List Byte}
    (hb : buf.length < 3) : decLoop len (x :: xs) buf ret = decLoop (len - 1) xs (buf ++ [x]) ret := by
  rw [decLoop.eq_def, if_neg (by omega), if_neg (by omega)]
  simp only [hx, isBase64_ne hx, ne_eq, not_false_eq_true, and_true, if_true]
  match buf, hb with
  | [], _ => rfl
  | [a], _ => rfl
  | [a, b], _ => rfl

theorem decLoop_quad {len : Int} (hlen : 0 < len) {p q r x : Byte} (hx : isBase64 x = true) {xs ret : List Byte} :
    decLoop len (x :: xs) [p, q, r] ret =
      decLoop (len - 1) xs [] (ret ++ join4 (indexOf p) (indexOf q) (indexOf r) (indexOf x)) := by
  rw [decLoop.eq_def, if_neg (by omega), if_neg (by omega)]
  simp only [hx, isBase64_ne hx, ne_eq, not_false_eq_true, and_true, if_true]
  rfl

theorem decLoop_four {len : Int} (hlen : 4 ≤ len) {p q r x : Byte} (hp : isBase64 p = true) (hq : isBase64 q = true)
    (hr : isBase64 r = true) (hx : isBase64 x = true) {xs ret : List Byte} :
    decLoop len (p :: q :: r :: x :: xs) [] ret =
      decLoop (len - 4) xs [] (ret ++ join4 (indexOf p) (indexOf q) (indexOf r) (indexOf x)) := by
  rw [decLoop_step (by omega) hp (by simp), decLoop_step (by omega) hq (by simp), decLoop_step (by omega) hr (by simp)]
  simp only [List.nil_append, List.singleton_append, List.cons_append]
  rw [decLoop_quad (by omega) hx]
  congr 1
  omega

theorem lett_valid {x : Byte} (h : x.val < 64) : isBase64 (lett x) = true := (letter_valid x h).2
theorem index_lett {x : Byte} (h : x.val < 64) : indexOf (lett x) = x := indexOf_letter x h

theorem dec_enc (s ret : List Byte) {len : Int} (hl : ((enc s).length : Int) ≤ len) :
    (do let r ← decLoop len (enc s) [] ret; return decTail r.1 r.2) = Outcome.ok (ret ++ s) := by
  match s with
  | [] =>
    simp only [enc, List.length_nil, Int.natCast_zero] at hl
    simp [enc, decLoop_end hl, decTail]
  | [a] =>
    simp only [enc, List.length_cons, List.length_nil] at hl
    rw [enc, decLoop_step (by omega) (lett_valid (q0_lt _)) (by simp), decLoop_step (by omega) (lett_valid (q1_lt _ _)) (by simp),
      decLoop_stop (by omega) eq_invalid]
    have h := join4_split a 0 0
    simp only [join4] at h
    simp only [List.nil_append, List.singleton_append, Outcome.bind_ok, decTail, index_lett (q0_lt _), index_lett (q1_lt _ _),
      join4, List.take_succ_cons, List.take_zero, Outcome.pure_eq]
    rw [(List.cons.inj h).1]
  | [a, b] =>
    simp only [enc, List.length_cons, List.length_nil] at hl
    rw [enc, decLoop_step (by omega) (lett_valid (q0_lt _)) (by simp), decLoop_step (by omega) (lett_valid (q1_lt _ _)) (by simp),
      decLoop_step (by omega) (lett_valid (q2_lt _ _)) (by simp), decLoop_stop (by omega) eq_invalid]
    have h := join4_split a b 0
    simp only [join4] at h
    simp only [List.nil_append, List.singleton_append, List.cons_append, Outcome.bind_ok, decTail, index_lett (q0_lt _),
      index_lett (q1_lt _ _), index_lett (q2_lt _ _), join4, List.take_succ_cons, List.take_zero, Outcome.pure_eq]
    rw [(List.cons.inj h).1, (List.cons.inj (List.cons.inj h).2).1]
  | a :: b :: c :: l =>
    simp only [enc, List.length_cons] at hl
    rw [enc, decLoop_four (by omega) (lett_valid (q0_lt _)) (lett_valid (q1_lt _ _)) (lett_valid (q2_lt _ _))
      (lett_valid (q3_lt _)), index_lett (q0_lt _), index_lett (q1_lt _ _), index_lett (q2_lt _ _), index_lett (q3_lt _),
      join4_split, dec_enc l _ (by omega)]
    simp

/-! ### Too long texts -/

theorem decLoop_overflow (k : Nat) (xs buf ret : List Byte) {len : Int} (hk : len = -2147483648 + k) (hneg : len < 0)
    (hl : k ≤ xs.length) (hv : ∀ x ∈ xs.take k, isBase64 x = true) : decLoop len xs buf ret = .ub := by
  induction k generalizing xs buf ret len with
  | zero => rw [decLoop.eq_def, if_neg (by omega), if_pos (by omega)]
  | succ k ih =>
    match xs, hl with
    | x :: xs, hl =>
      have hx := hv x (by simp)
      rw [decLoop.eq_def, if_neg (by omega), if_neg (by omega)]
      simp only [hx, isBase64_ne hx, ne_eq, not_false_eq_true, and_true, if_true]
      have hv' : ∀ x ∈ xs.take k, isBase64 x = true := fun y hy => hv y (by simp [hy])
      have hl' : k ≤ xs.length := by simpa using hl
      split <;> exact ih xs _ _ (by omega) (by omega) hl' hv'

theorem enc_valid (s : List Byte) : ∀ x ∈ (enc s).take ((enc s).length - 2), isBase64 x = true := by
  match s with
  | [] => simp [enc]
  | [a] => simp [enc, lett_valid (q0_lt _), lett_valid (q1_lt _ _)]
  | [a, b] => simp [enc, lett_valid (q0_lt _), lett_valid (q1_lt _ _)]
  | a :: b :: c :: l =>
    have ih := enc_valid l
    have h4 : 4 ∣ (enc l).length := by rw [enc_length]; exact ⟨_, rfl⟩
    simp only [enc, List.length_cons]
    intro x hx
    by_cases h : (enc l).length = 0
    · rw [List.length_eq_zero_iff.1 h] at hx
      simp at hx
      rcases hx with rfl | rfl
      · exact lett_valid (q0_lt _)
      · exact lett_valid (q1_lt _ _)
    · have : (enc l).length + 1 + 1 + 1 + 1 - 2 = (enc l).length - 2 + 1 + 1 + 1 + 1 := by omega
      rw [this] at hx
      simp only [List.take_succ_cons, List.mem_cons] at hx
      rcases hx with rfl | rfl | rfl | rfl | hx
      · exact lett_valid (q0_lt _)
      · exact lett_valid (q1_lt _ _)
      · exact lett_valid (q2_lt _ _)
      · exact lett_valid (q3_lt _)
      · exact ih x hx

end Verif.Base64
