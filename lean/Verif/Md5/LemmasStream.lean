import Verif.Md5.LemmasBlock

namespace Verif.Md5

open Verif

/-- The bytes of `m` after its last whole block. -/
def tail (m : List Byte) : List Byte := m.drop (64 * (m.length / 64))

theorem tail_length (m : List Byte) : (tail m).length = m.length % 64 := by
  rw [tail, List.length_drop]; omega

theorem blocks_short {v : Rfc.Buf} {m : List Byte} (h : m.length < 64) : Rfc.blocks v m = v := by
  rw [Rfc.blocks, if_pos h]

theorem blocks_long {v : Rfc.Buf} {m : List Byte} (h : 64 ≤ m.length) :
    Rfc.blocks v m = Rfc.blocks (Rfc.compress v (m.take 64)) (m.drop 64) := by
  rw [Rfc.blocks, if_neg (by omega)]

theorem blocks_append (v : Rfc.Buf) (m s : List Byte) : Rfc.blocks v (m ++ s) = Rfc.blocks (Rfc.blocks v m) (tail m ++ s) := by
  by_cases h : m.length < 64
  · rw [blocks_short h, tail, show m.length / 64 = 0 by omega]
    rfl
  · have ih := blocks_append (Rfc.compress v (m.take 64)) (m.drop 64) s
    rw [blocks_long (m := m) (by omega), blocks_long (m := m ++ s) (by simp; omega), List.take_append_of_le_length (by omega),
      List.drop_append_of_le_length (by omega), ih]
    congr 2
    rw [tail, tail, List.drop_drop, List.length_drop]
    congr 1
    omega
termination_by m.length
decreasing_by simp; omega

/-- What the context stands for after the message `m`. -/
structure Rep (ctx : Ctx) (m : List Byte) : Prop where
  state : toBuf ctx.state = Rfc.blocks Rfc.start m
  count : ctx.count1.toNat * 2 ^ 32 + ctx.count0.toNat = 8 * m.length % 2 ^ 64
  length : ctx.buffer.length = 64
  buffer : ctx.buffer.take (m.length % 64) = (tail m).map some

theorem rep_init : Rep init [] where
  state := by rw [blocks_short (by simp)]; rfl
  count := by simp [init]
  length := by simp [init]
  buffer := by simp [tail]

theorem index_eq {ctx : Ctx} {m : List Byte} (h : Rep ctx m) : ((ctx.count0 >>> 3) &&& 0x3F).toNat = m.length % 64 := by
  have hc := h.count
  have := ctx.count0.isLt
  have h1 := ctx.count1.isLt
  rw [BitVec.toNat_and, BitVec.toNat_ushiftRight, show (0x3F : W).toNat = 2 ^ 6 - 1 from rfl, Nat.and_two_pow_sub_one_eq_mod,
    Nat.shiftRight_eq_div_pow]
  omega

theorem count_split (n : Nat) : n * 8 = 2 ^ 32 * (n / 2 ^ 29) + n * 8 % 2 ^ 32 := by omega

theorem mod_sq {M x t : Nat} (h : t < M) : (M * x + t) % (M * M) = x % M * M + t := by
  have hM : 0 < M := by omega
  rw [Nat.mod_mul, Nat.mul_add_mod, Nat.mod_eq_of_lt h, Nat.mul_add_div hM, Nat.div_eq_of_lt h, Nat.add_zero, Nat.mul_comm,
    Nat.add_comm]

theorem count_carry {a b n k : Nat} (ha : a < 2 ^ 32) (hb : b < 2 ^ 32)
    (h : b * 2 ^ 32 + a = 8 * k % 2 ^ 64) (hlt : (a + n * 8 % 2 ^ 32) % 2 ^ 32 < n * 8 % 2 ^ 32) :
    ((b + 1) % 2 ^ 32 + n / 2 ^ 29) % 2 ^ 32 * 2 ^ 32 + (a + n * 8 % 2 ^ 32) % 2 ^ 32 = 8 * (k + n) % 2 ^ 64 := by
  have e := count_split n
  have hr : n * 8 % 2 ^ 32 < 2 ^ 32 := Nat.mod_lt _ (by decide)
  generalize n * 8 % 2 ^ 32 = r at *
  generalize n / 2 ^ 29 = p at *
  have h1 : (a + r) % 2 ^ 32 = a + r - 2 ^ 32 ∧ 2 ^ 32 ≤ a + r := by omega
  have ht : a + r - 2 ^ 32 < 2 ^ 32 := by omega
  rw [h1.1, show 8 * (k + n) = n * 8 + 8 * k by omega, ← Nat.add_mod_mod (n * 8), ← h, e,
    show 2 ^ 32 * p + r + (b * 2 ^ 32 + a) = 2 ^ 32 * (b + 1 + p) + (a + r - 2 ^ 32) by omega,
    show (2 : Nat) ^ 64 = 2 ^ 32 * 2 ^ 32 from rfl, mod_sq ht, Nat.mod_add_mod]

theorem count_nocarry {a b n k : Nat} (ha : a < 2 ^ 32) (hb : b < 2 ^ 32)
    (h : b * 2 ^ 32 + a = 8 * k % 2 ^ 64) (hlt : ¬(a + n * 8 % 2 ^ 32) % 2 ^ 32 < n * 8 % 2 ^ 32) :
    (b + n / 2 ^ 29) % 2 ^ 32 * 2 ^ 32 + (a + n * 8 % 2 ^ 32) % 2 ^ 32 = 8 * (k + n) % 2 ^ 64 := by
  have e := count_split n
  have hr : n * 8 % 2 ^ 32 < 2 ^ 32 := Nat.mod_lt _ (by decide)
  generalize n * 8 % 2 ^ 32 = r at *
  generalize n / 2 ^ 29 = p at *
  have h1 : (a + r) % 2 ^ 32 = a + r ∧ a + r < 2 ^ 32 := by omega
  rw [h1.1, show 8 * (k + n) = n * 8 + 8 * k by omega, ← Nat.add_mod_mod (n * 8), ← h, e,
    show 2 ^ 32 * p + r + (b * 2 ^ 32 + a) = 2 ^ 32 * (b + p) + (a + r) by omega,
    show (2 : Nat) ^ 64 = 2 ^ 32 * 2 ^ 32 from rfl, mod_sq h1.2]

theorem count_step {c0 c1 : W} {n k : Nat} (hn : n < 2 ^ 32) (h : c1.toNat * 2 ^ 32 + c0.toNat = 8 * k % 2 ^ 64) :
    ((if c0 + (BitVec.ofNat 32 n <<< 3) < BitVec.ofNat 32 n <<< 3 then c1 + 1 else c1) + (BitVec.ofNat 32 n >>> 29)).toNat * 2 ^ 32 +
      (c0 + (BitVec.ofNat 32 n <<< 3)).toNat = 8 * (k + n) % 2 ^ 64 := by
  have h0 := c0.isLt
  have h1 := c1.isLt
  have e1 : (BitVec.ofNat 32 n <<< 3).toNat = n * 8 % 2 ^ 32 := by
    rw [BitVec.toNat_shiftLeft, BitVec.toNat_ofNat, Nat.mod_eq_of_lt hn, Nat.shiftLeft_eq]
  have e2 : (BitVec.ofNat 32 n >>> 29).toNat = n / 2 ^ 29 := by
    rw [BitVec.toNat_ushiftRight, BitVec.toNat_ofNat, Nat.mod_eq_of_lt hn, Nat.shiftRight_eq_div_pow]
  have e3 : (c0 + (BitVec.ofNat 32 n <<< 3)).toNat = (c0.toNat + n * 8 % 2 ^ 32) % 2 ^ 32 := by rw [BitVec.toNat_add, e1]
  rw [BitVec.toNat_add, e2, e3]
  split
  · rename_i hlt
    rw [BitVec.lt_def, e3, e1] at hlt
    rw [BitVec.toNat_add, show (1 : W).toNat = 1 from rfl]
    exact count_carry h0 h1 h hlt
  · rename_i hlt
    rw [BitVec.lt_def, e3, e1] at hlt
    exact count_nocarry h0 h1 h hlt

theorem updLoop_ok (input : List Byte) (state : Regs) (i : Nat) (hi : i ≤ input.length)
    (idx : Nat) (hx : (i + idx) % 64 = 0) (hw : input.length + idx < 2 ^ 32) (h64 : idx < 64) :
    ∃ r, updLoop input state i = .ok (r, i + 64 * ((input.length - i) / 64)) ∧
      toBuf r = Rfc.blocks (toBuf state) (input.drop i) := by
  rw [updLoop]
  by_cases h : i + 64 ≤ input.length
  · have hl : ((input.drop i).take 64).length = 64 := by simp; omega
    rw [if_pos (by omega), if_pos h, blockOf_some hl, Outcome.bind_ok]
    obtain ⟨r, h1, h2⟩ := updLoop_ok input (transform state (fun j => ((input.drop i).take 64)[j.val]'(by omega))) (i + 64)
      (by omega) idx (by omega) hw h64
    refine ⟨r, ?_, ?_⟩
    · rw [h1]
      congr 2
      omega
    · rw [h2, transform_compress hl, blocks_long (m := input.drop i) (by simp; omega), List.drop_drop]
  · rw [if_neg (by omega)]
    refine ⟨state, ?_, ?_⟩
    · rw [show (input.length - i) / 64 = 0 by omega]; rfl
    · rw [blocks_short (by simp; omega)]
termination_by input.length - i

theorem tail_append {m s : List Byte} {j : Nat} (h : 64 * ((m.length + s.length) / 64) = m.length + j) :
    tail (m ++ s) = s.drop j := by
  rw [tail, List.length_append, h, List.drop_append, List.drop_eq_nil_of_le (by omega)]
  simp

theorem take_append_len {α : Type} (a b : List α) {n : Nat} (h : n = a.length) : (a ++ b).take n = a := by
  subst h; simp

/-- Feeding `s`. -/
theorem update_rep {ctx : Ctx} {m s : List Byte} (h : Rep ctx m)
    (hs : m.length % 64 + s.length < 2 ^ 32) :
    ∃ ctx', update ctx s = .ok ctx' ∧ Rep ctx' (m ++ s) := by
  have hn : s.length < 2 ^ 32 := by omega
  have hcount := count_step (n := s.length) hn h.count
  have ht := tail_length m
  have hbl := h.length
  unfold update
  simp only [index_eq h]
  by_cases hbig : 64 - m.length % 64 ≤ s.length
  · rw [if_pos hbig]
    have hmc : memcpy ctx.buffer (m.length % 64) (s.take (64 - m.length % 64)) =
        .ok ((tail m ++ s.take (64 - m.length % 64)).map some) := by
      unfold memcpy
      rw [List.length_take, if_pos (by omega), h.buffer, List.drop_eq_nil_of_le (by omega)]
      simp
    have hlen : (tail m ++ s.take (64 - m.length % 64)).length = 64 := by
      rw [List.length_append, List.length_take, ht]; omega
    rw [hmc, Outcome.bind_ok, blockOf_some hlen, Outcome.bind_ok]
    obtain ⟨r, h1, h2⟩ := updLoop_ok s (transform ctx.state
      (fun i => (tail m ++ s.take (64 - m.length % 64))[i.val]'(by omega))) (64 - m.length % 64) hbig (m.length % 64) (by omega)
      (by omega) (by omega)
    rw [h1, Outcome.bind_ok]
    have htl : 64 * ((m.length + s.length) / 64) =
        m.length + (64 - m.length % 64 + 64 * ((s.length - (64 - m.length % 64)) / 64)) := by omega
    have htail := tail_append htl
    generalize hj : 64 - m.length % 64 + 64 * ((s.length - (64 - m.length % 64)) / 64) = j at *
    have hmc2 : memcpy ((tail m ++ s.take (64 - m.length % 64)).map some) 0 (s.drop j) =
        .ok ((s.drop j).map some ++ ((tail m ++ s.take (64 - m.length % 64)).map some).drop (s.drop j).length) := by
      unfold memcpy
      rw [List.length_drop, List.length_map, hlen, if_pos (by omega)]
      simp
    simp only
    rw [hmc2, Outcome.bind_ok]
    refine ⟨_, rfl, ⟨?_, ?_, ?_, ?_⟩⟩
    · simp only
      rw [h2, transform_compress hlen, h.state, blocks_append, blocks_long (m := tail m ++ s) (by rw [List.length_append, ht]; omega)]
      rw [List.take_append, List.drop_append, ht, List.take_of_length_le (l := tail m) (by omega),
        List.drop_eq_nil_of_le (as := tail m) (by omega), List.nil_append]
    · rw [List.length_append]; exact hcount
    · simp only [List.length_append, List.length_map, List.length_drop, List.length_take, ht]; omega
    · simp only
      rw [htail]
      exact take_append_len _ _ (by simp only [List.length_append, List.length_map, List.length_drop]; omega)
  · rw [if_neg hbig]
    have hmc : memcpy ctx.buffer (m.length % 64) s =
        .ok ((tail m ++ s).map some ++ ctx.buffer.drop (m.length % 64 + s.length)) := by
      unfold memcpy
      rw [if_pos (by omega), h.buffer]
      simp
    rw [hmc, Outcome.bind_ok]
    refine ⟨_, rfl, ⟨?_, ?_, ?_, ?_⟩⟩
    · simp only
      rw [h.state, blocks_append, blocks_short (m := tail m ++ s) (by rw [List.length_append, ht]; omega)]
    · rw [List.length_append]; exact hcount
    · simp only [List.length_append, List.length_map, List.length_drop, ht]; omega
    · simp only
      have : tail (m ++ s) = tail m ++ s := by
        rw [tail, List.length_append, show 64 * ((m.length + s.length) / 64) = 64 * (m.length / 64) by omega,
          List.drop_append_of_le_length (by omega)]
        rfl
      rw [this]
      exact take_append_len _ _ (by simp only [List.length_append, List.length_map, ht]; omega)

/-! ### Too long pieces -/

theorem updLoop_ub (input : List Byte) (state : Regs) (i : Nat) (hi : i ≤ input.length) (idx : Nat) (hx : (i + idx) % 64 = 0)
    (hw : 2 ^ 32 ≤ input.length + idx) (hl : input.length < 2 ^ 32) (h64 : idx < 64) : updLoop input state i = .ub := by
  rw [updLoop]
  by_cases h : i + 64 ≤ input.length
  · have hl' : ((input.drop i).take 64).length = 64 := by simp; omega
    rw [if_pos (by omega), if_pos h, blockOf_some hl', Outcome.bind_ok]
    exact updLoop_ub input _ (i + 64) (by omega) idx (by omega) hw hl h64
  · rw [if_pos (by omega), if_neg h]
termination_by input.length - i

theorem update_ub {ctx : Ctx} {m s : List Byte} (h : Rep ctx m) (hs : 2 ^ 32 ≤ m.length % 64 + s.length)
    (hl : s.length < 2 ^ 32) : update ctx s = .ub := by
  have ht := tail_length m
  have hbl := h.length
  unfold update
  simp only [index_eq h]
  rw [if_pos (by omega)]
  have hmc : memcpy ctx.buffer (m.length % 64) (s.take (64 - m.length % 64)) =
      .ok ((tail m ++ s.take (64 - m.length % 64)).map some) := by
    unfold memcpy
    rw [List.length_take, if_pos (by omega), h.buffer, List.drop_eq_nil_of_le (by omega)]
    simp
  have hlen : (tail m ++ s.take (64 - m.length % 64)).length = 64 := by
    rw [List.length_append, List.length_take, ht]; omega
  rw [hmc, Outcome.bind_ok, blockOf_some hlen, Outcome.bind_ok,
    updLoop_ub s _ (64 - m.length % 64) (by omega) (m.length % 64) (by omega) (by omega) hl (by omega)]
  rfl

/-! ### The end -/

theorem byte_k (w : W) (k : Nat) (_hk : k < 4) : BitVec.setWidth 8 ((w >>> (8 * k)) &&& 0xff#32) = BitVec.ofNat 8 (w.toNat / 256 ^ k) := by
  apply BitVec.eq_of_toNat_eq
  rw [BitVec.toNat_setWidth, BitVec.toNat_and, BitVec.toNat_ushiftRight, show (0xff#32).toNat = 2 ^ 8 - 1 from rfl,
    Nat.and_two_pow_sub_one_eq_mod, Nat.shiftRight_eq_div_pow, BitVec.toNat_ofNat, Nat.mod_mod, Nat.pow_mul]

theorem encode_eq (l : List W) : encode l = l.flatMap fun w => (List.range 4).map fun k => BitVec.ofNat 8 (w.toNat / 256 ^ k) := by
  unfold encode
  congr 1
  funext w
  have h0 := byte_k w 0 (by omega)
  have h1 := byte_k w 1 (by omega)
  have h2 := byte_k w 2 (by omega)
  have h3 := byte_k w 3 (by omega)
  simp only [Nat.mul_zero, BitVec.ushiftRight_zero] at h0
  rw [h0, h1, h2, h3]
  rfl

theorem bits_eq {c0 c1 : W} {n : Nat} (h : c1.toNat * 2 ^ 32 + c0.toNat = n % 2 ^ 64) :
    encode [c0, c1] = (List.range 8).map fun k => BitVec.ofNat 8 (n / 256 ^ k) := by
  rw [encode_eq]
  have h0 := c0.isLt
  have h1 := c1.isLt
  have lo : c0.toNat = n % 2 ^ 32 := by omega
  have hi : c1.toNat = n / 2 ^ 32 % 2 ^ 32 := by omega
  have key : ∀ a b : Nat, a % 256 = b % 256 → BitVec.ofNat 8 a = BitVec.ofNat 8 b := by
    intro a b h
    apply BitVec.eq_of_toNat_eq
    simpa using h
  simp only [List.flatMap_cons, List.flatMap_nil, List.append_nil, show List.range 4 = [0, 1, 2, 3] from rfl,
    show List.range 8 = [0, 1, 2, 3, 4, 5, 6, 7] from rfl, List.map_cons, List.map_nil, List.cons_append, List.nil_append]
  rw [lo, hi]
  simp only [List.cons.injEq, and_true]
  refine ⟨?_, ?_, ?_, ?_, ?_, ?_, ?_, ?_⟩ <;> apply key <;> omega

theorem padding_take (m : List Byte) : padding.take (if m.length % 64 < 56 then 56 - m.length % 64 else 120 - m.length % 64) =
    [0x80#8] ++ List.replicate ((55 + 64 - m.length % 64) % 64) 0#8 := by
  have : (if m.length % 64 < 56 then 56 - m.length % 64 else 120 - m.length % 64) = (55 + 64 - m.length % 64) % 64 + 1 := by
    split <;> omega
  rw [this, padding, List.take_succ_cons, List.take_replicate, Nat.min_eq_left (by omega)]
  rfl

theorem final_rep {ctx : Ctx} {m : List Byte} (h : Rep ctx m) : final ctx = .ok (Rfc.digest m) := by
  unfold final
  simp only [index_eq h]
  have hpl : (if m.length % 64 < 56 then 56 - m.length % 64 else 120 - m.length % 64) ≤ 64 := by split <;> omega
  rw [if_neg (by simp only [padding, List.length_cons, List.length_replicate]; omega)]
  obtain ⟨c1, h1, r1⟩ := update_rep (s := padding.take (if m.length % 64 < 56 then 56 - m.length % 64 else 120 - m.length % 64)) h
    (by rw [List.length_take]; omega)
  rw [h1, Outcome.bind_ok]
  obtain ⟨c2, h2, r2⟩ := update_rep (s := encode [ctx.count0, ctx.count1]) r1 (by simp [encode]; omega)
  rw [h2, Outcome.bind_ok, encode_eq, Outcome.pure_eq]
  have hs := r2.state
  rw [padding_take, bits_eq h.count] at hs
  congr 1
  have hp : Rfc.pad m = m ++ ([0x80#8] ++ List.replicate ((55 + 64 - m.length % 64) % 64) 0#8) ++
      (List.range 8).map (fun k => BitVec.ofNat 8 (8 * m.length / 256 ^ k)) := by
    rw [Rfc.pad]; simp only [List.append_assoc]
  rw [Rfc.digest]
  rw [hp, ← hs]
  rfl

end Verif.Md5
