import Verif.Base64.Lemmas

namespace Verif.Base64

open Verif

theorem value_valid : ∀ c : Byte, isBase64 c = true → Rfc.value c = some (indexOf c).val := by decide +kernel

theorem value_invalid : ∀ c : Byte, isBase64 c = false → Rfc.value c = none := by decide +kernel

theorem num8 (a b c d e f g h : Bool) : Rfc.number [a, b, c, d, e, f, g, h] =
    128 * a.toNat + 64 * b.toNat + 32 * c.toNat + 16 * d.toNat + 8 * e.toNat + 4 * f.toNat + 2 * g.toNat + h.toNat := by
  simp only [Rfc.number, List.foldl]
  omega

/-- The bits of a list of 6-bit numbers. -/
def bits6 (l : List Nat) : List Bool := l.flatMap fun n => [5, 4, 3, 2, 1, 0].map fun i => n.testBit i

theorem bits6_cons (a : Nat) (l : List Nat) : bits6 (a :: l) =
    [a.testBit 5, a.testBit 4, a.testBit 3, a.testBit 2, a.testBit 1, a.testBit 0] ++ bits6 l := by
  simp [bits6]

theorem toNat_bit' (b i : Nat) : (b.testBit i).toNat = b / 2 ^ i % 2 := Nat.toNat_testBit _ _

theorem sum8 {p q : Nat} (hp : p < 64) (hq : q < 64) : 128 * (p / 32 % 2) + 64 * (p / 16 % 2) + 32 * (p / 8 % 2) +
    16 * (p / 4 % 2) + 8 * (p / 2 % 2) + 4 * (p % 2) + 2 * (q / 32 % 2) + q / 16 % 2 = (4 * p + q / 16 % 4) % 256 := by omega

theorem sum9 {q r : Nat} (hq : q < 64) (hr : r < 64) : 128 * (q / 8 % 2) + 64 * (q / 4 % 2) + 32 * (q / 2 % 2) +
    16 * (q % 2) + 8 * (r / 32 % 2) + 4 * (r / 16 % 2) + 2 * (r / 8 % 2) + r / 4 % 2 =
      (16 * (q % 16) + r / 4 % 16) % 256 := by omega

theorem sum10 {r x : Nat} (hr : r < 64) (hx : x < 64) : 128 * (r / 2 % 2) + 64 * (r % 2) + 32 * (x / 32 % 2) +
    16 * (x / 16 % 2) + 8 * (x / 8 % 2) + 4 * (x / 4 % 2) + 2 * (x / 2 % 2) + x % 2 = (64 * (r % 4) + x) % 256 := by omega

theorem join4_val (p q r x : Byte) : (join4 p q r x).map Fin.val =
    [(4 * p.val + q.val / 16 % 4) % 256, (16 * (q.val % 16) + r.val / 4 % 16) % 256, (64 * (r.val % 4) + x.val) % 256] := by
  simp only [join4, shl_2, and_30, and_0f', and_3c, and_03']
  simp only [byte, List.map_cons, List.map_nil]

theorem dec_valid (v rest ret : List Byte) (hv : ∀ x ∈ v, isBase64 x = true)
    (hr : rest = [] ∨ ∃ y ys, rest = y :: ys ∧ isBase64 y = false) {len : Int} (hl : (v.length : Int) ≤ len) :
    ∃ o : List Byte, (do let r ← decLoop len (v ++ rest) [] ret; return decTail r.1 r.2) = Outcome.ok (ret ++ o) ∧
      o.map Fin.val = Rfc.bytes (bits6 (v.map fun c => (indexOf c).val)) := by
  have stop : ∀ {len : Int} (buf ret : List Byte), 0 ≤ len → decLoop len rest buf ret = .ok (buf, ret) := by
    intro len buf ret h
    rcases hr with rfl | ⟨y, ys, rfl, hy⟩
    · exact decLoop_end h _ _
    · exact decLoop_stop h hy _ _ _
  match v with
  | [] =>
    refine ⟨[], ?_, rfl⟩
    rw [List.nil_append, stop _ _ (by simpa using hl)]
    simp [decTail]
  | [p] =>
    refine ⟨[], ?_, ?_⟩
    · simp only [List.length_cons, List.length_nil] at hl
      rw [List.cons_append, decLoop_step (by omega) (hv p (by simp)) (by simp), List.nil_append, stop _ _ (by omega)]
      simp [decTail]
    · simp [bits6, Rfc.bytes]
  | [p, q] =>
    have hp := (valid_index p (hv p (by simp))).1
    have hq := (valid_index q (hv q (by simp))).1
    refine ⟨(join4 (indexOf p) (indexOf q) (indexOf 0) (indexOf 0)).take 1, ?_, ?_⟩
    · simp only [List.length_cons, List.length_nil] at hl
      rw [List.cons_append, decLoop_step (by omega) (hv p (by simp)) (by simp), List.cons_append,
        decLoop_step (by omega) (hv q (by simp)) (by simp), List.nil_append, stop _ _ (by omega)]
      simp [decTail]
    · rw [List.map_take, join4_val]
      simp only [List.map_cons, List.map_nil, bits6_cons, show bits6 [] = [] from rfl, List.cons_append, List.nil_append,
        List.append_nil, Rfc.bytes, num8, toNat_bit', Nat.reducePow, Nat.div_one, sum8 hp hq, List.take_succ_cons, List.take_zero]
  | [p, q, r] =>
    have hp := (valid_index p (hv p (by simp))).1
    have hq := (valid_index q (hv q (by simp))).1
    have hr := (valid_index r (hv r (by simp))).1
    refine ⟨(join4 (indexOf p) (indexOf q) (indexOf r) (indexOf 0)).take 2, ?_, ?_⟩
    · simp only [List.length_cons, List.length_nil] at hl
      rw [List.cons_append, decLoop_step (by omega) (hv p (by simp)) (by simp), List.cons_append,
        decLoop_step (by omega) (hv q (by simp)) (by simp), List.cons_append, decLoop_step (by omega) (hv r (by simp)) (by simp),
        List.nil_append, stop _ _ (by omega)]
      simp [decTail]
    · rw [List.map_take, join4_val]
      simp only [List.map_cons, List.map_nil, bits6_cons, show bits6 [] = [] from rfl, List.cons_append, List.nil_append,
        List.append_nil, Rfc.bytes, num8, toNat_bit', Nat.reducePow, Nat.div_one, sum8 hp hq, sum9 hq hr, List.take_succ_cons,
        List.take_zero]
  | p :: q :: r :: x :: v =>
    have hp := (valid_index p (hv p (by simp))).1
    have hq := (valid_index q (hv q (by simp))).1
    have hr' := (valid_index r (hv r (by simp))).1
    have hx := (valid_index x (hv x (by simp))).1
    simp only [List.length_cons] at hl
    obtain ⟨o, h1, h2⟩ := dec_valid v rest (ret ++ join4 (indexOf p) (indexOf q) (indexOf r) (indexOf x))
      (fun y hy => hv y (by simp [hy])) hr (len := len - 4) (by omega)
    refine ⟨join4 (indexOf p) (indexOf q) (indexOf r) (indexOf x) ++ o, ?_, ?_⟩
    · simp only [List.cons_append]
      rw [decLoop_four (by omega) (hv p (by simp)) (hv q (by simp)) (hv r (by simp)) (hv x (by simp)), h1, List.append_assoc]
    · rw [List.map_append, h2, join4_val]
      simp only [List.map_cons, bits6_cons, List.cons_append, List.nil_append,
        Rfc.bytes, num8, toNat_bit', Nat.reducePow, Nat.div_one, sum8 hp hq, sum9 hq hr', sum10 hr' hx]

theorem values_eq (t : List Byte) : ∃ v rest, t = v ++ rest ∧ (∀ x ∈ v, isBase64 x = true) ∧
    (rest = [] ∨ ∃ y ys, rest = y :: ys ∧ isBase64 y = false) ∧ Rfc.values t = v.map fun c => (indexOf c).val := by
  induction t with
  | nil => exact ⟨[], [], rfl, by simp, .inl rfl, rfl⟩
  | cons c t ih =>
    by_cases hc : isBase64 c = true
    · obtain ⟨v, rest, rfl, h1, h2, h3⟩ := ih
      refine ⟨c :: v, rest, rfl, ?_, h2, ?_⟩
      · intro x hx
        rcases List.mem_cons.1 hx with rfl | hx
        · exact hc
        · exact h1 x hx
      · simp [Rfc.values, value_valid c hc, h3]
    · rw [Bool.not_eq_true] at hc
      exact ⟨[], c :: t, rfl, by simp, .inr ⟨c, t, rfl, hc⟩, by simp [Rfc.values, value_invalid c hc]⟩

end Verif.Base64
