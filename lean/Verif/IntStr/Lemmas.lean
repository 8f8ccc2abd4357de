import Verif.IntStr.Model
import Verif.IntStr.Spec

namespace Verif.IntStr

open Verif

theorem natText_small {n : Nat} (h : n < 10) : natText n = [n.digitChar] := Nat.toDigits_of_lt_base h

theorem natText_step {n : Nat} (h : 10 ≤ n) : natText n = natText (n / 10) ++ [(n % 10).digitChar] :=
  Nat.toDigits_of_base_le (by omega) h

theorem natText_two {n : Nat} (h : 10 ≤ n) (h' : n < 100) :
    natText n = [(n / 10).digitChar, (n % 10).digitChar] := by
  rw [natText_step h, natText_small (by omega)]; rfl

theorem natText_hundred {n : Nat} (h : 100 ≤ n) :
    natText n = natText (n / 100) ++ [(n % 100 / 10).digitChar, (n % 100 % 10).digitChar] := by
  rw [natText_step (by omega), natText_step (by omega : 10 ≤ n / 10), Nat.div_div_eq_div_mul]
  have e1 : n / 10 % 10 = n % 100 / 10 := by omega
  have e2 : n % 10 = n % 100 % 10 := by omega
  rw [e1, e2]; simp

theorem digits_table : ∀ k : Fin 100,
    digits[2 * k.val]? = some (k.val / 10).digitChar ∧ digits[2 * k.val + 1]? = some (k.val % 10).digitChar := by
  decide +kernel

theorem digitAt_even {k : Nat} (h : k < 100) : digitAt (2 * (k : Int)) = .ok (k / 10).digitChar := by
  have := (digits_table ⟨k, h⟩).1
  have e : (2 * (k : Int)).toNat = 2 * k := by omega
  have e2 : ¬ (2 * (k : Int) < 0) := by omega
  simp only at this
  rw [digitAt, if_neg e2, e, this]

theorem digitAt_odd {k : Nat} (h : k < 100) : digitAt (2 * (k : Int) + 1) = .ok (k % 10).digitChar := by
  have := (digits_table ⟨k, h⟩).2
  have e : (2 * (k : Int) + 1).toNat = 2 * k + 1 := by omega
  have e2 : ¬ (2 * (k : Int) + 1 < 0) := by omega
  simp only at this
  rw [digitAt, if_neg e2, e, this]

/-- Copying two digits just below the part of the buffer already written. -/
theorem memcpy2_ok {p : List Char} {a b : Char} {suf : List Char} {k : Nat} (h : k < 100) (it : Int)
    (hit : it = p.length) :
    memcpy2 (p ++ a :: b :: suf) it (2 * (k : Int))
      = .ok (p ++ (k / 10).digitChar :: (k % 10).digitChar :: suf) := by
  subst hit
  have h1 : ¬ ((p.length : Int) < 0 ∨ ((p ++ a :: b :: suf).length : Int) ≤ p.length) := by simp; omega
  have h2 : ¬ ((p.length : Int) + 1 < 0 ∨ ((p ++ (k / 10).digitChar :: b :: suf).length : Int) ≤ p.length + 1) := by
    simp; omega
  have e : ((p.length : Int) + 1).toNat = p.length + 1 := by omega
  simp only [memcpy2, digitAt_even h, digitAt_odd h, Outcome.bind_ok, store, if_neg h1, Int.toNat_natCast,
    List.set_append, Nat.lt_irrefl, if_false, Nat.sub_self, List.set_cons_zero, if_neg h2, e]
  have e3 : ¬ (p.length + 1 < p.length) := by omega
  simp [e3]

theorem memcpy2_ub {buf : List Char} {k : Nat} (h : k < 100) (it : Int) (hit : it < 0) :
    memcpy2 buf it (2 * (k : Int)) = .ub := by
  simp [memcpy2, digitAt_even h, digitAt_odd h, store, hit]

def sgn (neg : Bool) (n : Nat) : Int := if neg then -(n : Int) else n

theorem sgn_tdiv (neg : Bool) (n : Nat) : (sgn neg n).tdiv 100 = sgn neg (n / 100) := by
  cases neg
  · show (n : Int).tdiv 100 = ((n / 100 : Nat) : Int)
    rw [Int.tdiv_eq_ediv_of_nonneg (by omega)]; rfl
  · show (-(n : Int)).tdiv 100 = -((n / 100 : Nat) : Int)
    rw [Int.neg_tdiv, Int.tdiv_eq_ediv_of_nonneg (by omega)]; rfl

theorem sgn_eq_zero (neg : Bool) (n : Nat) : sgn neg n = 0 ↔ n = 0 := by
  cases neg <;> simp [sgn]

theorem scaled_sgn (neg : Bool) (n : Nat) : scaled neg (sgn neg n) = 2 * (n : Int) := by
  cases neg <;> simp [sgn, scaled] <;> omega

theorem scaled_rem (neg : Bool) (n : Nat) :
    scaled neg (sgn neg n - sgn neg (n / 100) * 100) = 2 * ((n % 100 : Nat) : Int) := by
  cases neg <;> simp [sgn, scaled] <;> omega

/-- Splitting the last two characters off. -/
theorem exists_two {p : List Char} (h : 2 ≤ p.length) : ∃ q a b, p = q ++ [a, b] := by
  refine ⟨p.take (p.length - 2), p[p.length - 2], p[p.length - 1], ?_⟩
  refine (List.take_append_drop (p.length - 2) p).symm.trans ?_
  congr 1
  rw [List.drop_eq_getElem_cons (by omega), List.drop_eq_getElem_cons (by omega)]
  have : p.length - 2 + 1 = p.length - 1 := by omega
  simp only [this]
  rw [List.drop_eq_nil_of_le (by omega)]

/-- What the loop does: it runs out of the buffer, or it leaves at most two digits to be written. -/
theorem loop_spec (neg : Bool) : ∀ (n : Nat) (pre suf : List Char),
    (loop neg (pre ++ suf) (pre.length - 2) (sgn neg n) = .ub ∧ pre.length + 1 < (natText n).length) ∨
    ∃ (pre' d : List Char) (r : Nat),
      loop neg (pre ++ suf) (pre.length - 2) (sgn neg n)
        = .ok (pre' ++ d ++ suf, (pre'.length : Int) - 2, sgn neg r)
      ∧ r < 100 ∧ (0 < r ∨ n = r) ∧ natText n = natText r ++ d ∧ pre'.length + d.length = pre.length
      ∧ d.length % 2 = 0 := by
  intro n
  induction n using Nat.strongRecOn with
  | ind n ih =>
    intro pre suf
    rw [loop]
    simp only [sgn_tdiv, sgn_eq_zero]
    by_cases hz : n / 100 = 0
    · right
      rw [dif_pos hz]
      exact ⟨pre, [], n, by simp, by omega, Or.inr rfl, by simp, by simp, rfl⟩
    · rw [dif_neg hz, scaled_rem]
      have hn : 100 ≤ n := by omega
      have hlen := congrArg List.length (natText_hundred hn)
      have hpos : 0 < (natText (n / 100)).length := Nat.length_toDigits_pos
      simp only [List.length_append, List.length_cons, List.length_nil] at hlen
      by_cases hp : 2 ≤ pre.length
      · obtain ⟨q, a, b, rfl⟩ := exists_two hp
        have hm := memcpy2_ok (p := q) (a := a) (b := b) (suf := suf) (k := n % 100) (by omega)
          (((q ++ [a, b]).length : Int) - 2) (by simp)
        rw [List.append_assoc, List.cons_append, List.cons_append, List.nil_append, hm, Outcome.bind_ok]
        have e : (((q ++ [a, b]).length : Int) - 2 - 2) = (q.length : Int) - 2 := by simp
        rw [e]
        rcases ih (n / 100) (by omega) q ((n % 100 / 10).digitChar :: (n % 100 % 10).digitChar :: suf) with
          ⟨h1, h2⟩ | ⟨pre', d, r, h1, h2, h3, h4, h5, h6⟩
        · left; exact ⟨h1, by simp; omega⟩
        · right
          refine ⟨pre', d ++ [(n % 100 / 10).digitChar, (n % 100 % 10).digitChar], r, ?_, h2, ?_, ?_, ?_, ?_⟩
          · rw [h1]; simp
          · left; omega
          · rw [natText_hundred hn, h4]; simp
          · simp; omega
          · simp; omega
      · left
        rw [memcpy2_ub (by omega) _ (by omega)]
        exact ⟨rfl, by omega⟩

theorem natText_lt_hundred_length {r : Nat} (h : r < 100) :
    (natText r).length = if r < 10 then 1 else 2 := by
  split
  · rename_i h1; rw [natText_small h1]; rfl
  · rw [natText_two (by omega) h]; rfl

/-- Non-negative values: the decimal digits, if the digit count rounded up to even fits; UB otherwise. -/
theorem convNonneg_eq (buf : List Char) (n : Nat) :
    convNonneg buf n
      = if (natText n).length + (natText n).length % 2 ≤ buf.length then .ok (natText n) else .ub := by
  have hs : (n : Int) = sgn false n := rfl
  have hpos : 0 < (natText n).length := Nat.length_toDigits_pos
  rw [convNonneg, hs]
  rcases loop_spec false n buf [] with ⟨h1, h2⟩ | ⟨pre', d, r, h1, h2, h3, h4, h5, h6⟩
  · rw [List.append_nil] at h1
    rw [h1, Outcome.bind_ub, if_neg (by omega)]
  · rw [List.append_nil] at h1
    rw [h1, Outcome.bind_ok]
    have hlen := congrArg List.length h4
    simp only [List.length_append] at hlen
    rw [natText_lt_hundred_length h2] at hlen
    simp only [scaled_sgn]
    by_cases hp : 2 ≤ pre'.length
    · obtain ⟨q, a, b, rfl⟩ := exists_two hp
      have hm := memcpy2_ok (p := q) (a := a) (b := b) (suf := d) (k := r) h2
          (((q ++ [a, b]).length : Int) - 2) (by simp)
      simp only [List.append_nil]
      rw [List.append_assoc, List.cons_append, List.cons_append, List.nil_append, hm, Outcome.bind_ok]
      have hlq : (q ++ [a, b]).length = q.length + 2 := by simp
      rw [if_pos (show (natText n).length + (natText n).length % 2 ≤ buf.length by split at hlen <;> omega)]
      by_cases hr : r < 10
      · have : sgn false r < 10 := by show (r : Int) < 10; omega
        have e : (((q ++ [a, b]).length : Int) - 2 + 1).toNat = q.length + 1 := by omega
        have e2 : ¬ (((q ++ [a, b]).length : Int) - 2 + 1 < 0) := by simp; omega
        rw [if_pos this, strFrom, if_neg e2, e, h4, natText_small hr]
        have : r % 10 = r := by omega
        simp [this, List.drop_append]
      · have : ¬ sgn false r < 10 := by show ¬ (r : Int) < 10; omega
        have e : (((q ++ [a, b]).length : Int) - 2).toNat = q.length := by simp
        have e2 : ¬ (((q ++ [a, b]).length : Int) - 2 < 0) := by simp
        rw [if_neg this, strFrom, if_neg e2, e, h4, natText_two (by omega) h2]
        simp
    · rw [memcpy2_ub h2 _ (by omega), Outcome.bind_ub, if_neg (by split at hlen <;> omega)]

/-- Negative values: sign and digits, if they fit; UB otherwise. -/
theorem convNeg_eq (buf : List Char) (n : Nat) (hn : 0 < n) :
    convNeg buf (-(n : Int))
      = if (natText n).length + 1 ≤ buf.length then .ok ('-' :: natText n) else .ub := by
  have hs : -(n : Int) = sgn true n := rfl
  have hpos : 0 < (natText n).length := Nat.length_toDigits_pos
  rw [convNeg, hs]
  rcases loop_spec true n buf [] with ⟨h1, h2⟩ | ⟨pre', d, r, h1, h2, h3, h4, h5, h6⟩
  · rw [List.append_nil] at h1
    rw [h1, Outcome.bind_ub, if_neg (by omega)]
  · rw [List.append_nil] at h1
    rw [h1, Outcome.bind_ok]
    have hlen := congrArg List.length h4
    simp only [List.length_append] at hlen
    rw [natText_lt_hundred_length h2] at hlen
    simp only [scaled_sgn]
    have hr0 : 0 < r := by omega
    by_cases hp : 2 ≤ pre'.length
    · obtain ⟨q, a, b, rfl⟩ := exists_two hp
      have hm := memcpy2_ok (p := q) (a := a) (b := b) (suf := d) (k := r) h2
          (((q ++ [a, b]).length : Int) - 2) (by simp)
      simp only [List.append_nil]
      rw [List.append_assoc, List.cons_append, List.cons_append, List.nil_append, hm, Outcome.bind_ok]
      have hlq : (q ++ [a, b]).length = q.length + 2 := by simp
      have el : ((q ++ [a, b]).length : Int) - 2 = q.length := by simp
      rw [el]
      by_cases hr : r < 10
      · have : ¬ sgn true r ≤ -10 := by show ¬ -(r : Int) ≤ -10; omega
        rw [if_neg this]
        have e3 : ¬ ((q.length : Int) < 0 ∨ ((q ++ (r / 10).digitChar :: (r % 10).digitChar :: d).length : Int) ≤ q.length) := by
          simp; omega
        have e2 : ¬ ((q.length : Int) < 0) := by omega
        rw [store, if_neg e3, Outcome.bind_ok, strFrom, if_neg e2, if_pos (by rw [if_pos hr] at hlen; omega), h4, natText_small hr]
        have : r % 10 = r := by omega
        simp [this, List.set_append]
      · have : sgn true r ≤ -10 := by show -(r : Int) ≤ -10; omega
        rw [if_pos this]
        rw [if_neg hr] at hlen
        rcases List.eq_nil_or_concat q with rfl | ⟨q', c, rfl⟩
        · simp only [List.length_nil] at hlq ⊢
          rw [if_neg (by simp at hlq h5; omega)]
          simp [store]
        · have hq : (q'.concat c).length = q'.length + 1 := by simp
          have e0 : (((q'.concat c).length : Int) - 1) = q'.length := by rw [hq]; omega
          have e3 : ¬ ((q'.length : Int) < 0 ∨ ((q'.concat c ++ (r / 10).digitChar :: (r % 10).digitChar :: d).length : Int) ≤ q'.length) := by
            simp; omega
          have e2 : ¬ ((q'.length : Int) < 0) := by omega
          rw [e0, store, if_neg e3, Outcome.bind_ok, strFrom, if_neg e2, if_pos (by omega), h4, natText_two (by omega) h2]
          simp [List.set_append]
    · rw [memcpy2_ub h2 _ (by omega), Outcome.bind_ub, if_neg (by split at hlen <;> omega)]

end Verif.IntStr
