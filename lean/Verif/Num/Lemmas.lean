import Verif.Num.Spec

/-!
# The modelled C++ arithmetic is ordinary arithmetic as long as everything is representable
-/

namespace Verif.Num

open Verif

theorem fits_iff (t : ITy) (x : Int) : fits t x = true ↔ Between t x := by
  have h : fits t x = true ↔ (t.min ≤ x ∧ x < t.min + t.count) := by simp [fits]
  rw [h]
  cases t <;> simp only [Between, ITy.min, ITy.count] <;> omega

theorem wrap_eq (t : ITy) (x : Int) (h : Between t x) : wrap t x = x := by
  cases t <;> simp only [Between] at h <;> simp only [wrap, ITy.min, ITy.count] <;> omega

theorem wrap_between (t : ITy) (x : Int) : Between t (wrap t x) := by
  cases t <;> simp only [wrap, ITy.min, ITy.count, Between] <;> omega

theorem conv_eq (t : ITy) (x : Val) (h : Between t x.v) : conv t x = ⟨t, x.v⟩ := by
  simp [conv, wrap_eq t x.v h]

theorem result_eq (t : ITy) (x : Int) (h : Between t x) : result t x = .ok ⟨t, x⟩ := by
  unfold result
  split
  · rw [(fits_iff t x).2 h]; simp
  · rw [wrap_eq t x h]

theorem result_ub (t : ITy) (x : Int) (hs : t.signed = true) (h : ¬ Between t x) : result t x = .ub := by
  unfold result
  rw [hs, if_pos rfl, if_neg]
  intro hf; exact h ((fits_iff t x).1 hf)

section
variable {a b : Val} {t : ITy} (ht : uac a.ty b.ty = t) (ha : Between t a.v) (hb : Between t b.v)
include ht ha hb

theorem add_eq (h : Between t (a.v + b.v)) : add a b = .ok ⟨t, a.v + b.v⟩ := by
  simp only [add, ht, wrap_eq t _ ha, wrap_eq t _ hb]; exact result_eq t _ h

theorem sub_eq (h : Between t (a.v - b.v)) : sub a b = .ok ⟨t, a.v - b.v⟩ := by
  simp only [sub, ht, wrap_eq t _ ha, wrap_eq t _ hb]; exact result_eq t _ h

theorem mul_eq (h : Between t (a.v * b.v)) : mul a b = .ok ⟨t, a.v * b.v⟩ := by
  simp only [mul, ht, wrap_eq t _ ha, wrap_eq t _ hb]; exact result_eq t _ h

theorem div_eq (h0 : b.v ≠ 0) (h : Between t (a.v.tdiv b.v)) : div a b = .ok ⟨t, a.v.tdiv b.v⟩ := by
  simp only [div, ht, wrap_eq t _ ha, wrap_eq t _ hb, if_neg h0]; exact result_eq t _ h

theorem mod_eq (h0 : b.v ≠ 0) (h : Between t (a.v.tdiv b.v)) (h' : Between t (a.v.tmod b.v)) :
    mod a b = .ok ⟨t, a.v.tmod b.v⟩ := by
  simp only [mod, ht, wrap_eq t _ ha, wrap_eq t _ hb, if_neg h0]
  rw [(fits_iff t _).2 h]
  simp only [Bool.not_true, Bool.and_false, Bool.false_eq_true, if_false]
  exact result_eq t _ h'

theorem lt_eq : lt a b = decide (a.v < b.v) := by
  simp only [lt, ht, wrap_eq t _ ha, wrap_eq t _ hb]

theorem eq_eq : eq a b = (a.v == b.v) := by
  simp only [eq, ht, wrap_eq t _ ha, wrap_eq t _ hb]

end

theorem uac_comm (a b : ITy) : uac a b = uac b a := by cases a <;> cases b <;> rfl

theorem le_eq {a b : Val} {t : ITy} (ht : uac a.ty b.ty = t) (ha : Between t a.v) (hb : Between t b.v) :
    le a b = decide (a.v ≤ b.v) := by
  unfold le
  rw [lt_eq (by rw [uac_comm]; exact ht) hb ha]
  by_cases h : b.v < a.v
  · simp [h]
  · simp [h]; omega

/-- A quotient by a positive number and a remainder are representable when the dividend is. -/
theorem between_tdiv (t : ITy) (x y : Int) (hx : Between t x) (hy : 0 < y) : Between t (x.tdiv y) := by
  have h : (0 ≤ x → 0 ≤ x.tdiv y ∧ x.tdiv y ≤ x) ∧ (x < 0 → x ≤ x.tdiv y ∧ x.tdiv y ≤ 0) := by
    constructor
    · intro h0
      rw [Int.tdiv_eq_ediv_of_nonneg h0]
      exact ⟨Int.ediv_nonneg h0 (by omega), Int.ediv_le_self _ h0⟩
    · intro h0
      have h1 : x.tdiv y = -((-x) / y) := by
        rw [← Int.tdiv_eq_ediv_of_nonneg (by omega), Int.neg_tdiv, Int.neg_neg]
      have h2 : 0 ≤ (-x) / y := Int.ediv_nonneg (by omega) (by omega)
      have h3 : (-x) / y ≤ -x := Int.ediv_le_self _ (by omega)
      omega
  cases t <;> simp only [Between] at hx ⊢ <;> omega

theorem tmod_bounds (x y : Int) (hy : 0 < y) :
    (0 ≤ x → x.tmod y = x % y) ∧ -y < x.tmod y ∧ x.tmod y < y ∧ (x < 0 → x ≤ x.tmod y ∧ x.tmod y ≤ 0) := by
  refine ⟨fun h => Int.tmod_eq_emod_of_nonneg h, ?_, Int.tmod_lt_of_pos _ hy, ?_⟩
  · by_cases h : 0 ≤ x
    · rw [Int.tmod_eq_emod_of_nonneg h]
      have := Int.emod_nonneg x (b := y) (by omega); omega
    · have h1 : x.tmod y = -((-x) % y) := by
        rw [← Int.tmod_eq_emod_of_nonneg (by omega), Int.neg_tmod, Int.neg_neg]
      have := Int.emod_lt_of_pos (-x) hy; omega
  · intro h
    have h1 : x.tmod y = -((-x) % y) := by
      rw [← Int.tmod_eq_emod_of_nonneg (by omega), Int.neg_tmod, Int.neg_neg]
    have h2 := Int.emod_nonneg (-x) (b := y) (by omega)
    have h3 : (-x) % y ≤ -x := by
      have h4 := Int.mul_ediv_add_emod (-x) y
      have h5 : 0 ≤ y * ((-x) / y) := Int.mul_nonneg (by omega) (Int.ediv_nonneg (by omega) (by omega))
      omega
    omega

theorem between_tmod (t : ITy) (x y : Int) (hx : Between t x) (hy : 0 < y) : Between t (x.tmod y) := by
  obtain ⟨h1, h2, h3, h4⟩ := tmod_bounds x y hy
  by_cases h : 0 ≤ x
  · have h5 := Int.emod_nonneg x (b := y) (by omega)
    have h6 : x % y ≤ x := by
      have h4 := Int.mul_ediv_add_emod x y
      have h5 : 0 ≤ y * (x / y) := Int.mul_nonneg (by omega) (Int.ediv_nonneg (by omega) (by omega))
      omega
    rw [h1 h]
    cases t <;> simp only [Between] at hx ⊢ <;> omega
  · have := h4 (by omega)
    cases t <;> simp only [Between] at hx ⊢ <;> omega

/-- Numbers between two representable numbers are representable. -/
theorem between_of (t : ITy) (lo x hi : Int) (hl : Between t lo) (hh : Between t hi) (h1 : lo ≤ x) (h2 : x ≤ hi) :
    Between t x := by
  cases t <;> simp only [Between] at hl hh ⊢ <;> omega

theorem between_zero (t : ITy) : Between t 0 := by cases t <;> simp [Between]

/-- Non-negative values of a type are representable in any type it is converted to. -/
theorem between_uac_left (a b : ITy) (x : Int) (h : Between a x) (h0 : 0 ≤ x) : Between (uac a b) x := by
  cases a <;> cases b <;> simp only [Between, uac, promote] at h ⊢ <;> omega

theorem between_uac_right (a b : ITy) (x : Int) (h : Between b x) (h0 : 0 ≤ x) : Between (uac a b) x := by
  rw [uac_comm]; exact between_uac_left b a x h h0

theorem uac_idem_left (a b : ITy) : uac (uac a b) b = uac a b := by cases a <;> cases b <;> rfl
theorem uac_idem_left' (a b : ITy) : uac (uac a b) a = uac a b := by cases a <;> cases b <;> rfl
theorem uac_idem_right (a b : ITy) : uac a (uac a b) = uac a b := by cases a <;> cases b <;> rfl
theorem uac_idem (a b : ITy) : uac (uac a b) (uac a b) = uac a b := by cases a <;> cases b <;> rfl

end Verif.Num
