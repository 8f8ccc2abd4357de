import Verif.IDist.Model
import Verif.IDist.Spec
import Verif.Num.Theorems
import Verif.Angle.Nearest
import Mathlib.Data.Nat.Sqrt
import Mathlib.Tactic.Linarith
import Mathlib.Tactic.Ring
import Mathlib.Tactic.NormNum

/-!
# C136 — distances between integer points

`Between t x`: the number `x` is a value of type `t`; `IsResidue r x lo n`: `r` is `x` up to a multiple
of `n`, in the window of `n` numbers from `lo` on (both from `Verif.Num.Spec`).
-/

namespace Verif.IDist

open Verif Verif.Num

theorem commonType4_self (t : ITy) : commonType4 t t t t = t := by simp [commonType4, commonType]

theorem sq_le_of_between {t : ITy} (hs : t = .i32 ∨ t = .i64) {d : Int} (h : Between t (d * d)) :
    Between t d := by
  have h1 : d ≤ d * d ∧ -d ≤ d * d := by
    constructor <;> nlinarith [sq_nonneg d, sq_nonneg (d - 1), sq_nonneg (d + 1)]
  rcases hs with rfl | rfl <;> simp only [Between] at h ⊢ <;> omega

theorem between_nonneg_le {t : ITy} {x y : Int} (h : Between t y) (h0 : 0 ≤ x) (hxy : x ≤ y) : Between t x :=
  between_of t 0 x y (between_zero t) h h0 hxy

theorem signed_of {t : ITy} (ht : t = .i32 ∨ t = .i64) : t.signed = true ∧ uac t t = t := by
  rcases ht with rfl | rfl <;> decide

/-! ### Signed types of at least 32 bits -/

/-- One square. -/
theorem square_signed {t : ITy} (ht : t = .i32 ∨ t = .i64) (a b : Int) (ha : Between t a) (hb : Between t b) :
    (do let p ← sub ⟨t, a⟩ ⟨t, b⟩
        let q ← sub ⟨t, a⟩ ⟨t, b⟩
        mul p q) = if Between t ((a - b) * (a - b)) then Outcome.ok ⟨t, (a - b) * (a - b)⟩ else .ub := by
  obtain ⟨hs, hw⟩ := signed_of ht
  by_cases hd : Between t (a - b)
  · rw [sub_eq (a := ⟨t, a⟩) (b := ⟨t, b⟩) hw ha hb hd]
    simp only [Outcome.bind_ok, mul, hw, wrap_eq t _ hd]
    by_cases hq : Between t ((a - b) * (a - b))
    · rw [if_pos hq, result_eq t _ hq]
    · rw [if_neg hq, result_ub t _ hs hq]
  · rw [if_neg (fun h => hd (sq_le_of_between ht h))]
    simp only [sub, hw, wrap_eq t _ ha, wrap_eq t _ hb, result_ub t _ hs hd, Outcome.bind_ub]

/-- **C136.** The squared distance between points with coordinates of type `int` or `long` is exact
if it is representable, and otherwise the call is undefined. -/
theorem C136_squared_signed (t : ITy) (ht : t = .i32 ∨ t = .i64) (x1 y1 x2 y2 : Int)
    (h1 : Between t x1) (h2 : Between t y1) (h3 : Between t x2) (h4 : Between t y2) :
    getDistSquaredEuclidean ⟨t, x1⟩ ⟨t, y1⟩ ⟨t, x2⟩ ⟨t, y2⟩ =
      if Between t ((x1 - x2) ^ 2 + (y1 - y2) ^ 2) then .ok ⟨t, (x1 - x2) ^ 2 + (y1 - y2) ^ 2⟩ else .ub := by
  obtain ⟨hs, hw⟩ := signed_of ht
  have e1 := square_signed ht x1 x2 h1 h3
  have e2 := square_signed ht y1 y2 h2 h4
  have p1 : 0 ≤ (x1 - x2) * (x1 - x2) := mul_self_nonneg _
  have p2 : 0 ≤ (y1 - y2) * (y1 - y2) := mul_self_nonneg _
  have hc := commonType4_self t
  have unf : getDistSquaredEuclidean ⟨t, x1⟩ ⟨t, y1⟩ ⟨t, x2⟩ ⟨t, y2⟩ =
      ((do let p ← sub ⟨t, x1⟩ ⟨t, x2⟩
           let q ← sub ⟨t, x1⟩ ⟨t, x2⟩
           mul p q) >>= fun p =>
        (do let p ← sub ⟨t, y1⟩ ⟨t, y2⟩
            let q ← sub ⟨t, y1⟩ ⟨t, y2⟩
            mul p q) >>= fun q =>
        add p q >>= fun s => Outcome.ok (conv (commonType4 t t t t) s)) := by
    unfold getDistSquaredEuclidean
    cases sub ⟨t, x1⟩ ⟨t, x2⟩ <;> simp
    rename_i p
    cases mul p p <;> simp
    cases sub ⟨t, y1⟩ ⟨t, y2⟩ <;> simp
  rw [unf, e1, e2, sq, sq, hc]
  generalize (x1 - x2) * (x1 - x2) = a at *
  generalize (y1 - y2) * (y1 - y2) = b at *
  by_cases ha : Between t a
  · by_cases hb : Between t b
    · rw [if_pos ha, if_pos hb]
      simp only [Outcome.bind_ok, add, hw, wrap_eq t _ ha, wrap_eq t _ hb]
      by_cases hab : Between t (a + b)
      · rw [if_pos hab, result_eq t _ hab]
        simp only [Outcome.bind_ok, conv, wrap_eq t _ hab]
      · rw [if_neg hab, result_ub t _ hs hab]
        rfl
    · rw [if_pos ha, if_neg hb, if_neg (fun h => hb (between_nonneg_le h p2 (by omega)))]
      rfl
  · rw [if_neg ha, Outcome.bind_ub, if_neg (fun h => ha (between_nonneg_le h p1 (by omega)))]

/-- The absolute value of a difference. -/
theorem abs_sub_signed {t : ITy} (ht : t = .i32 ∨ t = .i64) (a b : Int) (ha : Between t a) (hb : Between t b) :
    (sub ⟨t, a⟩ ⟨t, b⟩ >>= abs) = if Between t |a - b| then Outcome.ok ⟨t, |a - b|⟩ else .ub := by
  obtain ⟨hs, hw⟩ := signed_of ht
  have hab : (if a - b < 0 then -(a - b) else a - b) = |a - b| := by
    split
    · rw [abs_of_neg (by assumption)]
    · rw [abs_of_nonneg (by omega)]
  by_cases hd : Between t (a - b)
  · rw [sub_eq (a := ⟨t, a⟩) (b := ⟨t, b⟩) hw ha hb hd]
    simp only [Outcome.bind_ok, abs, hab]
    by_cases hq : Between t |a - b|
    · rw [if_pos hq, result_eq t _ hq]
    · rw [if_neg hq, result_ub t _ hs hq]
  · rw [if_neg]
    · simp only [sub, hw, wrap_eq t _ ha, wrap_eq t _ hb, result_ub t _ hs hd, Outcome.bind_ub]
    · intro h
      apply hd
      rcases ht with rfl | rfl <;> simp only [Between] at h ⊢ <;> rw [← hab] at h <;> split at h <;> omega

/-- **C136.** The Manhattan distance for `int` or `long`. -/
theorem C136_manhattan_signed (t : ITy) (ht : t = .i32 ∨ t = .i64) (x1 y1 x2 y2 : Int)
    (h1 : Between t x1) (h2 : Between t y1) (h3 : Between t x2) (h4 : Between t y2) :
    getDistManhattan ⟨t, x1⟩ ⟨t, y1⟩ ⟨t, x2⟩ ⟨t, y2⟩ =
      some (if Between t (|x1 - x2| + |y1 - y2|) then .ok ⟨t, |x1 - x2| + |y1 - y2|⟩ else .ub) := by
  obtain ⟨hs, hw⟩ := signed_of ht
  have e1 := abs_sub_signed ht x1 x2 h1 h3
  have e2 := abs_sub_signed ht y1 y2 h2 h4
  have p1 := abs_nonneg (x1 - x2)
  have p2 := abs_nonneg (y1 - y2)
  have hc := commonType4_self t
  have unf : getDistManhattan ⟨t, x1⟩ ⟨t, y1⟩ ⟨t, x2⟩ ⟨t, y2⟩ =
      some ((sub ⟨t, x1⟩ ⟨t, x2⟩ >>= abs) >>= fun p => (sub ⟨t, y1⟩ ⟨t, y2⟩ >>= abs) >>= fun q =>
        add p q >>= fun s => Outcome.ok (conv (commonType4 t t t t) s)) := by
    unfold getDistManhattan
    rw [if_pos (by simp [hw, hs])]
    congr 1
    cases sub ⟨t, x1⟩ ⟨t, x2⟩ <;> simp
    rename_i p
    cases abs p <;> simp
    cases sub ⟨t, y1⟩ ⟨t, y2⟩ <;> simp
  rw [unf, e1, e2, hc]
  generalize |x1 - x2| = a at *
  generalize |y1 - y2| = b at *
  congr 1
  by_cases ha : Between t a
  · by_cases hb : Between t b
    · rw [if_pos ha, if_pos hb]
      simp only [Outcome.bind_ok, add, hw, wrap_eq t _ ha, wrap_eq t _ hb]
      by_cases hab : Between t (a + b)
      · rw [if_pos hab, result_eq t _ hab]
        simp only [Outcome.bind_ok, conv, wrap_eq t _ hab]
      · rw [if_neg hab, result_ub t _ hs hab]
        rfl
    · rw [if_pos ha, if_neg hb, if_neg (fun h => hb (between_nonneg_le h p2 (by omega)))]
      rfl
  · rw [if_neg ha, Outcome.bind_ub, if_neg (fun h => ha (between_nonneg_le h p1 (by omega)))]

/-- **C136.** The Chebyshev distance for `int` or `long`. -/
theorem C136_chebyshev_signed (t : ITy) (ht : t = .i32 ∨ t = .i64) (x1 y1 x2 y2 : Int)
    (h1 : Between t x1) (h2 : Between t y1) (h3 : Between t x2) (h4 : Between t y2) :
    getDistChebyshev ⟨t, x1⟩ ⟨t, y1⟩ ⟨t, x2⟩ ⟨t, y2⟩ =
      some (if Between t (max |x1 - x2| |y1 - y2|) then .ok ⟨t, max |x1 - x2| |y1 - y2|⟩ else .ub) := by
  obtain ⟨hs, hw⟩ := signed_of ht
  have e1 := abs_sub_signed ht x2 x1 h3 h1
  have e2 := abs_sub_signed ht y2 y1 h4 h2
  have p1 := abs_nonneg (x1 - x2)
  have p2 := abs_nonneg (y1 - y2)
  rw [abs_sub_comm] at e1 e2
  have hc := commonType4_self t
  have unf : getDistChebyshev ⟨t, x1⟩ ⟨t, y1⟩ ⟨t, x2⟩ ⟨t, y2⟩ =
      some ((sub ⟨t, x2⟩ ⟨t, x1⟩ >>= abs) >>= fun p => (sub ⟨t, y2⟩ ⟨t, y1⟩ >>= abs) >>= fun q =>
        Outcome.ok (conv (commonType4 t t t t) (if lt p q then q else p))) := by
    unfold getDistChebyshev
    rw [if_pos (by simp [hw, hs])]
    congr 1
    cases sub ⟨t, x2⟩ ⟨t, x1⟩ <;> simp
    rename_i p
    cases abs p <;> simp
    cases sub ⟨t, y2⟩ ⟨t, y1⟩ <;> simp
  rw [unf, e1, e2, hc]
  generalize |x1 - x2| = a at *
  generalize |y1 - y2| = b at *
  congr 1
  by_cases ha : Between t a
  · by_cases hb : Between t b
    · rw [if_pos ha, if_pos hb]
      simp only [Outcome.bind_ok, lt, hw, wrap_eq t _ ha, wrap_eq t _ hb, decide_eq_true_eq]
      by_cases hab : a < b
      · rw [if_pos hab, max_eq_right hab.le, if_pos hb, conv_eq _ _ hb]
      · rw [if_neg hab, max_eq_left (not_lt.mp hab), if_pos ha, conv_eq _ _ ha]
    · rw [if_pos ha, if_neg hb, if_neg (fun h => hb (between_nonneg_le h p2 (le_max_right _ _)))]
      rfl
  · rw [if_neg ha, Outcome.bind_ub, if_neg (fun h => ha (between_nonneg_le h p1 (le_max_left _ _)))]

/-! ### Unsigned types of at least 32 bits -/

theorem unsigned_of {t : ITy} (ht : t = .u32 ∨ t = .u64) : t.signed = false ∧ uac t t = t := by
  rcases ht with rfl | rfl <;> decide

theorem wrap_reduced (t : ITy) (x : Int) : Reduced t x (wrap t x) := by
  refine ⟨wrap_between t x, (x - t.min) / t.count, ?_⟩
  have e : size t = t.count := by cases t <;> rfl
  rw [e]
  have := Int.emod_add_mul_ediv (x - t.min) t.count
  unfold wrap
  rw [mul_comm] at this
  omega

theorem reduced_unique {t : ITy} {x r r' : Int} (h : Reduced t x r) (h' : Reduced t x r') : r = r' := by
  obtain ⟨h1, k, hk⟩ := h
  obtain ⟨h2, l, hl⟩ := h'
  cases t <;> simp only [Between, size] at h1 h2 hk hl <;> omega

/-- **C136.** The squared distance for `unsigned` or `unsigned long` is the right one up to a multiple
of the number of values; so it is exact if it is representable. -/
theorem C136_squared_unsigned (t : ITy) (ht : t = .u32 ∨ t = .u64) (x1 y1 x2 y2 : Int)
    (h1 : Between t x1) (h2 : Between t y1) (h3 : Between t x2) (h4 : Between t y2) :
    ∃ r, getDistSquaredEuclidean ⟨t, x1⟩ ⟨t, y1⟩ ⟨t, x2⟩ ⟨t, y2⟩ = .ok ⟨t, r⟩ ∧
      Reduced t ((x1 - x2) ^ 2 + (y1 - y2) ^ 2) r ∧
      (Between t ((x1 - x2) ^ 2 + (y1 - y2) ^ 2) → r = (x1 - x2) ^ 2 + (y1 - y2) ^ 2) := by
  obtain ⟨hs, hw⟩ := unsigned_of ht
  have hr : ∀ x, result t x = .ok ⟨t, wrap t x⟩ := by
    intro x; simp [result, hs]
  have w2 : ∀ x, wrap t (wrap t x) = wrap t x := fun x => wrap_eq t _ (wrap_between t x)
  have hm : t.min = 0 := by rcases ht with rfl | rfl <;> rfl
  have hred : wrap t (wrap t (wrap t (x1 - x2) * wrap t (x1 - x2)) + wrap t (wrap t (y1 - y2) * wrap t (y1 - y2))) =
      wrap t ((x1 - x2) ^ 2 + (y1 - y2) ^ 2) := by
    simp only [wrap, hm, sub_zero, add_zero, sq]
    simp [Int.add_emod, Int.mul_emod]
  refine ⟨wrap t ((x1 - x2) ^ 2 + (y1 - y2) ^ 2), ?_, wrap_reduced t _, fun h => wrap_eq t _ h⟩
  unfold getDistSquaredEuclidean
  simp only [sub, mul, add, hw, hr, wrap_eq t _ h1, wrap_eq t _ h2, wrap_eq t _ h3, wrap_eq t _ h4, w2,
    Outcome.bind_ok, commonType4_self, conv, Outcome.pure_eq, hred]

/-- **C136.** The other two do not compile for `unsigned` and `unsigned long` coordinates. -/
theorem C136_unsigned_rejected (t : ITy) (ht : t = .u32 ∨ t = .u64) (x1 y1 x2 y2 : Int) :
    getDistManhattan ⟨t, x1⟩ ⟨t, y1⟩ ⟨t, x2⟩ ⟨t, y2⟩ = none ∧
    getDistChebyshev ⟨t, x1⟩ ⟨t, y1⟩ ⟨t, x2⟩ ⟨t, y2⟩ = none := by
  obtain ⟨hs, hw⟩ := unsigned_of ht
  simp [getDistManhattan, getDistChebyshev, hw, hs]

/-! ### Types of less than 32 bits -/

/-- The types that are promoted to `int`. -/
def Narrow (t : ITy) : Prop := t = .i8 ∨ t = .u8 ∨ t = .i16 ∨ t = .u16

theorem narrow_facts {t : ITy} (ht : Narrow t) : uac t t = .i32 ∧
    (∀ x, Between t x → Between .i32 x) ∧
    (∀ x y, Between t x → Between t y → -65535 ≤ x - y ∧ x - y ≤ 65535) := by
  rcases ht with rfl | rfl | rfl | rfl <;> refine ⟨by decide, ?_, ?_⟩ <;> intro x <;> simp only [Between] <;>
    intros <;> omega

/-- **C136.** The squared distance for `char`- and `short`-sized coordinates is computed as an `int` and
then reduced to the type of the coordinates. -/
theorem C136_squared_narrow (t : ITy) (ht : Narrow t) (x1 y1 x2 y2 : Int)
    (h1 : Between t x1) (h2 : Between t y1) (h3 : Between t x2) (h4 : Between t y2) :
    ((x1 - x2) ^ 2 + (y1 - y2) ^ 2 < 2 ^ 31 → ∃ r,
      getDistSquaredEuclidean ⟨t, x1⟩ ⟨t, y1⟩ ⟨t, x2⟩ ⟨t, y2⟩ = .ok ⟨t, r⟩ ∧
      Reduced t ((x1 - x2) ^ 2 + (y1 - y2) ^ 2) r) ∧
    (¬ (x1 - x2) ^ 2 + (y1 - y2) ^ 2 < 2 ^ 31 →
      getDistSquaredEuclidean ⟨t, x1⟩ ⟨t, y1⟩ ⟨t, x2⟩ ⟨t, y2⟩ = .ub) := by
  obtain ⟨hw, hb, hd⟩ := narrow_facts ht
  have key := C136_squared_signed .i32 (Or.inl rfl) x1 y1 x2 y2 (hb _ h1) (hb _ h2) (hb _ h3) (hb _ h4)
  have hiff : Between .i32 ((x1 - x2) ^ 2 + (y1 - y2) ^ 2) ↔ (x1 - x2) ^ 2 + (y1 - y2) ^ 2 < 2 ^ 31 := by
    have p1 := sq_nonneg (x1 - x2)
    have p2 := sq_nonneg (y1 - y2)
    simp only [Between]
    omega
  have hwi : uac .i32 .i32 = .i32 := rfl
  -- the same computation, but for the type of the result
  have same : getDistSquaredEuclidean ⟨t, x1⟩ ⟨t, y1⟩ ⟨t, x2⟩ ⟨t, y2⟩ =
      (getDistSquaredEuclidean ⟨.i32, x1⟩ ⟨.i32, y1⟩ ⟨.i32, x2⟩ ⟨.i32, y2⟩ >>= fun s => Outcome.ok (conv t s)) := by
    have hs : ∀ a b, sub ⟨t, a⟩ ⟨t, b⟩ = sub ⟨.i32, a⟩ ⟨.i32, b⟩ := by
      intro a b; simp only [sub, hw, hwi]
    unfold getDistSquaredEuclidean
    simp only [hs, commonType4_self]
    have hconv : ∀ s : Val, s.ty = .i32 → Between .i32 s.v → conv .i32 s = s := by
      intro s he hb'
      rw [conv_eq _ _ hb', ← he]
    have hres : ∀ x v, result .i32 x = .ok v → v.ty = .i32 ∧ Between .i32 v.v := by
      intro x v hv
      unfold result at hv
      simp only [ITy.signed, if_true] at hv
      split at hv
      · rename_i hf
        cases hv
        exact ⟨rfl, (fits_iff _ _).1 hf⟩
      · cases hv
    cases e1 : sub ⟨.i32, x1⟩ ⟨.i32, x2⟩ with
    | ok a =>
      simp only [Outcome.bind_ok]
      cases e2 : mul a a with
      | ok p =>
        simp only [Outcome.bind_ok]
        cases e3 : sub ⟨.i32, y1⟩ ⟨.i32, y2⟩ with
        | ok b =>
          simp only [Outcome.bind_ok]
          cases e4 : mul b b with
          | ok q =>
            simp only [Outcome.bind_ok]
            cases e5 : add p q with
            | ok s =>
              simp only [Outcome.bind_ok, Outcome.pure_eq]
              have ta : a.ty = .i32 := (hres _ _ e1).1
              have tb : b.ty = .i32 := (hres _ _ e3).1
              have tp : p.ty = .i32 := by
                simp only [mul, ta] at e2; exact (hres _ _ e2).1
              have tq : q.ty = .i32 := by
                simp only [mul, tb] at e4; exact (hres _ _ e4).1
              simp only [add, tp, tq] at e5
              have := hres _ _ e5
              rw [hconv s this.1 this.2]
            | _ => rfl
          | _ => rfl
        | _ => rfl
      | _ => rfl
    | _ => rfl
  rw [same, key]
  constructor
  · intro h
    rw [if_pos (hiff.mpr h)]
    exact ⟨_, rfl, wrap_reduced t _⟩
  · intro h
    rw [if_neg (fun hc => h (hiff.mp hc))]
    rfl

/-- **C136.** The Manhattan and Chebyshev distances for `char`- and `short`-sized coordinates. -/
theorem C136_others_narrow (t : ITy) (ht : Narrow t) (x1 y1 x2 y2 : Int)
    (h1 : Between t x1) (h2 : Between t y1) (h3 : Between t x2) (h4 : Between t y2) :
    (∃ r, getDistManhattan ⟨t, x1⟩ ⟨t, y1⟩ ⟨t, x2⟩ ⟨t, y2⟩ = some (.ok ⟨t, r⟩) ∧
      Reduced t (|x1 - x2| + |y1 - y2|) r) ∧
    (∃ r, getDistChebyshev ⟨t, x1⟩ ⟨t, y1⟩ ⟨t, x2⟩ ⟨t, y2⟩ = some (.ok ⟨t, r⟩) ∧
      Reduced t (max |x1 - x2| |y1 - y2|) r) := by
  obtain ⟨hw, hb, hd⟩ := narrow_facts ht
  have hwi : uac .i32 .i32 = .i32 := rfl
  have hx : |x1 - x2| ≤ 65535 := abs_le.mpr (hd _ _ h1 h3)
  have hy : |y1 - y2| ≤ 65535 := abs_le.mpr (hd _ _ h2 h4)
  have p1 := abs_nonneg (x1 - x2)
  have p2 := abs_nonneg (y1 - y2)
  have b1 : Between .i32 |x1 - x2| := by simp only [Between]; omega
  have b2 : Between .i32 |y1 - y2| := by simp only [Between]; omega
  have b3 : Between .i32 (|x1 - x2| + |y1 - y2|) := by simp only [Between]; omega
  have hs : ∀ a b, sub ⟨t, a⟩ ⟨t, b⟩ = sub ⟨.i32, a⟩ ⟨.i32, b⟩ := by
    intro a b; simp only [sub, hw, hwi]
  have split2 : ∀ (o : Outcome Val) (v : Val), (o >>= abs) = .ok v → ∃ a, o = .ok a ∧ abs a = .ok v := by
    intro o v h
    exact Outcome.bind_eq_ok.mp h
  constructor
  · have e1 := abs_sub_signed (t := .i32) (Or.inl rfl) x1 x2 (hb _ h1) (hb _ h3)
    have e2 := abs_sub_signed (t := .i32) (Or.inl rfl) y1 y2 (hb _ h2) (hb _ h4)
    rw [if_pos b1] at e1
    rw [if_pos b2] at e2
    obtain ⟨a, f1, f2⟩ := split2 _ _ e1
    obtain ⟨b, g1, g2⟩ := split2 _ _ e2
    refine ⟨wrap t (|x1 - x2| + |y1 - y2|), ?_, wrap_reduced t _⟩
    unfold getDistManhattan
    rw [if_pos (by simp [hw, ITy.signed])]
    simp only [hs, f1, f2, g1, g2, Outcome.bind_ok, commonType4_self,
      add_eq (a := ⟨.i32, |x1 - x2|⟩) (b := ⟨.i32, |y1 - y2|⟩) hwi b1 b2 b3, conv, Outcome.pure_eq]
  · have e1 := abs_sub_signed (t := .i32) (Or.inl rfl) x2 x1 (hb _ h3) (hb _ h1)
    have e2 := abs_sub_signed (t := .i32) (Or.inl rfl) y2 y1 (hb _ h4) (hb _ h2)
    rw [abs_sub_comm, if_pos b1] at e1
    rw [abs_sub_comm, if_pos b2] at e2
    obtain ⟨a, f1, f2⟩ := split2 _ _ e1
    obtain ⟨b, g1, g2⟩ := split2 _ _ e2
    refine ⟨wrap t (max |x1 - x2| |y1 - y2|), ?_, wrap_reduced t _⟩
    unfold getDistChebyshev
    rw [if_pos (by simp [hw, ITy.signed])]
    simp only [hs, f1, f2, g1, g2, Outcome.bind_ok, commonType4_self,
      lt_eq (a := ⟨.i32, |x1 - x2|⟩) (b := ⟨.i32, |y1 - y2|⟩) hwi b1 b2, conv, Outcome.pure_eq,
      decide_eq_true_eq]
    by_cases h : |x1 - x2| < |y1 - y2|
    · rw [if_pos h, max_eq_right h.le]
    · rw [if_neg h, max_eq_left (not_lt.mp h)]

/-- **C136 fails for small types.** Different points at distance 0, a negative distance, and an
undefined Euclidean distance. -/
theorem C136_small_types_fail :
    getDistSquaredEuclidean ⟨.u8, 0⟩ ⟨.u8, 0⟩ ⟨.u8, 16⟩ ⟨.u8, 0⟩ = .ok ⟨.u8, 0⟩ ∧
    getDistManhattan ⟨.i8, 100⟩ ⟨.i8, 0⟩ ⟨.i8, -100⟩ ⟨.i8, 0⟩ = some (.ok ⟨.i8, -56⟩) ∧
    getDistChebyshev ⟨.i8, 100⟩ ⟨.i8, 0⟩ ⟨.i8, -100⟩ ⟨.i8, 0⟩ = some (.ok ⟨.i8, -56⟩) ∧
    ∀ fl : ℝ → ℝ, getDistEuclidean fl ⟨.i16, 0⟩ ⟨.i16, 0⟩ ⟨.i16, 200⟩ ⟨.i16, 0⟩ = .ub := by
  refine ⟨by decide, by decide, by decide, fun fl => ?_⟩
  have h : getDistSquaredEuclidean ⟨.i16, 0⟩ ⟨.i16, 0⟩ ⟨.i16, 200⟩ ⟨.i16, 0⟩ = .ok ⟨.i16, -25536⟩ := by decide
  unfold getDistEuclidean
  rw [h, Outcome.bind_ok, if_pos (by decide)]

/-! ### Euclidean distance -/

/-- The integer part of the rounded square root is right below `2^51`. -/
theorem floor_sqrt {fl : ℝ → ℝ} (hf : Angle.Spec.Precise fl (2 ^ (-53 : ℤ))) (hmono : Monotone fl)
    (hk : ∀ k : ℕ, k ≤ 2 ^ 53 → fl k = k) (n : ℕ) (hn : n < 2 ^ 51) :
    ∃ r : ℕ, ⌊fl (Real.sqrt (fl (n : ℝ)))⌋ = (r : ℤ) ∧ r * r ≤ n ∧ n < (r + 1) * (r + 1) := by
  have h1 : Nat.sqrt n * Nat.sqrt n ≤ n := Nat.sqrt_le n
  have h2 : n < (Nat.sqrt n + 1) * (Nat.sqrt n + 1) := Nat.lt_succ_sqrt n
  refine ⟨Nat.sqrt n, ?_, h1, h2⟩
  rw [hk n (by omega)]
  generalize Nat.sqrt n = r at h1 h2
  have hr : r ≤ n := le_trans (Nat.le_mul_self r) h1
  have h1' : (r : ℝ) * r ≤ n := by exact_mod_cast h1
  have h2' : (n : ℝ) + 1 ≤ ((r : ℝ) + 1) * (r + 1) := by exact_mod_cast h2
  have hn' : (n : ℝ) ≤ 2 ^ 51 := by exact_mod_cast hn.le
  have hn0 : (0 : ℝ) ≤ n := by positivity
  have hs0 := Real.sqrt_nonneg (n : ℝ)
  have hs := Real.mul_self_sqrt hn0
  generalize Real.sqrt (n : ℝ) = s at *
  rw [Int.floor_eq_iff]
  push_cast
  constructor
  · have : (r : ℝ) ≤ s := by
      by_contra hc
      have hc := not_le.mp hc
      nlinarith
    have := hmono this
    rwa [hk r (by omega)] at this
  · have hb := hf s
    rw [abs_of_nonneg hs0] at hb
    have hb' := (abs_le.mp hb).2
    refine lt_of_le_of_lt (show fl s ≤ s * (1 + 2 ^ (-53 : ℤ)) by linarith) ?_
    have hu : (0 : ℝ) ≤ 2 ^ (-53 : ℤ) := by positivity
    have e : (n : ℝ) * ((1 + 2 ^ (-53 : ℤ)) * (1 + 2 ^ (-53 : ℤ))) < n + 1 := by
      have : (n : ℝ) * ((1 + 2 ^ (-53 : ℤ)) * (1 + 2 ^ (-53 : ℤ)) - 1) ≤
          2 ^ 51 * ((1 + 2 ^ (-53 : ℤ)) * (1 + 2 ^ (-53 : ℤ)) - 1) :=
        mul_le_mul_of_nonneg_right hn' (by nlinarith)
      have e2 : (2 : ℝ) ^ 51 * ((1 + 2 ^ (-53 : ℤ)) * (1 + 2 ^ (-53 : ℤ)) - 1) < 1 := by norm_num
      linarith
    generalize (2 : ℝ) ^ (-53 : ℤ) = u at *
    by_contra hc
    have hc := not_lt.mp hc
    have h0 : (0 : ℝ) ≤ (r : ℝ) + 1 := by positivity
    have := mul_le_mul hc hc h0 (by positivity)
    have e3 : s * (1 + u) * (s * (1 + u)) = n * ((1 + u) * (1 + u)) := by rw [← hs]; ring
    rw [e3] at this
    linarith

/-- **C136.** The Euclidean distance for `int` (and for `long` below `2^51`, the square of the
distance): the exact distance rounded down, when the square is representable. -/
theorem C136_euclidean_signed {fl : ℝ → ℝ} (hf : Angle.Spec.Precise fl (2 ^ (-53 : ℤ))) (hmono : Monotone fl)
    (hk : ∀ k : ℕ, k ≤ 2 ^ 53 → fl k = k) (t : ITy) (ht : t = .i32 ∨ t = .i64) (x1 y1 x2 y2 : Int)
    (h1 : Between t x1) (h2 : Between t y1) (h3 : Between t x2) (h4 : Between t y2)
    (hlt : (x1 - x2) ^ 2 + (y1 - y2) ^ 2 < 2 ^ 51) :
    (Between t ((x1 - x2) ^ 2 + (y1 - y2) ^ 2) → ∃ r : Int,
      getDistEuclidean fl ⟨t, x1⟩ ⟨t, y1⟩ ⟨t, x2⟩ ⟨t, y2⟩ = .ok ⟨t, r⟩ ∧ 0 ≤ r ∧
      r ^ 2 ≤ (x1 - x2) ^ 2 + (y1 - y2) ^ 2 ∧ (x1 - x2) ^ 2 + (y1 - y2) ^ 2 < (r + 1) ^ 2) ∧
    (¬ Between t ((x1 - x2) ^ 2 + (y1 - y2) ^ 2) →
      getDistEuclidean fl ⟨t, x1⟩ ⟨t, y1⟩ ⟨t, x2⟩ ⟨t, y2⟩ = .ub) := by
  have e := C136_squared_signed t ht x1 y1 x2 y2 h1 h2 h3 h4
  have p : 0 ≤ (x1 - x2) ^ 2 + (y1 - y2) ^ 2 := by positivity
  unfold getDistEuclidean
  rw [e]
  generalize (x1 - x2) ^ 2 + (y1 - y2) ^ 2 = N at *
  constructor
  · intro hb
    rw [if_pos hb, Outcome.bind_ok]
    simp only [commonType4_self]
    obtain ⟨n, rfl⟩ := Int.eq_ofNat_of_zero_le p
    obtain ⟨r, r1, r2, r3⟩ := floor_sqrt hf hmono hk n (by exact_mod_cast hlt)
    rw [if_neg (by omega)]
    simp only [Int.cast_natCast, r1]
    have hr : (r : Int) ≤ n := by exact_mod_cast le_trans (Nat.le_mul_self r) r2
    have hbr : Between t (r : Int) := between_nonneg_le hb (by omega) hr
    rw [if_pos ((fits_iff t _).2 hbr)]
    refine ⟨r, rfl, by omega, ?_, ?_⟩
    · rw [sq]; exact_mod_cast r2
    · rw [sq]; exact_mod_cast r3
  · intro hb
    rw [if_neg hb]
    rfl

/-! ### As distances -/

/-- **C136.** Where the distances for `int` and `long` are returned, they are not negative, zero exactly
for equal points, symmetric, and obey the triangle inequality; and they are ordered. -/
theorem C136_metric (t : ITy) (ht : t = .i32 ∨ t = .i64) (x1 y1 x2 y2 x3 y3 : Int)
    (h1 : Between t x1) (h2 : Between t y1) (h3 : Between t x2) (h4 : Between t y2) (h5 : Between t x3)
    (h6 : Between t y3) (m12 m23 m13 c12 c23 c13 : Int)
    (a1 : getDistManhattan ⟨t, x1⟩ ⟨t, y1⟩ ⟨t, x2⟩ ⟨t, y2⟩ = some (.ok ⟨t, m12⟩))
    (a2 : getDistManhattan ⟨t, x2⟩ ⟨t, y2⟩ ⟨t, x3⟩ ⟨t, y3⟩ = some (.ok ⟨t, m23⟩))
    (a3 : getDistManhattan ⟨t, x1⟩ ⟨t, y1⟩ ⟨t, x3⟩ ⟨t, y3⟩ = some (.ok ⟨t, m13⟩))
    (b1 : getDistChebyshev ⟨t, x1⟩ ⟨t, y1⟩ ⟨t, x2⟩ ⟨t, y2⟩ = some (.ok ⟨t, c12⟩))
    (b2 : getDistChebyshev ⟨t, x2⟩ ⟨t, y2⟩ ⟨t, x3⟩ ⟨t, y3⟩ = some (.ok ⟨t, c23⟩))
    (b3 : getDistChebyshev ⟨t, x1⟩ ⟨t, y1⟩ ⟨t, x3⟩ ⟨t, y3⟩ = some (.ok ⟨t, c13⟩)) :
    (0 ≤ m12 ∧ 0 ≤ c12) ∧ (m12 = 0 ↔ x1 = x2 ∧ y1 = y2) ∧ (c12 = 0 ↔ x1 = x2 ∧ y1 = y2) ∧
    getDistManhattan ⟨t, x2⟩ ⟨t, y2⟩ ⟨t, x1⟩ ⟨t, y1⟩ = some (.ok ⟨t, m12⟩) ∧
    getDistChebyshev ⟨t, x2⟩ ⟨t, y2⟩ ⟨t, x1⟩ ⟨t, y1⟩ = some (.ok ⟨t, c12⟩) ∧
    m13 ≤ m12 + m23 ∧ c13 ≤ c12 + c23 ∧ c12 ≤ m12 ∧ m12 ≤ 2 * c12 := by
  have get : ∀ {x r : Int}, some (if Between t x then Outcome.ok (⟨t, x⟩ : Val) else .ub) = some (.ok ⟨t, r⟩) →
      r = x := by
    intro x r h
    by_cases hb : Between t x
    · rw [if_pos hb] at h
      injection h with h; injection h with h; injection h with _ h
      exact h.symm
    · rw [if_neg hb] at h
      injection h with h; cases h
  have s1 := C136_manhattan_signed t ht x2 y2 x1 y1 h3 h4 h1 h2
  have s2 := C136_chebyshev_signed t ht x2 y2 x1 y1 h3 h4 h1 h2
  rw [abs_sub_comm x2, abs_sub_comm y2, ← C136_manhattan_signed t ht x1 y1 x2 y2 h1 h2 h3 h4, a1] at s1
  rw [abs_sub_comm x2, abs_sub_comm y2, ← C136_chebyshev_signed t ht x1 y1 x2 y2 h1 h2 h3 h4, b1] at s2
  rw [C136_manhattan_signed t ht _ _ _ _ h1 h2 h3 h4] at a1
  rw [C136_manhattan_signed t ht _ _ _ _ h3 h4 h5 h6] at a2
  rw [C136_manhattan_signed t ht _ _ _ _ h1 h2 h5 h6] at a3
  rw [C136_chebyshev_signed t ht _ _ _ _ h1 h2 h3 h4] at b1
  rw [C136_chebyshev_signed t ht _ _ _ _ h3 h4 h5 h6] at b2
  rw [C136_chebyshev_signed t ht _ _ _ _ h1 h2 h5 h6] at b3
  have ea1 := get a1
  have ea2 := get a2
  have ea3 := get a3
  have eb1 := get b1
  have eb2 := get b2
  have eb3 := get b3
  have tx := abs_sub_le x1 x2 x3
  have ty := abs_sub_le y1 y2 y3
  have px := abs_nonneg (x1 - x2)
  have py := abs_nonneg (y1 - y2)
  have zx : |x1 - x2| = 0 ↔ x1 = x2 := by rw [abs_eq_zero, sub_eq_zero]
  have zy : |y1 - y2| = 0 ↔ y1 = y2 := by rw [abs_eq_zero, sub_eq_zero]
  refine ⟨⟨by omega, by omega⟩, ?_, ?_, s1, s2, by omega, by omega, by omega, by omega⟩
  · rw [← zx, ← zy]; omega
  · rw [← zx, ← zy]; omega

/-! ### Coordinates of four types -/

theorem between_common_nonneg {a b : ITy} {x : Int} (ha : Between a x) (h0 : 0 ≤ x) :
    Between (commonType a b) x := by
  unfold commonType
  split
  · exact ha
  · exact between_uac_left a b x ha h0

/-- **C136.** With four different types: the squared distance is exact if the coordinates, their
difference and its square are representable in the type in which C++ subtracts them, and the result is
representable in each of the types. -/
theorem C136_squared_mixed (x1 y1 x2 y2 : Val)
    (hx : ∀ z ∈ [x1.v, x2.v, x1.v - x2.v, (x1.v - x2.v) ^ 2], Between (arith x1.ty x2.ty) z)
    (hy : ∀ z ∈ [y1.v, y2.v, y1.v - y2.v, (y1.v - y2.v) ^ 2], Between (arith y1.ty y2.ty) z)
    (h : ∀ t ∈ [x1.ty, y1.ty, x2.ty, y2.ty], Between t ((x1.v - x2.v) ^ 2 + (y1.v - y2.v) ^ 2)) :
    ∃ t, getDistSquaredEuclidean x1 y1 x2 y2 = .ok ⟨t, (x1.v - x2.v) ^ 2 + (y1.v - y2.v) ^ 2⟩ := by
  simp only [List.mem_cons, List.not_mem_nil, or_false, forall_eq_or_imp, forall_eq] at hx hy h
  obtain ⟨a1, a2, a3, a4⟩ := hx
  obtain ⟨b1, b2, b3, b4⟩ := hy
  obtain ⟨t1, t2, t3, t4⟩ := h
  rw [← uac_arith] at a1 a2 a3 a4 b1 b2 b3 b4
  have p1 := sq_nonneg (x1.v - x2.v)
  have p2 := sq_nonneg (y1.v - y2.v)
  have e1 := sub_eq (a := x1) (b := x2) rfl a1 a2 a3
  have e2 := sub_eq (a := y1) (b := y2) rfl b1 b2 b3
  have e3 := mul_eq (a := ⟨uac x1.ty x2.ty, x1.v - x2.v⟩) (b := ⟨uac x1.ty x2.ty, x1.v - x2.v⟩)
    (uac_idem x1.ty x2.ty) a3 a3 (by rw [← sq]; exact a4)
  have e4 := mul_eq (a := ⟨uac y1.ty y2.ty, y1.v - y2.v⟩) (b := ⟨uac y1.ty y2.ty, y1.v - y2.v⟩)
    (uac_idem y1.ty y2.ty) b3 b3 (by rw [← sq]; exact b4)
  simp only [← sq] at e3 e4
  generalize (x1.v - x2.v) ^ 2 = P at *
  generalize (y1.v - y2.v) ^ 2 = Q at *
  have s1 : Between (uac x1.ty x2.ty) (P + Q) := between_uac_left _ _ _ t1 (by omega)
  have e5 := add_eq (a := ⟨uac x1.ty x2.ty, P⟩) (b := ⟨uac y1.ty y2.ty, Q⟩) rfl
    (between_uac_left _ _ _ a4 p1) (between_uac_right _ _ _ b4 p2)
    (between_uac_left _ _ _ s1 (by simp only; omega))
  refine ⟨commonType4 x1.ty y1.ty x2.ty y2.ty, ?_⟩
  unfold getDistSquaredEuclidean
  simp only [e1, e2, e3, e4, e5, Outcome.bind_ok, Outcome.pure_eq]
  have hc : Between (commonType4 x1.ty y1.ty x2.ty y2.ty) (P + Q) :=
    between_common_nonneg (between_common_nonneg (between_common_nonneg t1 (by omega)) (by omega)) (by omega)
  rw [conv_eq _ _ hc]

/-! ### Examples -/

example : getDistSquaredEuclidean ⟨.i32, -3⟩ ⟨.i32, 10⟩ ⟨.i32, 0⟩ ⟨.i32, 6⟩ = .ok ⟨.i32, 25⟩ ∧
    getDistSquaredEuclidean ⟨.u32, 3⟩ ⟨.u32, 10⟩ ⟨.u32, 0⟩ ⟨.u32, 14⟩ = .ok ⟨.u32, 25⟩ ∧
    getDistManhattan ⟨.i32, -3⟩ ⟨.i32, 10⟩ ⟨.i32, 0⟩ ⟨.i32, 6⟩ = some (.ok ⟨.i32, 7⟩) ∧
    getDistChebyshev ⟨.i64, -3⟩ ⟨.i64, 10⟩ ⟨.i64, 0⟩ ⟨.i64, 6⟩ = some (.ok ⟨.i64, 4⟩) ∧
    getDistManhattan ⟨.i32, -2147483648⟩ ⟨.i32, 0⟩ ⟨.i32, 0⟩ ⟨.i32, 0⟩ = some .ub ∧
    getDistSquaredEuclidean ⟨.i16, -3⟩ ⟨.u8, 10⟩ ⟨.i64, 0⟩ ⟨.i32, 6⟩ = .ok ⟨.i64, 25⟩ ∧
    getDistSquaredEuclidean ⟨.i32, 46341⟩ ⟨.i32, 0⟩ ⟨.i32, 0⟩ ⟨.i32, 0⟩ = .ub := by decide

/-- The hypotheses on the rounding are met by rounding to 53 binary digits, the precision of `double`. -/
theorem C136_euclidean_example : Angle.Spec.Precise (Angle.nearest 53) (2 ^ (-53 : ℤ)) ∧
    Monotone (Angle.nearest 53) ∧ ∀ k : ℕ, k ≤ 2 ^ 53 → Angle.nearest 53 (k : ℝ) = k := by
  refine ⟨Angle.nearest_precise 53, Angle.nearest_mono (by norm_num), fun k hk => ?_⟩
  have := Angle.nearest_int (p := 53) (by norm_num) (k : ℤ) (by
    rw [abs_of_nonneg (by positivity)]; exact_mod_cast hk)
  exact_mod_cast this

/-- The difference of values of two types has an unsigned type: one of them is `unsigned long`, or one is `unsigned` and the other not
`long`. -/
def UnsignedDiff (a b : ITy) : Prop := a = .u64 ∨ b = .u64 ∨ (a = .u32 ∧ b ≠ .i64) ∨ (b = .u32 ∧ a ≠ .i64)

theorem uac_signed (a b : ITy) : (uac a b).signed = false ↔ UnsignedDiff a b := by
  cases a <;> cases b <;> simp [uac, UnsignedDiff] <;> decide

theorem uac_long (a b : ITy) (h : ¬ UnsignedDiff a b) : uac a b = if a = .i64 ∨ b = .i64 then .i64 else .i32 := by
  cases a <;> cases b <;> simp [UnsignedDiff] at h ⊢ <;> decide

theorem unsigned_comm (a b : ITy) : UnsignedDiff a b ↔ UnsignedDiff b a := by
  unfold UnsignedDiff
  tauto

/-- **C136.** For coordinates of any four types: the Manhattan distance does not compile exactly if one of the two differences is
unsigned, and the Chebyshev distance in these cases and where only one of the differences is a `long`. -/
theorem C136_rejected_iff (x1 y1 x2 y2 : Val) :
    (getDistManhattan x1 y1 x2 y2 = none ↔ UnsignedDiff x1.ty x2.ty ∨ UnsignedDiff y1.ty y2.ty) ∧
    (getDistChebyshev x1 y1 x2 y2 = none ↔ UnsignedDiff x1.ty x2.ty ∨ UnsignedDiff y1.ty y2.ty ∨
      ¬ ((x1.ty = .i64 ∨ x2.ty = .i64) ↔ (y1.ty = .i64 ∨ y2.ty = .i64))) := by
  constructor
  · rw [← uac_signed, ← uac_signed]
    unfold getDistManhattan
    cases (uac x1.ty x2.ty).signed <;> cases (uac y1.ty y2.ty).signed <;> simp
  · unfold getDistChebyshev
    rw [unsigned_comm x1.ty, unsigned_comm y1.ty]
    by_cases hx : UnsignedDiff x2.ty x1.ty
    · simp [(uac_signed _ _).mpr hx, hx]
    · by_cases hy : UnsignedDiff y2.ty y1.ty
      · have hx' : (uac x2.ty x1.ty).signed = true := by
          rw [← Bool.not_eq_false, uac_signed]; exact hx
        have hy' := (uac_signed _ _).mpr hy
        have : ¬ uac x2.ty x1.ty = uac y2.ty y1.ty := by
          intro h
          rw [h, hy'] at hx'
          cases hx'
        simp [this, hy]
      · simp only [hx, hy, false_or, uac_long _ _ hx, uac_long _ _ hy, or_comm (a := x2.ty = _),
          or_comm (a := y2.ty = _)]
        by_cases h1 : x1.ty = .i64 ∨ x2.ty = .i64 <;> by_cases h2 : y1.ty = .i64 ∨ y2.ty = .i64 <;> simp [h1, h2, ITy.signed]

/-- An `int` and an `unsigned` coordinate: the Manhattan distance is rejected; a `long` and an `int` pair: the Chebyshev distance. -/
example : getDistManhattan ⟨.i32, 1⟩ ⟨.i32, 1⟩ ⟨.i32, 2⟩ ⟨.u32, 2⟩ = none ∧ getDistChebyshev ⟨.i64, 1⟩ ⟨.i32, 1⟩ ⟨.i64, 2⟩ ⟨.i32, 2⟩ = none :=
  ⟨(C136_rejected_iff _ _ _ _).1.mpr (Or.inr (Or.inr (Or.inr (Or.inr ⟨rfl, by simp⟩)))),
    (C136_rejected_iff _ _ _ _).2.mpr (Or.inr (Or.inr (by simp)))⟩

end Verif.IDist
