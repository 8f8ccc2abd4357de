import Verif.AngleInt.Model
import Verif.AngleInt.Spec
import Verif.Angle.PropsIeee
import Verif.Frame.Theorems
import Mathlib.Tactic.IntervalCases

/-!
# C143 — angles and directions of integers
-/

namespace Verif.AngleInt

open Verif Verif.Num Verif.Ieee Verif.Frame Verif.Angle Verif.Angle.Spec Verif.AngleInt.Spec

noncomputable section

/-! ## Integers as floating-point numbers -/

theorem int_grid {F : Fmt} (h : F.qmin ≤ 0) {n : ℤ} (hn : |n| ≤ 2 ^ F.p) : (n : ℝ) ∈ Grid F := ⟨n, 0, hn, h, by simp⟩

theorem fl32_int {n : ℤ} (h : |n| ≤ 2 ^ 24) : binary32.fl (n : ℝ) = n :=
  fl_exact (by norm_num [binary32]) (int_grid (by norm_num [binary32]) h)

theorem fl64_int {n : ℤ} (h : |n| ≤ 2 ^ 53) : binary64.fl (n : ℝ) = n :=
  fl_exact (by norm_num [binary64]) (int_grid (by norm_num [binary64]) h)

theorem toInt_int (t : ITy) (n : ℤ) : toInt t (n : ℝ) = if fits t n then .ok ⟨t, n⟩ else .ub := by
  simp [toInt]

theorem rem_int (n p : ℤ) (hp : 0 < p) : rem (n : ℝ) (p : ℝ) = ((n.tmod p : ℤ) : ℝ) := by
  have hp' : (0 : ℝ) < p := by exact_mod_cast hp
  have fd : ∀ m : ℤ, ⌊(m : ℝ) / p⌋ = m / p := by
    intro m
    rw [Int.floor_div_cast_of_nonneg hp.le, Int.floor_intCast]
  unfold rem
  have key : (if 0 ≤ (n : ℝ) / p then (⌊(n : ℝ) / p⌋ : ℝ) else (⌈(n : ℝ) / p⌉ : ℝ)) = ((n.tdiv p : ℤ) : ℝ) := by
    split
    · rename_i h
      have hn : 0 ≤ n := by
        by_contra hc
        have : (n : ℝ) < 0 := by exact_mod_cast not_le.mp hc
        have := div_neg_of_neg_of_pos this hp'
        linarith
      rw [fd, Int.tdiv_eq_ediv_of_nonneg hn]
    · rename_i h
      have hn : n ≤ 0 := by
        by_contra hc
        have : (0 : ℝ) < n := by exact_mod_cast not_le.mp hc
        exact h (div_pos this hp').le
      have e : ⌈(n : ℝ) / p⌉ = -⌊((-n : ℤ) : ℝ) / p⌋ := by
        rw [← Int.ceil_neg]
        congr 1
        push_cast
        ring
      rw [e, fd, ← Int.tdiv_eq_ediv_of_nonneg (by omega), Int.neg_tdiv, neg_neg]
  rw [key, Int.tmod_def]
  push_cast
  ring

/-! ## Wrapping -/

/-- **C143.** Wrapping an integer number of degrees that `double` represents gives the remainder modulo 360; if this is not
representable in the type, the behaviour is undefined. -/
theorem C143_wrap (t : ITy) (n : ℤ) (hn : Between t n) (h : |n| ≤ 2 ^ 53) :
    (Between t (n % 360) → getWrapDeg ⟨t, n⟩ = .ok ⟨t, n % 360⟩) ∧
    (¬ Between t (n % 360) → getWrapDeg ⟨t, n⟩ = .ub) := by
  have h360 : ((360 : ℤ) : ℝ) = 360 := by norm_num
  have hr : rem (binary64.fl (n : ℝ)) 360 = ((n.tmod 360 : ℤ) : ℝ) := by
    rw [fl64_int h, ← h360, rem_int _ _ (by norm_num)]
  have hb : Between t (n.tmod 360) := between_tmod t n 360 hn (by norm_num)
  have hm : -360 < n.tmod 360 ∧ n.tmod 360 < 360 := by
    rcases le_total 0 n with h0 | h0
    · have := Int.tmod_nonneg 360 h0
      have := Int.tmod_lt_of_pos n (show (0 : ℤ) < 360 by norm_num)
      omega
    · have := Int.tmod_lt_of_pos n (show (0 : ℤ) < 360 by norm_num)
      have := Int.lt_tmod_of_pos n (show (0 : ℤ) < 360 by norm_num)
      omega
  have hmod : n % 360 = if n.tmod 360 < 0 then n.tmod 360 + 360 else n.tmod 360 := by
    have := Int.tmod_def n 360
    split <;> omega
  have run : getWrapDeg ⟨t, n⟩ = toInt t ((n % 360 : ℤ) : ℝ) := by
    unfold getWrapDeg
    simp only [hr]
    rw [toInt_int, if_pos ((fits_iff t _).2 hb), Outcome.bind_ok]
    congr 1
    simp only
    rw [hmod, fl32_int (by rw [abs_le]; constructor <;> omega)]
    split
    · have : ((n.tmod 360 : ℤ) : ℝ) + 360 = ((n.tmod 360 + 360 : ℤ) : ℝ) := by push_cast; ring
      rw [this, fl32_int (by rw [abs_le]; constructor <;> omega)]
    · rfl
  rw [run, toInt_int]
  constructor
  · intro hb'
    rw [if_pos ((fits_iff t _).2 hb')]
  · intro hb'
    rw [if_neg (fun h => hb' ((fits_iff t _).1 h))]

/-- `getWrapDeg<signed char>(-1)` is undefined; `getWrapDeg(-1)` is 359. -/
theorem C143_wrap_example : getWrapDeg ⟨.i8, -1⟩ = .ub ∧ getWrapDeg ⟨.i32, -1⟩ = .ok ⟨.i32, 359⟩ :=
  ⟨(C143_wrap .i8 (-1) (by simp [Between]) (by norm_num)).2 (by simp [Between]),
   (C143_wrap .i32 (-1) (by simp [Between]) (by norm_num)).1 (by simp [Between])⟩

/-- **C143 fails for long integers.** 2^53 + 1 is converted to the number 2^53, and so wrapped to 32 instead of 33. -/
theorem C143_wrap_fails : getWrapDeg ⟨.i64, 2 ^ 53 + 1⟩ = .ok ⟨.i64, 32⟩ ∧ (2 ^ 53 + 1) % 360 = 33 := by
  refine ⟨?_, by norm_num⟩
  have e : binary64.fl (((2 : ℤ) ^ 53 + 1 : ℤ) : ℝ) = binary64.fl (((2 : ℤ) ^ 53 : ℤ) : ℝ) := by
    rw [fl64_int (n := 2 ^ 53) (by norm_num)]
    have hu : binary64.ulpExp (((2 : ℤ) ^ 53 + 1 : ℤ) : ℝ) = 1 := by
      unfold Fmt.ulpExp
      rw [log_eq (k := 53) (by push_cast; norm_num) (by push_cast; norm_num)]
      norm_num [binary64]
    unfold Fmt.fl
    rw [hu]
    have hf : ⌊(((2 : ℤ) ^ 53 + 1 : ℤ) : ℝ) / 2 ^ (1 : ℤ)⌋ = 2 ^ 52 := by
      rw [Int.floor_eq_iff]
      push_cast
      norm_num
    have : rne ((((2 : ℤ) ^ 53 + 1 : ℤ) : ℝ) / 2 ^ (1 : ℤ)) = 2 ^ 52 := by
      unfold rne
      rw [hf, if_neg (by push_cast; norm_num), if_neg (by push_cast; norm_num), if_pos ⟨2 ^ 51, by norm_num⟩]
    rw [this]
    push_cast
    norm_num
  have h := (C143_wrap .i64 (2 ^ 53) (by simp [Between]) (by norm_num)).1 (by simp [Between])
  unfold getWrapDeg at h ⊢
  simp only at h ⊢
  rw [e, h]
  norm_num

/-! ## Distances between angles -/

/-- **C143.** For arguments whose difference is computed in a signed type, does not overflow and is represented by `double`, the
distance in degrees is exact. -/
theorem C143_dist (a b : Val) (ht : (uac a.ty b.ty).signed = true) (ha : Between (uac a.ty b.ty) a.v) (hb : Between (uac a.ty b.ty) b.v)
    (hd : Between (uac a.ty b.ty) (a.v - b.v)) (hd' : Between (uac a.ty b.ty) |a.v - b.v|) (h : |a.v - b.v| ≤ 2 ^ 53) :
    ∃ d : ℤ, Dist 360 a.v b.v d ∧
      (Between (commonType a.ty b.ty) d → getDistDeg a b = .ok ⟨commonType a.ty b.ty, d⟩) ∧
      (¬ Between (commonType a.ty b.ty) d → getDistDeg a b = .ub) := by
  set D := |a.v - b.v| with hD
  have hD0 : 0 ≤ D := abs_nonneg _
  obtain ⟨m, h1, h2⟩ := dist_aux 180 (a.v : ℝ) b.v (by norm_num)
  have h360 : ((360 : ℤ) : ℝ) = 360 := by norm_num
  have hm : m = ((D.tmod 360 : ℤ) : ℝ) := by
    rw [← rem_int _ _ (by norm_num), h360]
    have e : |(a.v : ℝ) - b.v| = (D : ℝ) := by rw [hD]; push_cast; rfl
    rw [e] at h1
    unfold Angle.fmod at h1
    rw [if_neg (by norm_num)] at h1
    cases h1
    unfold rem
    norm_num
  have hr := Int.tmod_nonneg 360 hD0
  have hr' := Int.tmod_lt_of_pos D (show (0 : ℤ) < 360 by norm_num)
  refine ⟨180 - |D.tmod 360 - 180|, ?_, ?_⟩
  · rw [hm] at h2
    push_cast
    norm_num at h2
    exact h2
  · have hab : |D.tmod 360 - 180| ≤ 180 := by rw [abs_le]; constructor <;> omega
    have run : getDistDeg a b = toInt (commonType a.ty b.ty) ((180 - |D.tmod 360 - 180| : ℤ) : ℝ) := by
      unfold getDistDeg
      rw [sub_eq rfl ha hb hd, Outcome.bind_ok]
      have habs : abs ⟨uac a.ty b.ty, a.v - b.v⟩ = .ok ⟨uac a.ty b.ty, D⟩ := by
        unfold AngleInt.abs
        simp only [ht, if_true]
        split
        · have e : -(a.v - b.v) = D := by rw [hD, abs_of_neg ‹_›]
          rw [e, result_eq _ _ hd']
        · rw [hD, abs_of_nonneg (by omega)]
      rw [habs, Outcome.bind_ok]
      simp only
      congr 1
      rw [fl64_int (by rwa [abs_of_nonneg hD0]), ← h360, rem_int _ _ (by norm_num)]
      have e1 : ((D.tmod 360 : ℤ) : ℝ) - 180 = ((D.tmod 360 - 180 : ℤ) : ℝ) := by push_cast; ring
      rw [e1, fl64_int (by omega)]
      have e2 : (180 : ℝ) - |((D.tmod 360 - 180 : ℤ) : ℝ)| = ((180 - |D.tmod 360 - 180| : ℤ) : ℝ) := by push_cast; ring
      rw [e2, fl64_int]
      have := abs_nonneg (D.tmod 360 - 180)
      rw [abs_le]
      constructor <;> omega
    rw [run, toInt_int]
    constructor
    · intro hb'
      rw [if_pos ((fits_iff _ _).2 hb')]
    · intro hb'
      rw [if_neg (fun h => hb' ((fits_iff _ _).1 h))]

theorem C143_dist_example : ∃ d : ℤ, Dist 360 ((10 : ℤ) : ℝ) ((350 : ℤ) : ℝ) d ∧ getDistDeg ⟨.i32, 10⟩ ⟨.i32, 350⟩ = .ok ⟨.i32, d⟩ := by
  obtain ⟨d, h1, h2, -⟩ := C143_dist ⟨.i32, 10⟩ ⟨.i32, 350⟩ rfl (by simp [uac, promote, Between]) (by simp [uac, promote, Between])
    (by simp [uac, promote, Between]) (by simp [uac, promote, Between]) (by norm_num)
  refine ⟨d, h1, h2 ?_⟩
  have := C89_dist_facts (c := ((350 : ℤ) : ℝ)) (e := 0) (f := d) (by norm_num) h1 (by
    refine dist_of_min ⟨0, by simp⟩ fun k => abs_nonneg _) h1
  have k1 : (0 : ℝ) ≤ d := this.1
  have k2 : (d : ℝ) ≤ 360 / 2 := this.2.1
  have k1' : 0 ≤ d := by exact_mod_cast k1
  have k2' : (d : ℝ) ≤ ((180 : ℤ) : ℝ) := by push_cast; linarith
  have k2'' : d ≤ 180 := by exact_mod_cast k2'
  show Between .i32 d
  simp only [Between]
  omega

/-- With unsigned angles the call does not compile. -/
theorem C143_dist_unsigned (a b : Val) (ht : (uac a.ty b.ty).signed = false) : getDistDeg a b = .assertFail := by
  unfold getDistDeg Num.sub result
  simp [ht, AngleInt.abs]

/-! ## Directions -/

theorem toInt_ok {t : ITy} {x : ℝ} {v : Val} (h : toInt t x = .ok v) : v = ⟨t, if 0 ≤ x then ⌊x⌋ else ⌈x⌉⟩ := by
  unfold toInt at h
  dsimp only at h
  by_cases hf : fits t (if 0 ≤ x then ⌊x⌋ else ⌈x⌉) = true
  · rw [if_pos hf] at h
    cases h
    rfl
  · rw [if_neg hf] at h
    cases h

theorem toInt_near (t : ITy) (x : ℝ) (v : Val) (h : toInt t x = .ok v) : |(v.v : ℝ) - x| < 1 ∧ v.ty = t ∧ |(v.v : ℝ)| ≤ |x| := by
  rw [toInt_ok h]
  refine ⟨?_, rfl, ?_⟩
  · dsimp only
    split
    · have := Int.floor_le x
      have := Int.lt_floor_add_one x
      rw [abs_lt]
      constructor <;> linarith
    · have := Int.le_ceil x
      have := Int.ceil_lt_add_one x
      rw [abs_lt]
      constructor <;> linarith
  · dsimp only
    split
    · rename_i h0
      have h1 : (0 : ℝ) ≤ (⌊x⌋ : ℝ) := by exact_mod_cast Int.floor_nonneg.mpr h0
      rw [abs_of_nonneg h0, abs_of_nonneg h1]
      exact Int.floor_le x
    · rename_i h0
      have h1 : ((⌈x⌉ : ℤ) : ℝ) ≤ 0 := by exact_mod_cast Int.ceil_le.mpr (by push_cast; linarith)
      rw [abs_of_neg (not_le.mp h0), abs_of_nonpos h1]
      have := Int.le_ceil x
      linarith

/-- **C143, directions in radians.** If the differences of the coordinates do not overflow and `double` represents them, the
result is the direction up to less than a radian and the error of the library's function. -/
theorem C143_rad {ε : ℝ} {atan2 : ℝ → ℝ → ℝ} (ha : Atan2 ε atan2) (hε : ε ≤ 1 / 2) (t : ITy) (ht : t.signed = true) (x1 y1 x2 y2 : ℤ)
    (b1 : Between t x1) (b2 : Between t y1) (b3 : Between t x2) (b4 : Between t y2)
    (dx : Between (uac t t) (x2 - x1)) (dy : Between (uac t t) (y2 - y1)) (hx : |x2 - x1| ≤ 2 ^ 53) (hy : |y2 - y1| ≤ 2 ^ 53) :
    ∃ r : ℤ, getRadTowards atan2 ⟨t, x1⟩ ⟨t, y1⟩ ⟨t, x2⟩ ⟨t, y2⟩ = .ok ⟨t, r⟩ ∧
      |(r : ℝ) - Complex.arg ⟨x2 - x1, y2 - y1⟩| < 1 + ε := by
  have up : ∀ x, Between t x → Between (uac t t) x := by
    intro x hx
    cases t <;> simp only [uac, promote, Between] at hx ⊢ <;> omega
  have hct : commonType (commonType (commonType t t) t) t = t := by simp [commonType]
  have run : getRadTowards atan2 ⟨t, x1⟩ ⟨t, y1⟩ ⟨t, x2⟩ ⟨t, y2⟩ = toInt t (atan2 ((y2 : ℝ) - y1) ((x2 : ℝ) - x1)) := by
    unfold getRadTowards
    rw [sub_eq rfl (up _ b4) (up _ b2) dy, Outcome.bind_ok, sub_eq rfl (up _ b3) (up _ b1) dx, Outcome.bind_ok]
    simp only [hct, fl64_int hx, fl64_int hy]
    push_cast
    rfl
  rw [run]
  set A := atan2 ((y2 : ℝ) - y1) ((x2 : ℝ) - x1) with hA
  have h1 := ha ((y2 : ℝ) - y1) ((x2 : ℝ) - x1)
  rw [← hA] at h1
  set θ := Complex.arg ⟨(x2 : ℝ) - x1, (y2 : ℝ) - y1⟩
  have h2 := Complex.abs_arg_le_pi ⟨(x2 : ℝ) - x1, (y2 : ℝ) - y1⟩
  have h3 := Real.pi_lt_d2
  have h4 : |A| < 4 := by
    have := abs_add_le (A - θ) θ
    rw [sub_add_cancel] at this
    have h2' : |θ| ≤ Real.pi := h2
    linarith
  have hf : ∃ r : ℤ, toInt t A = .ok ⟨t, r⟩ := by
    rw [abs_lt] at h4
    unfold toInt
    simp only
    have hb : Between t (if 0 ≤ A then ⌊A⌋ else ⌈A⌉) := by
      have k1 : -4 ≤ ⌊A⌋ := Int.le_floor.mpr (by push_cast; linarith)
      have k2 : ⌊A⌋ < 4 := Int.floor_lt.mpr (by push_cast; linarith)
      have k3 : -4 < ⌈A⌉ := Int.lt_ceil.mpr (by push_cast; linarith)
      have k4 : ⌈A⌉ ≤ 4 := Int.ceil_le.mpr (by push_cast; linarith)
      have : -4 ≤ (if 0 ≤ A then ⌊A⌋ else ⌈A⌉) ∧ (if 0 ≤ A then ⌊A⌋ else ⌈A⌉) ≤ 4 := by
        split <;> constructor <;> omega
      cases t <;> simp only [ITy.signed, Bool.false_eq_true] at ht <;> simp only [Between] <;> omega
    rw [if_pos ((fits_iff _ _).2 hb)]
    exact ⟨_, rfl⟩
  obtain ⟨r, hr⟩ := hf
  refine ⟨r, hr, ?_⟩
  have h5 := (toInt_near _ _ _ hr).1
  have h6 := abs_add_le ((r : ℝ) - A) (A - θ)
  rw [sub_add_sub_cancel] at h6
  simp only at h5
  show |(r : ℝ) - θ| < 1 + ε
  linarith

/-- **C143 fails for directions in degrees.** Whatever the points, and whatever their types, the result of a call with integers
is one of seven numbers, the integers obtained from a direction truncated to a whole number of radians. -/
theorem C143_deg_seven {ε : ℝ} {atan2 : ℝ → ℝ → ℝ} (ha : Atan2 ε atan2) (hε : ε ≤ 1 / 2) (k : Consts)
    (hk1 : 17453 / 1000000 ≤ k.ratio) (hk2 : k.ratio ≤ 17454 / 1000000) (x1 y1 x2 y2 v : Val)
    (h : getDegTowards atan2 k x1 y1 x2 y2 = .ok v) :
    v.v = -171 ∨ v.v = -114 ∨ v.v = -57 ∨ v.v = 0 ∨ v.v = 57 ∨ v.v = 114 ∨ v.v = 171 := by
  unfold getDegTowards at h
  obtain ⟨r, h1, h2⟩ := Outcome.bind_eq_ok.mp h
  unfold getRadTowards at h1
  obtain ⟨dy, -, h1⟩ := Outcome.bind_eq_ok.mp h1
  obtain ⟨dx, -, h1⟩ := Outcome.bind_eq_ok.mp h1
  have hr : |r.v| ≤ 3 := by
    have k1 := (toInt_near _ _ _ h1).2.2
    set Y := binary64.fl dy.v
    set X := binary64.fl dx.v
    have k2 := ha Y X
    have k3 := Complex.abs_arg_le_pi ⟨X, Y⟩
    have k4 := Real.pi_lt_d2
    have k5 := abs_add_le (atan2 Y X - Complex.arg ⟨X, Y⟩) (Complex.arg ⟨X, Y⟩)
    rw [sub_add_cancel] at k5
    have : |(r.v : ℝ)| < 4 := by linarith
    have : |r.v| < 4 := by exact_mod_cast this
    omega
  unfold toDeg at h2
  have hk0 : 0 < k.ratio := by linarith
  set x := binary32.fl (r.v : ℝ) / k.ratio with hx
  rw [fl32_int (by omega)] at hx
  have hq : |binary32.fl x - x| ≤ 1 / 10000 := by
    have hxb : |x| ≤ 1000 := by
      rw [hx, abs_div, abs_of_pos hk0, div_le_iff₀ hk0]
      have : |(r.v : ℝ)| ≤ 3 := by exact_mod_cast hr
      linarith
    rcases fl_err binary32 x with q | q
    · refine q.trans ?_
      have : Ieee.Spec.unit binary32 ≤ 1 / 10000000 := by norm_num [Ieee.Spec.unit, binary32]
      have := u_pos binary32
      nlinarith [abs_nonneg x]
    · refine q.trans ?_
      have := two_mono (show binary32.qmin ≤ -20 by norm_num [binary32])
      norm_num at this ⊢
      linarith
  have hc : v.v = if 0 ≤ binary32.fl x then ⌊binary32.fl x⌋ else ⌈binary32.fl x⌉ := by rw [toInt_ok h2]
  rw [abs_le] at hr hq
  have fl0 : ∀ m : ℤ, 0 < m → (m : ℝ) ≤ binary32.fl x → binary32.fl x < m + 1 → v.v = m := by
    intro m hm l1 l2
    have hm' : (0 : ℝ) < m := by exact_mod_cast hm
    rw [hc, if_pos (by linarith), Int.floor_eq_iff]
    exact ⟨l1, l2⟩
  have fl1 : ∀ m : ℤ, m < 0 → binary32.fl x ≤ m → (m : ℝ) - 1 < binary32.fl x → v.v = m := by
    intro m hm l1 l2
    have hm' : (m : ℝ) < 0 := by exact_mod_cast hm
    rw [hc, if_neg (by linarith), Int.ceil_eq_iff]
    exact ⟨l2, l1⟩
  have ex : x * k.ratio = r.v := by rw [hx]; field_simp
  obtain ⟨hr1, hr2⟩ := hr
  have cases7 : r.v = -3 ∨ r.v = -2 ∨ r.v = -1 ∨ r.v = 0 ∨ r.v = 1 ∨ r.v = 2 ∨ r.v = 3 := by omega
  have lo : ∀ c : ℝ, c * (17454 / 1000000) ≤ r.v → 0 ≤ c → c ≤ x := by
    intro c hc0 hcc
    by_contra hn
    have := mul_lt_mul_of_pos_right (not_le.mp hn) hk0
    nlinarith
  have hi : ∀ c : ℝ, (r.v : ℝ) ≤ c * (17453 / 1000000) → 0 ≤ c → x ≤ c := by
    intro c hc0 hcc
    by_contra hn
    have := mul_lt_mul_of_pos_right (not_le.mp hn) hk0
    nlinarith
  have lo' : ∀ c : ℝ, (r.v : ℝ) ≤ -(c * (17454 / 1000000)) → 0 ≤ c → x ≤ -c := by
    intro c hc0 hcc
    by_contra hn
    have := mul_lt_mul_of_pos_right (not_le.mp hn) hk0
    nlinarith
  have hi' : ∀ c : ℝ, -(c * (17453 / 1000000)) ≤ (r.v : ℝ) → 0 ≤ c → -c ≤ x := by
    intro c hc0 hcc
    by_contra hn
    have := mul_lt_mul_of_pos_right (not_le.mp hn) hk0
    nlinarith
  rcases cases7 with e | e | e | e | e | e | e
  · left
    have e' : (r.v : ℝ) = -3 := by rw [e]; norm_num
    have a1 := lo' (171 + 1 / 2) (by rw [e']; norm_num) (by norm_num)
    have a2 := hi' (171 + 9 / 10) (by rw [e']; norm_num) (by norm_num)
    exact fl1 _ (by norm_num) (by push_cast; linarith) (by push_cast; linarith)
  · right; left
    have e' : (r.v : ℝ) = -2 := by rw [e]; norm_num
    have a1 := lo' (114 + 1 / 2) (by rw [e']; norm_num) (by norm_num)
    have a2 := hi' (114 + 9 / 10) (by rw [e']; norm_num) (by norm_num)
    exact fl1 _ (by norm_num) (by push_cast; linarith) (by push_cast; linarith)
  · right; right; left
    have e' : (r.v : ℝ) = -1 := by rw [e]; norm_num
    have a1 := lo' (57 + 1 / 5) (by rw [e']; norm_num) (by norm_num)
    have a2 := hi' (57 + 9 / 10) (by rw [e']; norm_num) (by norm_num)
    exact fl1 _ (by norm_num) (by push_cast; linarith) (by push_cast; linarith)
  · right; right; right; left
    have e' : x = 0 := by rw [hx, e]; simp
    rw [e', fl_zero] at hc
    rw [hc]
    simp
  · right; right; right; right; left
    have e' : (r.v : ℝ) = 1 := by rw [e]; norm_num
    have a1 := lo (57 + 1 / 5) (by rw [e']; norm_num) (by norm_num)
    have a2 := hi (57 + 9 / 10) (by rw [e']; norm_num) (by norm_num)
    exact fl0 _ (by norm_num) (by push_cast; linarith) (by push_cast; linarith)
  · right; right; right; right; right; left
    have e' : (r.v : ℝ) = 2 := by rw [e]; norm_num
    have a1 := lo (114 + 1 / 2) (by rw [e']; norm_num) (by norm_num)
    have a2 := hi (114 + 9 / 10) (by rw [e']; norm_num) (by norm_num)
    exact fl0 _ (by norm_num) (by push_cast; linarith) (by push_cast; linarith)
  · right; right; right; right; right; right
    have e' : (r.v : ℝ) = 3 := by rw [e]; norm_num
    have a1 := lo (171 + 1 / 2) (by rw [e']; norm_num) (by norm_num)
    have a2 := hi (171 + 9 / 10) (by rw [e']; norm_num) (by norm_num)
    exact fl0 _ (by norm_num) (by push_cast; linarith) (by push_cast; linarith)

/-- From the origin towards `(n, n)`, a direction of 45 degrees, the result is 0 degrees. -/
theorem C143_deg_fails {ε : ℝ} {atan2 : ℝ → ℝ → ℝ} (ha : Atan2 ε atan2) (hε : ε ≤ 1 / 10) (k : Consts) (n : ℤ) (h0 : 0 < n)
    (hn : Between .i32 n) :
    getDegTowards atan2 k ⟨.i32, 0⟩ ⟨.i32, 0⟩ ⟨.i32, n⟩ ⟨.i32, n⟩ = .ok ⟨.i32, 0⟩ ∧
    Complex.arg ⟨n, n⟩ * (180 / Real.pi) = 45 := by
  have hn0 : (0 : ℝ) < n := by exact_mod_cast h0
  have harg : Complex.arg ⟨n, n⟩ = Real.pi / 4 := by
    have e : (⟨n, n⟩ : ℂ) = ((n * Real.sqrt 2 : ℝ) : ℂ) * (Complex.cos ((Real.pi / 4 : ℝ) : ℂ) + Complex.sin ((Real.pi / 4 : ℝ) : ℂ) * Complex.I) := by
      rw [← Complex.ofReal_cos, ← Complex.ofReal_sin, Real.cos_pi_div_four, Real.sin_pi_div_four]
      have s2 : Real.sqrt 2 * Real.sqrt 2 = 2 := Real.mul_self_sqrt (by norm_num)
      apply Complex.ext
      · simp only [Complex.mul_re, Complex.add_re, Complex.ofReal_re, Complex.ofReal_im, Complex.mul_im, Complex.I_re, Complex.I_im, Complex.add_im]
        nlinarith
      · simp only [Complex.mul_re, Complex.add_re, Complex.ofReal_re, Complex.ofReal_im, Complex.mul_im, Complex.I_re, Complex.I_im, Complex.add_im]
        nlinarith
    rw [e, Complex.arg_mul_cos_add_sin_mul_I (mul_pos hn0 (Real.sqrt_pos.mpr (by norm_num)))
      ⟨by linarith [Real.pi_pos], by linarith [Real.pi_pos]⟩]
  refine ⟨?_, ?_⟩
  · have hct : commonType (commonType (commonType .i32 .i32) .i32) .i32 = .i32 := rfl
    have h53 : |n - 0| ≤ 2 ^ 53 := by
      simp only [Between] at hn
      rw [abs_le]; constructor <;> omega
    have hs : sub ⟨.i32, n⟩ ⟨.i32, 0⟩ = .ok ⟨.i32, n - 0⟩ := sub_eq (t := .i32) rfl hn (by simp [Between]) (by simpa using hn)
    unfold getDegTowards getRadTowards
    rw [hs, Outcome.bind_ok, Outcome.bind_ok]
    simp only [hct, fl64_int h53]
    have hA := ha (((n - 0 : ℤ)) : ℝ) (((n - 0 : ℤ)) : ℝ)
    rw [Int.sub_zero] at hA ⊢
    rw [harg, abs_le] at hA
    have p1 := Real.pi_gt_three
    have p2 := Real.pi_lt_d2
    rw [toInt_nonneg (r := 0) le_rfl (by simp [Between]) (by push_cast; linarith [hA.1]) (by push_cast; linarith [hA.2]), Outcome.bind_ok]
    unfold toDeg
    simp only [Int.cast_zero, fl_zero, zero_div]
    exact toInt_nonneg (r := 0) le_rfl (by simp [Between]) (by simp) (by simp)
  · rw [harg]
    have := Real.pi_pos
    field_simp
    norm_num

/-- **C143 fails for unsigned coordinates.** From `(1, 0)` towards the origin the direction is half a turn; with `unsigned`
coordinates the difference wraps, and the result is 0. -/
theorem C143_unsigned_fails {ε : ℝ} {atan2 : ℝ → ℝ → ℝ} (ha : Atan2 ε atan2) (hε : ε ≤ 1 / 10) :
    getRadTowards atan2 ⟨.u32, 1⟩ ⟨.u32, 0⟩ ⟨.u32, 0⟩ ⟨.u32, 0⟩ = .ok ⟨.u32, 0⟩ ∧ Complex.arg ⟨0 - 1, 0 - 0⟩ = Real.pi := by
  constructor
  · have h1 : sub ⟨.u32, 0⟩ ⟨.u32, 0⟩ = .ok ⟨.u32, 0⟩ := by decide
    have h2 : sub ⟨.u32, 0⟩ ⟨.u32, 1⟩ = .ok ⟨.u32, 4294967295⟩ := by decide
    have hct : commonType (commonType (commonType .u32 .u32) .u32) .u32 = .u32 := rfl
    unfold getRadTowards
    rw [h1, Outcome.bind_ok, h2, Outcome.bind_ok]
    simp only [hct, Int.cast_zero, fl_zero]
    rw [fl64_int (by norm_num)]
    have hA := ha 0 ((4294967295 : ℤ) : ℝ)
    have harg : Complex.arg ⟨((4294967295 : ℤ) : ℝ), 0⟩ = 0 := by
      have : (⟨((4294967295 : ℤ) : ℝ), 0⟩ : ℂ) = (((4294967295 : ℤ) : ℝ) : ℂ) := rfl
      rw [this, Complex.arg_ofReal_of_nonneg (by norm_num)]
    rw [harg, sub_zero, abs_le] at hA
    rcases le_total 0 (atan2 0 ((4294967295 : ℤ) : ℝ)) with h0 | h0
    · exact toInt_nonneg (r := 0) le_rfl (by simp [Between]) (by push_cast at h0 ⊢; linarith) (by have := hA.2; push_cast at this ⊢; linarith)
    · exact toInt_neg (r := 0) le_rfl (by simp [Between]) (by push_cast at h0 ⊢; linarith) (by have := hA.1; push_cast at this ⊢; linarith)
  · have : (⟨0 - 1, 0 - 0⟩ : ℂ) = -1 := by apply Complex.ext <;> simp
    rw [this, Complex.arg_neg_one]

/-! ## Units, and wrapping and distances in radians -/

theorem fl32_err {x c : ℝ} (h : |x| ≤ c) : |binary32.fl x - x| ≤ c / 2 ^ 24 + 1 / 2 ^ 20 := by
  have hc : 0 ≤ c := (abs_nonneg x).trans h
  have hu : Ieee.Spec.unit binary32 = 1 / 2 ^ 24 := by norm_num [Ieee.Spec.unit, binary32]
  rcases fl_err binary32 x with q | q
  · refine q.trans ?_
    rw [hu]
    have : (0 : ℝ) < 1 / 2 ^ 20 := by positivity
    nlinarith
  · refine q.trans ?_
    have h1 := two_mono (show binary32.qmin ≤ -20 by norm_num [binary32])
    have h2 : (2 : ℝ) ^ (-20 : ℤ) = 1 / 2 ^ 20 := by norm_num
    have h3 : 0 ≤ c / 2 ^ 24 := by positivity
    have h4 := two_pos binary32.qmin
    rw [h2] at h1
    linarith

/-- **C143, units.** An integer number of degrees is converted to radians up to less than one and a tenth; all angles up to 57
degrees become 0. -/
theorem C143_toRad (k : Consts) (hk1 : 17453 / 1000000 ≤ k.ratio) (hk2 : k.ratio ≤ 17454 / 1000000) (t : ITy) (n : ℤ)
    (hb : Between t n) (hn : |n| ≤ 2 ^ 24) :
    ∃ r : ℤ, toRad k ⟨t, n⟩ = .ok ⟨t, r⟩ ∧ |(r : ℝ) - n * k.ratio| < 1 + 1 / 10 ∧ (|n| ≤ 57 → r = 0) := by
  have hk0 : 0 < k.ratio := by linarith
  have hn' : |(n : ℝ)| ≤ 2 ^ 24 := by exact_mod_cast hn
  have hx : |(n : ℝ) * k.ratio| ≤ 2 ^ 20 := by
    rw [abs_mul, abs_of_pos hk0]
    have := abs_nonneg (n : ℝ)
    nlinarith
  have he := fl32_err hx
  set y := binary32.fl ((n : ℝ) * k.ratio) with hy
  have hrun : toRad k ⟨t, n⟩ = toInt t y := by
    unfold toRad
    rw [fl32_int hn]
  -- between 0 and `n`
  have hsgn : (0 ≤ n → 0 ≤ y ∧ y ≤ n) ∧ (n ≤ 0 → y ≤ 0 ∧ (n : ℝ) ≤ y) := by
    have mono := fl_mono (F := binary32) (by norm_num [binary32])
    constructor
    · intro h0
      have h0' : (0 : ℝ) ≤ n := by exact_mod_cast h0
      have a1 := mono (show 0 ≤ (n : ℝ) * k.ratio by positivity)
      have a2 := mono (show (n : ℝ) * k.ratio ≤ n by nlinarith)
      rw [fl_zero] at a1
      rw [fl32_int hn] at a2
      exact ⟨a1, a2⟩
    · intro h0
      have h0' : (n : ℝ) ≤ 0 := by exact_mod_cast h0
      have a1 := mono (show (n : ℝ) * k.ratio ≤ 0 by nlinarith)
      have a2 := mono (show (n : ℝ) ≤ (n : ℝ) * k.ratio by nlinarith)
      rw [fl_zero] at a1
      rw [fl32_int hn] at a2
      exact ⟨a1, a2⟩
  have hfit : Between t (if 0 ≤ y then ⌊y⌋ else ⌈y⌉) := by
    rcases le_total 0 n with h0 | h0
    · obtain ⟨a1, a2⟩ := hsgn.1 h0
      rw [if_pos a1]
      refine between_of t 0 _ n (between_zero t) hb (Int.floor_nonneg.mpr a1) ?_
      exact_mod_cast (Int.floor_le y).trans a2
    · obtain ⟨a1, a2⟩ := hsgn.2 h0
      split
      · have : y = 0 := le_antisymm a1 ‹_›
        rw [this, Int.floor_zero]
        exact between_zero t
      · refine between_of t n _ 0 hb (between_zero t) ?_ (Int.ceil_le.mpr (by push_cast; exact a1))
        have : (n : ℝ) ≤ ⌈y⌉ := a2.trans (Int.le_ceil y)
        exact_mod_cast this
  have hok : toInt t y = .ok ⟨t, if 0 ≤ y then ⌊y⌋ else ⌈y⌉⟩ := by
    unfold toInt
    dsimp only
    rw [if_pos ((fits_iff _ _).2 hfit)]
  refine ⟨_, hrun.trans hok, ?_, ?_⟩
  · have h5 := (toInt_near _ _ _ hok).1
    have h6 := abs_add_le (((if 0 ≤ y then ⌊y⌋ else ⌈y⌉ : ℤ) : ℝ) - y) (y - (n : ℝ) * k.ratio)
    rw [sub_add_sub_cancel] at h6
    dsimp only at h5
    norm_num at he
    linarith
  · intro h57
    have h57' : |(n : ℝ)| ≤ 57 := by exact_mod_cast h57
    have hx' : |(n : ℝ) * k.ratio| ≤ 57 * (17454 / 1000000) := by
      rw [abs_mul, abs_of_pos hk0]
      have := abs_nonneg (n : ℝ)
      nlinarith
    have he' := fl32_err hx'
    have : |y| < 1 := by
      have := abs_add_le (y - (n : ℝ) * k.ratio) ((n : ℝ) * k.ratio)
      rw [sub_add_cancel] at this
      have h8 : (57 * (17454 / 1000000) / 2 ^ 24 + 1 / 2 ^ 20 : ℝ) + 57 * (17454 / 1000000) < 1 := by norm_num
      rw [← hy] at he'
      linarith
    rw [abs_lt] at this
    split
    · rw [Int.floor_eq_zero_iff]
      exact ⟨‹_›, this.2⟩
    · rw [Int.ceil_eq_zero_iff]
      exact ⟨this.1, by linarith⟩

/-- **C143, wrapping in radians.** The result is a whole number between 0 and 6 that is less than about two from an angle that is
the same as the given one. -/
theorem C143_wrap_rad (k : Consts) (hk1 : 6283 / 1000 ≤ k.tau) (hk2 : k.tau ≤ 6284 / 1000) (t : ITy) (n : ℤ) (hb : Between t n)
    (hn : |n| ≤ 2 ^ 53) :
    ∃ (r : ℤ) (s : ℝ), getWrapRad k ⟨t, n⟩ = .ok ⟨t, r⟩ ∧ 0 ≤ r ∧ r ≤ 6 ∧ Same k.tau s n ∧ |(r : ℝ) - s| < 2 + 1 / 1000 := by
  have hk0 : 0 < k.tau := by linarith
  obtain ⟨m, h1, h2, h3, h4, h5, h6⟩ := fmod_spec (x := (n : ℝ)) hk0
  have hrem : rem (binary64.fl (n : ℝ)) k.tau = m := by
    rw [fl64_int hn]
    unfold Angle.fmod at h1
    rw [if_neg hk0.ne'] at h1
    cases h1
    rfl
  have h0t := between_zero t
  have small : ∀ j : ℤ, 0 ≤ j → j ≤ 6 → Between t j := by
    intro j _ _
    cases t <;> simp only [Between] <;> omega
  by_cases hm : -1 < m
  · -- the truncated remainder is not negative
    have hq : ∃ q : ℤ, 0 ≤ q ∧ q ≤ 6 ∧ |(q : ℝ) - m| < 1 ∧ toInt t m = .ok ⟨t, q⟩ := by
      by_cases h0 : 0 ≤ m
      · have k1 : ⌊m⌋ ≤ 6 := by
          have : ⌊m⌋ < 7 := Int.floor_lt.mpr (by push_cast; linarith)
          omega
        have hbt := small ⌊m⌋ (Int.floor_nonneg.mpr h0) k1
        have e : toInt t m = .ok ⟨t, ⌊m⌋⟩ := toInt_nonneg (Int.floor_nonneg.mpr h0) hbt (Int.floor_le m) (Int.lt_floor_add_one m)
        exact ⟨_, Int.floor_nonneg.mpr h0, k1, (toInt_near _ _ _ e).1, e⟩
      · have e : toInt t m = .ok ⟨t, 0⟩ := toInt_neg le_rfl h0t (by push_cast; linarith) (by push_cast; linarith)
        exact ⟨0, le_rfl, by norm_num, (toInt_near _ _ _ e).1, e⟩
    obtain ⟨q, q0, q6, qe, qr⟩ := hq
    refine ⟨q, m, ?_, q0, q6, h2, by linarith⟩
    unfold getWrapRad
    simp only [hrem]
    rw [qr, Outcome.bind_ok]
    simp only
    rw [if_neg (by omega), fl32_int (by rw [abs_le]; constructor <;> omega), toInt_int, if_pos ((fits_iff _ _).2 (small q q0 q6))]
  · have hm' : m ≤ -1 := not_lt.mp hm
    have hn0 : n < 0 := by
      by_contra hc
      have := h5 (by exact_mod_cast not_lt.mp hc)
      linarith
    have hsg : Between t (-6) ∧ t.signed = true := by
      cases t <;> simp only [Between, ITy.signed] at hb ⊢ <;> first | omega | exact ⟨by omega, trivial⟩
    have k1 : -6 ≤ ⌈m⌉ := by
      have : -7 < ⌈m⌉ := Int.lt_ceil.mpr (by push_cast; linarith)
      omega
    have k2 : ⌈m⌉ ≤ -1 := Int.ceil_le.mpr (by push_cast; linarith)
    have k1' : (-6 : ℝ) ≤ ⌈m⌉ := by exact_mod_cast k1
    have k2' : (⌈m⌉ : ℝ) ≤ -1 := by exact_mod_cast k2
    have e : toInt t m = .ok ⟨t, ⌈m⌉⟩ := by
      have := Int.ceil_lt_add_one m
      exact toInt_neg (by omega) (between_of t (-6) _ 0 hsg.1 h0t k1 (by omega)) (Int.le_ceil m) (by linarith)
    have hx : |(⌈m⌉ : ℝ) + k.tau| ≤ 6 := by rw [abs_le]; constructor <;> linarith
    have he := fl32_err hx
    set y := binary32.fl ((⌈m⌉ : ℝ) + k.tau) with hy
    rw [abs_le] at he
    norm_num at he
    have y0 : 0 ≤ y := by linarith [he.1]
    have y6 : y < 6 := by linarith [he.2]
    have f6 : ⌊y⌋ ≤ 6 := by
      have : ⌊y⌋ < 6 := Int.floor_lt.mpr (by push_cast; linarith)
      omega
    have e2 : toInt t y = .ok ⟨t, ⌊y⌋⟩ :=
      toInt_nonneg (Int.floor_nonneg.mpr y0) (small _ (Int.floor_nonneg.mpr y0) f6) (Int.floor_le y) (Int.lt_floor_add_one y)
    refine ⟨⌊y⌋, m + k.tau, ?_, Int.floor_nonneg.mpr y0, f6, ?_, ?_⟩
    · unfold getWrapRad
      simp only [hrem]
      rw [e, Outcome.bind_ok]
      simp only
      rw [if_pos (by omega), fl32_int (by rw [abs_le]; constructor <;> omega), e2]
    · obtain ⟨j, hj⟩ := h2
      exact ⟨j + 1, by push_cast; linarith⟩
    · have a1 := Int.floor_le y
      have a2 := Int.lt_floor_add_one y
      have a3 := Int.le_ceil m
      have a4 := Int.ceil_lt_add_one m
      rw [abs_lt]
      constructor <;> linarith [he.1, he.2]

/-- **C143, distances in radians.** The distance of two `int` angles is the true one up to little more than one. -/
theorem C143_dist_rad (k : Consts) (hk1 : 3141 / 1000 ≤ k.pi) (hk2 : k.pi ≤ 3142 / 1000) (hn1 : Ieee.Spec.Num binary32 k.pi) (a b : ℤ)
    (ha : Between .i32 a) (hb : Between .i32 b) (hd : Between .i32 (a - b)) (hd' : Between .i32 |a - b|) :
    ∃ (r : ℤ) (d : ℝ), getDistRad k ⟨.i32, a⟩ ⟨.i32, b⟩ = .ok ⟨.i32, r⟩ ∧ 0 ≤ r ∧ r ≤ 3 ∧ Dist (k.pi * 2) a b d ∧
      |(r : ℝ) - d| < 1 + 1 / 1000 := by
  have hk0 : 0 < k.pi := by linarith
  obtain ⟨M, e, hM, he1, he2, hpi⟩ := hn1
  have num64 : Ieee.Spec.Num binary64 k.pi := by
    refine ⟨M, e, lt_of_lt_of_le hM (by norm_num [binary32, binary64]), ?_, ?_, hpi⟩
    · simp only [binary32, binary64] at he1 ⊢; omega
    · simp only [binary32, binary64] at he2 ⊢; omega
  have hdbl : k.pi * 2 = M * 2 ^ (e + 1) := by
    rw [hpi, zpow_add_one₀ (by norm_num)]; ring
  have num64' : Ieee.Spec.Num binary64 (k.pi * 2) := by
    refine ⟨M, e + 1, lt_of_lt_of_le hM (by norm_num [binary32, binary64]), ?_, ?_, hdbl⟩
    · simp only [binary32, binary64] at he1 ⊢; omega
    · simp only [binary32, binary64] at he2 ⊢; omega
  have f32 : binary32.fl (k.pi * 2) = k.pi * 2 :=
    fl_exact (by norm_num [binary32]) ⟨M, e + 1, hM.le, by simp only [binary32] at he1 ⊢; omega, hdbl⟩
  have numI : ∀ z : ℤ, Between .i32 z → Ieee.Spec.Num binary64 (z : ℝ) := by
    intro z hz
    simp only [Between] at hz
    exact ⟨z, 0, by rw [abs_lt]; simp only [binary64]; constructor <;> omega, by norm_num [binary64], by norm_num [binary64], by simp⟩
  have hab : |a - b| ≤ 2 ^ 53 := by
    simp only [Between] at hd
    rw [abs_le]; constructor <;> omega
  have habr : |(a : ℝ) - b| ≤ 2 ^ 33 := by
    have : |a - b| ≤ 2 ^ 33 := by
      simp only [Between] at hd
      rw [abs_le]; constructor <;> omega
    exact_mod_cast this
  have hover : ¬ Ieee.Spec.Over binary64 ((a : ℝ) - b) := by
    have := numI _ hd
    push_cast at this
    exact not_over (num_top this)
  obtain ⟨r, d, -, h2, -, h4, h5, h6, h7⟩ := Fp.dist_fin Fp.good64 hk0 num64 num64' (numI a ha) (numI b hb) hover
  have fab : binary64.fl ((a : ℝ) - b) = (a : ℝ) - b := by
    have := fl64_int (n := a - b) hab
    push_cast at this
    exact this
  have h2p : 0 < k.pi * 2 := by linarith
  have hrun : getDistRad k ⟨.i32, a⟩ ⟨.i32, b⟩ = toInt .i32 r := by
    unfold getDistRad
    have hs : Num.sub ⟨.i32, a⟩ ⟨.i32, b⟩ = .ok ⟨.i32, a - b⟩ := sub_eq (t := .i32) rfl ha hb hd
    have habs : AngleInt.abs ⟨.i32, a - b⟩ = .ok ⟨.i32, |a - b|⟩ := by
      unfold AngleInt.abs
      simp only [ITy.signed, if_true]
      split
      · have e : -(a - b) = |a - b| := by rw [abs_of_neg ‹_›]
        rw [e, result_eq _ _ hd']
      · rw [abs_of_nonneg (by omega)]
    rw [hs, Outcome.bind_ok, habs, Outcome.bind_ok]
    simp only
    rw [fl64_int (by rwa [abs_abs]), f32, h2, fab]
    unfold rem
    have hc : ((|a - b| : ℤ) : ℝ) = |(a : ℝ) - b| := by push_cast; rfl
    rw [hc, if_pos (div_nonneg (abs_nonneg _) h2p.le)]
    rfl
  have f3 : ⌊r⌋ ≤ 3 := by
    have : ⌊r⌋ < 4 := Int.floor_lt.mpr (by push_cast; linarith)
    omega
  have f0 := Int.floor_nonneg.mpr h6
  have hok : toInt .i32 r = .ok ⟨.i32, ⌊r⌋⟩ :=
    toInt_nonneg f0 (by simp only [Between]; omega) (Int.floor_le r) (Int.lt_floor_add_one r)
  refine ⟨⌊r⌋, d, hrun.trans hok, f0, f3, h4, ?_⟩
  have h8 := (toInt_near _ _ _ hok).1
  have h9 := abs_add_le ((⌊r⌋ : ℝ) - r) (r - d)
  rw [sub_add_sub_cancel] at h9
  have hu : Ieee.Spec.unit binary64 = 1 / 2 ^ 53 := by norm_num [Ieee.Spec.unit, binary64]
  rw [hu] at h5
  dsimp only at h8
  have : 1 / 2 ^ 53 * |(a : ℝ) - b| + k.pi * (1 / 2 ^ 53 + (1 / 2 ^ 53) ^ 2) ≤ 1 / 1000 := by
    have b1 : 1 / 2 ^ 53 * |(a : ℝ) - b| ≤ 1 / 2 ^ 53 * 2 ^ 33 := mul_le_mul_of_nonneg_left habr (by positivity)
    have b2 : k.pi * (1 / 2 ^ 53 + (1 / 2 ^ 53) ^ 2) ≤ 4 * (1 / 2 ^ 53 + (1 / 2 ^ 53) ^ 2) :=
      mul_le_mul_of_nonneg_right (by linarith) (by positivity)
    norm_num at b1 b2 ⊢
    linarith
  linarith

/-- The hypothesis on `atan2` is met by the exact function, those on the constants by the ones of the library. -/
theorem C143_example : Atan2 0 (fun y x => Complex.arg ⟨x, y⟩) ∧
    (17453 / 1000000 : ℝ) ≤ 0.01745329251 ∧ (0.01745329251 : ℝ) ≤ 17454 / 1000000 ∧
    Ieee.Spec.Num binary32 (13176795 / 2 ^ 22) ∧ (3141 / 1000 : ℝ) ≤ 13176795 / 2 ^ 22 ∧ (13176795 / 2 ^ 22 : ℝ) ≤ 3142 / 1000 := by
  refine ⟨fun y x => by simp, by norm_num, by norm_num,
    ⟨13176795, -22, by norm_num [binary32], by norm_num [binary32], by norm_num [binary32], by norm_num⟩, by norm_num, by norm_num⟩

end

end Verif.AngleInt
