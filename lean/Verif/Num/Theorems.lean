import Verif.Num.Lemmas
import Mathlib.Order.Defs.LinearOrder
import Mathlib.Tactic.Ring
import Mathlib.Tactic.Linarith

/-!
# Integer helpers: C41-C44, C67, C68
-/

namespace Verif.Num

open Verif

theorem uac_arith (a b : ITy) : uac a b = arith a b := by cases a <;> cases b <;> rfl

theorem assert'_true (dbg : Bool) : assert' dbg true = .ok () := by cases dbg <;> rfl

theorem uac_lit (t : ITy) : Between (uac .i32 t) 0 := between_zero _

/-- `0 < x`, `0 <= x`, `x < 0` and `x == 0` with an `int` literal are what they say, for every type. -/
theorem lt_lit (x : Val) (h : x.Valid) : lt (lit 0) x = decide (0 < x.v) := by
  obtain ⟨t, v⟩ := x
  refine lt_eq (t := uac .i32 t) rfl (between_zero _) ?_
  simp only [Val.Valid] at h
  cases t <;> simp only [uac, promote, Between] at h ⊢ <;> omega

theorem lit_lt (x : Val) (h : x.Valid) : lt x (lit 0) = decide (x.v < 0) := by
  obtain ⟨t, v⟩ := x
  refine lt_eq (t := uac t .i32) rfl ?_ (between_zero _)
  simp only [Val.Valid] at h
  cases t <;> simp only [uac, promote, Between] at h ⊢ <;> omega

theorem le_lit (x : Val) (h : x.Valid) : le (lit 0) x = decide (0 ≤ x.v) := by
  unfold le
  rw [lit_lt x h]
  by_cases h : x.v < 0
  · simp [h]
  · simp [h]; omega

theorem eq_lit (x : Val) (h : x.Valid) : eq x (lit 0) = (x.v == 0) := by
  obtain ⟨t, v⟩ := x
  refine eq_eq (t := uac t .i32) rfl ?_ (between_zero _)
  simp only [Val.Valid] at h
  cases t <;> simp only [uac, promote, Between] at h ⊢ <;> omega

theorem between_commonType (a b : ITy) (x : Int) (h : Between (arith a b) x) (h' : Between b x) :
    Between (commonType a b) x := by
  unfold commonType
  split
  · subst_vars; exact h'
  · rw [uac_arith]; exact h

/-! ## C41: `getMod` -/

theorem getMod_run (dbg : Bool) (v ub : Val) (hu : ub.Valid) (h0 : 0 < ub.v)
    (hv' : Between (arith v.ty ub.ty) v.v)
    (hs : Between (arith v.ty ub.ty) (v.v.tmod ub.v + ub.v)) :
    getMod dbg v ub = .ok ⟨commonType v.ty ub.ty, v.v % ub.v⟩ := by
  have hub : Between (uac v.ty ub.ty) ub.v := between_uac_right _ _ _ hu (by omega)
  rw [← uac_arith] at hv' hs
  obtain ⟨b1, b2, b3, b4⟩ := tmod_bounds v.v ub.v h0
  have e1 := mod_eq (a := v) (b := ub) rfl hv' hub (by omega) (between_tdiv _ _ _ hv' h0) (between_tmod _ _ _ hv' h0)
  have e2 := add_eq (a := ⟨uac v.ty ub.ty, v.v.tmod ub.v⟩) (b := ub) (t := uac v.ty ub.ty)
    (uac_idem_left _ _) (between_tmod _ _ _ hv' h0) hub hs
  have e3 := mod_eq (a := ⟨uac v.ty ub.ty, v.v.tmod ub.v + ub.v⟩) (b := ub) (t := uac v.ty ub.ty)
    (uac_idem_left _ _) hs hub (by omega) (between_tdiv _ _ _ hs h0) (between_tmod _ _ _ hs h0)
  have er : (v.v.tmod ub.v + ub.v).tmod ub.v = v.v % ub.v := by
    rw [Int.tmod_eq_emod_of_nonneg (by omega), Int.add_emod_right]
    have := Int.tdiv_mul_add_tmod v.v ub.v
    conv_rhs => rw [← this]
    rw [Int.mul_comm, Int.mul_add_emod_self_left]
  have hr0 := Int.emod_nonneg v.v (b := ub.v) (by omega)
  have hr1 := Int.emod_lt_of_pos v.v h0
  have hr : Between (uac v.ty ub.ty) (v.v % ub.v) := between_of _ 0 _ ub.v (between_zero _) hub hr0 (by omega)
  have el : le (lit 0) (⟨uac v.ty ub.ty, v.v % ub.v⟩ : Val) = true := by
    rw [le_lit (⟨uac v.ty ub.ty, v.v % ub.v⟩ : Val) hr]; simp [hr0]
  have em : lt (⟨uac v.ty ub.ty, v.v % ub.v⟩ : Val) ub = true := by
    rw [lt_eq (t := uac v.ty ub.ty) (uac_idem_left _ _) hr hub]; simp [hr1]
  unfold getMod
  simp only [lt_lit ub hu, e1, e2, e3, er, el, em, Outcome.bind_ok, Outcome.pure_eq, h0, decide_true, assert'_true,
    Bool.and_self]
  rw [conv_eq]
  exact between_commonType _ _ _ (by rw [← uac_arith]; exact hr)
    (between_of _ 0 _ ub.v (between_zero _) hu hr0 (Int.le_of_lt hr1))

/-- C41. `getMod(v, ub)`, for any mixture of integer types: provided `v` and the intermediate sum are representable in the
type of the computation, the result is the residue of `v` in `[0, ub)`; debug and release builds agree. -/
theorem C41_getMod (dbg : Bool) (v ub : Val) (hu : ub.Valid) (h0 : 0 < ub.v)
    (hv' : Between (arith v.ty ub.ty) v.v)
    (hs : Between (arith v.ty ub.ty) (v.v.tmod ub.v + ub.v)) :
    ∃ r : Val, getMod dbg v ub = .ok r ∧ IsResidue r.v v.v 0 ub.v := by
  refine ⟨_, getMod_run dbg v ub hu h0 hv' hs, ?_⟩
  refine ⟨Int.emod_nonneg _ (by omega), ?_, v.v / ub.v, ?_⟩
  · simpa using Int.emod_lt_of_pos v.v h0
  · have := Int.mul_ediv_add_emod v.v ub.v
    simp only; rw [Int.mul_comm (v.v / ub.v)]; omega

/-- C41. In particular for equal signedness it is enough that twice the modulus is representable. -/
theorem C41_getMod_half (dbg : Bool) (v ub : Val) (hv : v.Valid) (hu : ub.Valid) (h0 : 0 < ub.v)
    (hsg : v.ty = ub.ty ∨ 0 ≤ v.v)
    (hs : Between (arith v.ty ub.ty) (2 * ub.v)) :
    ∃ r : Val, getMod dbg v ub = .ok r ∧ IsResidue r.v v.v 0 ub.v := by
  obtain ⟨b1, b2, b3, b4⟩ := tmod_bounds v.v ub.v h0
  refine C41_getMod dbg v ub hu h0 ?_ (between_of _ 0 _ _ (between_zero _) hs (by omega) (by omega))
  rcases hsg with h | h
  · obtain ⟨t, v⟩ := v
    obtain ⟨t', u⟩ := ub
    simp only [Val.Valid] at h hv ⊢
    subst h
    cases t <;> simp only [arith, Between] at hv ⊢ <;> simp <;> omega
  · rw [← uac_arith]; exact between_uac_left _ _ _ hv h

/-- The hypotheses are met: a negative value and a modulus of another type. -/
example : getMod true ⟨.i32, -2⟩ ⟨.i8, 12⟩ = .ok ⟨.i32, 10⟩ ∧ IsResidue 10 (-2) 0 12 :=
  ⟨by decide, by decide, by decide, -1, by decide⟩

/-- C41, the limit of the claim (signed): if the intermediate sum is not representable, the call is undefined. -/
theorem C41_getMod_signed_overflow (dbg : Bool) (v ub : Val) (hu : ub.Valid) (h0 : 0 < ub.v)
    (hsg : arith v.ty ub.ty = .i32 ∨ arith v.ty ub.ty = .i64)
    (hv' : Between (arith v.ty ub.ty) v.v)
    (hs : ¬ Between (arith v.ty ub.ty) (v.v.tmod ub.v + ub.v)) :
    getMod dbg v ub = .ub := by
  have hub : Between (uac v.ty ub.ty) ub.v := between_uac_right _ _ _ hu (by omega)
  rw [← uac_arith] at hv' hs
  have e1 := mod_eq (a := v) (b := ub) rfl hv' hub (by omega) (between_tdiv _ _ _ hv' h0) (between_tmod _ _ _ hv' h0)
  have e2 : add ⟨uac v.ty ub.ty, v.v.tmod ub.v⟩ ub = .ub := by
    simp only [add, uac_idem_left, wrap_eq _ _ hub, wrap_eq _ _ (between_tmod _ _ _ hv' h0)]
    refine result_ub _ _ ?_ hs
    rw [uac_arith]
    rcases hsg with h | h <;> rw [h] <;> rfl
  unfold getMod
  simp only [lt_lit ub hu, e1, e2, Outcome.bind_ok, h0, decide_true, assert'_true, Outcome.bind_ub]

example : getMod true ⟨.i32, 2147483646⟩ ⟨.i32, 2147483647⟩ = .ub := by decide

/-- C41, the limit of the claim (unsigned): if the intermediate sum wraps, the result is never the residue. -/
theorem C41_getMod_unsigned_overflow (dbg : Bool) (v ub : Val) (hu : ub.Valid) (h0 : 0 < ub.v)
    (hsg : arith v.ty ub.ty = .u32 ∨ arith v.ty ub.ty = .u64)
    (hv' : Between (arith v.ty ub.ty) v.v)
    (hs : ¬ Between (arith v.ty ub.ty) (v.v.tmod ub.v + ub.v)) :
    ∃ r : Val, getMod dbg v ub = .ok r ∧ ¬ IsResidue r.v v.v 0 ub.v := by
  have hub : Between (uac v.ty ub.ty) ub.v := between_uac_right _ _ _ hu (by omega)
  rw [← uac_arith] at hv' hs hsg
  obtain ⟨b1, b2, b3, b4⟩ := tmod_bounds v.v ub.v h0
  have e1 := mod_eq (a := v) (b := ub) rfl hv' hub (by omega) (between_tdiv _ _ _ hv' h0) (between_tmod _ _ _ hv' h0)
  generalize ht : uac v.ty ub.ty = t at *
  have hm := between_tmod _ _ _ hv' h0
  have hv0 : 0 ≤ v.v := by rcases hsg with h | h <;> rw [h] at hv' <;> simp only [Between] at hv' <;> omega
  have b5 := b1 hv0
  have hr0 := Int.emod_nonneg v.v (b := ub.v) (by omega)
  have hr1 := Int.emod_lt_of_pos v.v h0
  have hti : uac t ub.ty = t := by rw [← ht]; exact uac_idem_left _ _
  obtain ⟨s, hs1, hs2, hs3⟩ : ∃ s : Int, add ⟨t, v.v.tmod ub.v⟩ ub = .ok ⟨t, s⟩ ∧ 0 ≤ s ∧ s < v.v % ub.v := by
    simp only [add, hti, wrap_eq _ _ hub, wrap_eq _ _ hm]
    rw [b5]
    rcases hsg with h | h <;> subst h
    · refine ⟨v.v % ub.v + ub.v - 4294967296, ?_, ?_, ?_⟩
      · simp only [Between] at hs hub hm
        simp only [result, ITy.signed, Bool.false_eq_true, if_false, wrap, ITy.min, ITy.count, Outcome.ok.injEq,
          Val.mk.injEq, true_and]
        generalize v.v % ub.v = r at *
        omega
      · simp only [Between] at hs hub hm; omega
      · simp only [Between] at hs hub hm; omega
    · refine ⟨v.v % ub.v + ub.v - 18446744073709551616, ?_, ?_, ?_⟩
      · simp only [Between] at hs hub hm
        simp only [result, ITy.signed, Bool.false_eq_true, if_false, wrap, ITy.min, ITy.count, Outcome.ok.injEq,
          Val.mk.injEq, true_and]
        generalize v.v % ub.v = r at *
        omega
      · simp only [Between] at hs hub hm; omega
      · simp only [Between] at hs hub hm; omega
  have hsb : Between t s := between_of _ 0 _ ub.v (between_zero _) hub hs2 (by omega)
  have e3 := mod_eq (a := ⟨t, s⟩) (b := ub) (t := t) hti hsb hub (by omega)
    (between_tdiv _ _ _ hsb h0) (between_tmod _ _ _ hsb h0)
  have er : s.tmod ub.v = s := by
    rw [Int.tmod_eq_emod_of_nonneg hs2, Int.emod_eq_of_lt hs2 (by omega)]
  have el : le (lit 0) (⟨t, s⟩ : Val) = true := by
    rw [le_lit (⟨t, s⟩ : Val) hsb]; simp [hs2]
  have em : lt (⟨t, s⟩ : Val) ub = true := by
    have hlt : s < ub.v := by omega
    rw [lt_eq (t := t) hti hsb hub]; simp [hlt]
  refine ⟨conv (commonType v.ty ub.ty) ⟨t, s⟩, ?_, ?_⟩
  · unfold getMod
    simp only [lt_lit ub hu, e1, hs1, e3, er, el, em, Outcome.bind_ok, Outcome.pure_eq, h0, decide_true, assert'_true,
      Bool.and_self]
  · rw [conv_eq _ _ (between_commonType _ _ _ (by rw [← uac_arith, ht]; exact hsb)
      (between_of _ 0 _ ub.v (between_zero _) hu hs2 (show s ≤ ub.v by omega)))]
    rintro ⟨_, _, k, hk⟩
    simp only at hk
    have h1 : v.v % ub.v = s % ub.v := by rw [hk, Int.add_mul_emod_self_right]
    rw [Int.emod_eq_of_lt hs2 (by omega)] at h1
    omega

example : getMod true ⟨.u32, 4000000000⟩ ⟨.u32, 4294967295⟩ = .ok ⟨.u32, 3999999999⟩ := by decide

/-- C41, the limit of the claim (mixed signedness): a negative value is converted first. -/
theorem C41_getMod_mixed_sign : getMod true ⟨.i32, -1⟩ ⟨.u32, 3⟩ = .ok ⟨.u32, 0⟩ ∧ ¬ IsResidue 0 (-1) 0 3 := by
  refine ⟨by decide, ?_⟩
  rintro ⟨_, _, k, hk⟩
  omega

theorem arith₃_mid (a b c : ITy) : uac (uac b a) (uac c b) = arith (arith a b) c := by
  cases a <;> cases b <;> cases c <;> rfl
theorem arith₃_mid' (a b c : ITy) : uac (uac a b) (uac c b) = arith (arith a b) c := by
  cases a <;> cases b <;> cases c <;> rfl
theorem arith₃_lit (a b c : ITy) : uac (arith (arith a b) c) .i32 = arith (arith a b) c := by
  cases a <;> cases b <;> cases c <;> rfl
theorem arith₃_range (a b c : ITy) : uac (uac c b) (arith (arith a b) c) = arith (arith a b) c := by
  cases a <;> cases b <;> cases c <;> rfl
theorem arith₃_fst (a b c : ITy) : uac a (arith (arith a b) c) = arith (arith a b) c := by
  cases a <;> cases b <;> cases c <;> rfl
theorem arith₃_snd (a b c : ITy) : uac b (arith (arith a b) c) = arith (arith a b) c := by
  cases a <;> cases b <;> cases c <;> rfl
theorem arith_self_left (a c : ITy) : arith (arith a a) c = arith a c := by
  cases a <;> cases c <;> rfl

theorem between_common₃ (a b c : ITy) (x : Int) (h : Everywhere a b c x) (h' : Between b x ∨ Between c x) :
    (a = b ∧ b = c) ∨ Between (commonType (commonType a b) c) x := by
  obtain ⟨h1, h2, h3⟩ := h
  by_cases hab : a = b
  · subst hab
    by_cases hac : a = c
    · exact .inl ⟨rfl, hac⟩
    · right
      simp only [commonType, if_true, if_neg hac, uac_arith]
      rw [← arith_self_left]; exact h3
  · right
    by_cases hc : arith a b = c
    · simp only [commonType, if_neg hab, uac_arith, if_pos hc]; exact h1
    · simp only [commonType, if_neg hab, uac_arith, if_neg hc]; exact h3

theorem lift_bounds (n d : Int) (hn : 0 < n) (hd : 0 ≤ d) :
    d < n * (d / n + 1) ∧ n * (d / n + 1) ≤ d + n ∧ 0 ≤ d / n ∧ d / n + 1 ≤ n * (d / n + 1) := by
  have h1 := Int.mul_ediv_add_emod d n
  have h2 := Int.emod_nonneg d (b := n) (by omega)
  have h3 := Int.emod_lt_of_pos d hn
  have h4 : 0 ≤ d / n := Int.ediv_nonneg hd (by omega)
  have h5 : n * (d / n + 1) = n * (d / n) + n := by ring
  refine ⟨by omega, by omega, h4, ?_⟩
  nlinarith

/-- `liftVal` adds a multiple of the range size that takes the value into `[lb, ub]`. -/
theorem liftVal_run (v lb ub : Val) (hvv : v.Valid) (hlt : lb.v < ub.v)
    (hv : Everywhere v.ty lb.ty ub.ty v.v) (hl : Everywhere v.ty lb.ty ub.ty lb.v)
    (hu : Everywhere v.ty lb.ty ub.ty ub.v) (huv : v.v < lb.v → Between v.ty ub.v)
    (hn : Everywhere v.ty lb.ty ub.ty (ub.v - lb.v))
    (h1 : v.v < lb.v → Everywhere v.ty lb.ty ub.ty (ub.v - v.v)) :
    ∃ (w : Int) (k : Int), liftVal v lb ⟨uac ub.ty lb.ty, ub.v - lb.v⟩ = .ok ⟨v.ty, w⟩ ∧ w = v.v + (ub.v - lb.v) * k ∧
      lb.v ≤ w ∧ (v.v < lb.v → w ≤ ub.v) ∧ (lb.v ≤ v.v → w = v.v) := by
  have eA : uac ub.ty lb.ty = arith lb.ty ub.ty := by rw [uac_comm, uac_arith]
  have hn0 : 0 < ub.v - lb.v := by omega
  have elt := lt_eq (a := v) (b := lb) (t := arith v.ty lb.ty) (uac_arith _ _) hv.1 hl.1
  unfold liftVal
  rw [elt]
  by_cases hc : v.v < lb.v
  · simp only [hc, decide_true, if_true]
    have hz : ∀ t : ITy, Between t 0 := between_zero
    have huv' := h1 hc
    have e1 := sub_eq (a := lb) (b := v) (t := arith v.ty lb.ty) (by rw [uac_comm]; exact uac_arith _ _) hl.1 hv.1
      (between_of _ 0 _ (ub.v - v.v) (hz _) huv'.1 (by omega) (by omega))
    obtain ⟨b1, b2, b3, b4⟩ := lift_bounds (ub.v - lb.v) (lb.v - v.v) hn0 (by omega)
    have hd : Between (arith (arith v.ty lb.ty) ub.ty) (lb.v - v.v) :=
      between_of _ 0 _ (ub.v - v.v) (hz _) huv'.2.2 (by omega) (by omega)
    have hdiv : (lb.v - v.v).tdiv (ub.v - lb.v) = (lb.v - v.v) / (ub.v - lb.v) :=
      Int.tdiv_eq_ediv_of_nonneg (by omega)
    have e2 := div_eq (a := ⟨arith v.ty lb.ty, lb.v - v.v⟩) (b := ⟨uac ub.ty lb.ty, ub.v - lb.v⟩)
      (t := arith (arith v.ty lb.ty) ub.ty) (by
        have := arith₃_mid' v.ty lb.ty ub.ty; rw [uac_arith v.ty] at this; exact this) hd hn.2.2
      (show ub.v - lb.v ≠ 0 by omega) (between_tdiv _ _ _ hd hn0)
    simp only [hdiv] at e2
    generalize hq : (lb.v - v.v) / (ub.v - lb.v) = q at *
    have hq1 : Between (arith (arith v.ty lb.ty) ub.ty) (q + 1) :=
      between_of _ 0 _ (ub.v - v.v) (hz _) huv'.2.2 (by omega) (by omega)
    have hq0 : Between (arith (arith v.ty lb.ty) ub.ty) q :=
      between_of _ 0 _ (ub.v - v.v) (hz _) huv'.2.2 (by omega) (by omega)
    have e3 := add_eq (a := ⟨arith (arith v.ty lb.ty) ub.ty, q⟩) (b := lit 1)
      (t := arith (arith v.ty lb.ty) ub.ty) (arith₃_lit _ _ _) hq0
      (between_of _ 0 _ (q + 1) (hz _) hq1 (by decide) (show (1 : Int) ≤ q + 1 by omega)) hq1
    simp only [lit] at e3
    have hp : Between (arith (arith v.ty lb.ty) ub.ty) ((ub.v - lb.v) * (q + 1)) :=
      between_of _ 0 _ (ub.v - v.v) (hz _) huv'.2.2 (by omega) (by omega)
    have e4 := mul_eq (a := ⟨uac ub.ty lb.ty, ub.v - lb.v⟩) (b := ⟨arith (arith v.ty lb.ty) ub.ty, q + 1⟩)
      (t := arith (arith v.ty lb.ty) ub.ty) (arith₃_range _ _ _) hn.2.2 hq1 hp
    have e5 := add_eq (a := v) (b := ⟨arith (arith v.ty lb.ty) ub.ty, (ub.v - lb.v) * (q + 1)⟩)
      (t := arith (arith v.ty lb.ty) ub.ty) (arith₃_fst _ _ _) hv.2.2 hp
      (between_of _ v.v _ ub.v hv.2.2 hu.2.2 (show v.v ≤ v.v + (ub.v - lb.v) * (q + 1) by omega)
        (show v.v + (ub.v - lb.v) * (q + 1) ≤ ub.v by omega))
    simp only [e1, e2, lit, e3, e4, e5, Outcome.bind_ok, Outcome.pure_eq]
    rw [conv_eq _ _ (between_of _ v.v _ ub.v hvv (huv hc) (show v.v ≤ v.v + (ub.v - lb.v) * (q + 1) by omega)
        (show v.v + (ub.v - lb.v) * (q + 1) ≤ ub.v by omega))]
    exact ⟨v.v + (ub.v - lb.v) * (q + 1), q + 1, rfl, rfl, by omega, fun _ => by omega, fun h => by omega⟩
  · simp only [hc, decide_false, Bool.false_eq_true, if_false, Outcome.pure_eq]
    exact ⟨v.v, 0, rfl, by omega, by omega, fun h => by first | exact h.elim | exact absurd h hc, fun _ => rfl⟩

theorem assertRange_run (dbg : Bool) (t : ITy) (n : Int) (ht : Wide t) (h0 : 0 < n) (h : Between t n)
    (hd : dbg = true → Between t (n + 1)) : assertRange dbg ⟨t, n⟩ = .ok () := by
  unfold assertRange
  cases dbg
  · rfl
  · have h1 := hd rfl
    have e0 : lt (lit 0) ⟨t, n⟩ = true := by rw [lt_lit ⟨t, n⟩ h]; simp [h0]
    have hu : uac t .i32 = t := by rcases ht with rfl | rfl | rfl | rfl <;> rfl
    have e1 := add_eq (a := ⟨t, n⟩) (b := lit 1) (t := t) hu h
      (between_of _ 0 _ n (between_zero _) h (by decide) (by simp only [lit]; omega)) h1
    have e2 : eq (⟨t, n + 1⟩ : Val) (lit 0) = false := by
      rw [eq_lit ⟨t, n + 1⟩ h1]; simp; omega
    simp only [lit] at e0 e1 e2
    simp [e0, lit, e1, e2]

theorem wide_uac (a b : ITy) : Wide (uac a b) := by cases a <;> cases b <;> decide

/-- C41. `getMod(v, lb, ub)`, for any mixture of integer types: provided the bounds, the value, the size of the range and the
distance from the value to the range are representable where they are computed, the result is the residue of `v` in
`[lb, ub)`. -/
theorem C41_getModRange (dbg : Bool) (v lb ub : Val) (hvv : v.Valid) (hlv : lb.Valid) (huv : ub.Valid)
    (hlt : lb.v < ub.v)
    (hv : Everywhere v.ty lb.ty ub.ty v.v) (hl : Everywhere v.ty lb.ty ub.ty lb.v)
    (hu : Everywhere v.ty lb.ty ub.ty ub.v) (hut : v.v < lb.v → Between v.ty ub.v)
    (hn : Everywhere v.ty lb.ty ub.ty (ub.v - lb.v))
    (hd : dbg = true → Between (arith lb.ty ub.ty) (ub.v - lb.v + 1))
    (h1 : v.v < lb.v → Everywhere v.ty lb.ty ub.ty (ub.v - v.v))
    (h2 : lb.v ≤ v.v → Everywhere v.ty lb.ty ub.ty (v.v - lb.v)) :
    ∃ r : Val, getModRange dbg v lb ub = .ok r ∧ IsResidue r.v v.v lb.v (ub.v - lb.v) := by
  have eA : uac ub.ty lb.ty = arith lb.ty ub.ty := by rw [uac_comm, uac_arith]
  have hn0 : 0 < ub.v - lb.v := by omega
  obtain ⟨w, k, ew, hw, hw1, hw2, hw3⟩ := liftVal_run v lb ub hvv hlt hv hl hu hut hn h1
  have e0 := lt_eq (a := lb) (b := ub) (t := arith lb.ty ub.ty) (uac_arith _ _) hl.2.1 hu.2.1
  have e1 := sub_eq (a := ub) (b := lb) (t := uac ub.ty lb.ty) rfl (by rw [eA]; exact hu.2.1) (by rw [eA]; exact hl.2.1)
    (by rw [eA]; exact hn.2.1)
  have e2 := assertRange_run dbg (uac ub.ty lb.ty) (ub.v - lb.v) (wide_uac _ _) hn0 (by rw [eA]; exact hn.2.1)
    (by rw [eA]; exact hd)
  have hwE : Everywhere v.ty lb.ty ub.ty w ∧ Everywhere v.ty lb.ty ub.ty (w - lb.v) := by
    by_cases hc : v.v < lb.v
    · have := hw2 hc
      exact ⟨⟨between_of _ _ _ _ hl.1 hu.1 (by omega) this, between_of _ _ _ _ hl.2.1 hu.2.1 (by omega) this,
        between_of _ _ _ _ hl.2.2 hu.2.2 (by omega) this⟩,
        ⟨between_of _ 0 _ _ (between_zero _) hn.1 (by omega) (by omega),
          between_of _ 0 _ _ (between_zero _) hn.2.1 (by omega) (by omega),
          between_of _ 0 _ _ (between_zero _) hn.2.2 (by omega) (by omega)⟩⟩
    · rw [hw3 (by omega)]
      exact ⟨hv, h2 (by omega)⟩
  have e3 := sub_eq (a := ⟨v.ty, w⟩) (b := lb) (t := uac v.ty lb.ty) rfl (by rw [uac_arith]; exact hwE.1.1)
    (by rw [uac_arith]; exact hl.1) (by rw [uac_arith]; exact hwE.2.1)
  have e4 := mod_eq (a := ⟨uac v.ty lb.ty, w - lb.v⟩) (b := ⟨uac ub.ty lb.ty, ub.v - lb.v⟩)
    (t := arith (arith v.ty lb.ty) ub.ty) (arith₃_mid' _ _ _) hwE.2.2.2 hn.2.2 (show ub.v - lb.v ≠ 0 by omega)
    (between_tdiv _ _ _ hwE.2.2.2 hn0) (between_tmod _ _ _ hwE.2.2.2 hn0)
  have em : (w - lb.v).tmod (ub.v - lb.v) = (w - lb.v) % (ub.v - lb.v) := Int.tmod_eq_emod_of_nonneg (by omega)
  simp only [em] at e4
  have m0 := Int.emod_nonneg (w - lb.v) (b := ub.v - lb.v) (by omega)
  have m1 := Int.emod_lt_of_pos (w - lb.v) hn0
  have m2 := Int.mul_ediv_add_emod (w - lb.v) (ub.v - lb.v)
  generalize hm : (w - lb.v) % (ub.v - lb.v) = m at *
  have e5 := add_eq (a := lb) (b := ⟨arith (arith v.ty lb.ty) ub.ty, m⟩) (t := arith (arith v.ty lb.ty) ub.ty)
    (arith₃_snd _ _ _) hl.2.2 (between_of _ 0 _ _ (between_zero _) hn.2.2 m0 (show m ≤ ub.v - lb.v by omega))
    (between_of _ lb.v _ ub.v hl.2.2 hu.2.2 (show lb.v ≤ lb.v + m by omega) (show lb.v + m ≤ ub.v by omega))
  have hfin : Between (commonType (commonType v.ty lb.ty) ub.ty) (lb.v + m) := by
    rcases between_common₃ v.ty lb.ty ub.ty lb.v hl (.inl hlv) with ⟨ha, hb⟩ | hL
    · rw [ha, hb]
      simp only [commonType, if_true]
      exact between_of _ lb.v _ ub.v (by rw [← hb]; exact hlv) huv (by omega) (by omega)
    · rcases between_common₃ v.ty lb.ty ub.ty ub.v hu (.inr huv) with ⟨ha, hb⟩ | hU
      · rw [ha, hb] at hL ⊢
        simp only [commonType, if_true] at hL ⊢
        exact between_of _ lb.v _ ub.v hL huv (by omega) (by omega)
      · exact between_of _ lb.v _ ub.v hL hU (by omega) (by omega)
  refine ⟨⟨commonType (commonType v.ty lb.ty) ub.ty, lb.v + m⟩, ?_, ?_, ?_, ?_⟩
  · unfold getModRange
    simp only [e0, hlt, decide_true, assert'_true, Outcome.bind_ok, e1, e2, ew, e3, e4, e5, Outcome.pure_eq]
    rw [conv_eq _ _ hfin]
  · show lb.v ≤ lb.v + m; omega
  · show lb.v + m < lb.v + (ub.v - lb.v); omega
  · refine ⟨(w - lb.v) / (ub.v - lb.v) - k, ?_⟩
    generalize (w - lb.v) / (ub.v - lb.v) = j at *
    show v.v = lb.v + m + (j - k) * (ub.v - lb.v)
    subst hw
    generalize ub.v - lb.v = n at *
    have : (j - k) * n = n * j - n * k := by ring
    omega

/-- C41. For three values of one unsigned type nothing more has to be assumed, except in a debug build that the range is not
the whole type. -/
theorem C41_getModRange_unsigned (dbg : Bool) (t : ITy) (v lb ub : Int)
    (ht : t = .u8 ∨ t = .u16 ∨ t = .u32 ∨ t = .u64)
    (hv : Between t v) (hl : Between t lb) (hu : Between t ub) (hlt : lb < ub)
    (hd : dbg = true → Between (arith t t) (ub - lb + 1)) :
    ∃ r : Val, getModRange dbg ⟨t, v⟩ ⟨t, lb⟩ ⟨t, ub⟩ = .ok r ∧ IsResidue r.v v lb (ub - lb) := by
  have key : ∀ x, Between t x → Everywhere t t t x := by
    intro x hx
    rcases ht with rfl | rfl | rfl | rfl <;> simp only [Between] at hx <;>
      refine ⟨?_, ?_, ?_⟩ <;> simp only [arith] <;> simp [Between] <;> omega
  refine C41_getModRange dbg ⟨t, v⟩ ⟨t, lb⟩ ⟨t, ub⟩ hv hl hu hlt (key _ hv) (key _ hl) (key _ hu) (fun _ => hu)
    (key _ ?_) hd (fun h => key _ ?_) (fun h => key _ ?_)
  all_goals rcases ht with rfl | rfl | rfl | rfl
  all_goals simp only [Between] at hv hl hu ⊢
  all_goals try simp only at h
  all_goals omega

example : getModRange true ⟨.i32, -2⟩ ⟨.i32, 0⟩ ⟨.i32, 12⟩ = .ok ⟨.i32, 10⟩ ∧
    getModRange true ⟨.u8, 7⟩ ⟨.u8, 100⟩ ⟨.u8, 110⟩ = .ok ⟨.u8, 107⟩ ∧
    Everywhere .i32 .i32 .i32 (12 - -2) := by decide

/-- C41, the limit of the claim: with operands of different signedness the comparison converts them first. -/
theorem C41_getModRange_mixed_sign : getModRange true ⟨.i32, -2⟩ ⟨.u32, 0⟩ ⟨.u32, 12⟩ = .ok ⟨.u32, 2⟩ ∧
    ¬ IsResidue 2 (-2) 0 12 := by
  refine ⟨by decide, ?_⟩
  rintro ⟨_, _, k, hk⟩
  omega

/-! ## C42: `getByModIdx` -/

/-- What `getMod` computes for an index of any type and a container size. -/
theorem getMod_size (dbg : Bool) (idx : Val) (n : Nat) (hi : idx.Valid) (h0 : 0 < n) (hn : n < 2 ^ 63) :
    getMod dbg idx ⟨.u64, n⟩ = .ok ⟨.u64, (if idx.v < 0 then idx.v + 2 ^ 64 else idx.v) % n⟩ := by
  have ew : wrap .u64 idx.v = if idx.v < 0 then idx.v + 2 ^ 64 else idx.v := by
    obtain ⟨t, x⟩ := idx
    simp only [Val.Valid] at hi
    show wrap .u64 x = if x < 0 then x + 2 ^ 64 else x
    split
    · cases t <;> simp only [Between, wrap, ITy.min, ITy.count] at hi ⊢ <;> omega
    · cases t <;> simp only [Between, wrap, ITy.min, ITy.count] at hi ⊢ <;> omega
  have hx : Between .u64 (wrap .u64 idx.v) := wrap_between _ _
  have e : getMod dbg idx ⟨.u64, n⟩ = getMod dbg ⟨.u64, wrap .u64 idx.v⟩ ⟨.u64, n⟩ := by
    have hu : uac idx.ty .u64 = .u64 := by cases idx.ty <;> rfl
    have hu' : uac ITy.u64 .u64 = .u64 := rfl
    have hc : commonType idx.ty .u64 = .u64 := by cases idx.ty <;> rfl
    have hc' : commonType ITy.u64 .u64 = .u64 := rfl
    unfold getMod
    simp only [mod, hu, hu', hc, hc', wrap_eq _ _ hx]
  rw [e, getMod_run dbg ⟨.u64, wrap .u64 idx.v⟩ ⟨.u64, n⟩ ?_ (by simp only; omega) ?_ ?_, ew]
  · rfl
  · simp only [Val.Valid, Between]; omega
  · show Between (arith .u64 .u64) _; simpa [arith] using hx
  · show Between (arith .u64 .u64) _
    obtain ⟨b1, b2, b3, b4⟩ := tmod_bounds (wrap .u64 idx.v) n (by omega)
    have h1 : 0 ≤ wrap .u64 idx.v := hx.1
    have := b1 h1
    have := Int.emod_nonneg (wrap .u64 idx.v) (b := n) (by omega)
    simp [arith, Between]; omega

theorem getByModIdx_run {α : Type} (dbg : Bool) (c : List α) (idx : Val) (hi : idx.Valid) (h0 : c ≠ [])
    (hn : c.length < 2 ^ 63) :
    ∃ (j : Nat) (a : α), (j : Int) = (if idx.v < 0 then idx.v + 2 ^ 64 else idx.v) % c.length ∧ c[j]? = some a ∧
      getByModIdx dbg c idx = .ok a ∧ getByModIdxConst dbg c idx = .ok a := by
  have hpos : 0 < c.length := List.length_pos_iff.2 h0
  have e := getMod_size dbg idx c.length hi hpos hn
  have m0 := Int.emod_nonneg (if idx.v < 0 then idx.v + 2 ^ 64 else idx.v) (b := c.length) (by omega)
  have m1 := Int.emod_lt_of_pos (if idx.v < 0 then idx.v + 2 ^ 64 else idx.v) (b := c.length) (by omega)
  generalize hm : (if idx.v < 0 then idx.v + 2 ^ 64 else idx.v) % (c.length : Int) = m at *
  have hj : m.toNat < c.length := by omega
  refine ⟨m.toNat, c[m.toNat], by omega, by simp [hj], ?_, ?_⟩
  · simp [getByModIdx, sizeOf, e, hj]
  · simp [getByModIdxConst, sizeOf, e, hj]

/-- C42, non-negative indices of any type: both overloads give the element at the index modulo the size. -/
theorem C42_nonneg_partial {α : Type} (dbg : Bool) (c : List α) (idx : Val) (hi : idx.Valid) (h0 : c ≠ [])
    (hn : c.length < 2 ^ 63) (hpos : 0 ≤ idx.v) :
    ∃ (j : Nat) (a : α), IsResidue j idx.v 0 c.length ∧ c[j]? = some a ∧
      getByModIdx dbg c idx = .ok a ∧ getByModIdxConst dbg c idx = .ok a := by
  obtain ⟨j, a, hj, ha, e1, e2⟩ := getByModIdx_run dbg c idx hi h0 hn
  rw [if_neg (by omega)] at hj
  have hl : 0 < c.length := List.length_pos_iff.2 h0
  refine ⟨j, a, ⟨by omega, ?_, idx.v / c.length, ?_⟩, ha, e1, e2⟩
  · have := Int.emod_lt_of_pos idx.v (b := c.length) (by omega); omega
  · have := Int.mul_ediv_add_emod idx.v c.length
    rw [Int.mul_comm (idx.v / c.length)]; omega

/-- C42 fails for negative indices: the index is converted to an unsigned type first, so the position is that of
`idx + 2^64`. It is the right one exactly when the size divides `2^64`, that is, when it is a power of two. -/
theorem C42_negative {α : Type} (dbg : Bool) (c : List α) (idx : Val) (hi : idx.Valid) (h0 : c ≠ [])
    (hn : c.length < 2 ^ 63) (hneg : idx.v < 0) :
    ∃ (j : Nat) (a : α), c[j]? = some a ∧ getByModIdx dbg c idx = .ok a ∧ getByModIdxConst dbg c idx = .ok a ∧
      IsResidue j (idx.v + 2 ^ 64) 0 c.length ∧
      (IsResidue j idx.v 0 c.length ↔ (c.length : Int) ∣ 2 ^ 64) := by
  obtain ⟨j, a, hj, ha, e1, e2⟩ := getByModIdx_run dbg c idx hi h0 hn
  rw [if_pos hneg] at hj
  have hl : 0 < c.length := List.length_pos_iff.2 h0
  have hlt : (j : Int) < c.length := by
    have := Int.emod_lt_of_pos (idx.v + 2 ^ 64) (b := c.length) (by omega); omega
  refine ⟨j, a, ha, e1, e2, ⟨by omega, by omega, (idx.v + 2 ^ 64) / c.length, ?_⟩, ?_⟩
  · have := Int.mul_ediv_add_emod (idx.v + 2 ^ 64) c.length
    rw [Int.mul_comm ((idx.v + 2 ^ 64) / c.length)]; omega
  · have hd : ∃ q : Int, idx.v + 2 ^ 64 = j + c.length * q :=
      ⟨(idx.v + 2 ^ 64) / c.length, by have := Int.mul_ediv_add_emod (idx.v + 2 ^ 64) c.length; omega⟩
    obtain ⟨q, hq⟩ := hd
    constructor
    · rintro ⟨_, _, k, hk⟩
      refine ⟨q - k, ?_⟩
      have : (c.length : Int) * (q - k) = c.length * q - k * c.length := by ring
      omega
    · rintro ⟨d, hd⟩
      refine ⟨by omega, by omega, q - d, ?_⟩
      have : (q - d) * (c.length : Int) = c.length * q - c.length * d := by ring
      omega

/-- C42 fails on a three-element container: index -1 gives the first element. -/
theorem C42_negative_witness : getByModIdx true [10, 20, 30] ⟨.i32, -1⟩ = .ok 10 := by decide

example : getByModIdx true [10, 20, 30] ⟨.i32, 4⟩ = .ok 20 ∧ getByModIdx true [10, 20] ⟨.i32, -1⟩ = .ok 20 := by decide

/-- An empty container: the debug build stops at the assertion, the release build divides by zero. -/
theorem C42_empty (idx : Val) : getByModIdx true ([] : List Nat) idx = .assertFail ∧
    getByModIdx false ([] : List Nat) idx = .ub := by
  constructor
  · rfl
  · have hu : uac idx.ty .u64 = .u64 := by cases idx.ty <;> rfl
    simp only [getByModIdx, getMod, assert', sizeOf, mod, hu, Outcome.bind_ok, List.length_nil]
    rfl

/-! ## C43: 2D and 3D indices -/

theorem wide_uac_self (t : ITy) (h : Wide t) : uac t t = t := by
  rcases h with rfl | rfl | rfl | rfl <;> rfl

/-- Cells of a grid: the digits of the flat index. -/
theorem digits_unique (x y cols : Int) (hx : 0 ≤ x) (hx' : x < cols) :
    (x + y * cols) / cols = y ∧ (x + y * cols) % cols = x := by
  constructor
  · rw [Int.add_mul_ediv_right _ _ (by omega), Int.ediv_eq_zero_of_lt hx hx']; omega
  · rw [Int.add_mul_emod_self_right, Int.emod_eq_of_lt hx hx']

theorem get1D2D_run (dbg : Bool) (t : ITy) (ht : Wide t) (x y cols : Int) (hx : 0 ≤ x) (hx' : x < cols) (hy : 0 ≤ y)
    (hc : Between t cols) (hfit : Between t (x + y * cols)) :
    get1DIdxFrom2D dbg ⟨t, x⟩ ⟨t, y⟩ ⟨t, cols⟩ = .ok ⟨t, x + y * cols⟩ := by
  have h1 : y ≤ y * cols := by nlinarith
  have bx : Between t x := between_of _ 0 _ _ (between_zero _) hfit hx (by omega)
  have by' : Between t y := between_of _ 0 _ _ (between_zero _) hfit hy (by omega)
  have bp : Between t (y * cols) := between_of _ 0 _ _ (between_zero _) hfit (by omega) (by omega)
  have e1 := mul_eq (a := ⟨t, y⟩) (b := ⟨t, cols⟩) (wide_uac_self t ht) by' hc bp
  have e2 := add_eq (a := ⟨t, x⟩) (b := ⟨t, y * cols⟩) (wide_uac_self t ht) bx bp hfit
  have ec : commonType (commonType t t) t = t := by simp [commonType]
  have el : le (lit 0) (⟨t, cols⟩ : Val) = true := by
    rw [le_lit (⟨t, cols⟩ : Val) hc]; simp; omega
  unfold get1DIdxFrom2D
  simp only [el, assert'_true, Outcome.bind_ok, e1, e2, ec, Outcome.pure_eq]
  rw [conv_eq _ _ hfit]

theorem get2D_run (dbg : Bool) (t : ITy) (ht : Wide t) (i cols : Int) (hi : Between t i) (hc : Between t cols)
    (h0 : 0 ≤ i) (hc0 : 0 < cols) (hd : dbg = true → 0 < i) :
    get2DIdxFrom1D dbg ⟨t, i⟩ ⟨t, cols⟩ = .ok (⟨t, i % cols⟩, ⟨t, i / cols⟩) := by
  have m0 := Int.emod_nonneg i (b := cols) (by omega)
  have m2 := Int.mul_ediv_add_emod i cols
  have hq0 : 0 ≤ i / cols := Int.ediv_nonneg h0 (by omega)
  have e1 := div_eq (a := ⟨t, i⟩) (b := ⟨t, cols⟩) (wide_uac_self t ht) hi hc (show cols ≠ 0 by omega)
    (between_tdiv _ _ _ hi hc0)
  simp only [Int.tdiv_eq_ediv_of_nonneg h0] at e1
  have bq : Between t (i / cols) := by
    have := between_tdiv t i cols hi hc0
    rwa [Int.tdiv_eq_ediv_of_nonneg h0] at this
  have hmul : i / cols * cols = cols * (i / cols) := Int.mul_comm _ _
  have hnn : 0 ≤ cols * (i / cols) := Int.mul_nonneg (by omega) hq0
  have bp : Between t (i / cols * cols) := between_of _ 0 _ _ (between_zero _) hi (by omega) (by omega)
  have e2 := mul_eq (a := ⟨t, i / cols⟩) (b := ⟨t, cols⟩) (wide_uac_self t ht) bq hc bp
  have e3 := sub_eq (a := ⟨t, i⟩) (b := ⟨t, i / cols * cols⟩) (wide_uac_self t ht) hi bp
    (show Between t (i - i / cols * cols) from between_of _ 0 _ _ (between_zero _) hi (by omega) (by omega))
  have ex : i - i / cols * cols = i % cols := by omega
  simp only [ex] at e3
  have ec : commonType t t = t := by simp [commonType]
  have ea : assert' dbg (lt (lit 0) ⟨t, i⟩ && !eq ⟨t, cols⟩ (lit 0)) = .ok () := by
    cases dbg
    · rfl
    · rw [lt_lit ⟨t, i⟩ hi, eq_lit ⟨t, cols⟩ hc]
      have := hd rfl
      have h' : cols ≠ 0 := by omega
      simp [this, beq_eq_false_iff_ne.2 h', assert']
  unfold get2DIdxFrom1D
  simp only [ea, Outcome.bind_ok, e1, ec, Outcome.pure_eq]
  rw [conv_eq _ _ bq]
  simp only [e2, e3, Outcome.bind_ok]

/-- C43, 2D, from coordinates and back (of one type not narrower than `int`): the flat index is `x + y * cols` and
converting it back gives the coordinates. A debug build refuses the cell `(0, 0)`. -/
theorem C43_2D_coordinates_partial (dbg : Bool) (t : ITy) (ht : Wide t) (x y cols : Int)
    (hx : 0 ≤ x) (hx' : x < cols) (hy : 0 ≤ y) (hc : Between t cols) (hfit : Between t (x + y * cols))
    (hd : dbg = true → 0 < x ∨ 0 < y) :
    ∃ i : Val, get1DIdxFrom2D dbg ⟨t, x⟩ ⟨t, y⟩ ⟨t, cols⟩ = .ok i ∧ i.v = x + y * cols ∧
      get2DIdxFrom1D dbg i ⟨t, cols⟩ = .ok (⟨t, x⟩, ⟨t, y⟩) := by
  refine ⟨_, get1D2D_run dbg t ht x y cols hx hx' hy hc hfit, rfl, ?_⟩
  have h1 : y ≤ y * cols := by nlinarith
  rw [get2D_run dbg t ht (x + y * cols) cols hfit hc (by omega) (by omega) (by
    intro h; rcases hd h with h | h <;> omega)]
  rw [(digits_unique x y cols hx hx').1, (digits_unique x y cols hx hx').2]

/-- C43, 2D, from the flat index and back. -/
theorem C43_2D_index_partial (dbg : Bool) (t : ITy) (ht : Wide t) (i cols : Int) (hi : Between t i)
    (hc : Between t cols) (h0 : 0 ≤ i) (hc0 : 0 < cols) (hd : dbg = true → 0 < i) :
    ∃ x y : Int, get2DIdxFrom1D dbg ⟨t, i⟩ ⟨t, cols⟩ = .ok (⟨t, x⟩, ⟨t, y⟩) ∧ 0 ≤ x ∧ x < cols ∧ 0 ≤ y ∧
      get1DIdxFrom2D dbg ⟨t, x⟩ ⟨t, y⟩ ⟨t, cols⟩ = .ok ⟨t, i⟩ := by
  have m0 := Int.emod_nonneg i (b := cols) (by omega)
  have m1 := Int.emod_lt_of_pos i hc0
  have m2 := Int.mul_ediv_add_emod i cols
  have hq0 : 0 ≤ i / cols := Int.ediv_nonneg h0 (by omega)
  have e : i % cols + i / cols * cols = i := by rw [Int.mul_comm]; omega
  refine ⟨_, _, get2D_run dbg t ht i cols hi hc h0 hc0 hd, m0, m1, hq0, ?_⟩
  rw [get1D2D_run dbg t ht _ _ cols m0 m1 hq0 hc (by rw [e]; exact hi), e]

example : Wide .i32 ∧ get1DIdxFrom2D true ⟨.i32, 2⟩ ⟨.i32, 3⟩ ⟨.i32, 5⟩ = .ok ⟨.i32, 17⟩ ∧
    get2DIdxFrom1D true ⟨.i32, 17⟩ ⟨.i32, 5⟩ = .ok (⟨.i32, 2⟩, ⟨.i32, 3⟩) := by decide +kernel

/-- C43 fails for flat index 0 in a debug build: the assertion demands a positive index. -/
theorem C43_2D_zero_debug (t : ITy) (cols : Val) : get2DIdxFrom1D true ⟨t, 0⟩ cols = .assertFail := by
  have h : lt (lit 0) (⟨t, 0⟩ : Val) = false := by
    rw [lt_lit ⟨t, 0⟩ (between_zero t)]; simp
  simp [get2DIdxFrom1D, h, assert']

theorem get1D3D_run (dbg : Bool) (t : ITy) (ht : Wide t) (x y z cols rows : Int) (hx : 0 ≤ x) (hx' : x < cols)
    (hy : 0 ≤ y) (hy' : y < rows) (hz : 0 ≤ z) (hc : Between t cols) (hr : Between t rows)
    (hfit : Between t (x + y * cols + z * cols * rows)) :
    get1DIdxFrom3D dbg ⟨t, x⟩ ⟨t, y⟩ ⟨t, z⟩ ⟨t, cols⟩ ⟨t, rows⟩ = .ok ⟨t, x + y * cols + z * cols * rows⟩ := by
  have h1 : y ≤ y * cols := by nlinarith
  have h2 : 0 ≤ z * cols := Int.mul_nonneg hz (by omega)
  have h3 : z ≤ z * cols := by nlinarith
  have h4 : z * cols ≤ z * cols * rows := by nlinarith
  have bt : ∀ w, 0 ≤ w → w ≤ x + y * cols + z * cols * rows → Between t w :=
    fun w a b => between_of _ 0 _ _ (between_zero _) hfit a b
  have e1 := mul_eq (a := ⟨t, y⟩) (b := ⟨t, cols⟩) (wide_uac_self t ht) (bt _ hy (by simp only; omega)) hc
    (bt _ (by simp only; omega) (by simp only; omega))
  have e2 := add_eq (a := ⟨t, x⟩) (b := ⟨t, y * cols⟩) (wide_uac_self t ht) (bt _ hx (by simp only; omega))
    (bt _ (by simp only; omega) (by simp only; omega)) (bt _ (by simp only; omega) (by simp only; omega))
  have e3 := mul_eq (a := ⟨t, z⟩) (b := ⟨t, cols⟩) (wide_uac_self t ht) (bt _ hz (by simp only; omega)) hc
    (bt _ (by simp only; omega) (by simp only; omega))
  have e4 := mul_eq (a := ⟨t, z * cols⟩) (b := ⟨t, rows⟩) (wide_uac_self t ht) (bt _ h2 (by simp only; omega)) hr
    (bt _ (by simp only; omega) (by simp only; omega))
  have e5 := add_eq (a := ⟨t, x + y * cols⟩) (b := ⟨t, z * cols * rows⟩) (wide_uac_self t ht)
    (bt _ (by simp only; omega) (by simp only; omega)) (bt _ (by simp only; omega) (by simp only; omega)) hfit
  have ec : commonType (commonType (commonType (commonType t t) t) t) t = t := by simp [commonType]
  have el : le (lit 0) (⟨t, cols⟩ : Val) = true := by
    rw [le_lit (⟨t, cols⟩ : Val) hc]; simp; omega
  have el' : le (lit 0) (⟨t, rows⟩ : Val) = true := by
    rw [le_lit (⟨t, rows⟩ : Val) hr]; simp; omega
  unfold get1DIdxFrom3D
  simp only [el, el', Bool.and_self, assert'_true, Outcome.bind_ok, e1, e2, e3, e4, e5, ec, Outcome.pure_eq]
  rw [conv_eq _ _ hfit]

theorem flat3 (x y z cols rows : Int) : x + y * cols + z * cols * rows = x + (y + z * rows) * cols := by ring

theorem flat3_lt (x y z cols rows depth : Int) (hx : 0 ≤ x) (hx' : x < cols) (hy : 0 ≤ y) (hy' : y < rows) (hz : 0 ≤ z)
    (hz' : z < depth) : 0 ≤ x + y * cols + z * cols * rows ∧ x + y * cols + z * cols * rows < cols * rows * depth := by
  have h1 : 0 ≤ y * cols := Int.mul_nonneg hy (by omega)
  have h2 : 0 ≤ z * cols * rows := Int.mul_nonneg (Int.mul_nonneg hz (by omega)) (by omega)
  refine ⟨by omega, ?_⟩
  have h3 : (y + 1) * cols ≤ rows * cols := Int.mul_le_mul_of_nonneg_right (by omega) (by omega)
  have h4 : (z + 1) * (cols * rows) ≤ depth * (cols * rows) :=
    Int.mul_le_mul_of_nonneg_right (by omega) (Int.mul_nonneg (by omega) (by omega))
  have e1 : (y + 1) * cols = y * cols + cols := by ring
  have e2 : (z + 1) * (cols * rows) = z * cols * rows + cols * rows := by ring
  have e3 : depth * (cols * rows) = cols * rows * depth := by ring
  have e4 : rows * cols = cols * rows := by ring
  omega

/-- C43, flat indices of the cells of a 3D grid: every cell has an index in `[0, cells)`, and every such index belongs to
exactly one cell. (With `depth = 1` and `z = 0` this is the statement for a 2D grid.) -/
theorem C43_3D_bijection (dbg : Bool) (t : ITy) (ht : Wide t) (cols rows depth : Int)
    (hc : Between t cols) (hr : Between t rows) (hc0 : 0 < cols) (hr0 : 0 < rows)
    (hfit : Between t (cols * rows * depth - 1)) :
    (∀ x y z : Int, 0 ≤ x → x < cols → 0 ≤ y → y < rows → 0 ≤ z → z < depth →
      ∃ i : Int, get1DIdxFrom3D dbg ⟨t, x⟩ ⟨t, y⟩ ⟨t, z⟩ ⟨t, cols⟩ ⟨t, rows⟩ = .ok ⟨t, i⟩ ∧
        0 ≤ i ∧ i < cols * rows * depth) ∧
    (∀ i : Int, 0 ≤ i → i < cols * rows * depth →
      ∃ x y z : Int, (0 ≤ x ∧ x < cols ∧ 0 ≤ y ∧ y < rows ∧ 0 ≤ z ∧ z < depth ∧
          get1DIdxFrom3D dbg ⟨t, x⟩ ⟨t, y⟩ ⟨t, z⟩ ⟨t, cols⟩ ⟨t, rows⟩ = .ok ⟨t, i⟩) ∧
        ∀ x' y' z' : Int, 0 ≤ x' → x' < cols → 0 ≤ y' → y' < rows → 0 ≤ z' → z' < depth →
          get1DIdxFrom3D dbg ⟨t, x'⟩ ⟨t, y'⟩ ⟨t, z'⟩ ⟨t, cols⟩ ⟨t, rows⟩ = .ok ⟨t, i⟩ → x' = x ∧ y' = y ∧ z' = z) := by
  have run : ∀ x y z : Int, 0 ≤ x → x < cols → 0 ≤ y → y < rows → 0 ≤ z → z < depth →
      get1DIdxFrom3D dbg ⟨t, x⟩ ⟨t, y⟩ ⟨t, z⟩ ⟨t, cols⟩ ⟨t, rows⟩ = .ok ⟨t, x + y * cols + z * cols * rows⟩ := by
    intro x y z hx hx' hy hy' hz hz'
    obtain ⟨h1, h2⟩ := flat3_lt x y z cols rows depth hx hx' hy hy' hz hz'
    exact get1D3D_run dbg t ht x y z cols rows hx hx' hy hy' hz hc hr
      (between_of _ 0 _ _ (between_zero _) hfit h1 (by omega))
  refine ⟨?_, ?_⟩
  · intro x y z hx hx' hy hy' hz hz'
    obtain ⟨h1, h2⟩ := flat3_lt x y z cols rows depth hx hx' hy hy' hz hz'
    exact ⟨_, run x y z hx hx' hy hy' hz hz', h1, h2⟩
  · intro i hi0 hi1
    have q0 : 0 ≤ i / cols := Int.ediv_nonneg hi0 (by omega)
    have a0 := Int.emod_nonneg i (b := cols) (by omega)
    have a1 := Int.emod_lt_of_pos i hc0
    have a2 := Int.mul_ediv_add_emod i cols
    have b0 := Int.emod_nonneg (i / cols) (b := rows) (by omega)
    have b1 := Int.emod_lt_of_pos (i / cols) hr0
    have b2 := Int.mul_ediv_add_emod (i / cols) rows
    have z0 : 0 ≤ i / cols / rows := Int.ediv_nonneg q0 (by omega)
    have z1 : i / cols / rows < depth := by
      rw [Int.ediv_ediv_of_nonneg (by omega)]
      exact Int.ediv_lt_of_lt_mul (Int.mul_pos hc0 hr0) (by rw [Int.mul_comm]; exact hi1)
    have ei : i % cols + i / cols % rows * cols + i / cols / rows * cols * rows = i := by
      rw [flat3]
      have : i / cols % rows + i / cols / rows * rows = i / cols := by rw [Int.mul_comm]; omega
      rw [this, Int.mul_comm]; omega
    refine ⟨i % cols, i / cols % rows, i / cols / rows, ⟨a0, a1, b0, b1, z0, z1, ?_⟩, ?_⟩
    · rw [run _ _ _ a0 a1 b0 b1 z0 z1, ei]
    · intro x y z hx hx' hy hy' hz hz' h
      rw [run x y z hx hx' hy hy' hz hz'] at h
      have h : x + y * cols + z * cols * rows = i := by simpa using h
      rw [flat3] at h
      obtain ⟨d1, d2⟩ := digits_unique x (y + z * rows) cols hx hx'
      obtain ⟨d3, d4⟩ := digits_unique y z rows hy hy'
      rw [h] at d1 d2
      rw [d1, d2, d3, d4]
      exact ⟨rfl, rfl, rfl⟩

example : Wide .u64 ∧ Between .u64 (4 * 3 * 2 - 1) ∧
    get1DIdxFrom3D true ⟨.u64, 3⟩ ⟨.u64, 2⟩ ⟨.u64, 1⟩ ⟨.u64, 4⟩ ⟨.u64, 3⟩ = .ok ⟨.u64, 23⟩ := by decide

/-- C43 fails for `get3DIdxFrom1D`: on the index of cell `(x, y, z)` the last two components are right, but the first is
`y + z * rows` instead of `x`. -/
theorem C43_3D_back (dbg : Bool) (t : ITy) (ht : Wide t) (x y z cols rows : Int)
    (hx : 0 ≤ x) (hx' : x < cols) (hy : 0 ≤ y) (hy' : y < rows) (hz : 0 ≤ z)
    (hcr : Between t (cols * rows))
    (hfit : Between t (x + y * cols + z * cols * rows)) (hd : dbg = true → 0 < x ∨ 0 < y ∨ 0 < z) :
    ∃ i : Val, get1DIdxFrom3D dbg ⟨t, x⟩ ⟨t, y⟩ ⟨t, z⟩ ⟨t, cols⟩ ⟨t, rows⟩ = .ok i ∧
      get3DIdxFrom1D dbg i ⟨t, cols⟩ ⟨t, rows⟩ = .ok (⟨t, y + z * rows⟩, ⟨t, y⟩, ⟨t, z⟩) := by
  have hc1 : cols ≤ cols * rows := by nlinarith
  have hr1 : rows ≤ cols * rows := by nlinarith
  have hc : Between t cols := between_of _ 0 _ _ (between_zero _) hcr (by omega) hc1
  have hr : Between t rows := between_of _ 0 _ _ (between_zero _) hcr (by omega) hr1
  refine ⟨_, get1D3D_run dbg t ht x y z cols rows hx hx' hy hy' hz hc hr hfit, ?_⟩
  have hyc : y ≤ y * cols := by nlinarith
  have hzc : z ≤ z * cols := by nlinarith
  have hzr : z * cols ≤ z * cols * rows := by nlinarith
  have hpos : dbg = true → 0 < x + y * cols + z * cols * rows := by
    intro h; rcases hd h with h | h | h <;> omega
  have h0 : 0 ≤ x + y * cols + z * cols * rows := by omega
  obtain ⟨d1, d2⟩ := digits_unique x (y + z * rows) cols hx hx'
  obtain ⟨d3, d4⟩ := digits_unique y z rows hy hy'
  rw [flat3] at *
  generalize hi : x + (y + z * rows) * cols = i at *
  have e1 := div_eq (a := ⟨t, i⟩) (b := ⟨t, cols⟩) (wide_uac_self t ht) hfit hc (show cols ≠ 0 by omega)
    (between_tdiv _ _ _ hfit (by simp only; omega))
  simp only [Int.tdiv_eq_ediv_of_nonneg h0, d1] at e1
  have hzr0 : 0 ≤ z * rows := Int.mul_nonneg hz (by omega)
  have hq : Between t (y + z * rows) := by
    have := between_tdiv t i cols hfit (by omega)
    rwa [Int.tdiv_eq_ediv_of_nonneg h0, d1] at this
  have e2 := mod_eq (a := ⟨t, y + z * rows⟩) (b := ⟨t, rows⟩) (wide_uac_self t ht) hq hr (show rows ≠ 0 by omega)
    (between_tdiv _ _ _ hq (by simp only; omega)) (between_tmod _ _ _ hq (by simp only; omega))
  simp only [Int.tmod_eq_emod_of_nonneg (show 0 ≤ y + z * rows by omega), d4] at e2
  have e3 := mul_eq (a := ⟨t, cols⟩) (b := ⟨t, rows⟩) (wide_uac_self t ht) hc hr hcr
  have hcrpos : 0 < cols * rows := by omega
  have e4 := div_eq (a := ⟨t, i⟩) (b := ⟨t, cols * rows⟩) (wide_uac_self t ht) hfit hcr (show cols * rows ≠ 0 by omega)
    (between_tdiv _ _ _ hfit hcrpos)
  simp only [Int.tdiv_eq_ediv_of_nonneg h0] at e4
  rw [← Int.ediv_ediv_of_nonneg (show 0 ≤ cols by omega), d1, d3] at e4
  have ec : commonType (commonType t t) t = t := by simp [commonType]
  have ea : assert' dbg (lt (lit 0) ⟨t, i⟩ && !eq ⟨t, rows⟩ (lit 0) && !eq ⟨t, cols⟩ (lit 0)) = .ok () := by
    cases dbg
    · rfl
    · rw [lt_lit ⟨t, i⟩ hfit, eq_lit ⟨t, cols⟩ hc, eq_lit ⟨t, rows⟩ hr]
      have := hpos rfl
      have h' : cols ≠ 0 := by omega
      have h'' : rows ≠ 0 := by omega
      simp [this, beq_eq_false_iff_ne.2 h', beq_eq_false_iff_ne.2 h'', assert']
  unfold get3DIdxFrom1D
  simp only [ea, Outcome.bind_ok, e1, ec, Outcome.pure_eq]
  rw [conv_eq _ _ hq]
  simp only [e2, e3, e4, Outcome.bind_ok]

/-- C43 fails on a concrete grid of 4 columns and 3 rows: cell `(3, 0, 0)` comes back as `(0, 0, 0)`. -/
theorem C43_3D_witness : get1DIdxFrom3D true ⟨.i32, 3⟩ ⟨.i32, 0⟩ ⟨.i32, 0⟩ ⟨.i32, 4⟩ ⟨.i32, 3⟩ = .ok ⟨.i32, 3⟩ ∧
    get3DIdxFrom1D true ⟨.i32, 3⟩ ⟨.i32, 4⟩ ⟨.i32, 3⟩ = .ok (⟨.i32, 0⟩, ⟨.i32, 0⟩, ⟨.i32, 0⟩) := by decide

/-! ## C44: clamping -/

/-- C44, any totally ordered type: the result lies in `[lo, hi]`, is the value itself when that does, and lies between the
value and every other point of the interval. -/
theorem C44_clamp_order {α : Type} [LinearOrder α] (dbg : Bool) (x lo hi : α) (h : lo ≤ hi) :
    ∃ r : α, clampBy (fun a b => decide (a < b)) dbg x lo hi = .ok r ∧ lo ≤ r ∧ r ≤ hi ∧
      (lo ≤ x → x ≤ hi → r = x) ∧ ∀ y : α, lo ≤ y → y ≤ hi → (x ≤ r ∧ r ≤ y) ∨ (y ≤ r ∧ r ≤ x) := by
  have ha : assert' dbg (!decide (hi < lo)) = .ok () := by
    have : ¬ hi < lo := not_lt.2 h
    simp [this, assert'_true]
  simp only [clampBy, ha, Outcome.bind_ok, Outcome.pure_eq, decide_eq_true_eq]
  refine ⟨_, rfl, ?_⟩
  split
  · rename_i h1
    exact ⟨le_refl _, h, fun h2 => absurd h1 (not_lt.2 h2), fun y h2 _ => .inl ⟨h1.le, h2⟩⟩
  · rename_i h1
    split
    · rename_i h2
      exact ⟨h, le_refl _, fun _ h3 => absurd h2 (not_lt.2 h3), fun y _ h3 => .inr ⟨h3, h2.le⟩⟩
    · rename_i h2
      refine ⟨not_lt.1 h1, not_lt.1 h2, fun _ _ => rfl, fun y _ _ => ?_⟩
      rcases le_total x y with h | h
      · exact .inl ⟨le_refl _, h⟩
      · exact .inr ⟨h, le_refl _⟩

/-- C44, one-sided: the smallest value that is at least both, the largest that is at most both. -/
theorem C44_one_sided_order {α : Type} [LinearOrder α] (x b : α) :
    (let r := clampMinBy (fun a b => decide (a < b)) x b; b ≤ r ∧ x ≤ r ∧ (r = x ∨ r = b)) ∧
    (let r := clampMaxBy (fun a b => decide (a < b)) x b; r ≤ b ∧ r ≤ x ∧ (r = x ∨ r = b)) := by
  simp only [clampMinBy, clampMaxBy, decide_eq_true_eq]
  constructor
  · split
    · rename_i h; exact ⟨le_refl _, h.le, .inr rfl⟩
    · rename_i h; exact ⟨not_lt.1 h, le_refl _, .inl rfl⟩
  · split
    · rename_i h; exact ⟨le_refl _, h.le, .inr rfl⟩
    · rename_i h; exact ⟨not_lt.1 h, le_refl _, .inl rfl⟩

/-- C44: an inverted interval stops a debug build. -/
theorem C44_inverted {α : Type} [LinearOrder α] (x lo hi : α) (h : hi < lo) :
    clampBy (fun a b => decide (a < b)) true x lo hi = .assertFail := by
  simp [clampBy, assert', h]

example : clampBy (fun a b => decide (a < b)) true 7 (-3) (5 : Int) = .ok 5 := by decide

theorem nearest_clamp (x lo hi : Int) (h : lo ≤ hi) :
    IsNearest (if x < lo then lo else if hi < x then hi else x) x lo hi := by
  split
  · exact ⟨by omega, by omega, by omega, fun y _ _ => by omega⟩
  · split
    · exact ⟨by omega, by omega, by omega, fun y _ _ => by omega⟩
    · exact ⟨by omega, by omega, by omega, fun y _ _ => by omega⟩

/-- C44, `clamp` on any mixture of integer types: provided the comparisons preserve the values and the bound that is stored
is representable in the type of the variable, the variable gets the nearest value of the interval. -/
theorem C44_clamp (dbg : Bool) (x lo hi : Val) (h : lo.v ≤ hi.v)
    (h1 : Between (arith x.ty lo.ty) x.v ∧ Between (arith x.ty lo.ty) lo.v)
    (h2 : Between (arith x.ty hi.ty) x.v ∧ Between (arith x.ty hi.ty) hi.v)
    (h3 : Between (arith lo.ty hi.ty) lo.v ∧ Between (arith lo.ty hi.ty) hi.v)
    (h4 : x.v < lo.v → Between x.ty lo.v) (h5 : hi.v < x.v → Between x.ty hi.v) :
    ∃ r : Val, clamp dbg x lo hi = .ok r ∧ r.ty = x.ty ∧ IsNearest r.v x.v lo.v hi.v := by
  have e1 := lt_eq (a := x) (b := lo) (uac_arith _ _) h1.1 h1.2
  have e2 := lt_eq (a := hi) (b := x) (by rw [uac_comm]; exact uac_arith _ _) h2.2 h2.1
  have e3 := le_eq (a := lo) (b := hi) (uac_arith _ _) h3.1 h3.2
  simp only [clamp, e1, e2, e3, h, decide_true, assert'_true, Outcome.bind_ok, Outcome.pure_eq, decide_eq_true_eq]
  have key : (if x.v < lo.v then conv x.ty lo else if hi.v < x.v then conv x.ty hi else x) =
      ⟨x.ty, if x.v < lo.v then lo.v else if hi.v < x.v then hi.v else x.v⟩ := by
    split
    · rename_i h; rw [conv_eq _ _ (h4 h)]
    · split
      · rename_i h; rw [conv_eq _ _ (h5 h)]
      · rfl
  rw [key]
  exact ⟨_, rfl, rfl, nearest_clamp _ _ _ h⟩

/-- C44, `clamp` and `getClamped` on one integer type: no condition. -/
theorem C44_clamp_same (dbg : Bool) (t : ITy) (x lo hi : Int) (hx : Between t x) (hl : Between t lo) (hh : Between t hi)
    (h : lo ≤ hi) :
    ∃ r : Int, clamp dbg ⟨t, x⟩ ⟨t, lo⟩ ⟨t, hi⟩ = .ok ⟨t, r⟩ ∧ getClamped dbg ⟨t, x⟩ ⟨t, lo⟩ ⟨t, hi⟩ = .ok ⟨t, r⟩ ∧
      IsNearest r x lo hi := by
  have up : ∀ y, Between t y → Between (uac t t) y := by
    intro y hy; cases t <;> simp only [uac, promote, Between] at hy ⊢ <;> omega
  have e1 := lt_eq (a := ⟨t, x⟩) (b := ⟨t, lo⟩) (t := uac t t) rfl (up _ hx) (up _ hl)
  have e2 := lt_eq (a := ⟨t, hi⟩) (b := ⟨t, x⟩) (t := uac t t) rfl (up _ hh) (up _ hx)
  have e3 := le_eq (a := ⟨t, lo⟩) (b := ⟨t, hi⟩) (t := uac t t) rfl (up _ hl) (up _ hh)
  have c1 : ∀ y, Between t y → conv t ⟨t, y⟩ = ⟨t, y⟩ := fun y hy => conv_eq _ _ hy
  have ec : commonType (commonType t t) t = t := by simp [commonType]
  refine ⟨if x < lo then lo else if hi < x then hi else x, ?_, ?_, nearest_clamp _ _ _ h⟩
  · simp only [clamp, e1, e2, e3, h, c1 _ hl, c1 _ hh, decide_true, assert'_true, Outcome.bind_ok, Outcome.pure_eq,
      decide_eq_true_eq]
    congr 1; split
    · rfl
    · split <;> rfl
  · simp only [getClamped, ec, e1, e2, e3, h, c1 _ hl, c1 _ hh, c1 _ hx, decide_true, assert'_true, Outcome.bind_ok,
      Outcome.pure_eq, decide_eq_true_eq]
    congr 1; split
    · rfl
    · split <;> rfl

/-- C44, `getClamped` on any mixture of integer types, provided the three values are representable in the common type. -/
theorem C44_getClamped (dbg : Bool) (x lo hi : Val) (ct : ITy)
    (hct : ct = arith (arith x.ty lo.ty) hi.ty) (hne : ¬ (x.ty = lo.ty ∧ lo.ty = hi.ty)) (h : lo.v ≤ hi.v)
    (hx : Between ct x.v) (hl : Between ct lo.v) (hh : Between ct hi.v) :
    ∃ r : Int, getClamped dbg x lo hi = .ok ⟨ct, r⟩ ∧ IsNearest r x.v lo.v hi.v := by
  have ec : commonType (commonType x.ty lo.ty) hi.ty = ct := by
    rw [hct]
    obtain ⟨t1, _⟩ := x; obtain ⟨t2, _⟩ := lo; obtain ⟨t3, _⟩ := hi
    simp only at hne ⊢
    by_cases hab : t1 = t2
    · subst hab
      have : t1 ≠ t3 := fun h => hne ⟨rfl, h⟩
      simp only [commonType, if_true, if_neg this, uac_arith]
      rw [arith_self_left]
    · simp only [commonType, if_neg hab, uac_arith]
      split
      · rename_i h
        rw [← h]
        cases t1 <;> cases t2 <;> rfl
      · rfl
  have hw : uac ct ct = ct := by rw [hct, ← uac_arith]; exact wide_uac_self _ (wide_uac _ _)
  have e1 := lt_eq (a := ⟨ct, x.v⟩) (b := ⟨ct, lo.v⟩) hw hx hl
  have e2 := lt_eq (a := ⟨ct, hi.v⟩) (b := ⟨ct, x.v⟩) hw hh hx
  have e3 := le_eq (a := ⟨ct, lo.v⟩) (b := ⟨ct, hi.v⟩) hw hl hh
  refine ⟨if x.v < lo.v then lo.v else if hi.v < x.v then hi.v else x.v, ?_, nearest_clamp _ _ _ h⟩
  simp only [getClamped, ec, conv_eq _ _ hx, conv_eq _ _ hl, conv_eq _ _ hh, e1, e2, e3, h, decide_true, assert'_true,
    Outcome.bind_ok, Outcome.pure_eq, decide_eq_true_eq]
  congr 1; split
  · rfl
  · split <;> rfl

/-- C44, one-sided functions on any mixture of integer types. -/
theorem C44_one_sided (x b : Val) (hx : Between (arith x.ty b.ty) x.v) (hb : Between (arith x.ty b.ty) b.v)
    (hv : x.Valid) (hbv : b.Valid) :
    ((x.v < b.v → Between x.ty b.v) → (clampMin x b).v = max x.v b.v) ∧
    ((b.v < x.v → Between x.ty b.v) → (clampMax x b).v = min x.v b.v) ∧
    (getClampedMin x b).v = max x.v b.v ∧ (getClampedMax x b).v = min x.v b.v := by
  have e1 := lt_eq (a := x) (b := b) (uac_arith _ _) hx hb
  have e2 := lt_eq (a := b) (b := x) (by rw [uac_comm]; exact uac_arith _ _) hb hx
  have cx : Between (commonType x.ty b.ty) x.v := by
    unfold commonType; split
    · exact hv
    · rw [uac_arith]; exact hx
  have cb : Between (commonType x.ty b.ty) b.v := between_commonType _ _ _ hb hbv
  refine ⟨fun h => ?_, fun h => ?_, ?_, ?_⟩
  · simp only [clampMin, e1, decide_eq_true_eq]
    split
    · rename_i h'; rw [conv_eq _ _ (h h')]; simp only; omega
    · omega
  · simp only [clampMax, e2, decide_eq_true_eq]
    split
    · rename_i h'; rw [conv_eq _ _ (h h')]; simp only; omega
    · omega
  · simp only [getClampedMin, e1, decide_eq_true_eq]
    split
    · rw [conv_eq _ _ cb]; simp only; omega
    · rw [conv_eq _ _ cx]; simp only; omega
  · simp only [getClampedMax, e2, decide_eq_true_eq]
    split
    · rw [conv_eq _ _ cb]; simp only; omega
    · rw [conv_eq _ _ cx]; simp only; omega

example : clamp true ⟨.i8, 100⟩ ⟨.i32, -5⟩ ⟨.i64, 50⟩ = .ok ⟨.i8, 50⟩ ∧
    getClamped true ⟨.i8, 100⟩ ⟨.i32, -5⟩ ⟨.i64, 50⟩ = .ok ⟨.i64, 50⟩ ∧
    clampMin ⟨.u8, 3⟩ ⟨.i32, 10⟩ = ⟨.u8, 10⟩ := by decide

/-- C44, the limit of the claim: mixed signedness. The lower bound -1 is converted to a huge unsigned number. -/
theorem C44_mixed_sign : clampMin ⟨.u32, 5⟩ ⟨.i32, -1⟩ = ⟨.u32, 4294967295⟩ := by decide

/-! ## C67: `getSign` -/

/-- C67. -/
theorem C67_sign (x : Val) (h : x.Valid) :
    (0 < x.v → getSign x = 1) ∧ (x.v = 0 → getSign x = 0) ∧ (x.v < 0 → getSign x = -1) := by
  have h0 : x.ty.signed = false → 0 ≤ x.v := by
    obtain ⟨t, v⟩ := x
    simp only [Val.Valid] at h
    cases t <;> simp [ITy.signed, Between] at h ⊢ <;> omega
  simp only [getSign, lt_lit x h, lit_lt x h, decide_eq_true_eq]
  cases hs : x.ty.signed
  · have := h0 hs
    simp only [Bool.false_eq_true, if_false]
    refine ⟨fun h => by simp [h], fun h => by simp [h], fun h => by omega⟩
  · simp only [if_true]
    refine ⟨fun h => ?_, fun h => by simp [h], fun h => ?_⟩
    · rw [if_pos h, if_neg (by omega)]; rfl
    · rw [if_neg (by omega), if_pos h]; rfl

example : getSign ⟨.i8, -5⟩ = -1 ∧ getSign ⟨.u64, 7⟩ = 1 := by decide

/-! ## C68: `getMap` -/

theorem getMap_run (dbg : Bool) (t : ITy) (ht : Wide t) (i iMin iMax oMin oMax : Int)
    (b1 : Between t i) (b2 : Between t iMin) (b3 : Between t iMax) (b4 : Between t oMin) (b5 : Between t oMax)
    (b6 : Between t (iMax - iMin)) (b7 : Between t (oMax - oMin))
    (h : iMin < iMax) (hi : iMin ≤ i) (hi' : i ≤ iMax) (ho : oMin ≤ oMax)
    (b8 : Between t ((i - iMin) * (oMax - oMin))) :
    getMap dbg ⟨t, i⟩ ⟨t, iMin⟩ ⟨t, iMax⟩ ⟨t, oMin⟩ ⟨t, oMax⟩ =
        .ok ⟨t, oMin + (i - iMin) * (oMax - oMin) / (iMax - iMin)⟩ ∧
      0 ≤ (i - iMin) * (oMax - oMin) / (iMax - iMin) ∧
      (i - iMin) * (oMax - oMin) / (iMax - iMin) ≤ oMax - oMin := by
  have hw := wide_uac_self t ht
  have p0 : 0 ≤ (i - iMin) * (oMax - oMin) := Int.mul_nonneg (by omega) (by omega)
  have q0 : 0 ≤ (i - iMin) * (oMax - oMin) / (iMax - iMin) := Int.ediv_nonneg p0 (by omega)
  have q1 : (i - iMin) * (oMax - oMin) / (iMax - iMin) ≤ oMax - oMin := by
    apply Int.ediv_le_of_le_mul (by omega)
    rw [Int.mul_comm]
    exact Int.mul_le_mul_of_nonneg_left (by omega) (by omega)
  refine ⟨?_, q0, q1⟩
  have e1 := sub_eq (a := ⟨t, iMax⟩) (b := ⟨t, iMin⟩) hw b3 b2 b6
  have e2 := sub_eq (a := ⟨t, i⟩) (b := ⟨t, iMin⟩) hw b1 b2
    (between_of _ 0 _ _ (between_zero _) b6 (show 0 ≤ i - iMin by omega) (show i - iMin ≤ iMax - iMin by omega))
  have e3 := sub_eq (a := ⟨t, oMax⟩) (b := ⟨t, oMin⟩) hw b5 b4 b7
  have e4 := mul_eq (a := ⟨t, i - iMin⟩) (b := ⟨t, oMax - oMin⟩) hw
    (between_of _ 0 _ _ (between_zero _) b6 (show 0 ≤ i - iMin by omega) (show i - iMin ≤ iMax - iMin by omega)) b7 b8
  have e5 := div_eq (a := ⟨t, (i - iMin) * (oMax - oMin)⟩) (b := ⟨t, iMax - iMin⟩) hw b8 b6
    (show iMax - iMin ≠ 0 by omega) (between_tdiv _ _ _ b8 (show 0 < iMax - iMin by omega))
  simp only [Int.tdiv_eq_ediv_of_nonneg p0] at e5
  generalize hq : (i - iMin) * (oMax - oMin) / (iMax - iMin) = q at *
  have hfin : Between t (q + oMin) := between_of _ oMin _ oMax b4 b5 (by omega) (by omega)
  have e6 := add_eq (a := ⟨t, q⟩) (b := ⟨t, oMin⟩) hw
    (between_of _ 0 _ _ (between_zero _) b7 q0 q1) b4 hfin
  have ec : commonType (commonType (commonType (commonType t t) t) t) t = t := by simp [commonType]
  have ez : eq (⟨t, iMax - iMin⟩ : Val) (lit 0) = false := by
    rw [eq_lit (⟨t, iMax - iMin⟩ : Val) b6]; simp; omega
  unfold getMap
  simp only [e1, e2, e3, e4, e5, e6, ez, ec, Bool.not_false, assert'_true, Outcome.bind_ok, Outcome.pure_eq]
  rw [conv_eq _ _ hfin, Int.add_comm]

/-- C68. Integer `getMap` (one type, no overflow, ascending ranges): the end points are mapped exactly, the result stays in
the output range, and the order is kept. -/
theorem C68_getMap (dbg : Bool) (t : ITy) (ht : Wide t) (iMin iMax oMin oMax : Int)
    (b2 : Between t iMin) (b3 : Between t iMax) (b4 : Between t oMin) (b5 : Between t oMax)
    (b6 : Between t (iMax - iMin)) (b7 : Between t (oMax - oMin))
    (b8 : Between t ((iMax - iMin) * (oMax - oMin))) (h : iMin < iMax) (ho : oMin ≤ oMax) :
    ∃ f : Int → Int,
      (∀ i, iMin ≤ i → i ≤ iMax →
        getMap dbg ⟨t, i⟩ ⟨t, iMin⟩ ⟨t, iMax⟩ ⟨t, oMin⟩ ⟨t, oMax⟩ = .ok ⟨t, f i⟩ ∧ oMin ≤ f i ∧ f i ≤ oMax ∧
          (f i - oMin) * (iMax - iMin) ≤ (i - iMin) * (oMax - oMin) ∧
          (i - iMin) * (oMax - oMin) < (f i - oMin + 1) * (iMax - iMin)) ∧
      f iMin = oMin ∧ f iMax = oMax ∧
      (∀ i j, iMin ≤ i → i ≤ j → j ≤ iMax → f i ≤ f j) := by
  have mono : ∀ i j, i ≤ j → (i - iMin) * (oMax - oMin) ≤ (j - iMin) * (oMax - oMin) := fun i j hij =>
    Int.mul_le_mul_of_nonneg_right (by omega) (by omega)
  refine ⟨fun i => oMin + (i - iMin) * (oMax - oMin) / (iMax - iMin), fun i hi hi' => ?_, ?_, ?_, ?_⟩
  · have p0 : 0 ≤ (i - iMin) * (oMax - oMin) := Int.mul_nonneg (by omega) (by omega)
    obtain ⟨r1, r2, r3⟩ := getMap_run dbg t ht i iMin iMax oMin oMax (between_of _ _ _ _ b2 b3 hi hi') b2 b3 b4 b5 b6 b7 h hi
      hi' ho (between_of _ 0 _ _ (between_zero _) b8 p0 (mono _ _ hi'))
    refine ⟨r1, by simp only; omega, by simp only; omega, ?_, ?_⟩
    · have := Int.ediv_mul_le ((i - iMin) * (oMax - oMin)) (b := iMax - iMin) (by omega)
      simpa using this
    · have := Int.lt_ediv_add_one_mul_self ((i - iMin) * (oMax - oMin)) (b := iMax - iMin) (by omega)
      simpa using this
  · simp
  · simp only
    rw [Int.mul_comm, Int.mul_ediv_cancel _ (by omega)]; omega
  · intro i j _ hij _
    have := Int.ediv_le_ediv (c := iMax - iMin) (by omega) (mono i j hij)
    simp only; omega

example : getMap true ⟨.i32, 3⟩ ⟨.i32, -5⟩ ⟨.i32, 15⟩ ⟨.i32, 100⟩ ⟨.i32, 200⟩ = .ok ⟨.i32, 140⟩ := by decide

end Verif.Num
