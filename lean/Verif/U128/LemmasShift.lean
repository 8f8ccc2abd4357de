import Verif.U128.LemmasMul

namespace Verif.U128

open Verif Spec

/-- The sizes of words for which the class is used. -/
theorem mask_eq {w : Nat} (hw : w = 32 ∨ w = 64) (s : Nat) : s &&& (w - 1) = s % w := by
  rcases hw with rfl | rfl
  · exact Nat.and_two_pow_sub_one_eq_mod s 5
  · exact Nat.and_two_pow_sub_one_eq_mod s 6

theorem pow_split {w m : Nat} (hm : m ≤ w) : 2 ^ w = 2 ^ m * 2 ^ (w - m) := by
  rw [← Nat.pow_add]; congr 1; omega

/-- One word of the result of a left shift. -/
theorem shl_word {w m x c : Nat} (hm : m ≤ w) (hc : c < 2 ^ m) :
    ((x <<< m) % 2 ^ w ||| c) = 2 ^ m * (x % 2 ^ (w - m)) + c := by
  rw [Nat.shiftLeft_eq, Nat.mul_comm, pow_split hm, Nat.mul_mod_mul_left, Nat.two_pow_add_eq_or_of_lt hc]

theorem carry_lt {w m x : Nat} (hm : m ≤ w) (hx : x < 2 ^ w) : x >>> (w - m) < 2 ^ m := by
  rw [Nat.shiftRight_eq_div_pow]
  apply Nat.div_lt_of_lt_mul
  rw [Nat.mul_comm, ← pow_split hm]; exact hx

theorem shlLoop_step {w : Nat} {v r r' : X4} {m out inn c x : Nat} (ho : out < 4) (hx : v.wa inn = .ok x)
    (hr : r.setWa out ((x <<< m) % 2 ^ w ||| c) = .ok r') :
    shlLoop w v m out inn c r = shlLoop w v m (out + 1) (inn + 1) (x >>> (w - m)) r' := by
  rw [shlLoop, if_pos ho, hx, Outcome.bind_ok, hr, Outcome.bind_ok]

theorem shlLoop_end {w : Nat} {v r : X4} {m inn c : Nat} : shlLoop w v m 4 inn c r = .ok r := by
  rw [shlLoop, if_neg (by decide)]

theorem shlCopy_step {v r r' : X4} {out inn x : Nat} (ho : out < 4) (hx : v.wa inn = .ok x)
    (hr : r.setWa out x = .ok r') : shlCopy v out inn r = shlCopy v (out + 1) (inn + 1) r' := by
  rw [shlCopy, if_pos ho, hx, Outcome.bind_ok, hr, Outcome.bind_ok]

theorem shlCopy_end {v r : X4} {inn : Nat} : shlCopy v 4 inn r = .ok r := by
  rw [shlCopy, if_neg (by decide)]

theorem shlCopy_eq {w : Nat} {v : X4} (h : Valid w v) (out : Nat) (r : X4) :
    shlCopy v out 0 r = shlLoop w v 0 out 0 0 r := by
  obtain ⟨h0, h1, h2, h3⟩ := h
  have e0 : v.v0 >>> w = 0 := by rw [Nat.shiftRight_eq_div_pow, Nat.div_eq_of_lt h0]
  have e1 : v.v1 >>> w = 0 := by rw [Nat.shiftRight_eq_div_pow, Nat.div_eq_of_lt h1]
  have e2 : v.v2 >>> w = 0 := by rw [Nat.shiftRight_eq_div_pow, Nat.div_eq_of_lt h2]
  by_cases ho : out < 4
  · interval_cases out
    · iterate 4 rw [shlCopy_step (by decide) rfl rfl, shlLoop_step (by decide) rfl rfl]
      rw [shlCopy_end, shlLoop_end]
      simp [X4.wa, X4.setWa, e0, e1, e2, Nat.mod_eq_of_lt, h0, h1, h2, h3]
    · iterate 3 rw [shlCopy_step (by decide) rfl rfl, shlLoop_step (by decide) rfl rfl]
      rw [shlCopy_end, shlLoop_end]
      simp [X4.wa, X4.setWa, e0, e1, Nat.mod_eq_of_lt, h0, h1, h2]
    · iterate 2 rw [shlCopy_step (by decide) rfl rfl, shlLoop_step (by decide) rfl rfl]
      rw [shlCopy_end, shlLoop_end]
      simp [X4.wa, X4.setWa, e0, Nat.mod_eq_of_lt, h0, h1]
    · iterate 1 rw [shlCopy_step (by decide) rfl rfl, shlLoop_step (by decide) rfl rfl]
      rw [shlCopy_end, shlLoop_end]
      simp [X4.wa, X4.setWa, Nat.mod_eq_of_lt, h0]
  · rw [shlCopy, shlLoop, if_neg ho, if_neg ho]

theorem shlLoop_is {w m : Nat} (hm : m ≤ w) {v : X4} (h : Valid w v) (sd : Nat) :
    ∃ r, shlLoop w v m sd 0 0 zero4 = .ok r ∧ Is w r (val w v * (2 ^ (w * sd) * 2 ^ m) % 2 ^ (4 * w)) := by
  have hv4 : val w v = _ := val_eq w v
  obtain ⟨h0, h1, h2, h3⟩ := h
  have hB := pow_split hm
  have hM : 0 < 2 ^ m := Nat.two_pow_pos m
  have hD : 0 < 2 ^ (w - m) := Nat.two_pow_pos (w - m)
  have hBp : 0 < 2 ^ w := Nat.two_pow_pos w
  have c0 := carry_lt hm h0
  have c1 := carry_lt hm h1
  have c2 := carry_lt hm h2
  have c3 := carry_lt hm h3
  have W0 : ∀ c, c < 2 ^ m → 2 ^ m * (v.v0 % 2 ^ (w - m)) + c < 2 ^ w := fun c hc => by
    rw [hB, Nat.add_comm]; exact cons_lt hc (Nat.mod_lt _ hD)
  have W1 : ∀ c, c < 2 ^ m → 2 ^ m * (v.v1 % 2 ^ (w - m)) + c < 2 ^ w := fun c hc => by
    rw [hB, Nat.add_comm]; exact cons_lt hc (Nat.mod_lt _ hD)
  have W2 : ∀ c, c < 2 ^ m → 2 ^ m * (v.v2 % 2 ^ (w - m)) + c < 2 ^ w := fun c hc => by
    rw [hB, Nat.add_comm]; exact cons_lt hc (Nat.mod_lt _ hD)
  have W3 : ∀ c, c < 2 ^ m → 2 ^ m * (v.v3 % 2 ^ (w - m)) + c < 2 ^ w := fun c hc => by
    rw [hB, Nat.add_comm]; exact cons_lt hc (Nat.mod_lt _ hD)
  have d0 := Nat.mod_add_div v.v0 (2 ^ (w - m))
  have d1 := Nat.mod_add_div v.v1 (2 ^ (w - m))
  have d2 := Nat.mod_add_div v.v2 (2 ^ (w - m))
  have d3 := Nat.mod_add_div v.v3 (2 ^ (w - m))
  have q0 : v.v0 >>> (w - m) = v.v0 / 2 ^ (w - m) := Nat.shiftRight_eq_div_pow _ _
  have q1 : v.v1 >>> (w - m) = v.v1 / 2 ^ (w - m) := Nat.shiftRight_eq_div_pow _ _
  have q2 : v.v2 >>> (w - m) = v.v2 / 2 ^ (w - m) := Nat.shiftRight_eq_div_pow _ _
  have q3 : v.v3 >>> (w - m) = v.v3 / 2 ^ (w - m) := Nat.shiftRight_eq_div_pow _ _
  by_cases hs : sd < 4
  · interval_cases sd
    · have hv : Valid w ⟨2 ^ m * (v.v0 % 2 ^ (w - m)) + 0, 2 ^ m * (v.v1 % 2 ^ (w - m)) + v.v0 >>> (w - m),
          2 ^ m * (v.v2 % 2 ^ (w - m)) + v.v1 >>> (w - m), 2 ^ m * (v.v3 % 2 ^ (w - m)) + v.v2 >>> (w - m)⟩ :=
        ⟨W0 _ hM, W1 _ c0, W2 _ c1, W3 _ c2⟩
      refine ⟨_, ?_, hv, eq_mod_of (val_lt hv) (k := v.v3 / 2 ^ (w - m)) ?_⟩
      · iterate 4 rw [shlLoop_step (by decide) rfl rfl]
        rw [shlLoop_end]
        simp only [zero4, shl_word hm hM, shl_word hm c0, shl_word hm c1, shl_word hm c2]
      · rw [hv4, val_eq, pow4w]
        dsimp only
        simp only [q0, q1, q2, Nat.mul_zero, Nat.pow_zero, Nat.one_mul]
        clear hv q0 q1 q2 q3 c0 c1 c2 c3 W0 W1 W2 W3 h0 h1 h2 h3 hv4
        generalize v.v0 / 2 ^ (w - m) = q0 at *
        generalize v.v1 / 2 ^ (w - m) = q1 at *
        generalize v.v2 / 2 ^ (w - m) = q2 at *
        generalize v.v3 / 2 ^ (w - m) = q3 at *
        generalize v.v0 % 2 ^ (w - m) = r0 at *
        generalize v.v1 % 2 ^ (w - m) = r1 at *
        generalize v.v2 % 2 ^ (w - m) = r2 at *
        generalize v.v3 % 2 ^ (w - m) = r3 at *
        rw [← d0, ← d1, ← d2, ← d3, hB]
        ring
    · have hv : Valid w ⟨0, 2 ^ m * (v.v0 % 2 ^ (w - m)) + 0, 2 ^ m * (v.v1 % 2 ^ (w - m)) + v.v0 >>> (w - m),
          2 ^ m * (v.v2 % 2 ^ (w - m)) + v.v1 >>> (w - m)⟩ := ⟨hBp, W0 _ hM, W1 _ c0, W2 _ c1⟩
      refine ⟨_, ?_, hv, eq_mod_of (val_lt hv) (k := v.v2 / 2 ^ (w - m) + 2 ^ m * v.v3) ?_⟩
      · iterate 3 rw [shlLoop_step (by decide) rfl rfl]
        rw [shlLoop_end]
        simp only [zero4, shl_word hm hM, shl_word hm c0, shl_word hm c1]
      · rw [hv4, val_eq, pow4w]
        dsimp only
        simp only [q0, q1, Nat.mul_one]
        clear hv q0 q1 q2 q3 c0 c1 c2 c3 W0 W1 W2 W3 h0 h1 h2 h3 hv4 d3
        generalize v.v0 / 2 ^ (w - m) = q0 at *
        generalize v.v1 / 2 ^ (w - m) = q1 at *
        generalize v.v2 / 2 ^ (w - m) = q2 at *
        generalize v.v0 % 2 ^ (w - m) = r0 at *
        generalize v.v1 % 2 ^ (w - m) = r1 at *
        generalize v.v2 % 2 ^ (w - m) = r2 at *
        rw [← d0, ← d1, ← d2, hB]
        ring
    · have hv : Valid w ⟨0, 0, 2 ^ m * (v.v0 % 2 ^ (w - m)) + 0, 2 ^ m * (v.v1 % 2 ^ (w - m)) + v.v0 >>> (w - m)⟩ :=
        ⟨hBp, hBp, W0 _ hM, W1 _ c0⟩
      refine ⟨_, ?_, hv, eq_mod_of (val_lt hv) (k := v.v1 / 2 ^ (w - m) + 2 ^ m * (v.v2 + 2 ^ w * v.v3)) ?_⟩
      · iterate 2 rw [shlLoop_step (by decide) rfl rfl]
        rw [shlLoop_end]
        simp only [zero4, shl_word hm hM, shl_word hm c0]
      · rw [hv4, val_eq, pow4w]
        dsimp only
        simp only [q0, Nat.mul_comm w 2, pow2w]
        clear hv q0 q1 q2 q3 c0 c1 c2 c3 W0 W1 W2 W3 h0 h1 h2 h3 hv4 d3 d2
        generalize v.v0 / 2 ^ (w - m) = q0 at *
        generalize v.v1 / 2 ^ (w - m) = q1 at *
        generalize v.v0 % 2 ^ (w - m) = r0 at *
        generalize v.v1 % 2 ^ (w - m) = r1 at *
        rw [← d0, ← d1, hB]
        ring
    · have hv : Valid w ⟨0, 0, 0, 2 ^ m * (v.v0 % 2 ^ (w - m)) + 0⟩ := ⟨hBp, hBp, hBp, W0 _ hM⟩
      refine ⟨_, ?_, hv, eq_mod_of (val_lt hv)
        (k := v.v0 / 2 ^ (w - m) + 2 ^ m * (v.v1 + 2 ^ w * (v.v2 + 2 ^ w * v.v3))) ?_⟩
      · iterate 1 rw [shlLoop_step (by decide) rfl rfl]
        rw [shlLoop_end]
        simp only [zero4, shl_word hm hM]
      · rw [hv4, val_eq, pow4w]
        dsimp only
        simp only [Nat.mul_comm w 3, pow3w]
        clear hv q0 q1 q2 q3 c0 c1 c2 c3 W0 W1 W2 W3 h0 h1 h2 h3 hv4 d3 d2 d1
        generalize v.v0 / 2 ^ (w - m) = q0 at *
        generalize v.v0 % 2 ^ (w - m) = r0 at *
        rw [← d0, hB]
        ring
  · refine ⟨zero4, by rw [shlLoop, if_neg hs], ⟨⟨hBp, hBp, hBp, hBp⟩, ?_⟩⟩
    obtain ⟨j, rfl⟩ : ∃ j, sd = 4 + j := ⟨sd - 4, by omega⟩
    rw [show w * (4 + j) = 4 * w + w * j by ring, Nat.pow_add]
    rw [show val w v * (2 ^ (4 * w) * 2 ^ (w * j) * 2 ^ m) = 2 ^ (4 * w) * (val w v * 2 ^ (w * j) * 2 ^ m) by ring,
      Nat.mul_mod_right]
    simp [val, zero4]

theorem pow_div_mod (w s : Nat) : 2 ^ (w * (s / w)) * 2 ^ (s % w) = 2 ^ s := by
  rw [← Nat.pow_add, Nat.div_add_mod]

theorem shl_is {w : Nat} (hw : w = 32 ∨ w = 64) {v : X4} (h : Valid w v) (s : Nat) :
    ∃ r, shl w v s = .ok r ∧ Is w r (val w v * 2 ^ s % 2 ^ (4 * w)) := by
  have hw0 : 0 < w := by rcases hw with rfl | rfl <;> decide
  have hm : s % w ≤ w := (Nat.mod_lt s hw0).le
  unfold shl
  dsimp only
  rw [mask_eq hw]
  obtain ⟨r, hr, hi⟩ := shlLoop_is hm h (s / w)
  rw [pow_div_mod] at hi
  refine ⟨r, ?_, hi⟩
  split
  · exact hr
  · rename_i hz
    rw [shlCopy_eq h]
    rw [show s % w = 0 by omega] at hr
    exact hr

/-! ## Right -/

theorem shr_word {w m x y : Nat} (hm : m ≤ w) (hx : x < 2 ^ w) :
    (x >>> m ||| (y <<< (w - m)) % 2 ^ w) = x / 2 ^ m + 2 ^ (w - m) * (y % 2 ^ m) := by
  have hB : 2 ^ w = 2 ^ (w - m) * 2 ^ m := by rw [Nat.mul_comm]; exact pow_split hm
  have hq : x / 2 ^ m < 2 ^ (w - m) := by
    apply Nat.div_lt_of_lt_mul; rw [← pow_split hm]; exact hx
  rw [Nat.shiftRight_eq_div_pow, Nat.shiftLeft_eq, Nat.mul_comm y, hB, Nat.mul_mod_mul_left, Nat.or_comm,
    ← Nat.two_pow_add_eq_or_of_lt hq, Nat.add_comm]

theorem shr_word0 {m x : Nat} : (x >>> m ||| 0) = x / 2 ^ m := by
  rw [Nat.or_zero, Nat.shiftRight_eq_div_pow]

theorem shrCopy_eq {w : Nat} {v : X4} (out : Nat) (ho : out ≤ 4) (r : X4) :
    shrCopy v out 4 r = shrLoop w v 0 out 4 0 r := by
  have e : ∀ x : Nat, (x <<< w) % 2 ^ w = 0 := fun x => by rw [Nat.shiftLeft_eq, Nat.mul_mod_left]
  interval_cases out <;> simp [shrCopy, shrLoop, X4.wa, X4.setWa, e]

theorem shrLoop_is {w m : Nat} (hm : m ≤ w) {v : X4} (h : Valid w v) (sd : Nat) (hs : sd ≤ 4) :
    ∃ r, shrLoop w v m (4 - sd) 4 0 zero4 = .ok r ∧ Is w r (val w v / (2 ^ (w * sd) * 2 ^ m)) := by
  have hv4 : val w v = _ := val_eq w v
  have hvl := val_lt h
  obtain ⟨h0, h1, h2, h3⟩ := h
  have hB := pow_split hm
  have hM : 0 < 2 ^ m := Nat.two_pow_pos m
  have hD : 0 < 2 ^ (w - m) := Nat.two_pow_pos (w - m)
  have hBp : 0 < 2 ^ w := Nat.two_pow_pos w
  have hq : ∀ x, x < 2 ^ w → x / 2 ^ m < 2 ^ (w - m) := fun x hx => by
    apply Nat.div_lt_of_lt_mul; rw [← hB]; exact hx
  have W : ∀ x y, x < 2 ^ w → x / 2 ^ m + 2 ^ (w - m) * (y % 2 ^ m) < 2 ^ w := fun x y hx => by
    have := cons_lt (hq x hx) (Nat.mod_lt y hM)
    rw [hB, Nat.mul_comm (2 ^ m)]; exact this
  have Wt : ∀ x, x < 2 ^ w → x / 2 ^ m < 2 ^ w := fun x hx => Nat.lt_of_le_of_lt (Nat.div_le_self _ _) hx
  have d0 := Nat.mod_add_div v.v0 (2 ^ m)
  have d1 := Nat.mod_add_div v.v1 (2 ^ m)
  have d2 := Nat.mod_add_div v.v2 (2 ^ m)
  have d3 := Nat.mod_add_div v.v3 (2 ^ m)
  have m0 := Nat.mod_lt v.v0 hM
  have m1 := Nat.mod_lt v.v1 hM
  have m2 := Nat.mod_lt v.v2 hM
  have m3 := Nat.mod_lt v.v3 hM
  -- dropping words
  have drop1 : val w v / 2 ^ w = v.v1 + 2 ^ w * (v.v2 + 2 ^ w * v.v3) := by
    rw [hv4, Nat.add_mul_div_left _ _ hBp, Nat.div_eq_of_lt h0, Nat.zero_add]
  have drop2 : val w v / (2 ^ w * 2 ^ w) = v.v2 + 2 ^ w * v.v3 := by
    rw [← Nat.div_div_eq_div_mul, drop1, Nat.add_mul_div_left _ _ hBp, Nat.div_eq_of_lt h1, Nat.zero_add]
  have drop3 : val w v / (2 ^ w * 2 ^ w * 2 ^ w) = v.v3 := by
    rw [← Nat.div_div_eq_div_mul, drop2, Nat.add_mul_div_left _ _ hBp, Nat.div_eq_of_lt h2, Nat.zero_add]
  -- a quotient from an equation
  have quot : ∀ V R r, V = 2 ^ m * R + r → r < 2 ^ m → R = V / 2 ^ m := fun V R r hV hr => by
    rw [hV, Nat.mul_add_div hM, Nat.div_eq_of_lt hr, Nat.add_zero]
  interval_cases sd
  · have hv : Valid w ⟨v.v0 / 2 ^ m + 2 ^ (w - m) * (v.v1 % 2 ^ m), v.v1 / 2 ^ m + 2 ^ (w - m) * (v.v2 % 2 ^ m),
      v.v2 / 2 ^ m + 2 ^ (w - m) * (v.v3 % 2 ^ m), v.v3 / 2 ^ m⟩ := ⟨W _ _ h0, W _ _ h1, W _ _ h2, Wt _ h3⟩
    refine ⟨_, ?_, hv, ?_⟩
    · simp only [shrLoop, X4.wa, X4.setWa, Outcome.bind_ok, zero4, shr_word0, shr_word hm h0, shr_word hm h1, shr_word hm h2]
    · simp only [Nat.mul_zero, Nat.pow_zero, Nat.one_mul]
      apply quot _ _ (v.v0 % 2 ^ m) _ m0
      rw [hv4, val_eq]
      dsimp only
      clear hv W Wt drop1 drop2 drop3 hv4 hvl hq quot h0 h1 h2 h3 m0 m1 m2 m3
      generalize v.v0 / 2 ^ m = q0 at *
      generalize v.v1 / 2 ^ m = q1 at *
      generalize v.v2 / 2 ^ m = q2 at *
      generalize v.v3 / 2 ^ m = q3 at *
      generalize v.v0 % 2 ^ m = r0 at *
      generalize v.v1 % 2 ^ m = r1 at *
      generalize v.v2 % 2 ^ m = r2 at *
      generalize v.v3 % 2 ^ m = r3 at *
      rw [← d0, ← d1, ← d2, ← d3, hB]
      ring
  · have hv : Valid w ⟨v.v1 / 2 ^ m + 2 ^ (w - m) * (v.v2 % 2 ^ m),
      v.v2 / 2 ^ m + 2 ^ (w - m) * (v.v3 % 2 ^ m), v.v3 / 2 ^ m, 0⟩ := ⟨W _ _ h1, W _ _ h2, Wt _ h3, hBp⟩
    refine ⟨_, ?_, hv, ?_⟩
    · simp only [shrLoop, X4.wa, X4.setWa, Outcome.bind_ok, zero4, shr_word0, shr_word hm h1, shr_word hm h2]
    · rw [Nat.mul_one, ← Nat.div_div_eq_div_mul, drop1]
      apply quot _ _ (v.v1 % 2 ^ m) _ m1
      rw [val_eq]
      dsimp only
      clear hv W Wt drop1 drop2 drop3 hv4 hvl hq quot h0 h1 h2 h3 m0 m1 m2 m3 d0
      generalize v.v1 / 2 ^ m = q1 at *
      generalize v.v2 / 2 ^ m = q2 at *
      generalize v.v3 / 2 ^ m = q3 at *
      generalize v.v1 % 2 ^ m = r1 at *
      generalize v.v2 % 2 ^ m = r2 at *
      generalize v.v3 % 2 ^ m = r3 at *
      rw [← d1, ← d2, ← d3, hB]
      ring
  · have hv : Valid w ⟨v.v2 / 2 ^ m + 2 ^ (w - m) * (v.v3 % 2 ^ m), v.v3 / 2 ^ m, 0, 0⟩ :=
      ⟨W _ _ h2, Wt _ h3, hBp, hBp⟩
    refine ⟨_, ?_, hv, ?_⟩
    · simp only [shrLoop, X4.wa, X4.setWa, Outcome.bind_ok, zero4, shr_word0, shr_word hm h2]
    · rw [Nat.mul_comm w 2, pow2w, ← Nat.div_div_eq_div_mul, drop2]
      apply quot _ _ (v.v2 % 2 ^ m) _ m2
      rw [val_eq]
      dsimp only
      clear hv W Wt drop1 drop2 drop3 hv4 hvl hq quot h0 h1 h2 h3 m0 m1 m2 m3 d0 d1
      generalize v.v2 / 2 ^ m = q2 at *
      generalize v.v3 / 2 ^ m = q3 at *
      generalize v.v2 % 2 ^ m = r2 at *
      generalize v.v3 % 2 ^ m = r3 at *
      rw [← d2, ← d3, hB]
      ring
  · have hv : Valid w ⟨v.v3 / 2 ^ m, 0, 0, 0⟩ := ⟨Wt _ h3, hBp, hBp, hBp⟩
    refine ⟨_, ?_, hv, ?_⟩
    · simp only [shrLoop, X4.wa, X4.setWa, Outcome.bind_ok, zero4, shr_word0]
    · rw [Nat.mul_comm w 3, pow3w, ← Nat.div_div_eq_div_mul, ← Nat.mul_assoc, drop3]
      simp [val_eq]
  · refine ⟨zero4, rfl, ⟨hBp, hBp, hBp, hBp⟩, ?_⟩
    rw [Nat.mul_comm w 4, ← Nat.div_div_eq_div_mul, Nat.div_eq_of_lt hvl, Nat.zero_div]
    simp [val, zero4]

theorem shr_is {w : Nat} (hw : w = 32 ∨ w = 64) {v : X4} (h : Valid w v) (s : Nat) (hs : s < 5 * w) :
    ∃ r, shr w v s = .ok r ∧ Is w r (val w v / 2 ^ s) := by
  have hw0 : 0 < w := by rcases hw with rfl | rfl <;> decide
  have hm : s % w ≤ w := (Nat.mod_lt s hw0).le
  have hd : s / w ≤ 4 := by
    have : s / w < 5 := Nat.div_lt_of_lt_mul (by rw [Nat.mul_comm]; exact hs)
    omega
  unfold shr
  dsimp only
  rw [mask_eq hw, show (4 + 256 - s / w) % 256 = 4 - s / w by generalize s / w = d at *; omega]
  obtain ⟨r, hr, hi⟩ := shrLoop_is hm h (s / w) hd
  rw [pow_div_mod] at hi
  refine ⟨r, ?_, hi⟩
  split
  · exact hr
  · rename_i hz
    rw [shrCopy_eq (w := w) _ (Nat.sub_le _ _)]
    rw [show s % w = 0 by omega] at hr
    exact hr

/-- Beyond, the first write is outside of the array. -/
theorem shr_ub {w : Nat} (hw : w = 32 ∨ w = 64) (v : X4) (s : Nat) (hs : 5 * w ≤ s) (h8 : s < 256) :
    shr w v s = .ub := by
  rcases hw with rfl | rfl
  · have hd : 5 ≤ s / 32 ∧ s / 32 < 8 := by omega
    unfold shr
    dsimp only
    obtain ⟨k, hk⟩ : ∃ k, (4 + 256 - s / 32) % 256 = k + 4 + 1 := ⟨(4 + 256 - s / 32) % 256 - 5, by omega⟩
    rw [hk]
    have hset : ∀ x, X4.setWa zero4 (k + 4) x = .ub := fun x => rfl
    split
    · simp only [shrLoop, X4.wa, Outcome.bind_ok, hset]; rfl
    · simp only [shrCopy, X4.wa, Outcome.bind_ok, hset]; rfl
  · omega

end Verif.U128
