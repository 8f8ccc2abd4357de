import Verif.U128.LemmasShift

namespace Verif.U128

open Verif Spec

/-! ## Counting -/

theorem log2_of {n k : Nat} (h1 : 2 ^ k ≤ n) (h2 : n < 2 ^ (k + 1)) : Nat.log2 n = k := by
  have hn : n ≠ 0 := by have := Nat.two_pow_pos k; omega
  exact (Nat.log2_eq_iff hn).2 ⟨h1, h2⟩

theorem log2_spec {n : Nat} (hn : n ≠ 0) : 2 ^ Nat.log2 n ≤ n ∧ n < 2 ^ (Nat.log2 n + 1) := (Nat.log2_eq_iff hn).1 rfl

/-- The logarithm is decided by the upper part. -/
theorem log2_cat {N x y : Nat} (hx : x < 2 ^ N) (hy : y ≠ 0) : Nat.log2 (x + 2 ^ N * y) = Nat.log2 y + N := by
  obtain ⟨h1, h2⟩ := log2_spec hy
  apply log2_of
  · rw [Nat.add_comm (Nat.log2 y), Nat.pow_add]
    have := Nat.mul_le_mul_left (2 ^ N) h1
    omega
  · rw [show Nat.log2 y + N + 1 = N + (Nat.log2 y + 1) by omega, Nat.pow_add]
    exact cons_lt hx h2

theorem flog2_is {w : Nat} (hw : w = 32 ∨ w = 64) {v : X4} (h : Valid w v) (hv : val w v ≠ 0) :
    flog2 w v = .ok (Nat.log2 (val w v)) := by
  have hlt := val_lt h
  have hl : Nat.log2 (val w v) < 256 := by
    have h1 := (log2_spec hv).1
    have : 2 ^ Nat.log2 (val w v) < 2 ^ (4 * w) := Nat.lt_of_le_of_lt h1 hlt
    have := (Nat.pow_lt_pow_iff_right (by decide : 1 < 2)).1 this
    rcases hw with rfl | rfl <;> omega
  rw [← Nat.mod_eq_of_lt hl]
  rw [val_eq] at hv ⊢
  obtain ⟨h0, h1, h2, h3⟩ := h
  simp only [flog2, flog2Loop, X4.wa, Outcome.bind_ok]
  by_cases e3 : v.v3 = 0
  · rw [if_pos e3, e3]
    by_cases e2 : v.v2 = 0
    · rw [if_pos e2, e2]
      by_cases e1 : v.v1 = 0
      · rw [if_pos e1, e1]
        by_cases e0 : v.v0 = 0
        · exfalso; apply hv; rw [e0, e1, e2, e3]; simp
        · rw [if_neg e0, flog2W, if_neg e0]
          simp
      · rw [if_neg e1, flog2W, if_neg e1, Outcome.bind_ok]
        simp only [Nat.mul_zero, Nat.add_zero]
        rw [log2_cat h0 e1, Nat.mul_one]; rfl
    · rw [if_neg e2, flog2W, if_neg e2, Outcome.bind_ok]
      have : v.v0 + 2 ^ w * (v.v1 + 2 ^ w * (v.v2 + 2 ^ w * 0)) = (v.v0 + 2 ^ w * v.v1) + 2 ^ (2 * w) * v.v2 := by
        rw [pow2w]; ring
      rw [this, log2_cat (by rw [pow2w]; exact cons_lt h0 h1) e2, Nat.mul_comm w 2]; rfl
  · rw [if_neg e3, flog2W, if_neg e3, Outcome.bind_ok]
    have : v.v0 + 2 ^ w * (v.v1 + 2 ^ w * (v.v2 + 2 ^ w * v.v3)) =
        (v.v0 + 2 ^ w * (v.v1 + 2 ^ w * v.v2)) + 2 ^ (3 * w) * v.v3 := by
      rw [pow3w]; ring
    rw [this, log2_cat (by rw [pow3w]; exact cons_lt h0 (cons_lt h1 h2)) e3, Nat.mul_comm w 3]; rfl

theorem flog2_zero {w : Nat} {v : X4} (hv : val w v = 0) : flog2 w v = .assertFail := by
  have hB : 2 ^ w ≠ 0 := (Nat.two_pow_pos w).ne'
  have e : v.v0 = 0 ∧ v.v1 = 0 ∧ v.v2 = 0 ∧ v.v3 = 0 := by
    rw [val_eq] at hv
    simp only [Nat.add_eq_zero_iff, Nat.mul_eq_zero, hB, false_or] at hv
    tauto
  obtain ⟨e0, e1, e2, e3⟩ := e
  simp only [flog2, flog2Loop, X4.wa, Outcome.bind_ok, if_pos e3, if_pos e2, if_pos e1, if_pos e0]

theorem ctz_spec {n : Nat} (hn : n ≠ 0) : Trailing n (ctz n) := by
  induction n using Nat.strongRecOn with
  | _ n ih =>
    rw [ctz, if_neg hn]
    by_cases h : n % 2 = 1
    · rw [if_pos h]
      refine ⟨by simp, ?_⟩
      intro hd
      have : 2 ∣ n := by simpa using hd
      omega
    · rw [if_neg h]
      obtain ⟨h1, h2⟩ := ih (n / 2) (by omega) (by omega)
      have e : n = 2 * (n / 2) := by omega
      constructor
      · rw [Nat.pow_succ, Nat.mul_comm]
        rw [e]
        simpa using Nat.mul_dvd_mul_left 2 h1
      · intro hd
        apply h2
        rw [Nat.pow_succ, Nat.mul_comm] at hd
        rw [e] at hd
        exact Nat.dvd_of_mul_dvd_mul_left (k := 2) (by decide) (by simpa using hd)

theorem trailing_unique {n j k : Nat} (hj : Trailing n j) (hk : Trailing n k) : j = k := by
  by_contra hne
  rcases Nat.lt_or_gt_of_ne hne with h | h
  · exact hj.2 ((Nat.pow_dvd_pow 2 h).trans hk.1)
  · exact hk.2 ((Nat.pow_dvd_pow 2 h).trans hj.1)

/-- The zeros at the end are decided by the lower part, when it is not zero. -/
theorem trailing_low {N x y k : Nat} (hx : x < 2 ^ N) (h0 : x ≠ 0) (h : Trailing x k) : Trailing (x + 2 ^ N * y) k := by
  have hk : k < N := by
    have := Nat.le_of_dvd (by omega) h.1
    exact (Nat.pow_lt_pow_iff_right (by decide : 1 < 2)).1 (by omega)
  constructor
  · exact (Nat.dvd_add_iff_right h.1).1 (((Nat.pow_dvd_pow 2 hk.le)).trans (Nat.dvd_mul_right _ _))
  · intro hd
    exact h.2 ((Nat.dvd_add_iff_left (((Nat.pow_dvd_pow 2 (Nat.succ_le_of_lt hk))).trans (Nat.dvd_mul_right _ _))).2 hd)

theorem trailing_high {N y k : Nat} (h : Trailing y k) : Trailing (0 + 2 ^ N * y) (k + N) := by
  have hN : 0 < 2 ^ N := Nat.two_pow_pos N
  rw [Nat.zero_add]
  constructor
  · rw [Nat.add_comm, Nat.pow_add]; exact Nat.mul_dvd_mul_left _ h.1
  · intro hd
    rw [show k + N + 1 = N + (k + 1) by omega, Nat.pow_add] at hd
    exact h.2 (Nat.dvd_of_mul_dvd_mul_left hN hd)

theorem trailing_lt {n N k : Nat} (hn : n ≠ 0) (hlt : n < 2 ^ N) (h : Trailing n k) : k < N := by
  have := Nat.le_of_dvd (by omega) h.1
  exact (Nat.pow_lt_pow_iff_right (by decide : 1 < 2)).1 (Nat.lt_of_le_of_lt this hlt)

theorem trailingzeros_is {w : Nat} (hw : w = 32 ∨ w = 64) {v : X4} (h : Valid w v) (hv : val w v ≠ 0) :
    ∃ k, trailingzeros w v = .ok k ∧ Trailing (val w v) k := by
  have hlt := val_lt h
  have fin : ∀ k, Trailing (val w v) k → k % 256 = k := fun k hk => by
    have := trailing_lt hv hlt hk
    apply Nat.mod_eq_of_lt
    rcases hw with rfl | rfl <;> omega
  rw [val_eq] at hv fin ⊢
  obtain ⟨h0, h1, h2, h3⟩ := h
  unfold trailingzeros
  by_cases e0 : v.v0 = 0
  · by_cases e1 : v.v1 = 0
    · by_cases e2 : v.v2 = 0
      · by_cases e3 : v.v3 = 0
        · exfalso; apply hv; rw [e0, e1, e2, e3]; simp
        · have t : Trailing (v.v0 + 2 ^ w * (v.v1 + 2 ^ w * (v.v2 + 2 ^ w * v.v3))) (ctz v.v3 + w * 3) := by
            rw [e0, e1, e2]
            have := trailing_high (N := w) (trailing_high (N := w) (trailing_high (N := w) (ctz_spec e3)))
            rwa [show ctz v.v3 + w + w + w = ctz v.v3 + w * 3 by ring] at this
          refine ⟨ctz v.v3 + w * 3, ?_, t⟩
          rw [trailingzerosLoop, if_pos (by decide)]
          simp only [X4.wa, Outcome.bind_ok, e0, ne_eq, not_true_eq_false, if_false]
          rw [trailingzerosLoop, if_pos (by decide)]
          simp only [X4.wa, Outcome.bind_ok, e1, ne_eq, not_true_eq_false, if_false]
          rw [trailingzerosLoop, if_pos (by decide)]
          simp only [X4.wa, Outcome.bind_ok, e2, ne_eq, not_true_eq_false, if_false]
          rw [trailingzerosLoop, if_pos (by decide)]
          simp only [X4.wa, Outcome.bind_ok, e3, ne_eq, not_false_eq_true, if_true, trailingzerosW, if_false, fin _ t]
          rfl
      · have t : Trailing (v.v0 + 2 ^ w * (v.v1 + 2 ^ w * (v.v2 + 2 ^ w * v.v3))) (ctz v.v2 + w * 2) := by
          rw [e0, e1]
          have := trailing_high (N := w) (trailing_high (N := w) (trailing_low (y := v.v3) h2 e2 (ctz_spec e2)))
          rwa [show ctz v.v2 + w + w = ctz v.v2 + w * 2 by ring] at this
        refine ⟨ctz v.v2 + w * 2, ?_, t⟩
        rw [trailingzerosLoop, if_pos (by decide)]
        simp only [X4.wa, Outcome.bind_ok, e0, ne_eq, not_true_eq_false, if_false]
        rw [trailingzerosLoop, if_pos (by decide)]
        simp only [X4.wa, Outcome.bind_ok, e1, ne_eq, not_true_eq_false, if_false]
        rw [trailingzerosLoop, if_pos (by decide)]
        simp only [X4.wa, Outcome.bind_ok, e2, ne_eq, not_false_eq_true, if_true, trailingzerosW, if_false, fin _ t]
        rfl
    · have t : Trailing (v.v0 + 2 ^ w * (v.v1 + 2 ^ w * (v.v2 + 2 ^ w * v.v3))) (ctz v.v1 + w * 1) := by
        rw [e0, Nat.mul_one]
        exact trailing_high (N := w) (trailing_low h1 e1 (ctz_spec e1))
      refine ⟨ctz v.v1 + w * 1, ?_, t⟩
      rw [trailingzerosLoop, if_pos (by decide)]
      simp only [X4.wa, Outcome.bind_ok, e0, ne_eq, not_true_eq_false, if_false]
      rw [trailingzerosLoop, if_pos (by decide)]
      simp only [X4.wa, Outcome.bind_ok, e1, ne_eq, not_false_eq_true, if_true, trailingzerosW, if_false, fin _ t]
      rfl
  · have t : Trailing (v.v0 + 2 ^ w * (v.v1 + 2 ^ w * (v.v2 + 2 ^ w * v.v3))) (ctz v.v0 + w * 0) :=
      trailing_low h0 e0 (ctz_spec e0)
    refine ⟨ctz v.v0 + w * 0, ?_, t⟩
    rw [trailingzerosLoop, if_pos (by decide)]
    simp only [X4.wa, Outcome.bind_ok, e0, ne_eq, not_false_eq_true, if_true, trailingzerosW, if_false, fin _ t]
    rfl

theorem trailingzeros_zero {w : Nat} {v : X4} (hv : val w v = 0) : trailingzeros w v = .ok (w * 4 % 256) := by
  have hB : 2 ^ w ≠ 0 := (Nat.two_pow_pos w).ne'
  have e : v.v0 = 0 ∧ v.v1 = 0 ∧ v.v2 = 0 ∧ v.v3 = 0 := by
    rw [val_eq] at hv
    simp only [Nat.add_eq_zero_iff, Nat.mul_eq_zero, hB, false_or] at hv
    tauto
  obtain ⟨e0, e1, e2, e3⟩ := e
  unfold trailingzeros
  rw [trailingzerosLoop, if_pos (by decide)]
  simp only [X4.wa, Outcome.bind_ok, e0, ne_eq, not_true_eq_false, if_false]
  rw [trailingzerosLoop, if_pos (by decide)]
  simp only [X4.wa, Outcome.bind_ok, e1, ne_eq, not_true_eq_false, if_false]
  rw [trailingzerosLoop, if_pos (by decide)]
  simp only [X4.wa, Outcome.bind_ok, e2, ne_eq, not_true_eq_false, if_false]
  rw [trailingzerosLoop, if_pos (by decide)]
  simp only [X4.wa, Outcome.bind_ok, e3, ne_eq, not_true_eq_false, if_false]
  rw [trailingzerosLoop, if_neg (by decide)]

/-! ## Division -/

theorem divInner_is {w : Nat} (hw : w = 32 ∨ w = 64) {A : X4} (hA : Valid w A) (d : Nat) (fuel : Nat) :
    ∀ {F Q : X4}, Valid w F → Valid w Q → val w F < fuel →
      (d ≤ val w A → ∃ k, val w F = d * 2 ^ k ∧ val w Q = 2 ^ k) →
      ∃ F' Q', divInner w A fuel F Q = .ok (F', Q') ∧ Valid w F' ∧ Valid w Q' ∧ val w F' ≤ val w A ∧
        (d ≤ val w A → ∃ k, val w F' = d * 2 ^ k ∧ val w Q' = 2 ^ k) := by
  induction fuel with
  | zero => intro F Q _ _ hf _; omega
  | succ fuel ih =>
    intro F Q hF hQ hf inv
    unfold divInner
    have hlt := lt_iff hA hF
    by_cases h : lt w A F = true
    · rw [if_pos h]
      obtain ⟨F1, e1, i1⟩ := shr_is hw hF 1 (by rcases hw with rfl | rfl <;> decide)
      obtain ⟨Q1, e2, i2⟩ := shr_is hw hQ 1 (by rcases hw with rfl | rfl <;> decide)
      rw [e1, Outcome.bind_ok, e2, Outcome.bind_ok]
      have hAF := hlt.1 h
      apply ih i1.1 i2.1
      · rw [i1.2]; omega
      · intro hd
        obtain ⟨k, hk1, hk2⟩ := inv hd
        cases k with
        | zero => simp at hk1; omega
        | succ k =>
          refine ⟨k, ?_, ?_⟩
          · rw [i1.2, hk1, Nat.pow_succ, ← Nat.mul_assoc, Nat.pow_one, Nat.mul_div_cancel _ (by decide)]
          · rw [i2.2, hk2, Nat.pow_succ, Nat.pow_one, Nat.mul_div_cancel _ (by decide)]
    · rw [if_neg h]
      exact ⟨F, Q, rfl, hF, hQ, by rw [hlt] at h; omega, inv⟩

theorem divOuter_is {w : Nat} (hw : w = 32 ∨ w = 64) {D : X4} (hD : Valid w D) (hd0 : val w D ≠ 0) (n inner : Nat)
    (hn : n < 2 ^ (4 * w)) (fuel : Nat) :
    ∀ {A Q F G : X4}, Valid w A → Valid w Q → Valid w F → Valid w G → val w A < fuel → val w A < inner →
      val w A + val w Q * val w D = n → val w F ≤ val w A → (∃ k, val w F = val w D * 2 ^ k ∧ val w G = 2 ^ k) →
      ∃ q r, divOuter w D inner fuel A Q F G = .ok (q, r) ∧ Is w q (n / val w D) ∧ Is w r (n % val w D) := by
  have hw0 : 0 < w := by rcases hw with rfl | rfl <;> decide
  induction fuel with
  | zero => intro A Q F G _ _ _ _ hf; omega
  | succ fuel ih =>
    intro A Q F G hA hQ hF hG hf hin hinv hle hk
    obtain ⟨k, hk1, hk2⟩ := hk
    have hkp : 0 < 2 ^ k := Nat.two_pow_pos k
    have hFpos : 0 < val w F := by rw [hk1]; exact Nat.mul_pos (by omega) hkp
    obtain ⟨sv, sval⟩ := sub_is hw0 hA hF
    obtain ⟨av, aval⟩ := add_is hw0 hQ hG
    have hAl := val_lt hA
    have sval' : val w (sub w A F) = val w A - val w F := by
      rw [sval, show val w A + 2 ^ (4 * w) - val w F = (val w A - val w F) + 2 ^ (4 * w) by omega, Nat.add_mod_right,
        Nat.mod_eq_of_lt (by omega)]
    have tot : val w A - val w F + (val w Q + val w G) * val w D = n := by
      rw [hk2, Nat.add_mul, ← hinv, hk1]
      rw [hk1] at hle
      have : 2 ^ k * val w D = val w D * 2 ^ k := Nat.mul_comm _ _
      omega
    have aval' : val w (add w Q G) = val w Q + val w G := by
      rw [aval]
      apply Nat.mod_eq_of_lt
      have : val w Q + val w G ≤ (val w Q + val w G) * val w D := Nat.le_mul_of_pos_right _ (by omega)
      omega
    unfold divOuter
    dsimp only
    obtain ⟨F', G', e, f1, f2, f3, f4⟩ := divInner_is hw sv (val w D) inner hF hG (by omega)
      (fun _ => ⟨k, hk1, hk2⟩)
    rw [e, Outcome.bind_ok]
    dsimp only
    have hge : ge w (sub w A F) D = true ↔ val w D ≤ val w (sub w A F) := by
      have := lt_iff sv hD
      unfold ge
      cases h : lt w (sub w A F) D
      · simp [h] at this ⊢; exact this
      · simp [h] at this ⊢; exact this
    by_cases h : ge w (sub w A F) D = true
    · rw [if_pos h]
      have hd := hge.1 h
      exact ih sv av f1 f2 (by omega) (by omega) (by rw [sval', aval']; exact tot) f3 (f4 hd)
    · rw [if_neg h]
      rw [hge, sval'] at h
      refine ⟨_, _, rfl, ⟨av, ?_⟩, ⟨sv, ?_⟩⟩
      · rw [aval', ← tot, Nat.add_mul_div_right _ _ (by omega), Nat.div_eq_of_lt (by omega), Nat.zero_add]
      · rw [sval', ← tot, Nat.add_mul_mod_self_right, Nat.mod_eq_of_lt (by omega)]

theorem ofInt_small {w : Nat} (hw : 0 < w) (x : Nat) (hx : x ≤ 1) : Is w (ofInt w x) x := by
  have h := ofInt_is (w := w) (x : Int)
  have h2 : (2 : Nat) ≤ 2 ^ (2 * w) := by
    calc 2 = 2 ^ 1 := rfl
      _ ≤ 2 ^ (2 * w) := Nat.pow_le_pow_right (by decide) (by omega)
  have : ((x : Int) % 2 ^ (2 * w)).toNat = x := by
    rw [show ((2 : Int) ^ (2 * w)) = ((2 ^ (2 * w) : Nat) : Int) by push_cast; rfl, ← Int.natCast_mod, Int.toNat_natCast,
      Nat.mod_eq_of_lt (by omega)]
  rwa [this] at h

theorem divmod_is {w : Nat} (hw : w = 32 ∨ w = 64) {a d : X4} (ha : Valid w a) (hd : Valid w d) (h0 : val w d ≠ 0)
    (fuel : Nat) (hf : val w a < fuel) :
    ∃ q r, divmod w fuel a d = .ok (q, r) ∧ Is w q (val w a / val w d) ∧ Is w r (val w a % val w d) := by
  have hw0 : 0 < w := by rcases hw with rfl | rfl <;> decide
  have hal := val_lt ha
  have hlt := lt_iff ha hd
  unfold divmod
  by_cases h : lt w a d = true
  · rw [if_pos h]
    have hc := hlt.1 h
    refine ⟨_, _, rfl, ?_, ha, ?_⟩
    · rw [Nat.div_eq_of_lt hc]; exact ofInt_small hw0 0 (by omega)
    · rw [Nat.mod_eq_of_lt hc]
  · rw [if_neg h]
    rw [hlt] at h
    have ha0 : val w a ≠ 0 := by omega
    rw [flog2_is hw hd h0, Outcome.bind_ok, flog2_is hw ha ha0, Outcome.bind_ok]
    dsimp only
    obtain ⟨d1, d2⟩ := log2_spec h0
    obtain ⟨a1, a2⟩ := log2_spec ha0
    have hll : Nat.log2 (val w d) ≤ Nat.log2 (val w a) := by
      by_contra hc
      have : 2 ^ (Nat.log2 (val w a) + 1) ≤ 2 ^ Nat.log2 (val w d) := Nat.pow_le_pow_right (by decide) (by omega)
      omega
    have hl : Nat.log2 (val w a) < 4 * w := by
      have : 2 ^ Nat.log2 (val w a) < 2 ^ (4 * w) := Nat.lt_of_le_of_lt a1 hal
      exact (Nat.pow_lt_pow_iff_right (by decide : 1 < 2)).1 this
    have hw4 : 4 * w ≤ 256 := by rcases hw with rfl | rfl <;> decide
    generalize hL1 : Nat.log2 (val w d) = l1 at *
    generalize hL2 : Nat.log2 (val w a) = l2 at *
    have e : (l2 + 256 - l1) % 256 = l2 - l1 := by omega
    rw [e]
    by_cases hz : l2 - l1 = 0
    · rw [if_pos hz]
      have : l2 = l1 := by omega
      subst this
      obtain ⟨sv, sval⟩ := sub_is hw0 ha hd
      have hs : val w (sub w a d) = val w a - val w d := by
        rw [sval, show val w a + 2 ^ (4 * w) - val w d = (val w a - val w d) + 2 ^ (4 * w) by omega, Nat.add_mod_right,
          Nat.mod_eq_of_lt (by omega)]
      have h2 : val w a - val w d < val w d := by rw [Nat.pow_succ] at a2; omega
      have hq : val w a = (val w a - val w d) + val w d * 1 := by omega
      refine ⟨_, _, rfl, ?_, sv, ?_⟩
      · rw [hq, Nat.add_mul_div_left _ _ (by omega), Nat.div_eq_of_lt h2]; exact ofInt_small hw0 1 (by omega)
      · rw [hs]
        conv_rhs => rw [hq]
        rw [Nat.add_mul_mod_self_left, Nat.mod_eq_of_lt h2]
    · rw [if_neg hz]
      obtain ⟨G, eG, iG⟩ := shl_is hw (ofInt_small hw0 1 (by omega)).1 (l2 - l1 - 1)
      obtain ⟨F, eF, iF⟩ := shl_is hw hd (l2 - l1 - 1)
      have hone : val w (ofInt w ((1 : Nat) : Int)) = 1 := (ofInt_small hw0 1 (by omega)).2
      rw [hone, Nat.one_mul] at iG
      have hzero := ofInt_small hw0 0 (by omega)
      have hFle : val w d * 2 ^ (l2 - l1 - 1) ≤ val w a := by
        have h1 : val w d * 2 ^ (l2 - l1 - 1) ≤ 2 ^ (l1 + 1) * 2 ^ (l2 - l1 - 1) := Nat.mul_le_mul_right _ d2.le
        rw [← Nat.pow_add, show l1 + 1 + (l2 - l1 - 1) = l2 by omega] at h1
        omega
      have hGlt : 2 ^ (l2 - l1 - 1) < 2 ^ (4 * w) := Nat.pow_lt_pow_right (by decide) (by omega)
      rw [Nat.mod_eq_of_lt hGlt] at iG
      rw [Nat.mod_eq_of_lt (by omega)] at iF
      have eG' : shl w (ofInt w 1) (l2 - l1 - 1) = .ok G := eG
      rw [eG', Outcome.bind_ok, eF, Outcome.bind_ok]
      apply divOuter_is hw hd h0 (val w a) fuel hal fuel ha hzero.1 iF.1 iG.1 hf hf
      · have := hzero.2
        rw [this]; omega
      · rw [iF.2]; exact hFle
      · exact ⟨_, iF.2, iG.2⟩

theorem divmod_zero {w : Nat} {a d : X4} (ha : Valid w a) (hd : Valid w d) (h0 : val w d = 0) (fuel : Nat) :
    divmod w fuel a d = .assertFail := by
  have hlt := lt_iff ha hd
  have h : ¬ lt w a d = true := by rw [hlt]; omega
  unfold divmod
  rw [if_neg h, flog2_zero h0]
  rfl

end Verif.U128
