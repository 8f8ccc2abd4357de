import Verif.Pcg.Lemmas
import Mathlib.Data.BitVec

/-!
# The random-number engine: theorems
-/

namespace Verif.Pcg

open Spec

variable {w : Nat}

/-! ## C94 — jumping ahead -/

theorem bump_toNat (p : Par w) (s : BitVec w) :
    (bump p s).toNat = step p.mult.toNat p.inc.toNat (2 ^ w) s.toNat := by
  simp only [bump, step, BitVec.toNat_add, BitVec.toNat_mul, Nat.mod_add_mod]
  rw [Nat.mul_comm]

theorem bump_iter_toNat (p : Par w) (n : Nat) (s : BitVec w) :
    ((bump p)^[n] s).toNat = steps p.mult.toNat p.inc.toNat (2 ^ w) n s.toNat := by
  unfold steps
  induction n generalizing s with
  | zero => rfl
  | succ n ih => rw [Function.iterate_succ_apply, Function.iterate_succ_apply, ih, bump_toNat]

/-- The map `x ↦ a x + b`. -/
def aff (a b x : BitVec w) : BitVec w := a * x + b

theorem and_one_ne (d : BitVec w) : (d &&& 1#w ≠ 0#w) ↔ d.toNat % 2 = 1 := by
  rw [ne_eq, ← BitVec.toNat_inj, BitVec.toNat_and]
  rcases w with _ | w
  · simp [BitVec.of_length_zero]
  · have : (1#(w + 1)).toNat = 1 := by simp
    rw [this, Nat.and_one_is_mod]
    simp

theorem advanceLoop_eq (n : Nat) : ∀ (delta accM accP curM curP : BitVec w), delta.toNat = n →
    ∀ s, aff (advanceLoop delta accM accP curM curP).1 (advanceLoop delta accM accP curM curP).2 s =
      (aff curM curP)^[n] (aff accM accP s) := by
  induction n using Nat.strong_induction_on with
  | _ n ih =>
    intro delta accM accP curM curP hn s
    rw [advanceLoop]
    by_cases h : 0 < delta.toNat
    · rw [dif_pos h]
      have hlt : (delta >>> 1).toNat = n / 2 := by
        rw [BitVec.toNat_ushiftRight, Nat.shiftRight_eq_div_pow, hn, pow_one]
      have hsq : ∀ x, aff (curM * curM) ((curM + 1#w) * curP) x = (aff curM curP)^[2] x := by
        intro x
        simp only [aff, Function.iterate_succ, Function.iterate_zero, Function.comp, id]
        have h1 : (1#w : BitVec w) = 1 := rfl
        rw [h1]
        ring
      have hsq' : aff (curM * curM) ((curM + 1#w) * curP) = (aff curM curP)^[2] := funext hsq
      by_cases hb : delta &&& 1#w ≠ 0#w
      · simp only [if_pos hb]
        rw [ih (n / 2) (by omega) _ _ _ _ _ hlt, hsq', ← Function.iterate_mul]
        have hod := (and_one_ne delta).mp hb
        have e1 : aff (accM * curM) (accP * curM + curP) s = aff curM curP (aff accM accP s) := by
          simp only [aff]; ring
        rw [e1, ← Function.iterate_succ_apply]
        congr 1
        rw [hn] at hod
        omega
      · simp only [if_neg hb]
        rw [ih (n / 2) (by omega) _ _ _ _ _ hlt, hsq', ← Function.iterate_mul]
        have hev : delta.toNat % 2 ≠ 1 := fun h => hb ((and_one_ne delta).mpr h)
        rw [hn] at hev
        congr 1
        omega
    · rw [dif_neg h]
      have : n = 0 := by omega
      subst this
      rfl

theorem advance_iter (p : Par w) (s d : BitVec w) : advance p s d = (bump p)^[d.toNat] s := by
  have h := advanceLoop_eq d.toNat d 1#w 0#w p.mult p.inc rfl s
  have h1 : aff 1#w 0#w s = s := by
    simp [aff]
  have h2 : aff p.mult p.inc = bump p := by
    funext x; simp only [aff, bump]; ring
  rw [h1, h2] at h
  rw [← h]
  rfl

/-- **C94.** `advance(d)` is `d` steps of the recurrence, for every multiplier, increment, state and
`d`, and for state types of every width. -/
theorem C94_advance (p : Par w) (s d : BitVec w) :
    (advance p s d).toNat = steps p.mult.toNat p.inc.toNat (2 ^ w) d.toNat s.toNat := by
  rw [advance_iter, bump_iter_toNat]

/-- The values drawn one after the other. -/
def draw (p : Par w) (prev : Bool) (output : BitVec w → BitVec x) : Nat → BitVec w → List (BitVec x)
  | 0, _ => []
  | n + 1, s => (next p prev output s).1 :: draw p prev output n (next p prev output s).2

theorem next_state (p : Par w) (prev : Bool) (output : BitVec w → BitVec x) (s : BitVec w) :
    (next p prev output s).2 = bump p s := by
  cases prev <;> rfl

/-- **C94.** Drawing after `discard(d)` continues the sequence `d` values later. -/
theorem C94_discard (p : Par w) (prev : Bool) (output : BitVec w → BitVec x) (s d : BitVec w)
    (n : Nat) : draw p prev output n (advance p s d) =
      (draw p prev output (d.toNat + n) s).drop d.toNat := by
  rw [advance_iter]
  generalize d.toNat = k
  induction k generalizing s with
  | zero => simp
  | succ k ih =>
    rw [Function.iterate_succ_apply, ih, Nat.add_right_comm, draw, List.drop_succ_cons, next_state]

/-- Advancing twice is advancing once by the sum. -/
theorem C94_add (p : Par w) (s d e : BitVec w) (h : d.toNat + e.toNat < 2 ^ w) :
    advance p (advance p s d) e = advance p s (d + e) := by
  rw [advance_iter, advance_iter, advance_iter, ← Function.iterate_add_apply, BitVec.toNat_add,
    Nat.mod_eq_of_lt h, Nat.add_comm]

/-! ## C95 — the period -/

theorem bump_iter_int (p : Par w) (n : Nat) (s : BitVec w) :
    (bump p)^[n] s = BitVec.ofInt w ((lin p.mult.toNat p.inc.toNat)^[n] s.toNat) := by
  induction n with
  | zero => simp [BitVec.ofInt_natCast]
  | succ n ih =>
    rw [Function.iterate_succ_apply', Function.iterate_succ_apply', ih]
    simp only [lin, bump, BitVec.ofInt_add, BitVec.ofInt_mul, BitVec.ofInt_natCast,
      BitVec.ofNat_toNat, BitVec.setWidth_eq]
    rw [mul_comm]

theorem ofInt_eq_iff (a b : ℤ) : BitVec.ofInt w a = BitVec.ofInt w b ↔ (2 ^ w : ℤ) ∣ a - b := by
  rw [← BitVec.toNat_inj]
  simp only [BitVec.toNat_ofInt]
  have hpos : (0 : ℤ) < 2 ^ w := by positivity
  have e : ((2 ^ w : ℕ) : ℤ) = 2 ^ w := by push_cast; rfl
  rw [e]
  have h1 := Int.emod_nonneg a hpos.ne'
  have h2 := Int.emod_nonneg b hpos.ne'
  rw [show (a % 2 ^ w).toNat = (b % 2 ^ w).toNat ↔ a % 2 ^ w = b % 2 ^ w by omega]
  rw [Int.emod_eq_emod_iff_emod_sub_eq_zero]
  exact (Int.dvd_iff_emod_eq_zero).symm

/-- The exponent by which the first move is even. -/
def lowBits (p : Par w) : Nat := if p.mcg then 2 else 0

theorem first_move {p : Par w} (hp : Good p) {s : BitVec w} (hs : Reach p s) :
    OddMove (2 ^ lowBits p) (lin p.mult.toNat p.inc.toNat s.toNat - s.toNat) := by
  have hm := hp.mult
  have hi := hp.inc
  simp only [lin, lowBits]
  by_cases h : p.mcg
  · rw [if_pos h] at hi ⊢
    have hs := hs h
    obtain ⟨k, hk⟩ : ∃ k, p.mult.toNat = 8 * k + 5 := ⟨p.mult.toNat / 8, by omega⟩
    obtain ⟨l, hl⟩ : ∃ l, s.toNat = 2 * l + 1 := ⟨s.toNat / 2, by omega⟩
    refine ⟨(2 * k + 1) * (2 * l + 1), Odd.mul ⟨k, rfl⟩ ⟨l, rfl⟩, ?_⟩
    rw [hk, hl, hi]
    push_cast
    ring
  · rw [if_neg h] at hi ⊢
    obtain ⟨k, hk⟩ : ∃ k, p.mult.toNat = 8 * k + 5 := ⟨p.mult.toNat / 8, by omega⟩
    obtain ⟨l, hl⟩ : ∃ l, p.inc.toNat = 2 * l + 1 := ⟨p.inc.toNat / 2, by omega⟩
    refine ⟨2 * ((4 * k + 2) * s.toNat + l) + 1, ⟨_, rfl⟩, ?_⟩
    rw [hk, hl]
    push_cast
    ring

theorem mult_mod_four {p : Par w} (hp : Good p) : (p.mult.toNat : ℤ) % 4 = 1 := by
  have := hp.mult
  omega

theorem period_eq (p : Par w) : period p = 2 ^ (w - lowBits p) := by
  unfold period lowBits
  split <;> simp

theorem width_ge {p : Par w} (hp : Good p) : 3 ≤ w := by
  by_contra hc
  have h := hp.mult
  have hlt := p.mult.isLt
  have : 2 ^ w ≤ 2 ^ 2 := Nat.pow_le_pow_right (by norm_num) (by omega)
  omega

/-- **C95.** An engine comes back to its state after `n` steps exactly if `n` is a multiple of the
period: `2 ^ w` for engines with an increment, `2 ^ (w - 2)` for the others. -/
theorem C95_period {p : Par w} (hp : Good p) {s : BitVec w} (hs : Reach p s) (n : Nat) :
    steps p.mult.toNat p.inc.toNat (2 ^ w) n s.toNat = s.toNat ↔ period p ∣ n := by
  rw [← bump_iter_toNat, BitVec.toNat_inj, period_eq,
    ← lin_period (w := w) (mult_mod_four hp) (first_move hp hs) n, ← ofInt_eq_iff, bump_iter_int,
    BitVec.ofInt_natCast, BitVec.ofNat_toNat, BitVec.setWidth_eq]

theorem bump_iter_eq_self {p : Par w} (hp : Good p) {s : BitVec w} (hs : Reach p s) (n : Nat) :
    (bump p)^[n] s = s ↔ period p ∣ n := by
  rw [← C95_period hp hs, ← bump_iter_toNat, BitVec.toNat_inj]

theorem C95_period_pow2 (p : Par w) : period p = 2 ^ periodPow2 p := by
  unfold period periodPow2
  split <;> simp

theorem bump_reach {p : Par w} (hp : Good p) {s : BitVec w} (hs : Reach p s) :
    Reach p (bump p s) := by
  intro h
  have h1 := hs h
  have hm := hp.mult
  have hi := hp.inc
  rw [if_pos h] at hi
  rw [bump_toNat, step, hi, Nat.add_zero]
  have h4 : (4 : Nat) ∣ 2 ^ w := by
    have := pow_dvd_pow 2 (show 2 ≤ w by have := width_ge hp; omega)
    simpa using this
  rw [Nat.mod_mod_of_dvd _ h4, Nat.mul_mod, h1, show p.mult.toNat % 4 = 1 by omega]

theorem iter_reach {p : Par w} (hp : Good p) {s : BitVec w} (hs : Reach p s) (n : Nat) :
    Reach p ((bump p)^[n] s) := by
  induction n with
  | zero => exact hs
  | succ n ih => rw [Function.iterate_succ_apply']; exact bump_reach hp ih

theorem or_three (s : BitVec w) (hw : 2 ≤ w) : (s ||| 3#w).toNat % 4 = 3 := by
  have h3 : (3#w).toNat = 3 := by
    have : 2 ^ 2 ≤ 2 ^ w := Nat.pow_le_pow_right (by norm_num) hw
    simp only [BitVec.toNat_ofNat]
    exact Nat.mod_eq_of_lt (by omega)
  rw [BitVec.toNat_or, h3]
  apply Nat.eq_of_testBit_eq
  intro i
  rw [show (4 : Nat) = 2 ^ 2 from rfl, Nat.testBit_mod_two_pow, Nat.testBit_or]
  rcases i with _ | _ | i
  · simp
  · simp [show Nat.testBit 3 1 = true from rfl]
  · have : Nat.testBit 3 (i + 2) = false := Nat.testBit_lt_two_pow (by
      calc 3 < 2 ^ 2 := by norm_num
        _ ≤ 2 ^ (i + 2) := Nat.pow_le_pow_right (by norm_num) (by omega))
    simp [this]

/-- **C95.** Every seed gives a state of the engine, and drawing stays within these states. -/
theorem C95_init {p : Par w} (hp : Good p) (seed : BitVec w) :
    Reach p (init p seed) ∧ ∀ s, Reach p s → Reach p (bump p s) := by
  refine ⟨fun h => ?_, fun s hs => bump_reach hp hs⟩
  rw [init, if_pos h]
  exact or_three seed (by have := width_ge hp; omega)

theorem bump_inj {p : Par w} (hp : Good p) : Function.Injective (bump p) := by
  intro a b h
  have e : a * p.mult = b * p.mult := by
    simp only [bump] at h
    exact add_right_cancel h
  rw [← BitVec.toNat_inj] at e ⊢
  rw [BitVec.toNat_mul, BitVec.toNat_mul] at e
  have hc : Nat.Coprime (2 ^ w) p.mult.toNat := by
    apply Nat.Coprime.pow_left
    rw [Nat.coprime_two_left]
    have := hp.mult
    exact ⟨p.mult.toNat / 2, by omega⟩
  have : a.toNat ≡ b.toNat [MOD 2 ^ w] := Nat.ModEq.cancel_right_of_coprime (c := p.mult.toNat)
    (by simpa using hc) e
  exact Nat.ModEq.eq_of_lt_of_lt this a.isLt b.isLt

/-! ## C96 — going back, and the distance between engines -/

theorem mod_succ_iff (a b i : Nat) :
    a % 2 ^ (i + 1) = b % 2 ^ (i + 1) ↔ a % 2 ^ i = b % 2 ^ i ∧ a.testBit i = b.testBit i := by
  constructor
  · intro h
    refine ⟨?_, ?_⟩
    · have h4 : 2 ^ i ∣ 2 ^ (i + 1) := pow_dvd_pow 2 (by omega)
      rw [← Nat.mod_mod_of_dvd a h4, h, Nat.mod_mod_of_dvd b h4]
    · have := congrArg (fun x => x.testBit i) h
      simpa [Nat.testBit_mod_two_pow] using this
  · rintro ⟨h1, h2⟩
    apply Nat.eq_of_testBit_eq
    intro k
    rw [Nat.testBit_mod_two_pow, Nat.testBit_mod_two_pow]
    rcases lt_trichotomy k i with h | h | h
    · have := congrArg (fun x => x.testBit k) h1
      simp only [Nat.testBit_mod_two_pow, h, decide_true, Bool.true_and] at this
      rw [this]
    · subst h; rw [h2]
    · simp [show ¬ k < i + 1 by omega]

theorem and_twoPow_eq (a b : BitVec w) (i : Nat) (hi : i < w) :
    a &&& BitVec.twoPow w i = b &&& BitVec.twoPow w i ↔ a.toNat.testBit i = b.toNat.testBit i := by
  rw [BitVec.and_twoPow, BitVec.and_twoPow, BitVec.testBit_toNat, BitVec.testBit_toNat]
  have hne : BitVec.twoPow w i ≠ 0#w := by
    intro h
    have := congrArg BitVec.toNat h
    rw [BitVec.toNat_twoPow, Nat.mod_eq_of_lt (Nat.pow_lt_pow_right (by norm_num) hi)] at this
    simp at this
  cases a.getLsbD i <;> cases b.getLsbD i <;> simp [hne, hne.symm]

theorem and_mask_eq (a b mask : BitVec w) (M : Nat) (h : mask.toNat = 2 ^ M - 1) :
    a &&& mask = b &&& mask ↔ a.toNat % 2 ^ M = b.toNat % 2 ^ M := by
  rw [← BitVec.toNat_inj, BitVec.toNat_and, BitVec.toNat_and, h, Nat.and_two_pow_sub_one_eq_mod,
    Nat.and_two_pow_sub_one_eq_mod]

/-- `2 ^ j` steps keep the bits below `j + e` and flip the bit `j + e`. -/
theorem flip_bit {p : Par w} (hp : Good p) {s : BitVec w} (hs : Reach p s) (j : Nat)
    (hj : j + lowBits p < w) :
    ((bump p)^[2 ^ j] s).toNat % 2 ^ (j + lowBits p) = s.toNat % 2 ^ (j + lowBits p) ∧
    ((bump p)^[2 ^ j] s).toNat.testBit (j + lowBits p) = !s.toNat.testBit (j + lowBits p) := by
  obtain ⟨q, ⟨r, hr⟩, h⟩ := lin_double (mult_mod_four hp) (first_move hp hs) j
  rw [bump_iter_int]
  set i := j + lowBits p with hi
  set t := (lin p.mult.toNat p.inc.toNat)^[2 ^ j] (s.toNat : ℤ) with ht
  have key : (BitVec.ofInt w t).toNat % 2 ^ (i + 1) = (2 ^ i + s.toNat) % 2 ^ (i + 1) := by
    have hd : (2 ^ (i + 1) : ℤ) ∣ t - (2 ^ i + s.toNat) := by
      refine ⟨r, ?_⟩
      rw [hr] at h
      rw [pow_succ]
      linarith [h, mul_add (2 ^ i : ℤ) (2 * r) 1, mul_assoc (2 ^ i : ℤ) 2 r]
    have h4 : (2 ^ (i + 1) : ℤ) ∣ 2 ^ w := pow_dvd_pow 2 (by omega)
    have e : ((BitVec.ofInt w t).toNat : ℤ) % 2 ^ (i + 1) = t % 2 ^ (i + 1) := by
      rw [BitVec.toNat_ofInt]
      have hpos : (0 : ℤ) < ((2 ^ w : ℕ) : ℤ) := by positivity
      rw [Int.toNat_of_nonneg (Int.emod_nonneg _ hpos.ne')]
      push_cast
      exact Int.emod_emod_of_dvd _ h4
    have e2 := (Int.emod_emod_of_dvd t (dvd_refl (2 ^ (i + 1) : ℤ)))
    have e3 : t % 2 ^ (i + 1) = (2 ^ i + s.toNat : ℤ) % 2 ^ (i + 1) :=
      (Int.emod_eq_emod_iff_emod_sub_eq_zero).mpr (Int.emod_eq_zero_of_dvd hd)
    rw [e3] at e
    exact_mod_cast e
  rw [mod_succ_iff] at key
  refine ⟨?_, ?_⟩
  · rw [key.1, Nat.add_mod_left]
  · rw [key.2, Nat.testBit_two_pow_add_eq]

theorem two_pow_or {a i : Nat} (h : a < 2 ^ i) : 2 ^ i ||| a = 2 ^ i + a := by
  have := Nat.two_pow_add_eq_or_of_lt h 1
  simpa using this.symm

theorem aff_sq (a b : BitVec w) : aff (a * a) ((a + 1#w) * b) = (aff a b)^[2] := by
  funext x
  simp only [aff, Function.iterate_succ, Function.iterate_zero, Function.comp, id]
  have h1 : (1#w : BitVec w) = 1 := rfl
  rw [h1]
  ring

theorem distanceLoop_spec {p : Par w} (hp : Good p) (dbg : Bool) {s0 new mask : BitVec w}
    (hs : Reach p s0) (M : Nat) (hM : M ≤ w)
    (hmask : ∀ a, Reach p a → (a &&& mask = new &&& mask ↔ a.toNat % 2 ^ M = new.toNat % 2 ^ M)) (n : Nat) :
    ∀ (fuel j k : Nat) (cur dist mult plus : BitVec w), M - (j + lowBits p) = n → n < fuel →
      aff mult plus = (bump p)^[2 ^ j] → cur = (bump p)^[k] s0 → k < 2 ^ j →
      dist.toNat = k * 2 ^ lowBits p →
      cur.toNat % 2 ^ (j + lowBits p) = new.toNat % 2 ^ (j + lowBits p) →
      (k = 0 ∨ k < 2 ^ (M - lowBits p)) →
      ∃ d k', distanceLoop dbg fuel cur new mask (BitVec.twoPow w (j + lowBits p)) dist mult plus =
        .ok d ∧ d.toNat = k' * 2 ^ lowBits p ∧ (k' = 0 ∨ k' < 2 ^ (M - lowBits p)) ∧
        ((bump p)^[k'] s0).toNat % 2 ^ M = new.toNat % 2 ^ M := by
  induction n with
  | zero =>
    intro fuel j k cur dist mult plus hn hf haff hcur hk hdist heq hkb
    obtain ⟨fuel, rfl⟩ : ∃ f, fuel = f + 1 := ⟨fuel - 1, by omega⟩
    have he : cur.toNat % 2 ^ M = new.toNat % 2 ^ M := by
      have h4 : 2 ^ M ∣ 2 ^ (j + lowBits p) := pow_dvd_pow 2 (by omega)
      rw [← Nat.mod_mod_of_dvd cur.toNat h4, heq, Nat.mod_mod_of_dvd _ h4]
    refine ⟨dist, k, ?_, hdist, hkb, hcur ▸ he⟩
    rw [distanceLoop, if_pos ((hmask _ (hcur ▸ iter_reach hp hs k)).mpr he)]
  | succ n ih =>
    intro fuel j k cur dist mult plus hn hf haff hcur hk hdist heq hkb
    obtain ⟨fuel, rfl⟩ : ∃ f, fuel = f + 1 := ⟨fuel - 1, by omega⟩
    rw [distanceLoop]
    by_cases he : cur &&& mask = new &&& mask
    · rw [if_pos he]
      exact ⟨dist, k, rfl, hdist, hkb, hcur ▸ (hmask _ (hcur ▸ iter_reach hp hs k)).mp he⟩
    rw [if_neg he]
    have hiw : j + lowBits p < w := by omega
    have hbit := fun a b : BitVec w => and_twoPow_eq a b (j + lowBits p) hiw
    have hshift : BitVec.twoPow w (j + lowBits p) <<< 1 = BitVec.twoPow w (j + 1 + lowBits p) := by
      rw [BitVec.twoPow, BitVec.twoPow, ← BitVec.shiftLeft_add]
      congr 1
      omega
    have haff' : aff (mult * mult) ((mult + 1#w) * plus) = (bump p)^[2 ^ (j + 1)] := by
      rw [aff_sq, haff, ← Function.iterate_mul, pow_succ]
    by_cases hb : cur &&& BitVec.twoPow w (j + lowBits p) ≠ new &&& BitVec.twoPow w (j + lowBits p)
    · simp only [if_pos hb]
      have hne : cur.toNat.testBit (j + lowBits p) ≠ new.toNat.testBit (j + lowBits p) :=
        fun h => hb ((hbit _ _).mpr h)
      have hcr : Reach p cur := hcur ▸ iter_reach hp hs k
      obtain ⟨hf1, hf2⟩ := flip_bit hp hcr j hiw
      have hcur' : cur * mult + plus = (bump p)^[2 ^ j] cur := by
        rw [← haff]; simp only [aff]; ring
      have hcur2 : cur * mult + plus = (bump p)^[k + 2 ^ j] s0 := by
        rw [hcur', hcur, ← Function.iterate_add_apply, Nat.add_comm]
      have heq' : (cur * mult + plus).toNat % 2 ^ (j + lowBits p + 1) =
          new.toNat % 2 ^ (j + lowBits p + 1) := by
        rw [mod_succ_iff]
        refine ⟨by rw [hcur', hf1, heq], ?_⟩
        rw [hcur', hf2]
        cases h1 : cur.toNat.testBit (j + lowBits p) <;>
          cases h2 : new.toNat.testBit (j + lowBits p) <;> simp_all
      have hnb : ¬ (dbg = true ∧ (cur * mult + plus) &&& BitVec.twoPow w (j + lowBits p) ≠
          new &&& BitVec.twoPow w (j + lowBits p)) := by
        rintro ⟨-, h⟩
        exact h ((hbit _ _).mpr ((mod_succ_iff _ _ _).mp heq').2)
      rw [if_neg hnb, hshift]
      have hdist' : (dist ||| BitVec.twoPow w (j + lowBits p)).toNat =
          (k + 2 ^ j) * 2 ^ lowBits p := by
        have hlt : dist.toNat < 2 ^ (j + lowBits p) := by
          rw [hdist, pow_add]
          exact Nat.mul_lt_mul_of_pos_right hk (by positivity)
        rw [BitVec.toNat_or, BitVec.toNat_twoPow,
          Nat.mod_eq_of_lt (Nat.pow_lt_pow_right (by norm_num) hiw), Nat.or_comm,
          (two_pow_or hlt), hdist, pow_add, Nat.add_mul, Nat.add_comm]
      refine ih fuel (j + 1) (k + 2 ^ j) _ _ _ _ (by omega) (by omega) haff' hcur2
        (by rw [pow_succ]; omega) hdist' ?_ (Or.inr ?_)
      · rw [show j + 1 + lowBits p = j + lowBits p + 1 by omega]
        exact heq'
      · have : 2 ^ (j + 1) ≤ 2 ^ (M - lowBits p) := Nat.pow_le_pow_right (by norm_num) (by omega)
        rw [pow_succ] at this
        omega
    · simp only [if_neg hb]
      have hb' := (hbit _ _).mp (not_not.mp hb)
      have hnb : ¬ (dbg = true ∧ cur &&& BitVec.twoPow w (j + lowBits p) ≠
          new &&& BitVec.twoPow w (j + lowBits p)) := fun h => hb h.2
      rw [if_neg hnb, hshift]
      refine ih fuel (j + 1) k _ _ _ _ (by omega) (by omega) haff' hcur
        (by rw [pow_succ]; omega) hdist ?_ hkb
      rw [show j + 1 + lowBits p = j + lowBits p + 1 by omega, mod_succ_iff]
      exact ⟨heq, hb'⟩

/-- The distance with a mask that compares the low `M` bits: a number of steps after which they agree. -/
theorem distance_mask {p : Par w} (hp : Good p) (dbg : Bool) {s new mask : BitVec w}
    (hs : Reach p s) (hn : Reach p new) (M : Nat) (hM : M ≤ w)
    (hmask : ∀ a, Reach p a → (a &&& mask = new &&& mask ↔ a.toNat % 2 ^ M = new.toNat % 2 ^ M))
    (fuel : Nat) (hf : w < fuel) :
    ∃ d, distance dbg fuel p s new mask = .ok d ∧
      ((bump p)^[d.toNat] s).toNat % 2 ^ M = new.toNat % 2 ^ M ∧
      (d.toNat = 0 ∨ d.toNat < 2 ^ (M - lowBits p)) := by
  have hw := width_ge hp
  have hlow : s.toNat % 2 ^ (0 + lowBits p) = new.toNat % 2 ^ (0 + lowBits p) := by
    unfold lowBits
    by_cases h : p.mcg
    · simp only [if_pos h]
      have := hs h
      have := hn h
      omega
    · simp [if_neg h, Nat.mod_one]
  obtain ⟨d, k, h1, h2, h3, h4⟩ := distanceLoop_spec hp dbg (s0 := s) (new := new) hs M hM hmask _
    fuel 0 0 s 0#w p.mult p.inc rfl (by omega)
    (by funext x; simp only [aff, bump, pow_zero, Function.iterate_one]; ring) rfl (by norm_num) (by simp) hlow (Or.inl rfl)
  have hbit : BitVec.twoPow w (0 + lowBits p) = if p.mcg then 4#w else 1#w := by
    unfold lowBits
    split
    · rw [← BitVec.toNat_inj, BitVec.toNat_twoPow, BitVec.toNat_ofNat]
    · rw [← BitVec.toNat_inj, BitVec.toNat_twoPow, BitVec.toNat_ofNat]
  rw [hbit] at h1
  have hres : distance dbg fuel p s new mask = .ok (if p.mcg then d >>> 2 else d) := by
    rw [distance, distance', h1]; rfl
  have hdk : (if p.mcg then d >>> 2 else d).toNat = k := by
    unfold lowBits at h2
    by_cases h : p.mcg
    · rw [if_pos h] at h2 ⊢
      rw [BitVec.toNat_ushiftRight, Nat.shiftRight_eq_div_pow, h2]
      exact Nat.mul_div_cancel _ (by norm_num)
    · rw [if_neg h] at h2 ⊢
      rw [h2]; simp
  exact ⟨_, hres, by rw [hdk]; exact h4, by rw [hdk]; exact h3⟩

/-- The distance with a mask of `M` low bits: a number of steps after which the masked bits agree. -/
theorem distance_spec {p : Par w} (hp : Good p) (dbg : Bool) {s new mask : BitVec w}
    (hs : Reach p s) (hn : Reach p new) (M : Nat) (hM : M ≤ w) (hmask : mask.toNat = 2 ^ M - 1)
    (fuel : Nat) (hf : w < fuel) :
    ∃ d, distance dbg fuel p s new mask = .ok d ∧
      ((bump p)^[d.toNat] s).toNat % 2 ^ M = new.toNat % 2 ^ M ∧
      (d.toNat = 0 ∨ d.toNat < 2 ^ (M - lowBits p)) := by
  exact distance_mask hp dbg hs hn M hM (fun a _ => and_mask_eq a new mask M hmask) fuel hf

/-- **C96.** `a - b` is the number of steps from `b` to `a`: it is less than the period, and advancing
`b` by it gives `a`. The loop ends within `w` rounds and its assertion holds. -/
theorem C96_minus {p : Par w} (hp : Good p) (dbg : Bool) {a b : BitVec w} (ha : Reach p a)
    (hb : Reach p b) (fuel : Nat) (hf : w < fuel) :
    ∃ d, minus dbg fuel p a b = .ok d ∧ advance p b d = a ∧ d.toNat < period p := by
  have hmask : (BitVec.allOnes w).toNat = 2 ^ w - 1 := by simp
  obtain ⟨d, h1, h2, h3⟩ := distance_spec hp dbg hb ha w le_rfl hmask fuel hf
  refine ⟨d, h1, ?_, ?_⟩
  · rw [advance_iter]
    rw [Nat.mod_eq_of_lt (BitVec.isLt _), Nat.mod_eq_of_lt (BitVec.isLt _)] at h2
    exact BitVec.toNat_inj.mp h2
  · rw [period_eq]
    rcases h3 with h | h
    · rw [h]; positivity
    · exact h

/-- **C95.** Every state of the engine is reached from every other, in exactly one way within a
period. -/
theorem C95_all_states {p : Par w} (hp : Good p) {s t : BitVec w} (hs : Reach p s)
    (ht : Reach p t) : ∃! n, n < period p ∧
      steps p.mult.toNat p.inc.toNat (2 ^ w) n s.toNat = t.toNat := by
  obtain ⟨d, -, h2, h3⟩ := C96_minus hp false ht hs (w + 1) (by omega)
  rw [advance_iter] at h2
  refine ⟨d.toNat, ⟨h3, by rw [← bump_iter_toNat, h2]⟩, ?_⟩
  rintro n ⟨hn, he⟩
  rw [← bump_iter_toNat, BitVec.toNat_inj] at he
  have aux : ∀ a b : Nat, a ≤ b → b < period p → (bump p)^[a] s = (bump p)^[b] s → a = b := by
    intro a b hab hb he
    have : (bump p)^[b - a] s = s := by
      apply (bump_inj hp).iterate a
      rw [← Function.iterate_add_apply, Nat.add_sub_cancel' hab]
      exact he.symm
    rw [bump_iter_eq_self hp hs] at this
    have := Nat.eq_zero_of_dvd_of_lt this (by omega)
    omega
  rcases le_total n d.toNat with h | h
  · exact aux _ _ h h3 (he.trans h2.symm)
  · exact (aux _ _ h hn (h2.trans he.symm)).symm

/-- **C96.** Advancing by `n` and subtracting gives `n`, up to whole periods. -/
theorem C96_minus_advance {p : Par w} (hp : Good p) (dbg : Bool) {s : BitVec w} (hs : Reach p s)
    (n : BitVec w) (fuel : Nat) (hf : w < fuel) :
    ∃ d, minus dbg fuel p (advance p s n) s = .ok d ∧ d.toNat = n.toNat % period p := by
  have hr : Reach p (advance p s n) := by rw [advance_iter]; exact iter_reach hp hs _
  obtain ⟨d, h1, h2, h3⟩ := C96_minus hp dbg hr hs fuel hf
  refine ⟨d, h1, ?_⟩
  have hpos : 0 < period p := by rw [period_eq]; positivity
  obtain ⟨m, -, hm⟩ := C95_all_states hp hs hr
  have e1 := hm d.toNat ⟨h3, by rw [← bump_iter_toNat, ← advance_iter, h2]⟩
  have e2 := hm (n.toNat % period p) ⟨Nat.mod_lt _ hpos, by
    rw [← bump_iter_toNat, advance_iter]
    congr 1
    have hper : (bump p)^[period p * (n.toNat / period p)] s = s :=
      (bump_iter_eq_self hp hs _).mpr ⟨_, rfl⟩
    conv_rhs => rw [← Nat.mod_add_div n.toNat (period p), Function.iterate_add_apply, hper]⟩
  rw [e1, e2]

/-- **C96.** `backstep` undoes `advance`, and the other way round. -/
theorem C96_backstep {p : Par w} (hp : Good p) {s : BitVec w} (hs : Reach p s) (d : BitVec w) :
    backstep p (advance p s d) d = s ∧ advance p (backstep p s d) d = s := by
  have hper : period p ∣ 2 ^ w := by
    rw [period_eq]; exact pow_dvd_pow 2 (by omega)
  have key : period p ∣ (-d).toNat + d.toNat := by
    refine dvd_trans hper ?_
    rw [BitVec.toNat_neg]
    rcases Nat.eq_zero_or_pos d.toNat with h | h
    · simp [h]
    · rw [Nat.mod_eq_of_lt (by have := d.isLt; omega)]
      exact ⟨1, by have := d.isLt; omega⟩
  constructor
  · rw [backstep, advance_iter, advance_iter, ← Function.iterate_add_apply]
    exact (bump_iter_eq_self hp hs _).mpr key
  · rw [backstep, advance_iter, advance_iter, ← Function.iterate_add_apply, Nat.add_comm]
    exact (bump_iter_eq_self hp hs _).mpr key

/-- `wrapped` says whether the engine is in one particular state, which it is in exactly once per
period. -/
theorem C95_wrapped {p : Par w} (hp : Good p) {s : BitVec w} (hs : Reach p s) :
    ∃! n, n < period p ∧ wrapped p (advance p s (BitVec.ofNat w n)) = true := by
  have hw := width_ge hp
  have hle : period p ≤ 2 ^ w := by
    rw [period_eq]; exact Nat.pow_le_pow_right (by norm_num) (by omega)
  have ht : Reach p (if p.mcg then 3#w else 0#w) := by
    intro h
    have h3 : 3 < 2 ^ w := by
      calc 3 < 2 ^ 2 := by norm_num
        _ ≤ 2 ^ w := Nat.pow_le_pow_right (by norm_num) (by omega)
    rw [if_pos h, BitVec.toNat_ofNat, Nat.mod_eq_of_lt h3]
  have hiff : ∀ n, n < period p →
      (wrapped p (advance p s (BitVec.ofNat w n)) = true ↔
        steps p.mult.toNat p.inc.toNat (2 ^ w) n s.toNat =
          (if p.mcg then 3#w else 0#w).toNat) := by
    intro n hn
    rw [← bump_iter_toNat, BitVec.toNat_inj, advance_iter, BitVec.toNat_ofNat,
      Nat.mod_eq_of_lt (by omega)]
    unfold wrapped
    split <;> simp
  obtain ⟨n, ⟨h1, h2⟩, h3⟩ := C95_all_states hp hs ht
  exact ⟨n, ⟨h1, (hiff n h1).mpr h2⟩, fun m hm => h3 m ⟨hm.1, (hiff m hm.1).mp hm.2⟩⟩

/-! ## The parameters of the engines meet the hypotheses -/

theorem or_one_odd (x : BitVec w) (hw : 0 < w) : (x ||| 1#w).toNat % 2 = 1 := by
  have h1 : (1#w).toNat = 1 := by
    simp only [BitVec.toNat_ofNat]
    exact Nat.mod_eq_of_lt (Nat.one_lt_two_pow hw.ne')
  have : (x ||| 1#w).toNat.testBit 0 = true := by
    rw [BitVec.toNat_or, h1, Nat.testBit_or]
    simp
  simpa [Nat.testBit_zero] using this

theorem mults : mult8.toNat % 8 = 5 ∧ mult16.toNat % 8 = 5 ∧ mult32.toNat % 8 = 5 ∧
    mult64.toNat % 8 = 5 ∧ mult128.toNat % 8 = 5 := by decide

/-- The default multipliers can be used with the default increments, with the increment of every
stream, with the increment made from the address of the engine, and without increment. -/
theorem C95_engines :
    (Good ⟨mult8, inc8, false⟩ ∧ Good ⟨mult16, inc16, false⟩ ∧ Good ⟨mult32, inc32, false⟩ ∧
      Good ⟨mult64, inc64, false⟩ ∧ Good ⟨mult128, inc128, false⟩) ∧
    (∀ x, Good ⟨mult8, setStream x, false⟩) ∧ (∀ x, Good ⟨mult16, setStream x, false⟩) ∧
    (∀ x, Good ⟨mult32, setStream x, false⟩) ∧ (∀ x, Good ⟨mult64, setStream x, false⟩) ∧
    (∀ x, Good ⟨mult128, setStream x, false⟩) ∧
    (∀ x, Good ⟨mult8, uniqueInc x, false⟩) ∧ (∀ x, Good ⟨mult16, uniqueInc x, false⟩) ∧
    (∀ x, Good ⟨mult32, uniqueInc x, false⟩) ∧ (∀ x, Good ⟨mult64, uniqueInc x, false⟩) ∧
    (∀ x, Good ⟨mult128, uniqueInc x, false⟩) ∧
    (Good ⟨mult8, 0, true⟩ ∧ Good ⟨mult16, 0, true⟩ ∧ Good ⟨mult32, 0, true⟩ ∧
      Good ⟨mult64, 0, true⟩ ∧ Good ⟨mult128, 0, true⟩) := by
  refine ⟨⟨⟨by decide, by decide⟩, ⟨by decide, by decide⟩, ⟨by decide, by decide⟩,
    ⟨by decide, by decide⟩, ⟨by decide, by decide⟩⟩, ?_, ?_, ?_, ?_, ?_, ?_, ?_, ?_, ?_, ?_,
    ⟨by decide, by decide⟩, ⟨by decide, by decide⟩, ⟨by decide, by decide⟩,
    ⟨by decide, by decide⟩, ⟨by decide, by decide⟩⟩
  all_goals
    refine fun x => ⟨?_, or_one_odd _ (by norm_num)⟩
    first
      | exact mults.1
      | exact mults.2.1
      | exact mults.2.2.1
      | exact mults.2.2.2.1
      | exact mults.2.2.2.2

/-- Different streams have different increments: the increment determines the stream up to its highest
bit. -/
theorem C95_streams (a b : BitVec w) (h : setStream a = setStream b) :
    a.toNat % 2 ^ (w - 1) = b.toNat % 2 ^ (w - 1) := by
  apply Nat.eq_of_testBit_eq
  intro i
  rw [Nat.testBit_mod_two_pow, Nat.testBit_mod_two_pow]
  by_cases hi : i < w - 1
  · have h1 := congrArg (fun x => x.getLsbD (i + 1)) h
    have hi2 : i + 1 < w := by omega
    simp only [setStream, BitVec.getLsbD_or, BitVec.getLsbD_shiftLeft, BitVec.getLsbD_one, hi2] at h1
    simp only [BitVec.testBit_toNat, hi]
    simpa using h1
  · simp [hi]

/-- The engine behind `getRndEngine` (`Rnd.hpp` 18-30): 2 ^ 62 states. -/
example : ∃ p : Par 64, Good p ∧ p.mcg = true ∧ period p = 2 ^ 62 ∧ Reach p (init p 42) :=
  ⟨⟨mult64, 0, true⟩, ⟨by decide, by decide⟩, rfl, rfl, fun _ => by decide⟩

end Verif.Pcg
