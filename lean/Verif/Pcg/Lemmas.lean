import Verif.Pcg.Spec
import Mathlib.Tactic.Ring
import Mathlib.Tactic.Linarith
import Mathlib.Algebra.Ring.Parity
import Mathlib.Algebra.Ring.Int.Parity
import Mathlib.Data.Int.ModEq
import Mathlib.Data.Nat.Factorization.Basic

/-!
# Linear congruential recurrences modulo a power of two

Over the integers, without a modulus: `n` steps move a state by `2 ^ (v + e)` times an odd number, where
`2 ^ v` is the largest power of two that divides `n` and `2 ^ e` the largest that divides the first
move.
-/

namespace Verif.Pcg

/-- The recurrence over the integers. -/
def lin (m c x : ℤ) : ℤ := m * x + c

theorem lin_iter_sub (m c x y : ℤ) (n : Nat) :
    (lin m c)^[n] x - (lin m c)^[n] y = m ^ n * (x - y) := by
  induction n generalizing x y with
  | zero => simp
  | succ n ih =>
    rw [Function.iterate_succ_apply, Function.iterate_succ_apply, ih]
    simp only [lin]
    ring

/-- Moves by an odd multiple of `d`. -/
def OddMove (d z : ℤ) : Prop := ∃ q, Odd q ∧ z = d * q

theorem lin_double {m c x : ℤ} {e : Nat} (hm : m % 4 = 1) (h0 : OddMove (2 ^ e) (lin m c x - x))
    (i : Nat) : OddMove (2 ^ (i + e)) ((lin m c)^[2 ^ i] x - x) := by
  induction i with
  | zero => simpa using h0
  | succ i ih =>
    obtain ⟨q, hq, h⟩ := ih
    have hp : ∃ r, m ^ 2 ^ i + 1 = 2 * (2 * r + 1) := by
      have : m ^ 2 ^ i % 4 = 1 := by
        have h1 : m ≡ 1 [ZMOD 4] := by rw [Int.ModEq, hm]; rfl
        have h2 := h1.pow (2 ^ i)
        rw [one_pow] at h2
        exact h2
      exact ⟨m ^ 2 ^ i / 4, by omega⟩
    obtain ⟨r, hr⟩ := hp
    have e1 : (lin m c)^[2 ^ (i + 1)] x - x =
        (m ^ 2 ^ i + 1) * ((lin m c)^[2 ^ i] x - x) := by
      have := lin_iter_sub m c ((lin m c)^[2 ^ i] x) x (2 ^ i)
      rw [← Function.iterate_add_apply, ← mul_two, ← pow_succ] at this
      linarith [this, add_mul (m ^ 2 ^ i) 1 ((lin m c)^[2 ^ i] x - x)]
    refine ⟨(2 * r + 1) * q, Odd.mul ⟨r, rfl⟩ hq, ?_⟩
    rw [e1, hr, h]
    ring

/-- Repeating an affine map with an odd factor an odd number of times. -/
theorem affine_odd {g : ℤ → ℤ} {M : ℤ} (hM : Odd M) (hg : ∀ x y, g x - g y = M * (x - y))
    (x : ℤ) (q : Nat) : ∃ S : ℤ, g^[q] x - x = S * (g x - x) ∧ (Odd S ↔ Odd q) := by
  induction q with
  | zero => exact ⟨0, by simp, by simp⟩
  | succ q ih =>
    obtain ⟨S, h1, h2⟩ := ih
    refine ⟨M * S + 1, ?_, ?_⟩
    · rw [Function.iterate_succ_apply']
      have := hg (g^[q] x) x
      rw [h1] at this
      linarith [mul_assoc M S (g x - x), add_mul (M * S) 1 (g x - x)]
    · rw [Nat.odd_add_one, ← h2, Int.odd_add, Int.odd_mul]
      simp [hM]

theorem lin_pow_mul {m c x : ℤ} {e : Nat} (hm : m % 4 = 1) (h0 : OddMove (2 ^ e) (lin m c x - x))
    (i q : Nat) (hq : Odd q) : OddMove (2 ^ (i + e)) ((lin m c)^[2 ^ i * q] x - x) := by
  obtain ⟨r, hr, h1⟩ := lin_double hm h0 i
  have hodd : Odd (m ^ 2 ^ i) := Odd.pow ⟨m / 2, by omega⟩
  obtain ⟨S, h2, h3⟩ := affine_odd (g := (lin m c)^[2 ^ i]) hodd
    (fun x y => lin_iter_sub m c x y (2 ^ i)) x q
  refine ⟨S * r, (h3.mpr hq).mul hr, ?_⟩
  rw [Function.iterate_mul, h2, h1]
  ring

/-- **The period.** `n` steps lead back to `x` modulo `2 ^ w` exactly if `2 ^ (w - e)` divides `n`. -/
theorem lin_period {m c x : ℤ} {e w : Nat} (hm : m % 4 = 1)
    (h0 : OddMove (2 ^ e) (lin m c x - x)) (n : Nat) :
    (2 ^ w : ℤ) ∣ (lin m c)^[n] x - x ↔ 2 ^ (w - e) ∣ n := by
  rcases Nat.eq_zero_or_pos n with rfl | hn
  · simp
  obtain ⟨i, q, hq, rfl⟩ := Nat.exists_eq_two_pow_mul_odd hn.ne'
  obtain ⟨r, hr, h1⟩ := lin_pow_mul hm h0 i q hq
  rw [h1]
  have ha : ∀ (k l : Nat) (r : ℤ), Odd r → ((2 ^ k : ℤ) ∣ 2 ^ l * r ↔ k ≤ l) := by
    intro k l r hr
    constructor
    · intro hd
      by_contra hc
      have hc := not_le.mp hc
      have : (2 ^ (l + 1) : ℤ) ∣ 2 ^ l * r := dvd_trans (pow_dvd_pow 2 hc) hd
      rw [pow_succ] at this
      have := Int.dvd_of_mul_dvd_mul_left (by positivity) this
      obtain ⟨s, hs⟩ := hr
      omega
    · intro hd
      exact Dvd.dvd.mul_right (pow_dvd_pow 2 hd) r
  rw [ha _ _ _ hr]
  have hb : (2 ^ (w - e) ∣ 2 ^ i * q) ↔ w - e ≤ i := by
    have := ha (w - e) i q (by exact_mod_cast hq)
    rw [← this]
    constructor
    · intro h; exact_mod_cast Int.natCast_dvd_natCast.mpr h
    · intro h; exact_mod_cast h
  rw [hb]
  omega

end Verif.Pcg
