import Verif.PcgExt.Spec
import Verif.Pcg.Theorems
import Mathlib.Data.FinEnum
import Mathlib.SetTheory.Cardinal.Finite
import Mathlib.Algebra.BigOperators.Group.Finset.Basic
import Mathlib.Algebra.Order.BigOperators.Group.Finset
import Mathlib.Tactic.Ring
import Mathlib.Tactic.Linarith
import Mathlib.Tactic.Positivity

/-!
# The extended generators: lemmas about the table

Entry `i` of the table runs through one cycle of length `2 ^ x`; its place on that cycle, counted from zero, is a digit to base
`2 ^ x`. The table is a number with these digits, and advancing the table adds `11…1` to this number.
-/

namespace Verif.PcgExt

open Verif Verif.Pcg Verif.Pcg.Spec Spec

variable {w x : Nat}

theorem fixedBits_eq (p : Par w) : fixedBits p = lowBits p := rfl

/-- The engine of entry `i`. -/
def par (c : Cfg w x) (i : Nat) : Par x := ⟨c.ext.mult, c.ext.inc + BitVec.ofNat x (i * 2), false⟩

theorem par_good {c : Cfg w x} (hc : WellFormed c) (i : Nat) : Good (par c i) := by
  have hx := width_ge hc.ext
  have hi := hc.ext.inc
  rw [hc.lcg] at hi
  refine ⟨hc.ext.mult, ?_⟩
  simp only [Bool.false_eq_true, if_false, par] at hi ⊢
  rw [BitVec.toNat_add, BitVec.toNat_ofNat, Nat.add_mod_mod]
  have h2 : 2 ∣ 2 ^ x := dvd_pow_self 2 (by omega)
  rw [Nat.mod_mod_of_dvd _ h2]
  omega

theorem par_reach {c : Cfg w x} (i : Nat) (s : BitVec x) : Reach (par c i) s := by
  intro h; cases h

theorem par_period {c : Cfg w x} (i : Nat) : period (par c i) = 2 ^ x := rfl

/-- The value of entry `i`, `n` steps after zero. -/
def val (c : Cfg w x) (i n : Nat) : BitVec x := c.eout ((bump (par c i))^[n] 0#x)

theorem eout_inj {c : Cfg w x} (hc : WellFormed c) : Function.Injective c.eout := by
  intro a b h
  have := hc.unout a
  rw [h, hc.unout b] at this
  injection this with h
  exact h.symm

theorem eout_surj {c : Cfg w x} (hc : WellFormed c) : Function.Surjective c.eout :=
  Finite.surjective_of_injective (eout_inj hc)

theorem val_zero {c : Cfg w x} (hc : WellFormed c) (i : Nat) : val c i 0 = 0#x := hc.zero

theorem bump_iter_congr {p : Par w} (hp : Good p) {s : BitVec w} (hs : Reach p s) (m n : Nat) :
    (bump p)^[m] s = (bump p)^[n] s ↔ m % period p = n % period p := by
  have aux : ∀ m n : Nat, m ≤ n → ((bump p)^[m] s = (bump p)^[n] s ↔ m % period p = n % period p) := by
    intro m n h
    rw [show (bump p)^[n] s = (bump p)^[m] ((bump p)^[n - m] s) by
      rw [← Function.iterate_add_apply, Nat.add_sub_cancel' h]]
    rw [((bump_inj hp).iterate m).eq_iff, eq_comm, bump_iter_eq_self hp hs]
    exact (Nat.modEq_iff_dvd' h).symm
  rcases le_total m n with h | h
  · exact aux m n h
  · rw [eq_comm, aux n m h, eq_comm]

theorem val_eq {c : Cfg w x} (hc : WellFormed c) (i m n : Nat) : val c i m = val c i n ↔ m % 2 ^ x = n % 2 ^ x := by
  rw [val, val, (eout_inj hc).eq_iff, bump_iter_congr (par_good hc i) (par_reach i _), par_period]

theorem val_surj {c : Cfg w x} (hc : WellFormed c) (i : Nat) (v : BitVec x) : ∃ n, n < 2 ^ x ∧ val c i n = v := by
  obtain ⟨u, rfl⟩ := eout_surj hc v
  obtain ⟨n, ⟨h1, h2⟩, -⟩ := C95_all_states (par_good hc i) (par_reach i 0#x) (par_reach i u)
  rw [par_period] at h1
  refine ⟨n, h1, ?_⟩
  rw [val, (eout_inj hc).eq_iff, ← BitVec.toNat_inj, bump_iter_toNat]
  exact h2

theorem val_eq_zero {c : Cfg w x} (hc : WellFormed c) (i n : Nat) : val c i n = 0#x ↔ n % 2 ^ x = 0 := by
  rw [← val_zero hc i, val_eq hc, Nat.zero_mod]

/-- One step of an entry, and whether it reached zero. -/
theorem extStep_val {c : Cfg w x} (hc : WellFormed c) (i n : Nat) :
    extStep c i (val c i n) = .ok (val c i (n + 1), decide ((n + 1) % 2 ^ x = 0)) := by
  have e : ((bump (par c i))^[n] 0#x) * c.ext.mult + c.ext.inc + BitVec.ofNat x (i * 2) = (bump (par c i))^[n + 1] 0#x := by
    rw [Function.iterate_succ_apply', bump, par, BitVec.add_assoc]
  rw [extStep, val, hc.unout]
  show Outcome.ok _ = _
  simp only [hc.lcg, Bool.false_eq_true, if_false]
  rw [e]
  have h := val_eq_zero hc i (n + 1)
  rw [val] at h
  rw [val]
  congr 2
  rw [Bool.eq_iff_iff, beq_iff_eq, decide_eq_true_iff]
  exact h

theorem neg_mod {M a b : Nat} (hM : 0 < M) (hb : b < M) (h : M ∣ a + b) : b = if a % M = 0 then 0 else M - a % M := by
  have ha := Nat.mod_lt a hM
  have h0 : (a % M + b) % M = 0 := by rw [Nat.mod_add_mod]; exact Nat.mod_eq_zero_of_dvd h
  by_cases h1 : a % M + b < M
  · rw [Nat.mod_eq_of_lt h1] at h0
    rw [if_pos (by omega)]
    omega
  · rw [Nat.mod_eq_sub_mod (by omega), Nat.mod_eq_of_lt (by omega)] at h0
    rw [if_neg (by omega)]
    omega

/-- The distance of an entry from zero. -/
theorem distance_val {c : Cfg w x} (hc : WellFormed c) (dbg : Bool) (fuel : Nat) (hf : x < fuel) (i n : Nat) :
    ∃ d, distance' dbg false fuel ((bump (par c i))^[n] 0#x) 0#x c.ext.mult (c.ext.inc + BitVec.ofNat x (i * 2))
      (BitVec.allOnes x) = .ok d ∧ d.toNat = if n % 2 ^ x = 0 then 0 else 2 ^ x - n % 2 ^ x := by
  have hg := par_good hc i
  obtain ⟨d, h1, h2, h3⟩ := C96_minus hg dbg (a := 0#x) (b := (bump (par c i))^[n] 0#x) (par_reach i _) (par_reach i _) fuel hf
  rw [par_period] at h3
  refine ⟨d, h1, ?_⟩
  rw [advance_iter, ← Function.iterate_add_apply] at h2
  have hz := (bump_iter_eq_self hg (par_reach i 0#x) _).mp h2
  rw [par_period, Nat.add_comm] at hz
  exact neg_mod (by positivity) h3 hz

theorem advance_val (c : Cfg w x) (i n : Nat) (delta : BitVec x) :
    advance' ((bump (par c i))^[n] 0#x) delta c.ext.mult (c.ext.inc + BitVec.ofNat x (i * 2)) =
      (bump (par c i))^[n + delta.toNat] 0#x := by
  have := advance_iter (par c i) ((bump (par c i))^[n] 0#x) delta
  rw [← Function.iterate_add_apply, Nat.add_comm] at this
  exact this

/-- A jump of an entry. Starting from zero counts as crossing zero. -/
theorem extAdvance_val {c : Cfg w x} (hc : WellFormed c) (dbg : Bool) (fuel : Nat) (hf : x < fuel) (i n : Nat) (delta : BitVec x) :
    extAdvance c dbg fuel i delta true (val c i n) =
      .ok (val c i (n + delta.toNat), decide (n % 2 ^ x = 0 ∨ 2 ^ x ≤ n % 2 ^ x + delta.toNat)) := by
  obtain ⟨d, h1, h2⟩ := distance_val hc dbg fuel hf i n
  rw [extAdvance, val, hc.unout]
  show (distance' dbg c.ext.mcg fuel _ (if c.ext.mcg = true then _ else 0#x) c.ext.mult _ _ >>= _) = _
  rw [hc.lcg]
  simp only [Bool.false_eq_true, if_false]
  rw [h1]
  show Outcome.ok _ = _
  simp only [if_true]
  rw [advance_val, val]
  have hlt : n % 2 ^ x < 2 ^ x := Nat.mod_lt _ (by positivity)
  congr 2
  rw [decide_eq_decide, BitVec.le_def, h2]
  split <;> omega

theorem toNat_neg_sub {n : Nat} {d e : BitVec x} (h : d.toNat = if n % 2 ^ x = 0 then 0 else 2 ^ x - n % 2 ^ x) :
    (-d ≤ e) ↔ n % 2 ^ x ≤ e.toNat := by
  have hlt : n % 2 ^ x < 2 ^ x := Nat.mod_lt _ (by positivity)
  rw [BitVec.le_def, BitVec.toNat_neg, h]
  split
  · rename_i h0
    rw [h0]
    simp
  · rw [Nat.sub_sub_self (by omega), Nat.mod_eq_of_lt hlt]

/-- A jump back of an entry. Arriving at zero counts as crossing zero. -/
theorem extRetreat_val {c : Cfg w x} (hc : WellFormed c) (dbg : Bool) (fuel : Nat) (hf : x < fuel) (hx : 32 ≤ x) (i n : Nat)
    (delta : BitVec x) :
    extAdvance c dbg fuel i delta false (val c i (n + delta.toNat)) =
      .ok (val c i n, decide ((n + delta.toNat) % 2 ^ x ≤ delta.toNat)) := by
  obtain ⟨d, h1, h2⟩ := distance_val hc dbg fuel hf i (n + delta.toNat)
  rw [extAdvance, val, hc.unout]
  show (distance' dbg c.ext.mcg fuel _ (if c.ext.mcg = true then _ else 0#x) c.ext.mult _ _ >>= _) = _
  rw [hc.lcg]
  simp only [Bool.false_eq_true, if_false]
  rw [h1]
  show Outcome.ok _ = _
  simp only [Bool.false_eq_true, if_false, if_neg (show ¬ x < 32 by omega)]
  rw [advance_val]
  have e := (val_eq hc i (n + delta.toNat + (-delta).toNat) n).mpr (by
    have : 2 ^ x ∣ delta.toNat + (-delta).toNat := by
      rw [BitVec.toNat_neg]
      rcases Nat.eq_zero_or_pos delta.toNat with h | h
      · simp [h]
      · rw [Nat.mod_eq_of_lt (by have := delta.isLt; omega)]
        exact ⟨1, by have := delta.isLt; omega⟩
    obtain ⟨q, hq⟩ := this
    rw [Nat.add_assoc, hq, Nat.add_mul_mod_self_left])
  rw [val] at e
  rw [e]
  congr 2
  rw [decide_eq_decide]
  exact toNat_neg_sub h2

/-- The table whose entries from number `i` on are the digits of `N`. -/
def tab (c : Cfg w x) (i : Nat) : Nat → Nat → List (BitVec x)
  | 0, _ => []
  | k + 1, N => val c (i + 1) N :: tab c (i + 1) k (N / 2 ^ x)

/-- `11…1` with `k` digits. -/
def ones (x : Nat) : Nat → Nat
  | 0 => 0
  | k + 1 => 1 + 2 ^ x * ones x k

theorem tab_length (c : Cfg w x) (k : Nat) : ∀ i N, (tab c i k N).length = k := by
  induction k with
  | zero => intros; rfl
  | succ k ih => intro i N; rw [tab, List.length_cons, ih]

theorem tab_eq {c : Cfg w x} (hc : WellFormed c) (k : Nat) : ∀ i M N, tab c i k M = tab c i k N ↔
    M % (2 ^ x) ^ k = N % (2 ^ x) ^ k := by
  induction k with
  | zero => intro i M N; simp [tab, Nat.mod_one]
  | succ k ih =>
    intro i M N
    rw [tab, tab, List.cons.injEq, ih, val_eq hc, pow_succ', Nat.mod_mul, Nat.mod_mul]
    have h1 : M % 2 ^ x < 2 ^ x := Nat.mod_lt _ (by positivity)
    have h2 : N % 2 ^ x < 2 ^ x := Nat.mod_lt _ (by positivity)
    constructor
    · rintro ⟨h, h'⟩; rw [h, h']
    · intro h
      have e1 := congrArg (· % 2 ^ x) h
      simp only [Nat.add_mul_mod_self_left, Nat.mod_mod] at e1
      refine ⟨e1, ?_⟩
      rw [e1] at h
      exact Nat.eq_of_mul_eq_mul_left (by positivity) (Nat.add_left_cancel h)

theorem tab_surj {c : Cfg w x} (hc : WellFormed c) (k : Nat) : ∀ i (data : List (BitVec x)), data.length = k →
    ∃ N, N < (2 ^ x) ^ k ∧ tab c i k N = data := by
  induction k with
  | zero => intro i data h; exact ⟨0, by simp, by rw [List.length_eq_zero_iff.mp h]; rfl⟩
  | succ k ih =>
    intro i data h
    obtain ⟨v, vs, rfl⟩ : ∃ v vs, data = v :: vs := by
      cases data with
      | nil => cases h
      | cons v vs => exact ⟨v, vs, rfl⟩
    obtain ⟨n, hn, e⟩ := val_surj hc (i + 1) v
    obtain ⟨N, hN, e'⟩ := ih (i + 1) vs (by simpa using h)
    refine ⟨n + 2 ^ x * N, ?_, ?_⟩
    · rw [pow_succ']
      have : 2 ^ x * (N + 1) ≤ 2 ^ x * (2 ^ x) ^ k := Nat.mul_le_mul_left _ hN
      rw [Nat.mul_add] at this
      omega
    · rw [tab]
      congr 1
      · rw [← e, val_eq hc, Nat.add_mul_mod_self_left]
      · rw [← e', Nat.add_mul_div_left _ _ (by positivity), Nat.div_eq_of_lt hn, Nat.zero_add]

theorem tab_get {c : Cfg w x} (k : Nat) : ∀ i N j, j < k →
    (tab c i k N)[j]? = some (val c (i + j + 1) (N / (2 ^ x) ^ j)) := by
  induction k with
  | zero => intro i N j h; omega
  | succ k ih =>
    intro i N j h
    rw [tab]
    cases j with
    | zero => simp
    | succ j =>
      rw [List.getElem?_cons_succ, ih _ _ _ (by omega), Nat.div_div_eq_div_mul, ← pow_succ',
        show i + 1 + j + 1 = i + (j + 1) + 1 by omega]

theorem div_add_one_div {M : Nat} (h : 0 < M) (N : Nat) :
    (N + 1) / M = N / M + if (N + 1) % M = 0 then 1 else 0 := by
  rw [Nat.succ_div]
  congr 1
  simp only [Nat.dvd_iff_mod_eq_zero]

/-- Advancing the table adds `11…1`. -/
theorem advTableLoop_tab {c : Cfg w x} (hc : WellFormed c) (k : Nat) : ∀ i carry N,
    advTableLoop c i carry (tab c i k N) = .ok (tab c i k (N + ones x k + if carry then 1 else 0)) := by
  have hx := width_ge hc.ext
  have h8 : 2 ^ 3 ≤ 2 ^ x := Nat.pow_le_pow_right (by norm_num) hx
  induction k with
  | zero => intros; rfl
  | succ k ih =>
    intro i carry N
    have hM : 0 < 2 ^ x := by positivity
    have key : ∀ a, advTableLoop c i carry (tab c i (k + 1) N) = a →
        a = .ok (tab c i (k + 1) (N + ones x (k + 1) + if carry then 1 else 0)) := by
      rintro a rfl
      rw [tab, advTableLoop]
      cases carry with
      | false =>
        simp only [Bool.false_eq_true, if_false, Outcome.bind_ok, extStep_val hc, Bool.false_or, ih, Outcome.pure_eq]
        rw [tab, ones]
        congr 2
        · rw [val_eq hc, show N + (1 + 2 ^ x * ones x k) + 0 = N + 1 + 2 ^ x * ones x k by ring,
            Nat.add_mul_mod_self_left]
        · congr 1
          rw [show N + (1 + 2 ^ x * ones x k) + 0 = N + 1 + 2 ^ x * ones x k by ring,
            Nat.add_mul_div_left _ _ hM, div_add_one_div hM]
          simp only [decide_eq_true_eq]
          ring
      | true =>
        simp only [if_true, Outcome.bind_ok, extStep_val hc, ih, Outcome.pure_eq]
        rw [tab, ones]
        congr 2
        · rw [val_eq hc, show N + (1 + 2 ^ x * ones x k) + 1 = N + 1 + 1 + 2 ^ x * ones x k by ring,
            Nat.add_mul_mod_self_left]
        · congr 1
          rw [show N + (1 + 2 ^ x * ones x k) + 1 = N + 1 + 1 + 2 ^ x * ones x k by ring,
            Nat.add_mul_div_left _ _ hM, div_add_one_div hM, div_add_one_div hM]
          simp only [Bool.or_eq_true, decide_eq_true_eq]
          have hne : ¬ ((N + 1) % 2 ^ x = 0 ∧ (N + 1 + 1) % 2 ^ x = 0) := by
            rintro ⟨h1, h2⟩
            rw [Nat.add_mod, h1, Nat.zero_add, Nat.mod_mod, Nat.mod_eq_of_lt (by omega)] at h2
            omega
          by_cases h1 : (N + 1) % 2 ^ x = 0
          · have h2 : ¬ (N + 1 + 1) % 2 ^ x = 0 := fun h => hne ⟨h1, h⟩
            simp only [h1, h2, true_or, if_true, if_false]
            ring
          · by_cases h2 : (N + 1 + 1) % 2 ^ x = 0 <;> simp only [h1, h2, or_true, or_self, if_true, if_false] <;> ring
    exact key _ rfl

theorem advTable_tab {c : Cfg w x} (hc : WellFormed c) (k N : Nat) :
    advTable c (tab c 0 k N) = .ok (tab c 0 k (N + ones x k)) := by
  rw [advTable, advTableLoop_tab hc]
  simp

theorem ones_odd (x k : Nat) (hx : 0 < x) (hk : 0 < k) : ones x k % 2 = 1 := by
  obtain ⟨k, rfl⟩ : ∃ j, k = j + 1 := ⟨k - 1, by omega⟩
  rw [ones]
  have h2 : 2 ∣ 2 ^ x * ones x k := Dvd.dvd.mul_right (dvd_pow_self 2 (by omega)) _
  omega

end Verif.PcgExt
