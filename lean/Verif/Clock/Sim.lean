import Verif.Clock.Lemmas
import Verif.Clock.Spec

/-! # Updates of a ticker in floating-point arithmetic -/

namespace Verif.Clock

open Verif.Ieee Verif.Ieee.Spec Spec

theorem num_zero (F : Fmt) (hq : F.qmin ≤ F.qmax) : Num F 0 := ⟨0, F.qmin, by simp, le_rfl, hq, by simp⟩

theorem times_true {F : Fmt} (hF : Good F) {a : FP} (ha : Val F a) : (ticker F).times a true = a := by
  cases a with
  | fin x =>
    show F.rnd (x * 1) = _
    rw [mul_one, rnd_fin hF.p hF.q (num_top ha), fl_exact hF.p (num_grid ha)]
  | inf s => cases s <;> simp [ticker, mul]
  | nan => rfl

theorem times_false {F : Fmt} (hF : Good F) (x : ℝ) : (ticker F).times (.fin x) false = .fin 0 := by
  show F.rnd (x * 0) = _
  rw [mul_zero, rnd_fin hF.p hF.q (by simpa using top_nonneg F), fl_zero]

theorem add_zero_val {F : Fmt} (hF : Good F) {a : FP} (ha : Val F a) : Ieee.add F a (.fin 0) = a := by
  cases a with
  | fin x =>
    show F.rnd (x + 0) = _
    rw [add_zero, rnd_fin hF.p hF.q (num_top ha), fl_exact hF.p (num_grid ha)]
  | inf s => rfl
  | nan => rfl

theorem add_val {F : Fmt} (hF : Good F) (a b : FP) : Val F (Ieee.add F a b) := by
  cases a <;> cases b <;> simp only [Ieee.add] <;> try trivial
  · exact rnd_val hF.p hF.q _
  · split <;> trivial

theorem pow_le_top {F : Fmt} (hp : 1 ≤ F.p) {k : ℤ} (hk : k < F.qmax + F.p) : (2 : ℝ) ^ k ≤ F.top := by
  have h1 : (2 : ℝ) ^ k ≤ 2 ^ (F.qmax + F.p - 1) := two_mono (by omega)
  refine h1.trans ?_
  obtain ⟨n, hn⟩ : ∃ n : ℕ, F.p = n + 1 := ⟨F.p - 1, by omega⟩
  unfold Fmt.top
  have h2 : (2 : ℝ) ^ (F.qmax + F.p - 1) = 2 ^ n * 2 ^ F.qmax := by
    rw [← zpow_natCast, ← zpow_add₀ (by norm_num)]
    congr 1
    omega
  rw [h2, hn, pow_succ]
  have : (1 : ℝ) ≤ 2 ^ n := one_le_pow₀ (by norm_num)
  exact mul_le_mul_of_nonneg_right (by linarith) (two_pos _).le

/-- An update of a running ticker. -/
theorem update_eq {F : Fmt} (hF : Good F) (t : Ticker.Ticker FP) (ft : FP) (hr : t.running = true) (hv : Val F ft) :
    (lt (Ieee.add F t.current ft) t.target ∧
      t.update (ticker F) ft = ({ t with current := Ieee.add F t.current ft, total := Ieee.add F t.total ft }, false)) ∨
    (¬ lt (Ieee.add F t.current ft) t.target ∧
      t.update (ticker F) ft =
        (⟨t.target, .fin 0, Ieee.add F t.total ft, t.loop, t.loop, (t.ticks + 1) % 2 ^ 64⟩, true)) := by
  have e : (ticker F).times ft t.running = ft := by rw [hr, times_true hF hv]
  by_cases h : lt (Ieee.add F t.current ft) t.target
  · refine .inl ⟨h, ?_⟩
    unfold Ticker.Ticker.update
    rw [e]
    simp [ticker, h]
  · refine .inr ⟨h, ?_⟩
    unfold Ticker.Ticker.update
    rw [e]
    simp [ticker, h, Ticker.Ticker.resetCurrent]

/-- Adding a frame time that is not less than a bound. -/
theorem add_notLess {F : Fmt} (hF : Good F) {k : ℤ} (hk : F.qmin + F.p ≤ k) {c T : ℝ} (h0 : 0 ≤ c) (hT : T ≤ 2 ^ k) {ft : FP}
    (hv : NotLess F (2 ^ (k - (F.p : ℤ))) ft) (hlt : lt (Ieee.add F (.fin c) ft) (.fin T)) :
    ∃ c', Ieee.add F (.fin c) ft = .fin c' ∧ c + 2 ^ (k - (F.p : ℤ)) / 2 ≤ c' ∧ c' < T := by
  have hq := two_pos (k - (F.p : ℤ))
  cases ft with
  | nan => exact hlt.elim
  | inf s =>
    obtain ⟨-, h⟩ := hv
    simp only [lt] at h
    simp only [Ieee.add, lt] at hlt
    exact absurd hlt h
  | fin f =>
    obtain ⟨-, h⟩ := hv
    simp only [lt, not_lt] at h
    simp only [Ieee.add, Fmt.rnd] at hlt ⊢
    split at hlt
    · rename_i ht
      rw [if_pos ht]
      refine ⟨_, rfl, ?_, hlt⟩
      simp only [lt] at hlt
      rcases le_or_gt ((2 : ℝ) ^ k) (c + 2 ^ (k - (F.p : ℤ))) with hc | hc
      · have := fl_mono hF.p (show (2 : ℝ) ^ k ≤ c + f by linarith)
        rw [fl_pow hF.p (by omega)] at this
        linarith
      · have h1 := fl_mono hF.p (show c + 2 ^ (k - (F.p : ℤ)) ≤ c + f by linarith)
        have h2 := fl_err_below (F := F) hk (x := c + 2 ^ (k - (F.p : ℤ))) (by rw [abs_of_nonneg (by linarith)]; exact hc)
        have := (abs_le.1 h2).1
        linarith
    · simp only [lt, decide_eq_true_eq] at hlt
      linarith

/-- The relative error of adding a frame time. -/
theorem add_rel {F : Fmt} (hF : Good F) {c f : ℝ} (hc : Num F c) (hf : Num F f) (h0 : 0 ≤ c) (h1 : 0 ≤ f) :
    (1 - unit F) * (c + f) ≤ F.fl (c + f) ∧ F.fl (c + f) ≤ (1 + unit F) * (c + f) ∧ 0 ≤ F.fl (c + f) := by
  have h := fl_sum hF.p (num_grid hc) (num_grid hf)
  rw [abs_of_nonneg (show 0 ≤ c + f by linarith), abs_le] at h
  refine ⟨by linarith, by linarith, ?_⟩
  have := fl_mono hF.p (show 0 ≤ c + f by linarith)
  rwa [fl_zero] at this

theorem unit_lt {F : Fmt} (hF : Good F) : unit F < 1 := by
  unfold unit
  have h := hF.p
  have := zpow_lt_zpow_right₀ (a := (2 : ℝ)) (by norm_num) (show -(F.p : ℤ) < 0 by omega)
  simpa using this

end Verif.Clock
