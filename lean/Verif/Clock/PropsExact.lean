import Verif.Clock.Theorems
import Mathlib.Data.Rat.Cast.Order
import Mathlib.Data.Real.Basic

/-! # C147: when the arithmetic of a ticker is exact -/

namespace Verif.Clock

open Verif.Ieee Verif.Ieee.Spec Spec
open Ticker (Op Seen run step exact)

/-- Whole numbers of units up to `2 ^ p` are numbers of the format. -/
theorem whole_num {F : Fmt} (hF : Good F) {j : ℤ} (h1 : F.qmin ≤ j) (h2 : j < F.qmax) {x : ℚ} (hw : ∃ m : ℤ, x = m * 2 ^ j)
    (hx : |x| ≤ 2 ^ (F.p + j)) : Num F (x : ℝ) := by
  obtain ⟨m, rfl⟩ := hw
  have hx' : |((m : ℝ) * 2 ^ j)| ≤ 2 ^ ((F.p : ℤ) + j) := by
    have : (((|(m : ℚ) * 2 ^ j| : ℚ)) : ℝ) ≤ ((2 ^ ((F.p : ℤ) + j) : ℚ) : ℝ) := Rat.cast_le.2 hx
    push_cast at this
    exact this
  rw [num_iff hF.p hF.q]
  push_cast
  refine ⟨⟨m, j, ?_, h1, rfl⟩, hx'.trans (pow_le_top hF.p (by omega))⟩
  rw [abs_mul, abs_of_pos (two_pos j), ← pow_cast] at hx'
  have := le_of_mul_le_mul_right hx' (two_pos j)
  exact_mod_cast this

/-- Adding whole numbers of units. -/
theorem whole_add {F : Fmt} (hF : Good F) {j : ℤ} (h1 : F.qmin ≤ j) (h2 : j < F.qmax) {x y : ℚ} (hx : ∃ m : ℤ, x = m * 2 ^ j)
    (hy : ∃ m : ℤ, y = m * 2 ^ j) (h : |x + y| ≤ 2 ^ (F.p + j)) : Ieee.add F (ofRat x) (ofRat y) = ofRat (x + y) := by
  obtain ⟨a, ha⟩ := hx
  obtain ⟨b, hb⟩ := hy
  have hn := whole_num hF h1 h2 (x := x + y) ⟨a + b, by rw [ha, hb]; push_cast; ring⟩ h
  unfold ofRat
  simp only [Ieee.add]
  rw [← Rat.cast_add, rnd_fin hF.p hF.q (num_top hn), fl_exact hF.p (num_grid hn)]

/-- The same ticker with floating-point members. -/
noncomputable def ofTicker (t : Ticker.Ticker ℚ) : Ticker.Ticker FP :=
  ⟨ofRat t.target, ofRat t.current, ofRat t.total, t.running, t.loop, t.ticks⟩

/-- The members are whole numbers of units, at most `B`. -/
structure Fits (j : ℤ) (B : ℚ) (t : Ticker.Ticker ℚ) : Prop where
  current : ∃ m : ℤ, t.current = m * 2 ^ j
  total : ∃ m : ℤ, t.total = m * 2 ^ j
  small : |t.current| ≤ B
  small' : |t.total| ≤ B

theorem fits_mono {j : ℤ} {B C : ℚ} {t : Ticker.Ticker ℚ} (h : Fits j B t) (hBC : B ≤ C) : Fits j C t :=
  ⟨h.current, h.total, h.small.trans hBC, h.small'.trans hBC⟩

theorem exact_update {F : Fmt} (hF : Good F) {j : ℤ} (h1 : F.qmin ≤ j) (h2 : j < F.qmax) {B : ℚ} {t : Ticker.Ticker ℚ} (ht : Fits j B t) {ft : ℚ}
    (hft : ∃ m : ℤ, ft = m * 2 ^ j) (hB : B + |ft| ≤ 2 ^ (F.p + j)) (h0 : 0 ≤ B) :
    (ofTicker t).update (ticker F) (ofRat ft) = (ofTicker (t.update exact ft).1, (t.update exact ft).2) ∧
      Fits j (B + |ft|) (t.update exact ft).1 := by
  have habs : |(if t.running then ft else 0)| ≤ |ft| := by
    split
    · exact le_rfl
    · simp
  have hz : ∃ m : ℤ, (0 : ℚ) = m * 2 ^ j := ⟨0, by simp⟩
  have hinc : ∃ m : ℤ, (if t.running then ft else 0) = m * 2 ^ j := by
    split
    · exact hft
    · exact hz
  have ha := abs_nonneg ft
  have htimes : (ticker F).times (ofRat ft) t.running = ofRat (if t.running then ft else 0) := by
    have hn := whole_num hF h1 h2 hft (by linarith)
    cases t.running with
    | true => rw [times_true hF (show Val F (ofRat ft) from hn)]; simp
    | false => unfold ofRat; rw [times_false hF]; simp
  generalize hi : (if t.running then ft else 0) = i at *
  have c1 : |t.current + i| ≤ B + |ft| := (abs_add_le _ _).trans (add_le_add ht.small habs)
  have t1 : |t.total + i| ≤ B + |ft| := (abs_add_le _ _).trans (add_le_add ht.small' habs)
  have e1 : (ticker F).add (ofRat t.current) (ofRat i) = ofRat (t.current + i) := whole_add hF h1 h2 ht.current hinc (c1.trans hB)
  have e2 : (ticker F).add (ofRat t.total) (ofRat i) = ofRat (t.total + i) := whole_add hF h1 h2 ht.total hinc (t1.trans hB)
  have w1 : ∃ m : ℤ, t.current + i = m * 2 ^ j := by
    obtain ⟨a, ha⟩ := ht.current
    obtain ⟨b, hb⟩ := hinc
    exact ⟨a + b, by rw [ha, hb]; push_cast; ring⟩
  have w2 : ∃ m : ℤ, t.total + i = m * 2 ^ j := by
    obtain ⟨a, ha⟩ := ht.total
    obtain ⟨b, hb⟩ := hinc
    exact ⟨a + b, by rw [ha, hb]; push_cast; ring⟩
  have e3 : (ticker F).lt (ofRat (t.current + i)) (ofRat t.target) = decide (t.current + i < t.target) := by
    have : (ticker F).lt (ofRat (t.current + i)) (ofRat t.target) = true ↔ t.current + i < t.target := by
      simp only [ticker, decide_eq_true_eq]
      exact Rat.cast_lt
    rw [Bool.eq_iff_iff, this, decide_eq_true_eq]
  have ei : exact.times ft t.running = i := by rw [← hi]; rfl
  by_cases hlt : t.current + i < t.target
  · have ex : t.update exact ft = ({ t with current := t.current + i, total := t.total + i }, false) := by
      unfold Ticker.Ticker.update
      rw [ei]
      simp [exact, hlt]
    rw [ex]
    refine ⟨?_, w1, w2, c1, t1⟩
    unfold Ticker.Ticker.update ofTicker
    dsimp only
    rw [htimes, e1, e2, e3]
    simp [hlt]
  · have ex : t.update exact ft =
        (⟨t.target, 0, t.total + i, t.loop, t.loop, (t.ticks + 1) % 2 ^ 64⟩, true) := by
      unfold Ticker.Ticker.update
      rw [ei]
      simp [exact, hlt, Ticker.Ticker.resetCurrent]
    rw [ex]
    refine ⟨?_, hz, w2, by simpa using by linarith, t1⟩
    unfold Ticker.Ticker.update ofTicker
    dsimp only
    rw [htimes, e1, e2, e3]
    simp [hlt, Ticker.Ticker.resetCurrent, ticker, ofRat]

theorem exact_step {F : Fmt} (hF : Good F) {j : ℤ} (h1 : F.qmin ≤ j) (h2 : j < F.qmax) {B : ℚ} {t : Ticker.Ticker ℚ} (ht : Fits j B t)
    (op : Op ℚ) (hop : Whole j op) (hB : B + frame op ≤ 2 ^ (F.p + j)) (h0 : 0 ≤ B) :
    step (ticker F) (ofTicker t) (ofExact op) = (ofTicker (step exact t op).1, (step exact t op).2) ∧
      Fits j (B + frame op) (step exact t op).1 := by
  have hz : ∃ m : ℤ, (0 : ℚ) = m * 2 ^ j := ⟨0, by simp⟩
  have same : B + 0 = B := add_zero B
  cases op with
  | update ft =>
    obtain ⟨a, b⟩ := exact_update hF h1 h2 ht hop hB h0
    exact ⟨by simp only [step, ofExact, a], b⟩
  | updateTo ft tg =>
    have ht' : Fits j B { t with target := tg } := ⟨ht.current, ht.total, ht.small, ht.small'⟩
    obtain ⟨a, b⟩ := exact_update hF h1 h2 ht' hop hB h0
    refine ⟨?_, b⟩
    simp only [step, ofExact, Ticker.Ticker.updateTo]
    exact congrArg (fun r : Ticker.Ticker FP × Bool => (r.1, some r.2)) a
  | pause => exact ⟨rfl, fits_mono ⟨ht.current, ht.total, ht.small, ht.small'⟩ (le_of_eq same.symm)⟩
  | resume => exact ⟨rfl, fits_mono ⟨ht.current, ht.total, ht.small, ht.small'⟩ (le_of_eq same.symm)⟩
  | setLoop b => exact ⟨rfl, fits_mono ⟨ht.current, ht.total, ht.small, ht.small'⟩ (le_of_eq same.symm)⟩
  | resetTicks => exact ⟨rfl, fits_mono ⟨ht.current, ht.total, ht.small, ht.small'⟩ (le_of_eq same.symm)⟩
  | stop =>
    exact ⟨by simp [step, ofExact, ofTicker, Ticker.Ticker.stop, Ticker.Ticker.resetCurrent, Ticker.Ticker.pause, ticker, exact, ofRat],
      fits_mono ⟨hz, ht.total, by simpa [step, Ticker.Ticker.stop, Ticker.Ticker.resetCurrent, Ticker.Ticker.pause, exact] using h0, ht.small'⟩ (le_of_eq same.symm)⟩
  | restart =>
    exact ⟨by simp [step, ofExact, ofTicker, Ticker.Ticker.restart, Ticker.Ticker.resetCurrent, Ticker.Ticker.resume, ticker, exact, ofRat],
      fits_mono ⟨hz, ht.total, by simpa [step, Ticker.Ticker.restart, Ticker.Ticker.resetCurrent, Ticker.Ticker.resume, exact] using h0, ht.small'⟩ (le_of_eq same.symm)⟩
  | restartTo tg =>
    exact ⟨by simp [step, ofExact, ofTicker, Ticker.Ticker.restartTo, Ticker.Ticker.restart, Ticker.Ticker.resetCurrent, Ticker.Ticker.resume, ticker, exact, ofRat],
      fits_mono ⟨hz, ht.total, by simpa [step, Ticker.Ticker.restartTo, Ticker.Ticker.restart, Ticker.Ticker.resetCurrent, Ticker.Ticker.resume, exact] using h0, ht.small'⟩ (le_of_eq same.symm)⟩
  | resetCurrent =>
    exact ⟨by simp [step, ofExact, ofTicker, Ticker.Ticker.resetCurrent, ticker, exact, ofRat],
      fits_mono ⟨hz, ht.total, by simpa [step, Ticker.Ticker.resetCurrent, exact] using h0, ht.small'⟩ (le_of_eq same.symm)⟩
  | resetTotal =>
    exact ⟨by simp [step, ofExact, ofTicker, Ticker.Ticker.resetTotal, ticker, exact, ofRat],
      fits_mono ⟨ht.current, hz, ht.small, by simpa [step, Ticker.Ticker.resetTotal, exact] using h0⟩ (le_of_eq same.symm)⟩
  | resetAll =>
    exact ⟨by simp [step, ofExact, ofTicker, Ticker.Ticker.resetAll, Ticker.Ticker.resetCurrent, Ticker.Ticker.resetTicks, Ticker.Ticker.resetTotal, ticker, exact, ofRat],
      fits_mono ⟨hz, hz, by simpa [step, Ticker.Ticker.resetAll, Ticker.Ticker.resetCurrent, Ticker.Ticker.resetTicks, Ticker.Ticker.resetTotal, exact] using h0,
        by simpa [step, Ticker.Ticker.resetAll, Ticker.Ticker.resetCurrent, Ticker.Ticker.resetTicks, Ticker.Ticker.resetTotal, exact] using h0⟩ (le_of_eq same.symm)⟩

/-- **C147 (exact times).** As long as all frame times are whole numbers of some unit `2 ^ j` and add up to at most `2 ^ (24 + j)`, a ticker
reports the same as with exact arithmetic (`C54_state`, `C54_tick_iff`), and its counters have the exact values. -/
theorem C147_exact {F : Fmt} (hF : Good F) (j : ℤ) (h1 : F.qmin ≤ j) (h2 : j < F.qmax) (first : ℚ) (running : Bool) (ops : List (Op ℚ))
    (hw : ∀ op ∈ ops, Whole j op) (hsum : (ops.map frame).sum ≤ 2 ^ (F.p + j)) :
    let r := run (ticker F) (.init (ticker F) (ofRat first) running) (ops.map ofExact)
    let e := run exact (.init exact first running) ops
    r.2.map (·.result) = e.2.map (·.result) ∧ r.1.current = ofRat e.1.current ∧ r.1.total = ofRat e.1.total ∧
      r.1.ticks = e.1.ticks ∧ r.1.running = e.1.running ∧ r.1.target = ofRat e.1.target := by
  have key : ∀ (ops : List (Op ℚ)) (t : Ticker.Ticker ℚ) (B : ℚ), (∀ op ∈ ops, Whole j op) → Fits j B t → 0 ≤ B →
      B + (ops.map frame).sum ≤ 2 ^ (F.p + j) →
      (run (ticker F) (ofTicker t) (ops.map ofExact)).2.map (·.result) = (run exact t ops).2.map (·.result) ∧
        (run (ticker F) (ofTicker t) (ops.map ofExact)).1 = ofTicker (run exact t ops).1 := by
    intro ops
    induction ops with
    | nil => exact fun t B _ _ _ _ => ⟨rfl, rfl⟩
    | cons op ops ih =>
      intro t B h hf h0 hs
      simp only [List.map_cons, List.sum_cons] at hs
      have hnn : ∀ o : Op ℚ, 0 ≤ frame o := fun o => by cases o <;> simp [frame]
      have hrest : 0 ≤ (ops.map frame).sum := List.sum_nonneg fun x hx => by
        obtain ⟨o, -, rfl⟩ := List.mem_map.1 hx
        exact hnn o
      obtain ⟨a, b⟩ := exact_step hF h1 h2 hf op (h op (by simp)) (by linarith) h0
      obtain ⟨c, d⟩ := ih (step exact t op).1 (B + frame op) (fun o ho => h o (by simp [ho])) b (by linarith [hnn op]) (by linarith)
      simp only [List.map_cons, run, a]
      exact ⟨by rw [c], d⟩
  have hz : ∃ m : ℤ, (0 : ℚ) = m * 2 ^ j := ⟨0, by simp⟩
  have e0 : (Ticker.Ticker.init (ticker F) (ofRat first) running) = ofTicker (.init exact first running) := by
    simp [Ticker.Ticker.init, ofTicker, ticker, exact, ofRat]
  obtain ⟨a, b⟩ := key ops (.init exact first running) 0 hw ⟨hz, hz, by simp [Ticker.Ticker.init, exact], by simp [Ticker.Ticker.init, exact]⟩
    le_rfl (by simpa using hsum)
  intro r e
  have hr : r = run (ticker F) (ofTicker (.init exact first running)) (ops.map ofExact) := by rw [← e0]
  rw [hr]
  refine ⟨a, ?_⟩
  rw [b]
  exact ⟨rfl, rfl, rfl, rfl, rfl⟩

/-- Quarters of a unit: three updates, a tick at the last one. -/
example : let r := run (ticker binary32) (.init (ticker binary32) (ofRat (3 / 2)) true) ([.update (3 / 4), .update (1 / 2), .update (1 / 4)].map ofExact)
    r.2.map (·.result) = [some false, some false, some true] ∧ r.1.total = ofRat (3 / 2) := by
  have h := C147_exact (F := binary32) ⟨by decide, by decide⟩ (-2) (by decide) (by decide) (3 / 2) true [.update (3 / 4), .update (1 / 2), .update (1 / 4)]
    (by
      intro op hop
      simp only [List.mem_cons, List.not_mem_nil, or_false] at hop
      rcases hop with rfl | rfl | rfl
      · exact ⟨3, by norm_num⟩
      · exact ⟨2, by norm_num⟩
      · exact ⟨1, by norm_num⟩)
    (by simp only [List.map_cons, List.map_nil, frame, List.sum_cons, List.sum_nil, binary32]; rw [abs_of_nonneg, abs_of_nonneg, abs_of_nonneg] <;> norm_num)
  refine ⟨h.1.trans (by decide +kernel), h.2.2.1.trans (congrArg ofRat (by decide +kernel))⟩

end Verif.Clock
