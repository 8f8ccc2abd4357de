import Verif.Clock.Sim
import Mathlib.Tactic.Linarith
import Mathlib.Tactic.Positivity

/-! # C147: tickers in floating-point arithmetic -/

namespace Verif.Clock

open Verif.Ieee Verif.Ieee.Spec Spec
open Ticker (Op Seen run step)

/-! ## Long targets -/

theorem small_add {F : Fmt} (hp : 2 ≤ F.p) (hq : F.qmin ≤ F.qmax) {k : ℤ} (hk : F.qmin + F.p ≤ k + 1) (hk' : k < F.qmax + F.p) {a ft : FP}
    (ha : UpTo F (2 ^ k) a) (hf : UpTo F (2 ^ (k - (F.p : ℤ))) ft) : UpTo F (2 ^ k) (Ieee.add F a ft) := by
  obtain ⟨c, rfl, hc, c0, c1⟩ := ha
  obtain ⟨f, rfl, hf, f0, f1⟩ := hf
  have hF : Good F := ⟨by omega, hq⟩
  have h1 : F.fl (c + f) ≤ 2 ^ k := fl_above hp hk (by linarith)
  have h2 := (add_rel hF hc hf c0 f0).2.2
  have ht : |F.fl (c + f)| ≤ F.top := by
    rw [abs_of_nonneg h2]
    exact h1.trans (pow_le_top hF.p hk')
  refine ⟨F.fl (c + f), ?_, (num_iff hF.p hq).2 ⟨fl_grid F _, ht⟩, h2, h1⟩
  simp only [Ieee.add, Fmt.rnd]
  rw [if_pos ht]

theorem upTo_zero (F : Fmt) (hq : F.qmin ≤ F.qmax) {b : ℝ} (hb : 0 ≤ b) : UpTo F b (.fin 0) := ⟨0, rfl, num_zero F hq, le_rfl, hb⟩

theorem times_upTo {F : Fmt} (hF : Good F) {b : ℝ} {ft : FP} (h : UpTo F b ft) (r : Bool) : UpTo F b ((ticker F).times ft r) := by
  obtain ⟨f, rfl, hf, f0, f1⟩ := h
  cases r with
  | true => rw [times_true hF (show Val F (.fin f) from hf)]; exact ⟨f, rfl, hf, f0, f1⟩
  | false => rw [times_false hF]; exact upTo_zero F hF.q (f0.trans f1)

theorem small_step {F : Fmt} (hp : 2 ≤ F.p) (hq : F.qmin ≤ F.qmax) {k : ℤ} (hk : F.qmin + F.p ≤ k + 1) (hk' : k < F.qmax + F.p)
    (t : Ticker.Ticker FP) (op : Op FP) (hop : Frames (UpTo F (2 ^ (k - (F.p : ℤ)))) op) (hc : UpTo F (2 ^ k) t.current)
    (ht : UpTo F (2 ^ k) t.total) :
    UpTo F (2 ^ k) (step (ticker F) t op).1.current ∧ UpTo F (2 ^ k) (step (ticker F) t op).1.total ∧
      (lt (.fin (2 ^ k)) t.target → Targets (lt (.fin (2 ^ k))) op →
        lt (.fin (2 ^ k)) (step (ticker F) t op).1.target ∧ (step (ticker F) t op).2 ≠ some true) := by
  have hF : Good F := ⟨by omega, hq⟩
  have h0 := upTo_zero F hq (two_pos k).le
  have key : ∀ (t : Ticker.Ticker FP) ft, UpTo F (2 ^ (k - (F.p : ℤ))) ft → UpTo F (2 ^ k) t.current → UpTo F (2 ^ k) t.total →
      UpTo F (2 ^ k) (t.update (ticker F) ft).1.current ∧ UpTo F (2 ^ k) (t.update (ticker F) ft).1.total ∧
        (lt (.fin (2 ^ k)) t.target → lt (.fin (2 ^ k)) (t.update (ticker F) ft).1.target ∧ (t.update (ticker F) ft).2 ≠ true) := by
    intro t ft hf hc ht
    have hi := times_upTo hF hf t.running
    have c1 := small_add hp hq hk hk' hc hi
    have t1 := small_add hp hq hk hk' ht hi
    unfold Ticker.Ticker.update
    by_cases hl : (ticker F).lt ((ticker F).add t.current ((ticker F).times ft t.running)) t.target = true
    · simp only [hl, if_true]
      exact ⟨c1, t1, fun h => ⟨h, by simp⟩⟩
    · simp only [hl, if_false, Bool.false_eq_true]
      refine ⟨h0, t1, fun h => absurd ?_ hl⟩
      obtain ⟨c, hc, -, -, hc'⟩ := c1
      have e : (ticker F).add t.current ((ticker F).times ft t.running) = .fin c := hc
      rw [e]
      simp only [ticker, decide_eq_true_eq]
      cases htg : t.target with
      | fin T => rw [htg] at h; simp only [lt] at h ⊢; linarith
      | inf s => rw [htg] at h; exact h
      | nan => rw [htg] at h; exact h
  cases op with
  | update ft =>
    obtain ⟨a, b, c⟩ := key t ft hop hc ht
    exact ⟨a, b, fun h _ => ⟨(c h).1, by simpa [step] using (c h).2⟩⟩
  | updateTo ft tg =>
    obtain ⟨a, b, c⟩ := key { t with target := tg } ft hop hc ht
    exact ⟨a, b, fun _ h => ⟨(c h).1, by simpa [step, Ticker.Ticker.updateTo] using (c h).2⟩⟩
  | pause => exact ⟨hc, ht, fun h _ => ⟨h, by simp [step]⟩⟩
  | resume => exact ⟨hc, ht, fun h _ => ⟨h, by simp [step]⟩⟩
  | stop => exact ⟨h0, ht, fun h _ => ⟨h, by simp [step]⟩⟩
  | restart => exact ⟨h0, ht, fun h _ => ⟨h, by simp [step]⟩⟩
  | restartTo tg => exact ⟨h0, ht, fun _ h => ⟨h, by simp [step]⟩⟩
  | resetCurrent => exact ⟨h0, ht, fun h _ => ⟨h, by simp [step]⟩⟩
  | resetTicks => exact ⟨hc, ht, fun h _ => ⟨h, by simp [step]⟩⟩
  | resetTotal => exact ⟨hc, h0, fun h _ => ⟨h, by simp [step]⟩⟩
  | resetAll => exact ⟨h0, h0, fun h _ => ⟨h, by simp [step]⟩⟩
  | setLoop b => exact ⟨hc, ht, fun h _ => ⟨h, by simp [step]⟩⟩

/-- **C147 (long times are not reached).** Frame times of at most `2 ^ (k - 24)` never add up to more than `2 ^ k`, whatever is called, and
however often: the time since the last tick and the total time stop there. -/
theorem C147_stalls {F : Fmt} (hp : 2 ≤ F.p) (hq : F.qmin ≤ F.qmax) (k : ℤ) (hk : F.qmin + F.p ≤ k + 1) (hk' : k < F.qmax + F.p)
    (target : FP) (running : Bool) (ops : List (Op FP)) (hops : ∀ op ∈ ops, Frames (UpTo F (2 ^ (k - (F.p : ℤ)))) op) :
    UpTo F (2 ^ k) (run (ticker F) (.init (ticker F) target running) ops).1.current ∧
      UpTo F (2 ^ k) (run (ticker F) (.init (ticker F) target running) ops).1.total := by
  have h0 := upTo_zero F hq (two_pos k).le
  have key : ∀ (ops : List (Op FP)) (t : Ticker.Ticker FP), (∀ op ∈ ops, Frames (UpTo F (2 ^ (k - (F.p : ℤ)))) op) →
      UpTo F (2 ^ k) t.current → UpTo F (2 ^ k) t.total →
      UpTo F (2 ^ k) (run (ticker F) t ops).1.current ∧ UpTo F (2 ^ k) (run (ticker F) t ops).1.total := by
    intro ops
    induction ops with
    | nil => exact fun t _ hc ht => ⟨hc, ht⟩
    | cons op ops ih =>
      intro t h hc ht
      obtain ⟨a, b, -⟩ := small_step hp hq hk hk' t op (h op (by simp)) hc ht
      exact ih _ (fun o ho => h o (by simp [ho])) a b
  exact key ops _ hops h0 h0

/-- **C147 fails for long targets.** If the targets are beyond `2 ^ k` and the frame times at most `2 ^ (k - 24)`, no update ever reports a
tick. -/
theorem C147_never {F : Fmt} (hp : 2 ≤ F.p) (hq : F.qmin ≤ F.qmax) (k : ℤ) (hk : F.qmin + F.p ≤ k + 1) (hk' : k < F.qmax + F.p)
    (target : FP) (running : Bool) (ops : List (Op FP)) (hops : ∀ op ∈ ops, Frames (UpTo F (2 ^ (k - (F.p : ℤ)))) op)
    (ht : lt (.fin (2 ^ k)) target) (hts : ∀ op ∈ ops, Targets (lt (.fin (2 ^ k))) op) :
    ∀ s ∈ (run (ticker F) (.init (ticker F) target running) ops).2, s.ticked = false := by
  have h0 := upTo_zero F hq (two_pos k).le
  have key : ∀ (ops : List (Op FP)) (t : Ticker.Ticker FP), (∀ op ∈ ops, Frames (UpTo F (2 ^ (k - (F.p : ℤ)))) op) →
      (∀ op ∈ ops, Targets (lt (.fin (2 ^ k))) op) → UpTo F (2 ^ k) t.current → UpTo F (2 ^ k) t.total → lt (.fin (2 ^ k)) t.target →
      ∀ s ∈ (run (ticker F) t ops).2, s.ticked = false := by
    intro ops
    induction ops with
    | nil => intro t _ _ _ _ _ s hs; simp [run] at hs
    | cons op ops ih =>
      intro t h h' hc ht hl s hs
      obtain ⟨a, b, c⟩ := small_step hp hq hk hk' t op (h op (by simp)) hc ht
      obtain ⟨c, d⟩ := c hl (h' op (by simp))
      rcases List.mem_cons.1 hs with rfl | hs
      · simpa [Seen.ticked] using d
      · exact ih _ (fun o ho => h o (by simp [ho])) (fun o ho => h' o (by simp [ho])) a b c s hs
  exact key ops _ hops hts h0 h0 ht

/-- `float`, frames of one unit, a target above 16777216: never a tick. -/
theorem C147_never_example (n : ℕ) :
    ∀ s ∈ (run (ticker binary32) (.init (ticker binary32) (.fin 16777218) true) (List.replicate n (.update (.fin 1)))).2,
      s.ticked = false := by
  have e : ∀ op ∈ List.replicate n (Op.update (FP.fin 1)), op = .update (.fin 1) := fun op h => List.eq_of_mem_replicate h
  refine C147_never (by decide) (by decide) 24 (by decide) (by decide) _ _ _ (fun op h => ?_) ?_ (fun op h => ?_)
  · rw [e op h]
    exact ⟨1, rfl, ⟨1, 0, by simp [binary32], by decide, by decide, by norm_num⟩, by norm_num, by norm_num [binary32]⟩
  · show (2 : ℝ) ^ (24 : ℤ) < 16777218
    norm_num
  · rw [e op h]; trivial

/-! ## Shorter targets -/

/-- **C147 (shorter times are reached).** If the target is at most `2 ^ k` and no frame time is less than `2 ^ (k - 24)`, a running ticker
ticks, at the latest when the number of updates times half of this bound reaches the target. Frame times may be infinite or NaN. -/
theorem C147_reaches {F : Fmt} (hF : Good F) (k : ℤ) (hk : F.qmin + F.p ≤ k) (t : Ticker.Ticker FP) (T c : ℝ) (fts : List FP)
    (hr : t.running = true) (htg : t.target = .fin T) (hcur : t.current = .fin c) (h0 : 0 ≤ c) (hT : T ≤ 2 ^ k)
    (hfts : ∀ ft ∈ fts, NotLess F (2 ^ (k - (F.p : ℤ))) ft) (hne : fts ≠ [])
    (hn : T - c ≤ fts.length * (2 ^ (k - (F.p : ℤ)) / 2)) :
    ∃ s ∈ (run (ticker F) t (fts.map .update)).2, s.ticked = true := by
  induction fts generalizing t c with
  | nil => exact absurd rfl hne
  | cons ft fts ih =>
    have hv := hfts ft (by simp)
    rcases update_eq hF t ft hr hv.1 with ⟨hl, e⟩ | ⟨hl, e⟩
    · rw [hcur, htg] at hl
      obtain ⟨c', e', h1, h2⟩ := add_notLess hF hk h0 hT hv hl
      have hq := two_pos (k - (F.p : ℤ))
      obtain ⟨s, hs, hs'⟩ := ih (t.update (ticker F) ft).1 c' (by rw [e]; exact hr) (by rw [e]; exact htg)
        (by rw [e]; show Ieee.add F t.current ft = _; rw [hcur]; exact e') (by linarith) (fun x hx => hfts x (by simp [hx]))
        (by
          rintro rfl
          simp only [List.length_cons, List.length_nil, zero_add, Nat.cast_one, one_mul] at hn
          linarith)
        (by
          simp only [List.length_cons, Nat.cast_add, Nat.cast_one] at hn
          linarith)
      exact ⟨s, List.mem_cons_of_mem _ hs, hs'⟩
    · refine ⟨⟨.update ft, t.running, some true⟩, ?_, rfl⟩
      simp only [List.map_cons, run, step, e, List.mem_cons, true_or]

/-- `float`, frames of at least one unit and a target of 16777216: a tick within 33554432 updates. -/
example (fts : List FP) (h : ∀ ft ∈ fts, NotLess binary32 (2 ^ ((24 : ℤ) - (binary32.p : ℤ))) ft) (hn : fts.length = 33554432) :
    ∃ s ∈ (run (ticker binary32) (.init (ticker binary32) (.fin 16777216) true) (fts.map .update)).2, s.ticked = true :=
  C147_reaches ⟨by decide, by decide⟩ 24 (by decide) _ 16777216 0 fts rfl rfl rfl le_rfl (by norm_num) h
    (by rintro rfl; simp at hn) (by rw [hn]; norm_num [binary32])

/-! ## Errors -/

theorem add_fin_le {F : Fmt} (hF : Good F) {x : ℝ} (h0 : 0 ≤ x) (h : F.fl x ≤ F.top) : F.rnd x = .fin (F.fl x) := by
  have := fl_mono hF.p h0
  rw [fl_zero] at this
  unfold Fmt.rnd
  rw [if_pos (by rwa [abs_of_nonneg this])]

/-- **C147 (when a ticker ticks).** `n` updates of a running ticker with frame times that are not negative: none of them ticks if the exact
sum of the times, times `(1 + 2⁻²⁴) ^ n`, is less than the target; one of them ticks if the sum times `(1 - 2⁻²⁴) ^ n` is not. -/
theorem C147_bounds {F : Fmt} (hF : Good F) (t : Ticker.Ticker FP) (T c : ℝ) (fts : List ℝ) (hr : t.running = true)
    (htg : t.target = .fin T) (hcur : t.current = .fin c) (hc : Num F c) (h0 : 0 ≤ c) (hT : Num F T)
    (hfts : ∀ f ∈ fts, Num F f ∧ 0 ≤ f) :
    ((1 + unit F) ^ fts.length * (c + fts.sum) < T → ∀ s ∈ (run (ticker F) t (fts.map (.update ∘ .fin))).2, s.ticked = false) ∧
    (fts ≠ [] → T ≤ (1 - unit F) ^ fts.length * (c + fts.sum) → ∃ s ∈ (run (ticker F) t (fts.map (.update ∘ .fin))).2, s.ticked = true) := by
  have hu := u_pos F
  have hu1 := unit_lt hF
  induction fts generalizing t c with
  | nil => exact ⟨fun _ s hs => by simp [run] at hs, fun h => absurd rfl h⟩
  | cons f fts ih =>
    obtain ⟨hf, f0⟩ := hfts f (by simp)
    have hs0 : 0 ≤ fts.sum := List.sum_nonneg fun x hx => (hfts x (by simp [hx])).2
    obtain ⟨r1, r2, r3⟩ := add_rel hF hc hf h0 f0
    have hTt := (abs_le.1 (num_top hT)).2
    have hadd : Ieee.add F t.current (.fin f) = F.rnd (c + f) := by rw [hcur]; rfl
    have hpow1 : 1 ≤ (1 + unit F) ^ fts.length := one_le_pow₀ (by linarith)
    have hpow2 : 0 ≤ (1 - unit F) ^ fts.length := pow_nonneg (by linarith) _
    have hpow3 : (1 - unit F) ^ fts.length ≤ 1 := pow_le_one₀ (by linarith) (by linarith)
    have hlow : (1 - unit F) ^ (fts.length + 1) * (c + (f + fts.sum)) ≤ (1 - unit F) ^ fts.length * (F.fl (c + f) + fts.sum) := by
      rw [pow_succ, mul_assoc]
      refine mul_le_mul_of_nonneg_left ?_ hpow2
      nlinarith
    have hhigh : (1 + unit F) ^ fts.length * (F.fl (c + f) + fts.sum) ≤ (1 + unit F) ^ (fts.length + 1) * (c + (f + fts.sum)) := by
      rw [pow_succ, mul_assoc]
      refine mul_le_mul_of_nonneg_left ?_ (by linarith)
      nlinarith
    simp only [List.length_cons, List.sum_cons]
    rcases update_eq hF t (.fin f) hr hf with ⟨hl, e⟩ | ⟨hl, e⟩
    · have hfin : F.rnd (c + f) = .fin (F.fl (c + f)) ∧ F.fl (c + f) < T := by
        rw [hadd, htg] at hl
        unfold Fmt.rnd at hl ⊢
        split at hl
        · rename_i ht
          rw [if_pos ht]
          exact ⟨rfl, hl⟩
        · simp only [lt, decide_eq_true_eq] at hl
          linarith
      have hnum : Num F (F.fl (c + f)) :=
        (num_iff hF.p hF.q).2 ⟨fl_grid F _, by rw [abs_of_nonneg r3]; linarith [hfin.2]⟩
      have IH := ih (t.update (ticker F) (.fin f)).1 (F.fl (c + f)) (by rw [e]; exact hr) (by rw [e]; exact htg)
        (by rw [e]; show Ieee.add F t.current (.fin f) = _; rw [hadd, hfin.1]) hnum r3 (fun x hx => hfts x (by simp [hx]))
      constructor
      · intro hlt s hs
        rcases List.mem_cons.1 hs with rfl | hs
        · simp [step, e, Seen.ticked]
        · exact IH.1 (by linarith) s hs
      · intro _ hle
        by_cases hnil : fts = []
        · subst hnil
          simp only [List.length_nil, List.sum_nil, pow_zero, one_mul, add_zero, zero_add, pow_one] at hle hlow
          linarith [hfin.2]
        · obtain ⟨s, hs, hs'⟩ := IH.2 hnil (by linarith)
          exact ⟨s, List.mem_cons_of_mem _ hs, hs'⟩
    · constructor
      · intro hlt
        refine absurd ?_ hl
        have hb : F.fl (c + f) < T := by
          have : (1 + unit F) ^ fts.length * (F.fl (c + f) + fts.sum) ≥ 1 * (F.fl (c + f) + fts.sum) :=
            mul_le_mul_of_nonneg_right hpow1 (by linarith)
          linarith
        rw [hadd, add_fin_le hF (by linarith) (by linarith), htg]
        exact hb
      · intro _ _
        refine ⟨⟨.update (.fin f), t.running, some true⟩, ?_, rfl⟩
        simp only [List.map_cons, Function.comp, run, step, e, List.mem_cons, true_or]

/-- A target of 2 units and frames of half a unit: no tick in three updates, a tick in five. -/
example : (∀ s ∈ (run (ticker binary32) (.init (ticker binary32) (.fin 2) true) ((List.replicate 3 (1 / 2)).map (.update ∘ .fin))).2,
      s.ticked = false) ∧
    ∃ s ∈ (run (ticker binary32) (.init (ticker binary32) (.fin 2) true) ((List.replicate 5 (1 / 2)).map (.update ∘ .fin))).2,
      s.ticked = true := by
  have h2 : Num binary32 2 := ⟨2, 0, by simp [binary32], by decide, by decide, by norm_num⟩
  have hh : ∀ n : ℕ, ∀ f ∈ List.replicate n (1 / 2 : ℝ), Num binary32 f ∧ 0 ≤ f := by
    intro n f hf
    rw [List.eq_of_mem_replicate hf]
    exact ⟨⟨1, -1, by simp [binary32], by decide, by decide, by norm_num⟩, by norm_num⟩
  have key := fun n => C147_bounds (F := binary32) ⟨by decide, by decide⟩ (.init (ticker binary32) (.fin 2) true) 2 0 (List.replicate n (1 / 2))
    rfl rfl rfl (num_zero _ (by decide)) le_rfl h2 (hh n)
  refine ⟨(key 3).1 ?_, (key 5).2 (by simp) ?_⟩ <;> norm_num [unit, binary32, List.sum_replicate]

/-- **C147 (the total time).** After `n` updates of a running ticker that loops, with frame times that are not negative, the total time is the
exact sum up to a factor between `(1 - 2⁻²⁴) ^ n` and `(1 + 2⁻²⁴) ^ n`. -/
theorem C147_total {F : Fmt} (hF : Good F) (t : Ticker.Ticker FP) (c : ℝ) (fts : List ℝ) (hr : t.running = true) (hl : t.loop = true)
    (htot : t.total = .fin c) (hc : Num F c) (h0 : 0 ≤ c) (hfts : ∀ f ∈ fts, Num F f ∧ 0 ≤ f)
    (hmax : (1 + unit F) ^ fts.length * (c + fts.sum) ≤ F.top) :
    ∃ x, (run (ticker F) t (fts.map (.update ∘ .fin))).1.total = .fin x ∧
      (1 - unit F) ^ fts.length * (c + fts.sum) ≤ x ∧ x ≤ (1 + unit F) ^ fts.length * (c + fts.sum) := by
  have hu := u_pos F
  have hu1 := unit_lt hF
  induction fts generalizing t c with
  | nil => exact ⟨c, by simpa [run] using htot, by simp, by simp⟩
  | cons f fts ih =>
    obtain ⟨hf, f0⟩ := hfts f (by simp)
    have hs0 : 0 ≤ fts.sum := List.sum_nonneg fun x hx => (hfts x (by simp [hx])).2
    obtain ⟨r1, r2, r3⟩ := add_rel hF hc hf h0 f0
    have hadd : Ieee.add F t.total (.fin f) = F.rnd (c + f) := by rw [htot]; rfl
    have hpow1 : 1 ≤ (1 + unit F) ^ fts.length := one_le_pow₀ (by linarith)
    have hpow2 : 0 ≤ (1 - unit F) ^ fts.length := pow_nonneg (by linarith) _
    have hlow : (1 - unit F) ^ (fts.length + 1) * (c + (f + fts.sum)) ≤ (1 - unit F) ^ fts.length * (F.fl (c + f) + fts.sum) := by
      rw [pow_succ, mul_assoc]
      refine mul_le_mul_of_nonneg_left ?_ hpow2
      nlinarith
    have hhigh : (1 + unit F) ^ fts.length * (F.fl (c + f) + fts.sum) ≤ (1 + unit F) ^ (fts.length + 1) * (c + (f + fts.sum)) := by
      rw [pow_succ, mul_assoc]
      refine mul_le_mul_of_nonneg_left ?_ (by linarith)
      nlinarith
    simp only [List.length_cons, List.sum_cons] at hmax ⊢
    have hb : F.fl (c + f) ≤ F.top := by
      have : (1 + unit F) ^ fts.length * (F.fl (c + f) + fts.sum) ≥ 1 * (F.fl (c + f) + fts.sum) :=
        mul_le_mul_of_nonneg_right hpow1 (by linarith)
      linarith
    have hnum : Num F (F.fl (c + f)) := (num_iff hF.p hF.q).2 ⟨fl_grid F _, by rwa [abs_of_nonneg r3]⟩
    have hst : (t.update (ticker F) (.fin f)).1.running = true ∧ (t.update (ticker F) (.fin f)).1.loop = true ∧
        (t.update (ticker F) (.fin f)).1.total = .fin (F.fl (c + f)) := by
      rw [← add_fin_le hF (by linarith) hb, ← hadd]
      rcases update_eq hF t (.fin f) hr hf with ⟨-, e⟩ | ⟨-, e⟩ <;> rw [e] <;> simp [hr, hl]
    obtain ⟨x, ex, x1, x2⟩ := ih _ _ hst.1 hst.2.1 hst.2.2 hnum r3 (fun x hx => hfts x (by simp [hx])) (by linarith)
    exact ⟨x, ex, by linarith, by linarith⟩

/-! ## Infinite times and NaN -/

/-- **C147 (NaN).** An update with NaN reports a tick, whatever the target, even if the ticker is paused. -/
theorem C147_nan (F : Fmt) (t : Ticker.Ticker FP) : (t.update (ticker F) .nan).2 = true := by
  unfold Ticker.Ticker.update
  have : (ticker F).lt ((ticker F).add t.current ((ticker F).times .nan t.running)) t.target = false := by
    have e : (ticker F).add t.current ((ticker F).times .nan t.running) = .nan := by
      cases hc : t.current <;> rfl
    rw [e]
    exact @decide_eq_false _ (Classical.propDecidable _) id
  simp [this]

/-- **C147 fails for a paused ticker.** An update with an infinite frame time reports a tick, whatever the target: infinity times zero is NaN. -/
theorem C147_paused_infinite (F : Fmt) (t : Ticker.Ticker FP) (s : Bool) (hr : t.running = false) : (t.update (ticker F) (.inf s)).2 = true := by
  unfold Ticker.Ticker.update
  have : (ticker F).lt ((ticker F).add t.current ((ticker F).times (.inf s) t.running)) t.target = false := by
    have e : (ticker F).add t.current ((ticker F).times (.inf s) t.running) = .nan := by
      rw [hr]
      cases hc : t.current <;> simp [ticker, mul, Ieee.add]
    rw [e]
    exact @decide_eq_false _ (Classical.propDecidable _) id
  simp [this]

theorem before_target {F : Fmt} (hF : Good F) (first : FP) (hpos : lt (.fin 0) first) (running : Bool) (ops : List (Op FP))
    (ht : ∀ op ∈ ops, Targets (fun _ => False) op) :
    let t := (run (ticker F) (.init (ticker F) first running) ops).1
    Val F t.current ∧ Val F t.total ∧ lt t.current t.target ∧ t.target = first := by
  have v0 : Val F (.fin 0) := num_zero F hF.q
  have key : ∀ (ops : List (Op FP)) (t : Ticker.Ticker FP), (∀ op ∈ ops, Targets (fun _ => False) op) → Val F t.current → Val F t.total →
      lt t.current t.target → t.target = first →
      let t := (run (ticker F) t ops).1
      Val F t.current ∧ Val F t.total ∧ lt t.current t.target ∧ t.target = first := by
    intro ops
    induction ops with
    | nil => exact fun t _ h1 h2 h3 h4 => ⟨h1, h2, h3, h4⟩
    | cons op ops ih =>
      intro t h h1 h2 h3 h4
      have hz : lt (.fin 0) t.target := by rw [h4]; exact hpos
      have hop := h op (by simp)
      refine ih (step (ticker F) t op).1 (fun o ho => h o (by simp [ho])) ?_ ?_ ?_ ?_ <;>
        cases op <;> first | exact hop.elim | skip
      all_goals simp only [step, Ticker.Ticker.update, Ticker.Ticker.pause, Ticker.Ticker.resume, Ticker.Ticker.stop, Ticker.Ticker.restart,
        Ticker.Ticker.resetCurrent, Ticker.Ticker.resetTicks, Ticker.Ticker.resetTotal, Ticker.Ticker.resetAll, Ticker.Ticker.setLoop]
      all_goals first | assumption | skip
      · split
        · exact add_val hF _ _
        · exact v0
      · split <;> exact add_val hF _ _
      · split
        · rename_i hl
          simpa [ticker] using hl
        · exact hz
      · split <;> exact h4
  exact key ops _ ht v0 v0 hpos rfl

/-- **C147 (a paused ticker).** After any history in which the target, positive, was not changed: an update of a paused ticker with a finite
frame time changes nothing and reports no tick. -/
theorem C147_paused_partial {F : Fmt} (hF : Good F) (first : FP) (hpos : lt (.fin 0) first) (running : Bool) (ops : List (Op FP))
    (ht : ∀ op ∈ ops, Targets (fun _ => False) op)
    (hp : (run (ticker F) (.init (ticker F) first running) ops).1.running = false) (f : ℝ) :
    (run (ticker F) (.init (ticker F) first running) ops).1.update (ticker F) (.fin f) =
      ((run (ticker F) (.init (ticker F) first running) ops).1, false) := by
  obtain ⟨h1, h2, h3, h4⟩ := before_target hF first hpos running ops ht
  generalize (run (ticker F) (.init (ticker F) first running) ops).1 = t at *
  have e1 : (ticker F).add t.current (.fin 0) = t.current := add_zero_val hF h1
  have e2 : (ticker F).add t.total (.fin 0) = t.total := add_zero_val hF h2
  have e3 : (ticker F).lt t.current t.target = true := by simpa [ticker] using h3
  unfold Ticker.Ticker.update
  rw [hp, times_false hF]
  dsimp only
  rw [e1, e2]
  simp only [e3, if_true]
  cases t; simp_all

end Verif.Clock
