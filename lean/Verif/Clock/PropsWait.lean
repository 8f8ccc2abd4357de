import Verif.Clock.Sim
import Verif.Timeline.Theorems

/-! # C147: waits of a timeline in floating-point arithmetic -/

namespace Verif.Clock

open Verif.Ieee Verif.Ieee.Spec Spec
open Timeline (TL Event updates update Waiting)

variable {F : Fmt} (env : List Event → Nat → Bool) (fuel : Nat)

/-- The wait at position `i`, which is current, ends in one of the updates with the frame times `fts`: up to then it stays current and nothing
visible happens, then the next command is current. -/
def EndsIn (F : Fmt) (t : TL FP) (log : List Event) (i : Nat) (fts : List FP) : Prop :=
  ∃ a ft b t' t'', fts = a ++ ft :: b ∧ updates (timeline F) env (fuel + 1) t log a = .ok (t', log) ∧ t'.cIdx = i ∧
    update (timeline F) env (fuel + 1) t' log ft = .ok (t'', log) ∧ t''.cIdx = if i + 1 = t.cmds.length then -1 else (i : Int) + 1

theorem pos_iff (F : Fmt) (a : FP) : (timeline F).pos a = true ↔ lt (.fin 0) a := by
  simp only [timeline, decide_eq_true_eq]

theorem ends_now {t : TL FP} (log : List Event) {i : Nat} {time cur : FP} (h : Waiting (timeline F) t i time cur) (ft : FP) (fts : List FP)
    (hp : ¬ lt (.fin 0) (Ieee.sub F cur (Ieee.add F ft (.fin 0)))) : EndsIn env fuel F t log i (ft :: fts) := by
  have hp' : (timeline F).pos ((timeline F).sub cur ((timeline F).add ft (timeline F).zero)) = false := by
    rw [Bool.eq_false_iff, Ne, pos_iff]; exact hp
  exact ⟨[], ft, fts, t, _, rfl, rfl, h.current, Timeline.C50_ends (timeline F) env fuel t log ft i time cur h hp', rfl⟩

theorem ends_later {t : TL FP} (log : List Event) {i : Nat} {time cur : FP} (h : Waiting (timeline F) t i time cur) (ft : FP) (fts : List FP)
    (hp : lt (.fin 0) (Ieee.sub F cur (Ieee.add F ft (.fin 0))))
    (ih : ∀ t', Waiting (timeline F) t' i time (Ieee.sub F cur (Ieee.add F ft (.fin 0))) → EndsIn env fuel F t' log i fts) :
    EndsIn env fuel F t log i (ft :: fts) := by
  have hp' : (timeline F).pos ((timeline F).sub cur ((timeline F).add ft (timeline F).zero)) = true := (pos_iff F _).2 hp
  obtain ⟨t', e, hw, hc⟩ := Timeline.C50_waits (timeline F) env fuel [ft] t log i time cur h (by
    intro p hp hne
    obtain ⟨r, hr⟩ := hp
    match p, hne with
    | x :: xs, _ =>
      simp only [List.cons_append, List.cons.injEq, List.append_eq_nil_iff] at hr
      obtain ⟨rfl, rfl, -⟩ := hr
      exact hp')
  obtain ⟨a, f, b, u, v, h1, h2, h3, h4, h5⟩ := ih t' hw
  have e1 : update (timeline F) env (fuel + 1) t log ft = .ok (t', log) := by
    simp only [updates] at e
    cases hu : update (timeline F) env (fuel + 1) t log ft with
    | ok r => rw [hu] at e; simpa using e
    | _ => rw [hu] at e; simp at e
  refine ⟨ft :: a, f, b, u, v, by rw [h1]; rfl, ?_, h3, h4, by rw [h5, hc]; simp⟩
  simp only [updates, e1]
  exact h2

/-- Taking a frame time from what is left of a wait. -/
theorem sub_fin (hF : Good F) (c : ℝ) {f : ℝ} (hf : Num F f) : Ieee.sub F (.fin c) (Ieee.add F (.fin f) (.fin 0)) = F.rnd (c - f) := by
  rw [add_zero_val hF (show Val F (.fin f) from hf), sub_eq_add_neg]
  rfl

theorem rnd_le (hF : Good F) {c x : ℝ} (hc : Num F c) (h0 : 0 ≤ x) (h : x ≤ c) : F.rnd x = .fin (F.fl x) ∧ 0 ≤ F.fl x ∧ F.fl x ≤ c ∧ Num F (F.fl x) := by
  have h1 := fl_mono hF.p h0
  have h2 := fl_mono hF.p h
  rw [fl_zero] at h1
  rw [fl_exact hF.p (num_grid hc)] at h2
  have h3 := (abs_le.1 (num_top hc)).2
  have ht : |F.fl x| ≤ F.top := by rw [abs_of_nonneg h1]; linarith
  refine ⟨?_, h1, h2, (num_iff hF.p hF.q).2 ⟨fl_grid F _, ht⟩⟩
  unfold Fmt.rnd
  rw [if_pos ht]

theorem rnd_nonpos (hF : Good F) {x : ℝ} (h : x ≤ 0) : ¬ lt (.fin 0) (F.rnd x) := by
  have h1 := fl_mono hF.p h
  rw [fl_zero] at h1
  unfold Fmt.rnd
  split
  · simp only [lt, not_lt]; exact h1
  · rename_i hn
    simp only [lt, decide_eq_false_iff_not, not_not]
    rcases h.lt_or_eq with h | h
    · exact h
    · rw [h, fl_zero, abs_zero] at hn
      exact absurd (top_nonneg F) hn

/-- **C147 fails for long waits.** A wait of at least `2 ^ k` never ends if no frame time is more than `2 ^ (k - 25)`. -/
theorem C147_wait_never (hF : Good F) (k : ℤ) (hk : F.qmin + F.p ≤ k) (t : TL FP) (log : List Event) (i : Nat) (T : ℝ)
    (h : Waiting (timeline F) t i (.fin T) (.fin T)) (hT : Num F T) (hTk : 2 ^ k ≤ T) (fts : List FP)
    (hfts : ∀ ft ∈ fts, UpTo F (2 ^ (k - (F.p : ℤ) - 1)) ft) :
    ∃ t', updates (timeline F) env (fuel + 1) t log fts = .ok (t', log) ∧ t'.cIdx = i := by
  have key : ∀ (fts : List FP) (c : ℝ), Num F c → 2 ^ k ≤ c → (∀ ft ∈ fts, UpTo F (2 ^ (k - (F.p : ℤ) - 1)) ft) →
      ∃ c', fts.foldl (fun c ft => (timeline F).sub c ((timeline F).add ft (timeline F).zero)) (.fin c) = .fin c' ∧ 2 ^ k ≤ c' := by
    intro fts
    induction fts with
    | nil => exact fun c _ hc _ => ⟨c, rfl, hc⟩
    | cons ft fts ih =>
      intro c hn hc hf
      obtain ⟨f, rfl, hfn, f0, f1⟩ := hf ft (by simp)
      have hb : (2 : ℝ) ^ (k - (F.p : ℤ) - 1) ≤ 2 ^ k := two_mono (by omega)
      obtain ⟨r1, r2, r3, r4⟩ := rnd_le hF hn (show 0 ≤ c - f by linarith) (by linarith)
      have e : (timeline F).sub (.fin c) ((timeline F).add (.fin f) (timeline F).zero) = .fin (F.fl (c - f)) :=
        (sub_fin hF c hfn).trans r1
      rw [List.foldl_cons, e]
      exact ih _ r4 (fl_below hF.p hk (by linarith)) (fun x hx => hf x (by simp [hx]))
  obtain ⟨t', e, hw, -⟩ := Timeline.C50_waits (timeline F) env fuel fts t log i (.fin T) (.fin T) h (by
    intro p hp _
    obtain ⟨c', e, hc⟩ := key p T hT hTk (fun ft hft => hfts ft (hp.subset hft))
    rw [e, pos_iff]
    exact (two_pos k).trans_le hc)
  exact ⟨t', e, hw.current⟩

/-- **C147 (shorter waits end).** A wait of at most `2 ^ k` ends if no frame time is less than `2 ^ (k - 24)`, at the latest when the number of
updates times half of this bound reaches its time. Frame times may be infinite or NaN. -/
theorem C147_wait_ends (hF : Good F) (k : ℤ) (hk : F.qmin + F.p ≤ k) (t : TL FP) (log : List Event) (i : Nat) (T c : ℝ)
    (h : Waiting (timeline F) t i (.fin T) (.fin c)) (hc : Num F c) (h0 : 0 ≤ c) (hck : c ≤ 2 ^ k) (fts : List FP) (hne : fts ≠ [])
    (hfts : ∀ ft ∈ fts, NotLess F (2 ^ (k - (F.p : ℤ))) ft) (hn : c ≤ fts.length * (2 ^ (k - (F.p : ℤ)) / 2)) :
    EndsIn env fuel F t log i fts := by
  induction fts generalizing t c with
  | nil => exact absurd rfl hne
  | cons ft fts ih =>
    have hq := two_pos (k - (F.p : ℤ))
    by_cases hp : lt (.fin 0) (Ieee.sub F (.fin c) (Ieee.add F ft (.fin 0)))
    · have hv := hfts ft (by simp)
      obtain ⟨f, rfl, hf⟩ : ∃ f, ft = .fin f ∧ 2 ^ (k - (F.p : ℤ)) ≤ f := by
        cases ft with
        | fin f => exact ⟨f, rfl, by simpa [lt] using hv.2⟩
        | nan => exact hp.elim
        | inf s =>
          have h1 := hv.2
          cases s with
          | true => exact absurd rfl h1
          | false => exact absurd hp (by simp [Ieee.add, Ieee.sub, Ieee.neg, lt])
      have hfn : Num F f := hv.1
      have hpos : 0 < c - f := by
        by_contra hc0
        exact rnd_nonpos hF (not_lt.1 hc0) (by rwa [sub_fin hF c hfn] at hp)
      obtain ⟨r1, r2, r3, r4⟩ := rnd_le hF hc hpos.le (by linarith)
      have hqk : (2 : ℝ) ^ (k - (F.p : ℤ)) ≤ 2 ^ k := two_mono (by omega)
      have hdec : F.fl (c - f) ≤ c - 2 ^ (k - (F.p : ℤ)) / 2 := by
        have h1 := fl_mono hF.p (show c - f ≤ c - 2 ^ (k - (F.p : ℤ)) by linarith)
        have h2 := fl_err_below (F := F) hk (x := c - 2 ^ (k - (F.p : ℤ))) (by rw [abs_of_nonneg (by linarith)]; linarith)
        have := (abs_le.1 h2).2
        linarith
      have e : Ieee.sub F (.fin c) (Ieee.add F (.fin f) (.fin 0)) = .fin (F.fl (c - f)) := (sub_fin hF c hfn).trans r1
      refine ends_later env fuel log h _ _ hp fun t' hw => ?_
      rw [e] at hw hp
      simp only [List.length_cons, Nat.cast_add, Nat.cast_one] at hn
      refine ih t' _ hw r4 r2 (by linarith) ?_ (fun x hx => hfts x (by simp [hx])) (by linarith)
      rintro rfl
      simp only [List.length_nil, Nat.cast_zero, zero_add, one_mul] at hn
      have : 0 < F.fl (c - f) := hp
      linarith
    · exact ends_now env fuel log h ft fts hp

/-- **C147 (when a wait ends).** `n` updates with frame times that are not negative: the wait is still current if the exact sum of the times
is less than `T - n * 2⁻²⁴ * T`, and it has ended if the sum is at least `T + n * 2⁻²⁴ * T`. -/
theorem C147_wait_bounds (hF : Good F) (t : TL FP) (log : List Event) (i : Nat) (T : ℝ) (h : Waiting (timeline F) t i (.fin T) (.fin T))
    (hT : Num F T) (h0 : 0 ≤ T) (fts : List ℝ) (hfts : ∀ f ∈ fts, Num F f ∧ 0 ≤ f) :
    (fts.sum < T - fts.length * unit F * T → ∃ t', updates (timeline F) env (fuel + 1) t log (fts.map .fin) = .ok (t', log) ∧ t'.cIdx = i) ∧
    (fts ≠ [] → T + fts.length * unit F * T ≤ fts.sum → EndsIn env fuel F t log i (fts.map .fin)) := by
  have hu := u_pos F
  have huT : 0 ≤ unit F * T := mul_nonneg hu.le h0
  have err : ∀ c f : ℝ, Num F c → c ≤ T → Num F f → 0 ≤ f → 0 < c - f → |F.fl (c - f) - (c - f)| ≤ unit F * T := by
    intro c f hc hcT hf f0 hp
    refine (fl_diff hF.p (num_grid hc) (num_grid hf)).trans ?_
    rw [abs_of_pos hp]
    exact mul_le_mul_of_nonneg_left (by linarith) hu.le
  constructor
  · intro hlt
    have key : ∀ (fts : List ℝ) (c : ℝ), Num F c → c ≤ T → (∀ f ∈ fts, Num F f ∧ 0 ≤ f) → fts.sum + fts.length * (unit F * T) < c →
        ∃ c', (fts.map FP.fin).foldl (fun c ft => (timeline F).sub c ((timeline F).add ft (timeline F).zero)) (.fin c) = .fin c' ∧ 0 < c' := by
      intro fts
      induction fts with
      | nil => intro c _ _ _ h; exact ⟨c, rfl, by simpa using h⟩
      | cons f fts ih =>
        intro c hn hc hf hs
        simp only [List.sum_cons, List.length_cons, Nat.cast_add, Nat.cast_one] at hs
        obtain ⟨hfn, f0⟩ := hf f (by simp)
        have hs0 : 0 ≤ fts.sum := List.sum_nonneg fun x hx => (hf x (by simp [hx])).2
        have hl : 0 ≤ (fts.length : ℝ) * (unit F * T) := mul_nonneg (Nat.cast_nonneg _) huT
        have hp : 0 < c - f := by linarith
        obtain ⟨r1, r2, r3, r4⟩ := rnd_le hF hn hp.le (by linarith)
        have e : (timeline F).sub (.fin c) ((timeline F).add (.fin f) (timeline F).zero) = .fin (F.fl (c - f)) :=
          (sub_fin hF c hfn).trans r1
        rw [List.map_cons, List.foldl_cons, e]
        have := (abs_le.1 (err c f hn hc hfn f0 hp)).1
        exact ih _ r4 (by linarith) (fun x hx => hf x (by simp [hx])) (by linarith)
    obtain ⟨t', e, hw, -⟩ := Timeline.C50_waits (timeline F) env fuel (fts.map .fin) t log i (.fin T) (.fin T) h (by
      intro p hp _
      obtain ⟨p', hp', rfl⟩ : ∃ p', p' <+: fts ∧ p = p'.map .fin := by
        obtain ⟨n, hn⟩ : ∃ n, p = (fts.map FP.fin).take n := ⟨p.length, (List.prefix_iff_eq_take.1 hp)⟩
        exact ⟨fts.take n, List.take_prefix _ _, by rw [hn, List.map_take]⟩
      obtain ⟨c', e, hc⟩ := key p' T hT le_rfl (fun f hf => hfts f (hp'.subset hf)) (by
        obtain ⟨r, rfl⟩ := hp'
        have hr : 0 ≤ r.sum := List.sum_nonneg fun x hx => (hfts x (by simp [hx])).2
        have hl : 0 ≤ (r.length : ℝ) * (unit F * T) := mul_nonneg (Nat.cast_nonneg _) huT
        simp only [List.sum_append, List.length_append, Nat.cast_add] at hlt
        nlinarith)
      rw [e, pos_iff]
      exact hc)
    exact ⟨t', e, hw.current⟩
  · intro hne hle
    have key : ∀ (fts : List ℝ) (t : TL FP) (c : ℝ), Waiting (timeline F) t i (.fin T) (.fin c) → Num F c → c ≤ T →
        (∀ f ∈ fts, Num F f ∧ 0 ≤ f) → fts ≠ [] → c + fts.length * (unit F * T) ≤ fts.sum → EndsIn env fuel F t log i (fts.map .fin) := by
      intro fts
      induction fts with
      | nil => intro t c _ _ _ _ h; exact absurd rfl h
      | cons f fts ih =>
        intro t c h hn hc hf _ hs
        simp only [List.sum_cons, List.length_cons, Nat.cast_add, Nat.cast_one] at hs
        obtain ⟨hfn, f0⟩ := hf f (by simp)
        by_cases hp : lt (.fin 0) (Ieee.sub F (.fin c) (Ieee.add F (.fin f) (.fin 0)))
        · have hpos : 0 < c - f := by
            by_contra hc0
            exact rnd_nonpos hF (not_lt.1 hc0) (by rwa [sub_fin hF c hfn] at hp)
          obtain ⟨r1, r2, r3, r4⟩ := rnd_le hF hn hpos.le (by linarith)
          have e : Ieee.sub F (.fin c) (Ieee.add F (.fin f) (.fin 0)) = .fin (F.fl (c - f)) := (sub_fin hF c hfn).trans r1
          refine ends_later env fuel log h _ _ hp fun t' hw => ?_
          rw [e] at hw
          have := (abs_le.1 (err c f hn hc hfn f0 hpos)).2
          refine ih t' _ hw r4 (by linarith) (fun x hx => hf x (by simp [hx])) ?_ (by linarith)
          rintro rfl
          simp only [List.sum_nil, List.length_nil, Nat.cast_zero, zero_add, one_mul] at hs
          linarith
        · exact ends_now env fuel log h _ _ hp
    exact key fts t T h hT le_rfl hfts hne (by linarith)

/-- **C147 (NaN).** A frame time that is infinite or NaN ends any wait, even an infinite one. -/
theorem C147_wait_nan (t : TL FP) (log : List Event) (i : Nat) (time cur : FP) (h : Waiting (timeline F) t i time cur) :
    EndsIn env fuel F t log i [.nan] ∧ EndsIn env fuel F t log i [.inf false] := by
  refine ⟨ends_now env fuel log h _ _ ?_, ends_now env fuel log h _ _ ?_⟩
  · cases cur <;> simp [Ieee.add, Ieee.sub, Ieee.neg, lt]
  · cases cur with
    | inf s => cases s <;> simp [Ieee.add, Ieee.sub, Ieee.neg, lt]
    | _ => simp [Ieee.add, Ieee.sub, Ieee.neg, lt]

/-- A wait of 16777216 units and frames of half a unit. -/
example (n : ℕ) : ∃ t', updates (timeline binary32) env (fuel + 1) ⟨[.wait (.fin 16777216) (.fin 16777216)], 0, .fin 0, false, false⟩ []
    (List.replicate n (.fin (1 / 2))) = .ok (t', []) ∧ t'.cIdx = 0 := by
  refine C147_wait_never env fuel ⟨by decide, by decide⟩ 24 (by decide) _ _ 0 16777216 ⟨rfl, rfl, rfl, rfl⟩
    ⟨1, 24, by simp [binary32], by decide, by decide, by norm_num⟩ (by norm_num) _ (fun ft h => ?_)
  rw [List.eq_of_mem_replicate h]
  exact ⟨1 / 2, rfl, ⟨1, -1, by simp [binary32], by decide, by decide, by norm_num⟩, by norm_num, by norm_num [binary32]⟩

/-- A wait of 2 units and frames of half a unit: three frames do not end it, five do. -/
example : (∃ t', updates (timeline binary32) env (fuel + 1) ⟨[.wait (.fin 2) (.fin 2)], 0, .fin 0, false, false⟩ []
      ((List.replicate 3 (1 / 2)).map .fin) = .ok (t', []) ∧ t'.cIdx = (0 : ℕ)) ∧
    EndsIn env fuel binary32 ⟨[.wait (.fin 2) (.fin 2)], 0, .fin 0, false, false⟩ [] 0 ((List.replicate 5 (1 / 2)).map .fin) := by
  have h2 : Num binary32 2 := ⟨2, 0, by simp [binary32], by decide, by decide, by norm_num⟩
  have hh : ∀ n : ℕ, ∀ f ∈ List.replicate n (1 / 2 : ℝ), Num binary32 f ∧ 0 ≤ f := by
    intro n f hf
    rw [List.eq_of_mem_replicate hf]
    exact ⟨⟨1, -1, by simp [binary32], by decide, by decide, by norm_num⟩, by norm_num⟩
  have key := fun n => C147_wait_bounds env fuel (F := binary32) ⟨by decide, by decide⟩ ⟨[.wait (.fin 2) (.fin 2)], 0, .fin 0, false, false⟩ [] 0 2
    ⟨rfl, rfl, rfl, rfl⟩ h2 (by norm_num) (List.replicate n (1 / 2)) (hh n)
  refine ⟨(key 3).1 ?_, (key 5).2 (by simp) ?_⟩ <;>
    norm_num [unit, binary32, List.sum_replicate]

end Verif.Clock
