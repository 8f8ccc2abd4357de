import Verif.EasingInt.Spec

/-! # C148: easing functions with integers -/

namespace Verif.EasingInt

open Verif Spec

variable {g : Cfg} {t b c d : Int}

theorem fit_ok {x : Int} (h1 : -g.max ≤ x) (h2 : x < g.max) : fit g x = .ok x := if_pos ⟨h1, h2⟩

theorem nonZero_ok (h : d ≠ 0) : nonZero g d = .ok () := by simp [nonZero, h]

theorem div_ok {a q : Int} (hd : d ≠ 0) (hq : a.tdiv d = q) (h1 : -g.max ≤ q) (h2 : q < g.max) : div g a d = .ok q := by
  rw [div, if_neg hd, hq, fit_ok h1 h2]

theorem tdiv_zero (h0 : 0 ≤ t) (h : t < d) : t.tdiv d = 0 := Int.tdiv_eq_zero_of_lt h0 h

/-- **C148 (`In`).** The polynomials over integers stay at the start until the end of the duration and then jump to the end. -/
theorem C148_in (h : Args g b c d) (e : Ease) (he : Poly e) :
    (∀ t, 0 ≤ t → t < d → fn g e .inn t b c d = .ok b) ∧ (Fits g (b + c) → fn g e .inn d b c d = .ok (b + c)) := by
  obtain ⟨hm, ⟨b1, b2⟩, ⟨c1, c2⟩, ⟨d1, d2⟩⟩ := h
  have hn : nonZero g d = .ok () := nonZero_ok (by omega)
  constructor
  · intro t h0 h1
    have hd : div g t d = .ok 0 := div_ok (by omega) (tdiv_zero h0 h1) (by omega) (by omega)
    rcases he with rfl | rfl | rfl | rfl | rfl <;>
      simp (disch := omega) [fn, backIn, cubicIn, quadIn, quartIn, quintIn, hn, hd, mul, add, sub, fit_ok, lit]
  · rintro ⟨h1, h2⟩
    have hd : div g d d = .ok 1 := div_ok (by omega) (Int.tdiv_self (by omega)) (by omega) (by omega)
    rcases he with rfl | rfl | rfl | rfl | rfl <;>
      simp (disch := omega) [fn, backIn, cubicIn, quadIn, quartIn, quintIn, hn, hd, mul, add, sub, fit_ok, lit, Int.add_comm c b]

/-- **C148 (overflow).** If the end is not a value of the type, the last step is undefined. -/
theorem C148_overflow (h : Args g b c d) (e : Ease) (he : Poly e) (ho : ¬ Fits g (b + c)) :
    fn g e .inn d b c d = .ub ∧ fn g e .out d b c d = .ub := by
  obtain ⟨hm, ⟨b1, b2⟩, ⟨c1, c2⟩, ⟨d1, d2⟩⟩ := h
  have hn : nonZero g d = .ok () := nonZero_ok (by omega)
  have hd : div g d d = .ok 1 := div_ok (by omega) (Int.tdiv_self (by omega)) (by omega) (by omega)
  have hu : fit g (c + b) = .ub := by rw [fit, if_neg (by rw [Int.add_comm]; exact ho)]
  rcases he with rfl | rfl | rfl | rfl | rfl <;>
    simp (disch := omega) [fn, backIn, cubicIn, quadIn, quartIn, quintIn, backOut, cubicOut, quadOut, quartOut, quintOut, hn, hd, mul, add, sub, neg,
      fit_ok, hu, lit]

/-- **C148 (`Out`).** So do they here. -/
theorem C148_out (h : Args g b c d) (e : Ease) (he : Poly e) :
    (∀ t, 0 ≤ t → t < d → fn g e .out t b c d = .ok b) ∧ (Fits g (b + c) → fn g e .out d b c d = .ok (b + c)) := by
  obtain ⟨hm, ⟨b1, b2⟩, ⟨c1, c2⟩, ⟨d1, d2⟩⟩ := h
  have hn : nonZero g d = .ok () := nonZero_ok (by omega)
  constructor
  · intro t h0 h1
    have hd : div g t d = .ok 0 := div_ok (by omega) (tdiv_zero h0 h1) (by omega) (by omega)
    rcases he with rfl | rfl | rfl | rfl | rfl <;>
      simp (disch := omega) [fn, backOut, cubicOut, quadOut, quartOut, quintOut, hn, hd, mul, add, sub, neg, fit_ok, lit]
  · rintro ⟨h1, h2⟩
    have hd : div g d d = .ok 1 := div_ok (by omega) (Int.tdiv_self (by omega)) (by omega) (by omega)
    rcases he with rfl | rfl | rfl | rfl | rfl <;>
      simp (disch := omega) [fn, backOut, cubicOut, quadOut, quartOut, quintOut, hn, hd, mul, add, sub, neg, fit_ok, lit, Int.add_comm c b]

theorem half_ok (h : 2 ≤ d) (h' : d < g.max) : div g d 2 = .ok (d / 2) :=
  div_ok (by omega) (Int.tdiv_eq_ediv_of_nonneg (by omega)) (by omega) (by omega)

theorem tdiv2 (c : Int) : (-c).tdiv 2 = -(c.tdiv 2) := Int.neg_tdiv c 2

/-- **C148 (`InOut`).** Over integers these have three steps: the start in the first half of the duration, the start and half of the change in
the second half, and at the end the start and twice half of the change; `Cubic` adds 2 in the second half, and then is 2 above the
start. (The duration 3 is special: `C148_three`.) -/
theorem C148_inOut (h : Args g b c d) (hd : 2 ≤ d) (e : Ease) (he : Poly e) :
    (∀ t, 0 ≤ t → t < d / 2 → fn g e .inOut t b c d = .ok b) ∧
    (∀ t, d / 2 ≤ t → t < 2 * (d / 2) → ∀ v, v = b + c.tdiv 2 + (if e = .cubic then 2 else 0) → Fits g v → fn g e .inOut t b c d = .ok v) ∧
    (d ≠ 3 → ∀ v, v = (if e = .cubic then b + 2 else b + 2 * c.tdiv 2) → Fits g v → fn g e .inOut d b c d = .ok v) := by
  obtain ⟨hm, ⟨b1, b2⟩, ⟨c1, c2⟩, ⟨d1, d2⟩⟩ := h
  have hn : nonZero g d = .ok () := nonZero_ok (by omega)
  have hh : div g d 2 = .ok (d / 2) := half_ok hd d2
  obtain ⟨k, hk⟩ : ∃ k, c.tdiv 2 = k := ⟨_, rfl⟩
  have hk1 : -g.max < 2 * k ∧ 2 * k < g.max := by
    rcases Int.le_total 0 c with h0 | h0
    · rw [Int.tdiv_eq_ediv_of_nonneg h0] at hk; omega
    · have : (-c).tdiv 2 = -k := by rw [tdiv2, hk]
      rw [Int.tdiv_eq_ediv_of_nonneg (by omega)] at this; omega
  have hc : div g c 2 = .ok k := div_ok (by omega) hk (by omega) (by omega)
  have hnc : neg g c = .ok (-c) := fit_ok (by omega) (by omega)
  have hnc2 : div g (-c) 2 = .ok (-k) := div_ok (by omega) (by rw [tdiv2, hk]) (by omega) (by omega)
  rw [hk]
  refine ⟨?_, ?_, ?_⟩
  · intro t h0 h1
    have ht : div g t (d / 2) = .ok 0 := div_ok (by omega) (tdiv_zero h0 h1) (by omega) (by omega)
    rcases he with rfl | rfl | rfl | rfl | rfl <;>
      simp (disch := omega) [fn, backInOut, cubicInOut, quadInOut, quartInOut, quintInOut, hn, hh, ht, hc, mul, add, sub, fit_ok, lit]
  · intro t h0 h1 v hv hf
    obtain ⟨f1, f2⟩ := hf
    have hq : t.tdiv (d / 2) = 1 := by
      rw [Int.tdiv_eq_ediv_of_nonneg (by omega)]
      exact Int.ediv_eq_iff_of_pos (by omega) |>.2 (by constructor <;> omega)
    have ht : div g t (d / 2) = .ok 1 := div_ok (by omega) hq (by omega) (by omega)
    rcases he with rfl | rfl | rfl | rfl | rfl <;> simp at hv <;>
      simp (disch := omega) [fn, backInOut, cubicInOut, quadInOut, quartInOut, quintInOut, hn, hh, ht, hc, hnc, hnc2, mul, add, sub, fit_ok, lit] <;> omega
  · intro h3 v hv hf
    obtain ⟨f1, f2⟩ := hf
    have hq : d.tdiv (d / 2) = 2 := by
      rw [Int.tdiv_eq_ediv_of_nonneg (by omega)]
      exact Int.ediv_eq_iff_of_pos (by omega) |>.2 (by constructor <;> omega)
    have ht : div g d (d / 2) = .ok 2 := div_ok (by omega) hq (by omega) (by omega)
    rcases he with rfl | rfl | rfl | rfl | rfl <;> simp at hv <;>
      simp (disch := omega) [fn, backInOut, cubicInOut, quadInOut, quartInOut, quintInOut, hn, hh, ht, hc, hnc, hnc2, mul, add, sub, fit_ok, lit] <;> omega

/-- **C148 fails.** A change that is odd is never completed by `InOut`. -/
theorem C148_odd (h : Args g b c d) (hd : 2 ≤ d) (h3 : d ≠ 3) (e : Ease) (he : Poly e) (hc : c.tmod 2 ≠ 0) (hb : Fits g (b + 2)) (hf : Fits g (b + 2 * c.tdiv 2)) :
    fn g e .inOut d b c d ≠ .ok (b + c) := by
  have hm := Int.mul_tdiv_add_tmod c 2
  by_cases hcub : e = .cubic
  · rw [(C148_inOut h hd e he).2.2 h3 (b + 2) (by simp [hcub]) hb]
    intro hk
    injection hk with hk
    have : c = 2 := by omega
    subst this
    simp at hc
  · rw [(C148_inOut h hd e he).2.2 h3 _ (by rw [if_neg hcub]) hf]
    intro hk
    injection hk with hk
    omega

/-- **C148 fails for the duration 1.** `InOut` divides by zero, although the duration is not zero. -/
theorem C148_one (hm : 8 ≤ g.max) (e : Ease) (he : Poly e) (t b c : Int) : fn g e .inOut t b c 1 = .ub := by
  have hn : nonZero g 1 = .ok () := nonZero_ok (by omega)
  have hh : div g 1 2 = .ok 0 := div_ok (by omega) (by decide) (by omega) (by omega)
  have ht : div g t 0 = .ub := by simp [div]
  rcases he with rfl | rfl | rfl | rfl | rfl <;> simp [fn, backInOut, cubicInOut, quadInOut, quartInOut, quintInOut, hn, hh, ht]

/-- **C148 fails for the duration 3.** At its end: `Quad` and `Quart` are half way, `Quint` and `Back` beyond the end. -/
theorem C148_three (dbg : Bool) :
    fn ⟨dbg, 2 ^ 31⟩ .quad .inOut 3 0 100 3 = .ok 50 ∧ fn ⟨dbg, 2 ^ 31⟩ .quart .inOut 3 0 100 3 = .ok 50 ∧
    fn ⟨dbg, 2 ^ 31⟩ .quint .inOut 3 0 100 3 = .ok 150 ∧ fn ⟨dbg, 2 ^ 31⟩ .back .inOut 3 0 100 3 = .ok 250 ∧
    fn ⟨dbg, 2 ^ 31⟩ .cubic .inOut 3 0 100 3 = .ok 152 := by
  cases dbg <;> decide +kernel

/-- **C148 (`Bounce`).** Over integers `Out` and (for durations from 2) `InOut` stay at the start, `In` stays at the end. -/
theorem C148_bounce (h : Args g b c d) (h0 : 0 ≤ t) (h1 : t ≤ d) (ht : Fits g (2 * t)) :
    fn g .bounce .out t b c d = .ok b ∧ (Fits g (c + b) → fn g .bounce .inn t b c d = .ok (c + b)) ∧
      (2 ≤ d → fn g .bounce .inOut t b c d = .ok b) := by
  obtain ⟨hm, ⟨b1, b2⟩, ⟨c1, c2⟩, ⟨d1, d2⟩⟩ := h
  have hn : nonZero g d = .ok () := nonZero_ok (by omega)
  have l1 : div g 1 (lit 275 100) = .ok 0 := div_ok (by decide) (by decide) (by omega) (by omega)
  have l2 : div g 2 (lit 275 100) = .ok 1 := div_ok (by decide) (by decide) (by omega) (by omega)
  have l3 : div g (lit 25 10) (lit 275 100) = .ok 1 := div_ok (by decide) (by decide) (by omega) (by omega)
  have l4 : div g (lit 15 10) (lit 275 100) = .ok 0 := div_ok (by decide) (by decide) (by omega) (by omega)
  have l5 : div g (lit 2625 1000) (lit 275 100) = .ok 1 := div_ok (by decide) (by decide) (by omega) (by omega)
  have key : ∀ u v, (0 ≤ u ∨ u = -1 ∧ 2 ≤ d) → u ≤ d → -g.max ≤ v → v < g.max → bounceOut g u v c d = .ok v := by
    intro u v u0 u1 v1 v2
    rcases Int.lt_or_eq_of_le u1 with hlt | rfl
    · have hq0 : u.tdiv d = 0 := by
        rcases u0 with u0 | ⟨rfl, u0⟩
        · exact tdiv_zero u0 hlt
        · rw [Int.neg_tdiv, tdiv_zero (by omega) (by omega), Int.neg_zero]
      have hq : div g u d = .ok 0 := div_ok (by omega) hq0 (by omega) (by omega)
      simp (disch := omega) [bounceOut, hn, hq, l1, l2, l4, sub, mul, add, fit_ok, show lit 75 100 = 0 from rfl]
    · have hq : div g u u = .ok 1 := div_ok (by omega) (Int.tdiv_self (by omega)) (by omega) (by omega)
      simp (disch := omega) [bounceOut, hn, hq, l1, l2, l3, l5, sub, mul, add, fit_ok, show lit 984375 1000000 = 0 from rfl]
  have keyIn : ∀ u v, 0 ≤ u → u ≤ d → Fits g v → Fits g (c + v) → bounceIn g u v c d = .ok (c + v) := by
    intro u v u0 u1 v1 v2
    obtain ⟨v1, v1'⟩ := v1
    obtain ⟨v2, v2'⟩ := v2
    simp (disch := omega) [bounceIn, sub, fit_ok, key (d - u) 0 (.inl (by omega)) (by omega) (by omega) (by omega), add]
  refine ⟨key t b (.inl h0) h1 b1 b2, fun hf => keyIn t b h0 h1 ⟨b1, b2⟩ hf, fun h2 => ?_⟩
  have hh : div g d 2 = .ok (d / 2) := div_ok (by omega) (Int.tdiv_eq_ediv_of_nonneg (by omega)) (by omega) (by omega)
  obtain ⟨t1, t2⟩ := ht
  have l0 : lit 5 10 = 0 := rfl
  have hmul : mul g t 2 = .ok (t * 2) := fit_ok (by omega) (by omega)
  by_cases hlt : t < d / 2
  · have := keyIn (t * 2) 0 (by omega) (by omega) ⟨by omega, by omega⟩ ⟨by omega, by omega⟩
    simp (disch := omega) [fn, bounceInOut, hh, hlt, hmul, this, l0, mul, add, fit_ok]
  · have := key (t * 2 - d) 0 (by omega) (by omega) (by omega) (by omega)
    simp (disch := omega) [fn, bounceInOut, hh, hlt, hmul, this, l0, mul, add, sub, fit_ok]

/-- **C148 (`Linear`).** Over integers it is the exact value, rounded towards the start: never further than one from it. It starts at the start, ends
at the end, and is always between them. -/
theorem C148_linear (h : Args g b c d) (k : Kind) (h0 : 0 ≤ t) (h1 : t ≤ d) (hp : Fits g (c * t)) (hf : Fits g (b + c)) :
    ∃ v, fn g .linear k t b c d = .ok v ∧ (v - b) * d - c * t < d ∧ c * t - (v - b) * d < d ∧ (t = 0 → v = b) ∧ (t = d → v = b + c) ∧
      ((0 ≤ c → b ≤ v ∧ v ≤ b + c ∧ (v - b) * d ≤ c * t) ∧ (c ≤ 0 → b + c ≤ v ∧ v ≤ b ∧ c * t ≤ (v - b) * d)) := by
  obtain ⟨hm, ⟨b1, b2⟩, ⟨c1, c2⟩, ⟨d1, d2⟩⟩ := h
  have hn : nonZero g d = .ok () := nonZero_ok (by omega)
  obtain ⟨q, hq⟩ : ∃ q, (c * t).tdiv d = q := ⟨_, rfl⟩
  have facts : q * d - c * t < d ∧ c * t - q * d < d ∧ (0 ≤ c → 0 ≤ q ∧ q ≤ c ∧ q * d ≤ c * t) ∧ (c ≤ 0 → c ≤ q ∧ q ≤ 0 ∧ c * t ≤ q * d) := by
    have hmain : ∀ c q : Int, 0 ≤ c → (c * t).tdiv d = q → 0 ≤ q ∧ q ≤ c ∧ q * d ≤ c * t ∧ c * t - q * d < d := by
      intro c q hc hq
      have hct : 0 ≤ c * t := Int.mul_nonneg hc h0
      have hle : c * t ≤ c * d := Int.mul_le_mul_of_nonneg_left h1 hc
      rw [Int.tdiv_eq_ediv_of_nonneg hct] at hq
      have e1 := Int.mul_ediv_add_emod (c * t) d
      have e2 := Int.emod_nonneg (c * t) (show d ≠ 0 by omega)
      have e3 := Int.emod_lt_of_pos (c * t) d1
      rw [hq] at e1
      have e4 : d * q = q * d := Int.mul_comm d q
      refine ⟨hq ▸ Int.ediv_nonneg hct (by omega), ?_, by omega, by omega⟩
      rw [← hq]
      exact Int.ediv_le_of_le_mul d1 hle
    rcases Int.le_total 0 c with hc | hc
    · obtain ⟨a1, a2, a3, a4⟩ := hmain c q hc hq
      refine ⟨by omega, a4, fun _ => ⟨a1, a2, a3⟩, fun h => ?_⟩
      have : c = 0 := by omega
      subst this
      simp at a3 ⊢
      have : q = 0 := by omega
      subst this
      simp
    · obtain ⟨a1, a2, a3, a4⟩ := hmain (-c) (-q) (by omega) (by rw [Int.neg_mul, Int.neg_tdiv, hq])
      rw [Int.neg_mul] at a3 a4
      rw [Int.neg_mul] at a3 a4
      refine ⟨by omega, by omega, fun h => ?_, fun _ => ⟨by omega, by omega, by omega⟩⟩
      have : c = 0 := by omega
      subst this
      have : q = 0 := by omega
      subst this
      simp
  obtain ⟨f1, f2, f3, f4⟩ := facts
  obtain ⟨p1, p2⟩ := hp
  obtain ⟨e1, e2⟩ := hf
  have hr : -g.max ≤ q ∧ q < g.max ∧ -g.max ≤ q + b ∧ q + b < g.max := by
    rcases Int.le_total 0 c with hc | hc
    · have := f3 hc; omega
    · have := f4 hc; omega
  have hd : div g (c * t) d = .ok q := div_ok (by omega) hq hr.1 hr.2.1
  refine ⟨q + b, ?_, ?_⟩
  · simp (disch := omega) [fn, linear, hn, mul, fit_ok, hd, add]
  · rw [show q + b - b = q by omega]
    refine ⟨f1, f2, ?_, ?_, fun hc => ?_, fun hc => ?_⟩
    · rintro rfl
      simp at hq
      omega
    · rintro rfl
      rw [Int.mul_tdiv_cancel _ (by omega)] at hq
      omega
    · have := f3 hc; omega
    · have := f4 hc; omega

/-- **C148 (`getMapEased`).** With integers and an input range that starts at zero: for `In` and `Out` of the polynomials the result is the least
output for every input but the last, which gives the greatest output. -/
theorem C148_map (i iMax oMin oMax : Int) (hi : 0 ≤ i) (hi' : i ≤ iMax) (h : Args g oMin (oMax - oMin) iMax) (ho : Fits g oMax) (e : Ease) (he : Poly e)
    (k : Kind) (hk : k ≠ .inOut) :
    getMapEased g e k i 0 iMax oMin oMax = .ok (if i = iMax then oMax else oMin) := by
  have ho' : Fits g (oMin + (oMax - oMin)) := by rwa [show oMin + (oMax - oMin) = oMax by omega]
  have h1 := C148_in h e he
  have h2 := C148_out h e he
  obtain ⟨hm, -, ⟨c1, c2⟩, ⟨d1, d2⟩⟩ := h
  have ha : add g 0 i = .ok i := by rw [add, Int.zero_add]; exact fit_ok (by omega) (by omega)
  have hs : sub g oMax oMin = .ok (oMax - oMin) := fit_ok (by omega) (by omega)
  have hd : sub g iMax 0 = .ok iMax := by rw [sub, Int.sub_zero]; exact fit_ok (by omega) (by omega)
  simp only [getMapEased, ha, hs, hd, Outcome.bind_ok]
  have e1 : oMin + (oMax - oMin) = oMax := by omega
  by_cases hend : i = iMax
  · subst hend
    rw [if_pos rfl]
    cases k with
    | inn => rw [h1.2 ho', e1]
    | out => rw [h2.2 ho', e1]
    | inOut => exact absurd rfl hk
  · rw [if_neg hend]
    cases k with
    | inn => exact h1.1 i hi (by omega)
    | out => exact h2.1 i hi (by omega)
    | inOut => exact absurd rfl hk

/-- `getEased<Quad, In>` with integers, from 0 to 10: eleven values, ten of them zero. -/
theorem C148_step_example :
    (List.range 11).map (fun i : Nat => getEased ⟨true, 2 ^ 31⟩ .quad .inn i 0 10) =
      [.ok 0, .ok 0, .ok 0, .ok 0, .ok 0, .ok 0, .ok 0, .ok 0, .ok 0, .ok 0, .ok 10] := by
  decide +kernel

/-- `getEased<Bounce, Out>` never moves. -/
theorem C148_bounce_example :
    getEased ⟨true, 2 ^ 31⟩ .bounce .out 0 0 10 = .ok 0 ∧ getEased ⟨true, 2 ^ 31⟩ .bounce .out 10 0 10 = .ok 0 ∧
      getEased ⟨true, 2 ^ 31⟩ .bounce .inn 0 0 10 = .ok 10 ∧ getEased ⟨true, 2 ^ 31⟩ .bounce .inOut 10 0 10 = .ok 0 := by
  decide +kernel

example : Args ⟨true, 2 ^ 31⟩ 5 7 10 ∧ Poly .quad ∧ (7 : Int).tmod 2 ≠ 0 ∧ Fits ⟨true, 2 ^ 31⟩ (5 + 2 * (7 : Int).tdiv 2) :=
  ⟨⟨by decide, ⟨by decide, by decide⟩, by decide, by decide⟩, by simp [Poly], by decide, ⟨by decide, by decide⟩⟩

/-! ## After the duration -/

theorem fits_down {k : Int} (hk : 0 ≤ k) {x : Int} : Fits g (x * k * k) → Fits g (x * k) := by
  rintro ⟨h1, h2⟩
  rcases (show k = 0 ∨ 1 ≤ k by omega) with rfl | h
  · rw [Int.mul_zero] at h1 h2 ⊢
    exact ⟨h1, h2⟩
  · rcases Int.le_total 0 (x * k) with h0 | h0
    · have := Int.mul_le_mul_of_nonneg_left h h0
      exact ⟨by omega, by omega⟩
    · have := Int.mul_le_mul_of_nonneg_left h (show 0 ≤ -(x * k) by omega)
      rw [Int.neg_mul, Int.neg_mul] at this
      exact ⟨by omega, by omega⟩

/-- The result is `b + y`, and undefined if that or `y` is not a value of the type. -/
def Sum (g : Cfg) (b y : Int) (m : Outcome Int) : Prop :=
  (Fits g y ∧ Fits g (b + y) → m = .ok (b + y)) ∧ (¬ (Fits g y ∧ Fits g (b + y)) → m = .ub)

theorem sum_last {x : Int} (hx : Fits g x) : Sum g b x (add g x b) := by
  constructor
  · rintro ⟨-, h1, h2⟩
    rw [add, Int.add_comm, fit_ok h1 h2]
  · intro h
    rw [add, Int.add_comm, fit, if_neg]
    exact fun h1 => h ⟨hx, h1⟩

theorem sum_step {x k y : Int} {f : Int → Outcome Int} (h : Fits g y → Fits g (x * k))
    (hf : Fits g (x * k) → Sum g b y (f (x * k))) : Sum g b y (mul g x k >>= f) := by
  by_cases hm : Fits g (x * k)
  · rw [mul, fit_ok hm.1 hm.2]
    exact hf hm
  · have : mul g x k = .ub := by rw [mul, fit, if_neg (show ¬ (-g.max ≤ x * k ∧ x * k < g.max) from hm)]
    rw [this]
    exact ⟨fun h1 => absurd (h h1.1) hm, fun _ => rfl⟩

/-- **C148 (beyond the end).** After the duration the powers go on in steps: with `k` whole durations passed, the value is the start
plus the change times a power of `k`, and the call is undefined exactly if that product or the sum is not a value of the type. -/
theorem C148_beyond (h : Args g b c d) (h0 : 0 ≤ t) (ht : t < g.max) (e : Ease) (n : Nat)
    (he : (e, n) ∈ [(Ease.quad, 2), (Ease.cubic, 3), (Ease.quart, 4), (Ease.quint, 5)]) :
    (Fits g (c * (t / d) ^ n) ∧ Fits g (b + c * (t / d) ^ n) → fn g e .inn t b c d = .ok (b + c * (t / d) ^ n)) ∧
    (¬ (Fits g (c * (t / d) ^ n) ∧ Fits g (b + c * (t / d) ^ n)) → fn g e .inn t b c d = .ub) := by
  obtain ⟨hm, ⟨b1, b2⟩, ⟨c1, c2⟩, ⟨d1, d2⟩⟩ := h
  have hn : nonZero g d = .ok () := nonZero_ok (by omega)
  have hk : 0 ≤ t / d := Int.ediv_nonneg h0 (by omega)
  have hkt : t / d ≤ t := Int.ediv_le_self _ h0
  have hd : div g t d = .ok (t / d) := div_ok (by omega) (Int.tdiv_eq_ediv_of_nonneg h0) (by omega) (by omega)
  show Sum g b (c * (t / d) ^ n) (fn g e .inn t b c d)
  generalize hK : t / d = k at *
  have p2 : c * k ^ 2 = c * k * k := by rw [Int.pow_succ, Int.pow_succ, Int.pow_zero]; simp [Int.mul_assoc]
  have p3 : c * k ^ 3 = c * k * k * k := by rw [Int.pow_succ, ← Int.mul_assoc, p2]
  have p4 : c * k ^ 4 = c * k * k * k * k := by rw [Int.pow_succ, ← Int.mul_assoc, p3]
  have p5 : c * k ^ 5 = c * k * k * k * k * k := by rw [Int.pow_succ, ← Int.mul_assoc, p4]
  have e1 : Fits g (c * k * k) → Fits g (c * k) := fits_down hk
  have e2 : Fits g (c * k * k * k) → Fits g (c * k * k) := fits_down hk
  have e3 : Fits g (c * k * k * k * k) → Fits g (c * k * k * k) := fits_down hk
  have e4 : Fits g (c * k * k * k * k * k) → Fits g (c * k * k * k * k) := fits_down hk
  simp only [List.mem_cons, Prod.mk.injEq, List.not_mem_nil, or_false] at he
  rcases he with ⟨rfl, rfl⟩ | ⟨rfl, rfl⟩ | ⟨rfl, rfl⟩ | ⟨rfl, rfl⟩ <;>
    simp only [fn, quadIn, cubicIn, quartIn, quintIn, hn, hd, Outcome.bind_ok, p2, p3, p4, p5]
  · exact sum_step e1 fun _ => sum_step id fun h => sum_last h
  · exact sum_step (e1 ∘ e2) fun _ => sum_step e2 fun _ => sum_step id fun h => sum_last h
  · exact sum_step (e1 ∘ e2 ∘ e3) fun _ => sum_step (e2 ∘ e3) fun _ => sum_step e3 fun _ => sum_step id fun h => sum_last h
  · exact sum_step (e1 ∘ e2 ∘ e3 ∘ e4) fun _ => sum_step (e2 ∘ e3 ∘ e4) fun _ => sum_step (e3 ∘ e4) fun _ => sum_step e4 fun _ =>
      sum_step id fun h => sum_last h

/-- Two durations and a half: four times the change. -/
example : fn ⟨true, 2 ^ 31⟩ .quad .inn 25 5 7 10 = .ok 33 :=
  (C148_beyond (t := 25) ⟨by decide, ⟨by decide, by decide⟩, by decide, by decide⟩ (by decide) (by decide) .quad 2 (by simp)).1
    ⟨⟨by decide, by decide⟩, ⟨by decide, by decide⟩⟩

end Verif.EasingInt
