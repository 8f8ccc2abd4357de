import Verif.RealText.LemmasJson

/-! # C146: real numbers in JSON text -/

namespace Verif.RealText

open Verif Ieee Spec Ieee.Spec

/-! ## The number that is read -/

theorem back_bound {x : ℝ} (hb : |x| < 2 ^ 63) : |back binary64 x| ≤ 2 ^ 63 - 1024 := by
  have h1 : |six x| ≤ (922337 : ℤ) * 10 ^ (13 : ℤ) :=
    six_le (b := 2 ^ 63) (by norm_num) (by norm_num) (by norm_num) (by norm_num) hb.le
  have h2 : |six x| ≤ 2 ^ 63 - 1024 := h1.trans (by norm_num)
  have hg : ((2 : ℝ) ^ 63 - 1024) ∈ Grid binary64 :=
    ⟨2 ^ 53 - 1, 10, by norm_num [binary64], by norm_num [binary64], by norm_num⟩
  have e1 := fl_mono dec64.p (abs_le.1 h2).1
  have e2 := fl_mono dec64.p (abs_le.1 h2).2
  rw [fl_odd, fl_exact dec64.p hg] at e1
  rw [fl_exact dec64.p hg] at e2
  exact abs_le.2 ⟨e1, e2⟩

theorem trunc_abs (y : ℝ) : |(trunc y : ℝ)| ≤ |y| := by
  unfold trunc
  by_cases h : 0 ≤ y
  · rw [if_pos h, abs_of_nonneg h, abs_of_nonneg (by exact_mod_cast Int.floor_nonneg.2 h)]
    exact Int.floor_le y
  · have h' : y ≤ 0 := by linarith
    have h2 : ((⌈y⌉ : ℤ) : ℝ) ≤ 0 := by exact_mod_cast Int.ceil_le.2 (by simpa using h')
    rw [if_neg h, abs_of_nonpos h', abs_of_nonpos h2]
    linarith [Int.le_ceil y]

theorem toInt_bound {y : ℝ} (h : |y| ≤ 2 ^ 63 - 1024) : double.toInt (.fin y) = some (trunc y) := by
  show (if -2 ^ 63 ≤ trunc y ∧ trunc y < 2 ^ 63 then some (trunc y) else none) = _
  have h1 := (trunc_abs y).trans h
  have h2 : ((|trunc y| : ℤ) : ℝ) ≤ ((2 ^ 63 - 1024 : ℤ) : ℝ) := by norm_num at h1 ⊢; exact h1
  have h3 : |trunc y| ≤ 2 ^ 63 - 1024 := by exact_mod_cast h2
  rw [abs_le] at h3
  rw [if_pos]
  omega

theorem grid_whole {F : Fmt} {y : ℝ} (hy : y ∈ Grid F) (h : ∀ i : ℤ, y ≠ i) : |y| ≤ 2 ^ F.p := by
  obtain ⟨m, e, hm, he, rfl⟩ := hy
  have he0 : e < 0 := by
    by_contra h0
    push Not at h0
    obtain ⟨n, hn⟩ := Int.eq_ofNat_of_zero_le h0
    apply h (m * 2 ^ n)
    rw [hn]
    push_cast
    rfl
  rw [abs_mul, abs_of_pos (two_pos e)]
  have h1 : |(m : ℝ)| ≤ 2 ^ F.p := by exact_mod_cast hm
  have h2 : (2 : ℝ) ^ e ≤ 1 := by
    have := two_mono he0.le
    simpa using this
  nlinarith [two_pos e, abs_nonneg (m : ℝ)]

theorem rnd_eq {F : Fmt} (hF : Dec F) {x y : ℝ} (h : F.rnd x = .fin y) : F.fl x = y := by
  unfold Fmt.rnd at h
  by_cases hc : |F.fl x| ≤ F.top
  · rw [if_pos hc] at h; cases h; rfl
  · rw [if_neg hc] at h; cases h

theorem int_top {y : ℝ} (h : |y| ≤ 2 ^ 63 - 1024) : |y| ≤ binary64.top := by
  refine h.trans (le_trans ?_ top64)
  have h2 : (2 : ℝ) ^ 63 ≤ 2 ^ 1000 := pow_le_pow_right₀ (by norm_num) (by norm_num)
  exact le_trans (sub_le_self _ (by norm_num)) h2

theorem numOf_whole {y : ℝ} (hg : y ∈ Grid binary64) (hb : |y| ≤ 2 ^ 63 - 1024) {i : ℤ} (hi : y = i) :
    Json.NumOf double (.fin y) (.intS i) := by
  have ht : trunc y = i := by rw [hi, trunc_int]
  refine .int (by rw [toInt_bound hb, ht]) ?_
  show double.eq (binary64.rnd i) (.fin y) = true
  rw [← hi, rnd_fin dec64.good.p dec64.good.q (int_top hb), fl_exact dec64.p hg]
  simp [double]

theorem numOf_real {y : ℝ} (hg : y ∈ Grid binary64) (hb : |y| ≤ 2 ^ 63 - 1024) (hi : ∀ i : ℤ, y ≠ i) :
    Json.NumOf double (.fin y) (.real (.fin y)) := by
  refine .real (toInt_bound hb) ?_
  have h1 := (trunc_abs y).trans (grid_whole hg hi)
  have h2 : |trunc y| ≤ 2 ^ 53 := by
    have : ((|trunc y| : ℤ) : ℝ) ≤ ((2 ^ 53 : ℤ) : ℝ) := by norm_num [binary64] at h1 ⊢; exact h1
    exact_mod_cast this
  show double.eq (binary64.rnd (trunc y)) (.fin y) = false
  rw [rnd_int h2]
  show decide ((trunc y : ℝ) = y) = false
  exact decide_eq_false fun h => hi _ h.symm

theorem numKept_texts : Json.NumTexts double NumKept := by
  intro n m h
  cases h with
  | intS n h => exact Json.numBack_text double_laws (.intS n h)
  | intU n h => exact Json.numBack_text double_laws (.intU n h)
  | @whole x d i hx hb hd hi =>
    rw [nearest_six.1 hd] at hi
    have hn := numeral_isNumber (toStr_numeral x)
    rw [rnd_six dec64 (num_top hx)] at hn
    exact ⟨_, _, rfl, hn, numOf_whole (fl_grid _ _) (back_bound hb) hi⟩
  | @real x d hx hb hd hi =>
    rw [nearest_six.1 hd] at hi ⊢
    have hn := numeral_isNumber (toStr_numeral x)
    rw [rnd_six dec64 (num_top hx)] at hn
    exact ⟨_, _, rfl, hn, numOf_real (fl_grid _ _) (back_bound hb) hi⟩

/-! ## Theorems -/

/-- **C146.** Every JSON value with strings without `"` and `\`, integers up to 2^53 and `double`s below 2^63 is written and read
back, in both writer modes and with and without assertions, as a value of the same structure in which each `double` is replaced by what
is kept of it. -/
theorem C146_write_then_read (pretty dbg : Bool) (v v' : Json.Val FP) (h : Json.BackBy NumKept v v') :
    ∃ t, Json.write double pretty v = .ok t ∧ Json.read double dbg t = .ok v' := Json.write_readBy numKept_texts pretty dbg h

/-- **C146.** This covers every `double` below 2^63. -/
theorem C146_covers (x : ℝ) (hx : Num binary64 x) (hb : |x| < 2 ^ 63) : ∃ m, NumKept (.real (.fin x)) m := by
  by_cases h : ∃ i : ℤ, binary64.fl (six x) = i
  · obtain ⟨i, hi⟩ := h
    exact ⟨_, .whole hx hb (six_nearest x) hi⟩
  · push Not at h
    exact ⟨_, .real hx hb (six_nearest x) h⟩

/-- **C146.** The number read is equal to the one written, in the sense of `==`, if and only if that is the number nearest to a decimal
number with six digits. -/
theorem C146_equal_iff (x : ℝ) (m : Json.Num FP) (h : NumKept (.real (.fin x)) m) :
    Json.valEq double (.num (.real (.fin x))) (.num m) = .ok true ↔ ∃ d, Six d ∧ binary64.fl d = x := by
  rw [← back_iff dec64]
  have key : Json.valEq double (.num (.real (.fin x))) (.num m) = .ok (decide (x = back binary64 x)) := by
    cases h with
    | @whole x d i hx hb hd hi =>
      have hi' : back binary64 x = i := by rw [← hi, nearest_six.1 hd]; rfl
      show Outcome.ok (double.eq (.fin x) (binary64.rnd i)) = _
      rw [← hi', rnd_fin dec64.good.p dec64.good.q (int_top (back_bound hb)), fl_exact dec64.p (show back binary64 x ∈ _ from fl_grid _ _)]
      rfl
    | @real x d hx hb hd hi =>
      rw [nearest_six.1 hd]
      rfl
  rw [key]
  simp [eq_comm]

/-- **C146.** So C16 holds of `double` as it is, without assumptions about it: values whose `double`s are nearest to decimal numbers
with six digits are read back as equal values. -/
theorem C146_equal_documents (pretty dbg : Bool) (v v' : Json.Val FP) (h : Json.Back double v v') :
    ∃ t, Json.write double pretty v = .ok t ∧ Json.read double dbg t = .ok v' ∧ Json.valEq double v v' = .ok true :=
  Json.C16_write_then_read_partial double_laws pretty dbg v v' h

/-- **C146.** Such `double`s are covered by C16. -/
theorem C146_six_digits_back (x : ℝ) (hx : Num binary64 x) (hb : |x| < 2 ^ 63) (hs : ∃ d, Six d ∧ binary64.fl d = x) :
    ∃ m, Json.NumBack double (.real (.fin x)) m := by
  have h0 : back binary64 x = x := (back_iff dec64 x).2 hs
  have hn := numeral_isNumber (toStr_numeral x)
  rw [rnd_six dec64 (num_top hx), h0] at hn
  have hbd := back_bound hb
  rw [h0] at hbd
  have he : double.eq (.fin x) (.fin x) = true := by simp [double]
  by_cases h : ∃ i : ℤ, x = i
  · obtain ⟨i, hi⟩ := h
    exact ⟨_, .real hn he (numOf_whole (num_grid hx) hbd hi)⟩
  · push Not at h
    exact ⟨_, .real hn he (numOf_real (num_grid hx) hbd h)⟩

/-- **C146.** C17 and C18 for `double` as it is: whitespace and comments do not change what is read. -/
theorem C146_layout (k s : List Char) (h : Json.Layout k s) (hk : ∃ c, k.getLast? = some c ∧ c ∈ Json.closing) (dbg : Bool) :
    (∀ v, Json.read double true k = .ok v → Json.read double dbg s = .ok v) ∧
      (Json.read double true k = .throw → Json.read double dbg s = .throw) :=
  Json.C17_layout_of_any_text_partial double_stops k s h hk dbg

/-- A value with a `double` that has more than six digits, 1/1024 = 0.0009765625, and one that is whole. -/
example (pretty dbg : Bool) : ∃ t v', Json.write double pretty (.arr [.num (.real (.fin (1 / 1024))), .num (.real (.fin 1234567))]) = .ok t ∧
    Json.read double dbg t = .ok v' ∧
    Json.valEq double (.num (.real (.fin 1234567))) (.num (.intS 1234570)) = .ok false := by
  have n1 : Num binary64 (1 / 1024) := ⟨1, -10, by norm_num [binary64], by norm_num [binary64], by norm_num [binary64], by norm_num⟩
  have n2 : Num binary64 1234567 := ⟨1234567, 0, by norm_num [binary64], by norm_num [binary64], by norm_num [binary64], by norm_num⟩
  obtain ⟨m1, h1⟩ := C146_covers _ n1 (by rw [abs_of_pos] <;> norm_num)
  obtain ⟨m2, h2⟩ := C146_covers _ n2 (by rw [abs_of_pos] <;> norm_num)
  obtain ⟨t, e1, e2⟩ := C146_write_then_read pretty dbg _ _ (.arr (.cons (.num h1) (.cons (.num h2) .nil)))
  refine ⟨t, _, e1, e2, ?_⟩
  show Outcome.ok (double.eq (.fin 1234567) (binary64.rnd ((1234570 : ℤ) : ℝ))) = _
  rw [rnd_int (by norm_num)]
  simp [double]

/-! ## What cannot be read -/

theorem write_num (pretty : Bool) (r : FP) : Json.write double pretty (.num (.real r)) = .ok (toStr r) := by
  cases pretty <;> simp [Json.write, Json.writeVal, Json.numText, Json.W.put, double]

/-- Reading a number on its own. -/
theorem read_number {t : List Char} (hs : ∃ c s, t = c :: s ∧ (c = '-' ∨ c.isDigit = true))
    (hc : ∀ c ∈ t, c ≠ '"' ∧ c ≠ '/' ∧ Json.blank c = false) (hi : double.toInt (strtod binary64 t).1 = none) (dbg : Bool) :
    Json.read double dbg t = .ub := by
  rw [Json.read, Json.purge_layout dbg (Json.layout_chars t hc)]
  simp only [Outcome.bind_ok, Json.purgedSrc, List.drop_length, List.append_nil]
  obtain ⟨c, s, rfl, h⟩ := hs
  obtain ⟨h1, h2, h3, h4, h5, h6, h7⟩ := Json.numStart_facts (ops := double) h
  rw [Json.parseVal_cons, if_neg h1, if_neg h2, if_neg h3, if_neg h4, if_neg h5, if_neg h6, h7]
  have : Json.parseNum double (c :: s) = .ub := by
    unfold Json.parseNum
    show (match double.toInt (strtod binary64 (c :: s)).1 with | none => _ | some i => _) = _
    rw [hi]
  simp [this]

theorem toInt_large {y : ℝ} (h : 2 ^ 63 < |y|) (h2 : y ≠ -2 ^ 63) : double.toInt (.fin y) = none ∨ |y| < 2 ^ 63 + 1 := by
  by_cases hb : |y| < 2 ^ 63 + 1
  · exact Or.inr hb
  refine Or.inl ?_
  push Not at hb
  show (if -2 ^ 63 ≤ trunc y ∧ trunc y < 2 ^ 63 then some (trunc y) else none) = _
  rw [if_neg]
  rintro ⟨h3, h4⟩
  unfold trunc at h3 h4
  by_cases h0 : 0 ≤ y
  · rw [if_pos h0] at h3 h4
    rw [abs_of_nonneg h0] at hb
    have := Int.lt_floor_add_one y
    have h5 : ((⌊y⌋ : ℤ) : ℝ) < ((2 ^ 63 : ℤ) : ℝ) := by exact_mod_cast h4
    push_cast at h5
    linarith
  · rw [if_neg h0] at h3 h4
    rw [abs_of_neg (by linarith)] at hb
    have := Int.ceil_lt_add_one y
    have h5 : ((-2 ^ 63 : ℤ) : ℝ) ≤ ((⌈y⌉ : ℤ) : ℝ) := by exact_mod_cast h3
    push_cast at h5
    linarith

/-- **C146 fails for large numbers.** The text of a `double` of 2^64 or more is written, but reading it is undefined, because the reader
converts every number to `long` first. -/
theorem C146_large (pretty dbg : Bool) (x : ℝ) (hx : Num binary64 x) (h : 2 ^ 64 ≤ |x|) :
    ∃ t, Json.write double pretty (.num (.real (.fin x))) = .ok t ∧ Json.read double dbg t = .ub := by
  refine ⟨_, write_num pretty _, ?_⟩
  have hn := toStr_numeral x
  refine read_number (numeral_start hn) (fun c hc => numChar_json (numeral_chars hn c hc)) ?_ dbg
  have hs := strtod_numeral binary64 hn stops_nil
  rw [List.append_nil, rnd_six dec64 (num_top hx)] at hs
  rw [hs]
  have h1 : (2 : ℝ) ^ 63 + 2 ^ 62 ≤ |six x| := by
    have e1 := six_err x
    have e2 := abs_sub_abs_le_abs_sub x (six x)
    rw [abs_sub_comm] at e2
    have : |x| / (2 * 10 ^ 5) ≤ |x| / 4 := by
      apply div_le_div_of_nonneg_left (abs_nonneg x) <;> norm_num
    norm_num at *
    linarith
  have hg : ((2 : ℝ) ^ 63 + 2 ^ 62) ∈ Grid binary64 := ⟨3, 62, by norm_num [binary64], by norm_num [binary64], by norm_num⟩
  have h2 : (2 : ℝ) ^ 63 + 2 ^ 62 ≤ |back binary64 x| := by
    have e1 := fl_mono dec64.p h1
    rw [fl_exact dec64.p hg] at e1
    refine e1.trans (le_of_eq ?_)
    unfold back
    rcases abs_cases (six x) with ⟨e, h0⟩ | ⟨e, h0⟩
    · rw [e]
      have := fl_mono dec64.p h0
      rw [fl_zero] at this
      rw [abs_of_nonneg this]
    · rw [e, fl_odd]
      have := fl_mono dec64.p h0.le
      rw [fl_zero] at this
      rw [abs_of_nonpos this]
  rcases toInt_large (y := back binary64 x) (by norm_num at *; linarith) (fun h' => by
    rw [h'] at h2; norm_num at h2) with h3 | h3
  · exact h3
  · norm_num at *; linarith

/-- **C146 fails for infinities and NaN.** They are written as `inf`, `-inf` and `nan`. The first and the last are read errors; reading the
second is undefined. -/
theorem C146_infinite (pretty dbg : Bool) :
    (∃ t, Json.write double pretty (.num (.real (.inf false))) = .ok t ∧ Json.read double dbg t = .throw) ∧
    (∃ t, Json.write double pretty (.num (.real (.inf true))) = .ok t ∧ Json.read double dbg t = .ub) ∧
    (∃ t, Json.write double pretty (.num (.real .nan)) = .ok t ∧ Json.read double dbg t = .throw) := by
  refine ⟨⟨_, write_num pretty _, ?_⟩, ⟨_, write_num pretty _, ?_⟩, ⟨_, write_num pretty _, ?_⟩⟩
  · show Json.read double dbg ['i', 'n', 'f'] = .throw
    rw [Json.read, Json.purge_layout dbg (Json.layout_chars ['i', 'n', 'f'] (by decide))]
    simp only [Outcome.bind_ok, Json.purgedSrc, List.drop_length, List.append_nil]
    rw [Json.parseVal_cons]
    simp [Json.isNumStart, Json.throwError]
  · show Json.read double dbg ['-', 'i', 'n', 'f'] = .ub
    refine read_number ⟨_, _, rfl, Or.inl rfl⟩ (by decide) ?_ dbg
    simp [strtod, scan, spanSign, spanDigits, spanFraction, double]
  · show Json.read double dbg ['n', 'a', 'n'] = .throw
    rw [Json.read, Json.purge_layout dbg (Json.layout_chars ['n', 'a', 'n'] (by decide))]
    simp only [Outcome.bind_ok, Json.purgedSrc, List.drop_length, List.append_nil]
    rw [Json.parseVal_cons]
    simp [Json.matchKw, Json.cur, Json.throwError]

end Verif.RealText
