import Verif.RealText.LemmasDec

/-! # The text of a number -/

namespace Verif.RealText

open Verif Ieee Spec

/-- Value of digits. -/
abbrev dv (ds : List Char) : ℕ := Nat.ofDigitChars 10 ds 0

theorem dv_from (l : List Char) (n : ℕ) : Nat.ofDigitChars 10 l n = n * 10 ^ l.length + dv l := by
  induction l generalizing n with
  | nil => simp [dv, Nat.ofDigitChars_eq_foldl]
  | cons c l ih =>
    rw [Nat.ofDigitChars_cons, ih, show dv (c :: l) = Nat.ofDigitChars 10 (c :: l) 0 from rfl, Nat.ofDigitChars_cons, ih (10 * 0 + _)]
    simp only [List.length_cons]
    ring

theorem dv_append (l r : List Char) : dv (l ++ r) = dv l * 10 ^ r.length + dv r := by
  rw [← dv_from]
  simp [dv, Nat.ofDigitChars_eq_foldl, List.foldl_append]

theorem dv_zeros (k : ℕ) : dv (List.replicate k '0') = 0 := by
  induction k with
  | zero => rfl
  | succ k ih => rw [List.replicate_succ', dv_append, ih]; rfl

theorem fixed_length (k n : ℕ) : (fixed k n).length = k := by
  induction k generalizing n with
  | zero => rfl
  | succ k ih => simp [fixed, ih]

theorem fixed_digits (k n : ℕ) : ∀ c ∈ fixed k n, c.isDigit = true := by
  induction k generalizing n with
  | zero => simp [fixed]
  | succ k ih =>
    intro c hc
    rw [fixed, List.mem_append, List.mem_singleton] at hc
    rcases hc with hc | rfl
    · exact ih _ c hc
    · rw [Nat.isDigit_digitChar]; simp [Nat.mod_lt]

theorem dv_digit {n : ℕ} (h : n < 10) : dv [Nat.digitChar n] = n := by
  simp [dv, Nat.ofDigitChars_eq_foldl, Nat.toNat_digitChar_of_lt_ten h]

theorem fixed_value (k n : ℕ) : dv (fixed k n) = n % 10 ^ k := by
  induction k generalizing n with
  | zero => simp [fixed, dv, Nat.ofDigitChars_eq_foldl, Nat.mod_one]
  | succ k ih =>
    rw [fixed, dv_append, ih, dv_digit (Nat.mod_lt _ (by norm_num)), List.length_singleton, pow_one, pow_succ, mul_comm (10 ^ k) 10,
      Nat.mod_mul]
    ring

theorem mem_takeWhile_imp' {p : Char → Bool} {l : List Char} {c : Char} (h : c ∈ l.takeWhile p) : p c = true := by
  induction l with
  | nil => simp at h
  | cons a l ih =>
    rw [List.takeWhile_cons] at h
    split at h
    · rcases List.mem_cons.1 h with rfl | h
      · assumption
      · exact ih h
    · simp at h

theorem strip_zeros (ds : List Char) : ∃ k, ds = strip ds ++ List.replicate k '0' := by
  refine ⟨(ds.reverse.takeWhile (· == '0')).length, ?_⟩
  have h1 : ds.reverse.takeWhile (· == '0') = List.replicate (ds.reverse.takeWhile (· == '0')).length '0' := by
    rw [List.eq_replicate_iff]
    refine ⟨rfl, fun c hc => ?_⟩
    simpa using mem_takeWhile_imp' hc
  have h2 := List.takeWhile_append_dropWhile (p := (· == '0')) (l := ds.reverse)
  have h3 := congrArg List.reverse h2
  rw [List.reverse_append, List.reverse_reverse] at h3
  rw [strip, ← h3]
  conv_rhs => rw [h3]
  rw [h1, List.reverse_replicate]
  simp

theorem strip_last (ds : List Char) : strip ds = [] ∨ ∃ l c, strip ds = l ++ [c] ∧ c ≠ '0' := by
  unfold strip
  cases h : ds.reverse.dropWhile (· == '0') with
  | nil => exact Or.inl rfl
  | cons c l =>
    refine Or.inr ⟨l.reverse, c, by simp, ?_⟩
    have := List.head_dropWhile_not (p := (· == '0')) (l := ds.reverse) (by rw [h]; simp)
    simpa [h] using this

theorem strip_mem {ds : List Char} (h : ∀ c ∈ ds, c.isDigit = true) : ∀ c ∈ strip ds, c.isDigit = true := by
  obtain ⟨k, hk⟩ := strip_zeros ds
  intro c hc
  exact h c (by rw [hk]; exact List.mem_append_left _ hc)

theorem fraction_spec {ds : List Char} (h : ∀ c ∈ ds, c.isDigit = true) : Fraction (fraction ds) (strip ds) := by
  unfold fraction
  split
  · exact Or.inl ⟨rfl, by assumption⟩
  · exact Or.inr ⟨rfl, by assumption, strip_mem h⟩

/-- Dropping zeros at the end of a fraction does not change the value. -/
theorem strip_value (ip ds : List Char) :
    ((dv (ip ++ strip ds) : ℕ) : ℝ) * 10 ^ (-((strip ds).length : ℤ)) = (dv (ip ++ ds) : ℕ) * 10 ^ (-(ds.length : ℤ)) := by
  obtain ⟨k, hk⟩ := strip_zeros ds
  have h1 : dv (ip ++ ds) = dv (ip ++ strip ds) * 10 ^ k := by
    conv_lhs => rw [hk]
    rw [← List.append_assoc, dv_append, dv_zeros, List.length_replicate, add_zero]
  have h2 : ds.length = (strip ds).length + k := by
    conv_lhs => rw [hk]
    simp
  rw [h1, h2]
  push_cast
  rw [neg_add, zpow_add₀ (by norm_num), zpow_neg _ (k : ℤ), zpow_natCast]
  field_simp

theorem toDigits_head {n : ℕ} (h : 0 < n) : ∃ c l, Nat.toDigits 10 n = c :: l ∧ c ≠ '0' := by
  induction n using Nat.strong_induction_on with
  | _ n ih =>
    rw [Nat.toDigits_eq_if (by norm_num)]
    split
    · refine ⟨_, _, rfl, ?_⟩
      rw [Ne, Nat.digitChar_eq_zero]; omega
    · obtain ⟨c, l, h1, h2⟩ := ih (n / 10) (by omega) (by omega)
      exact ⟨c, l ++ _, by rw [h1]; rfl, h2⟩

theorem toDigits_three {n : ℕ} (h : 100 ≤ n) : 2 ≤ (Nat.toDigits 10 n).length := by
  rw [Nat.toDigits_eq_if (by norm_num), if_neg (by omega), Nat.toDigits_eq_if (by norm_num), if_neg (by omega)]
  simp

theorem exponent_digits (n : ℕ) : Digits (if n < 100 then fixed 2 n else Nat.toDigits 10 n) ∧
    dv (if n < 100 then fixed 2 n else Nat.toDigits 10 n) = n := by
  split
  · refine ⟨⟨fun h => ?_, fixed_digits _ _⟩, ?_⟩
    · have := fixed_length 2 n; rw [h] at this; simp at this
    · rw [fixed_value]; exact Nat.mod_eq_of_lt (by assumption)
  · refine ⟨⟨fun h => ?_, fun c hc => Nat.isDigit_of_mem_toDigits (by norm_num) (by norm_num) hc⟩, Nat.ofDigitChars_ten_toDigits⟩
    have : 0 < (Nat.toDigits 10 n).length := Nat.length_toDigits_pos
    rw [h] at this
    simp at this

theorem exponent_spec (e : ℤ) : Exponent (exponent e) e := by
  obtain ⟨h1, h2⟩ := exponent_digits e.natAbs
  refine Or.inr ⟨'e', _, Or.inl rfl, h1, ?_⟩
  unfold exponent
  rw [dv] at h2
  by_cases he : e < 0
  · refine Or.inr ⟨by rw [if_pos he], ?_⟩
    rw [h2]; omega
  · refine Or.inl ⟨Or.inr (by rw [if_neg he]), ?_⟩
    rw [h2]; omega

theorem six_fixed {m : ℕ} (h2 : m < 10 ^ 6) : dv (fixed 6 m) = m := by
  rw [fixed_value, Nat.mod_eq_of_lt h2]

theorem layout_fixed {m : ℕ} {e : ℤ} (h1 : e < 6) (h2 : 0 ≤ e) :
    layout m e = (fixed 6 m).take (e.toNat + 1) ++ fraction ((fixed 6 m).drop (e.toNat + 1)) := by
  unfold layout
  dsimp only
  rw [if_pos ⟨by omega, h1⟩, if_pos h2]

theorem layout_small {m : ℕ} {e : ℤ} (h1 : -4 ≤ e) (h2 : e < 0) :
    layout m e = '0' :: fraction (List.replicate (e.natAbs - 1) '0' ++ fixed 6 m) := by
  unfold layout
  dsimp only
  rw [if_pos ⟨h1, by omega⟩, if_neg (by omega)]

theorem layout_sci {m : ℕ} {e : ℤ} (h : ¬ (-4 ≤ e ∧ e < 6)) :
    layout m e = (fixed 6 m).take 1 ++ fraction ((fixed 6 m).drop 1) ++ exponent e := by
  unfold layout
  dsimp only
  rw [if_neg h]

/-- The text is a numeral for the digits. -/
theorem layout_numeral (neg : Bool) {m : ℕ} (h2 : m < 10 ^ 6) (e : ℤ) :
    Numeral ((if neg then ['-'] else []) ++ layout m e) ((if neg then -1 else 1) * ((m : ℝ) * 10 ^ (e - 5))) := by
  have hd := fixed_digits 6 m
  have hl := fixed_length 6 m
  have hv := six_fixed h2
  by_cases he : -4 ≤ e ∧ e < 6
  · by_cases h0 : 0 ≤ e
    · rw [layout_fixed he.2 h0]
      refine ⟨neg, (fixed 6 m).take (e.toNat + 1), fraction ((fixed 6 m).drop (e.toNat + 1)), strip ((fixed 6 m).drop (e.toNat + 1)), [], 0,
        by simp, ⟨?_, fun c hc => hd c (List.mem_of_mem_take hc)⟩, fraction_spec (fun c hc => hd c (List.mem_of_mem_drop hc)),
        Or.inl ⟨rfl, rfl⟩, ?_⟩
      · intro h; have := congrArg List.length h; simp [hl] at this
      · have := strip_value ((fixed 6 m).take (e.toNat + 1)) ((fixed 6 m).drop (e.toNat + 1))
        rw [List.take_append_drop, hv, List.length_drop, hl] at this
        rw [zero_sub, this]
        congr 3
        omega
    · rw [layout_small he.1 (by omega)]
      have hd' : ∀ c ∈ List.replicate (e.natAbs - 1) '0' ++ fixed 6 m, c.isDigit = true := by
        intro c hc
        rcases List.mem_append.1 hc with hc | hc
        · rw [(List.mem_replicate.1 hc).2]; rfl
        · exact hd c hc
      refine ⟨neg, ['0'], _, _, [], 0, by simp, ⟨by simp, by simp⟩, fraction_spec hd', Or.inl ⟨rfl, rfl⟩, ?_⟩
      have := strip_value ['0'] (List.replicate (e.natAbs - 1) '0' ++ fixed 6 m)
      rw [zero_sub, this, dv_append, dv_append, dv_zeros, hv]
      simp only [List.length_append, List.length_replicate, hl]
      have h3 : dv ['0'] = 0 := rfl
      rw [h3]
      simp only [zero_mul, zero_add]
      congr 3
      omega
  · rw [layout_sci he]
    refine ⟨neg, (fixed 6 m).take 1, fraction ((fixed 6 m).drop 1), strip ((fixed 6 m).drop 1), exponent e, e,
        by simp, ⟨?_, fun c hc => hd c (List.mem_of_mem_take hc)⟩, fraction_spec (fun c hc => hd c (List.mem_of_mem_drop hc)),
        exponent_spec e, ?_⟩
    · intro h; have := congrArg List.length h; simp [hl] at this
    · have := strip_value ((fixed 6 m).take 1) ((fixed 6 m).drop 1)
      rw [List.take_append_drop, hv, List.length_drop, hl] at this
      congr 1
      calc (m : ℝ) * 10 ^ (e - 5) = 10 ^ e * ((m : ℝ) * 10 ^ (-((6 - 1 : ℕ) : ℤ))) := by
            rw [sub_eq_add_neg e 5, zpow_add₀ (by norm_num)]; norm_num; ring
        _ = _ := by
            rw [← this, sub_eq_add_neg, zpow_add₀ (by norm_num)]; ring

theorem toStr_fin {x : ℝ} (hx : x ≠ 0) : toStr (.fin x) =
    (if decide (x < 0) = true then ['-'] else []) ++ layout (digits |x|).1 (digits |x|).2 := by
  simp [toStr, hx]

/-- The number with six digits that is written for `x`. -/
noncomputable def six (x : ℝ) : ℝ :=
  if x = 0 then 0 else (if decide (x < 0) = true then -1 else 1) * (((digits |x|).1 : ℝ) * 10 ^ ((digits |x|).2 - 5))

theorem toStr_numeral (x : ℝ) : Numeral (toStr (.fin x)) (six x) := by
  unfold six
  by_cases hx : x = 0
  · rw [if_pos hx, hx]
    refine ⟨false, ['0'], [], [], [], 0, by simp [toStr], ⟨by simp, by simp⟩, Or.inl ⟨rfl, rfl⟩, Or.inl ⟨rfl, rfl⟩, ?_⟩
    have h : Nat.ofDigitChars 10 (['0'] ++ []) 0 = 0 := rfl
    rw [h]; simp
  · rw [if_neg hx, toStr_fin hx]
    exact layout_numeral _ (digits_spec (abs_pos.2 hx)).2.1 _

theorem six_nearest (x : ℝ) : NearestSix x (six x) := by
  unfold six
  by_cases hx : x = 0
  · rw [if_pos hx, hx]; exact nearest_zero
  · rw [if_neg hx]
    have := digits_nearest (abs_pos.2 hx)
    rcases lt_or_gt_of_ne hx with h | h
    · rw [if_pos (decide_eq_true h)]
      rw [abs_of_neg h] at this ⊢
      have := nearest_neg this
      rwa [neg_neg, ← neg_one_mul] at this
    · rw [if_neg (by simpa using h.le), one_mul]
      rwa [abs_of_pos h] at this ⊢

end Verif.RealText
