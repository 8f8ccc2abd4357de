import Verif.RealText.JsonModel
import Verif.RealText.JsonSpec
import Verif.RealText.Theorems
import Verif.Json.Theorems
import Verif.Json.PropsLayout

/-! # `double` satisfies what the JSON theorems assume -/

namespace Verif.RealText

open Verif Ieee Spec Ieee.Spec

theorem terminated_stops {rest : List Char} (h : Json.Terminated rest) : Stops rest := by
  intro c hc
  have := h c hc
  simp only [List.mem_cons, List.not_mem_nil, or_false] at this
  rcases this with rfl | rfl | rfl | rfl | rfl | rfl | rfl | rfl <;> decide

/-- Characters of numerals. -/
def numChar (c : Char) : Prop := c.isDigit = true ∨ c = '-' ∨ c = '+' ∨ c = '.' ∨ c = 'e' ∨ c = 'E'

theorem numeral_chars {t : List Char} {q : ℝ} (h : Numeral t q) : ∀ c ∈ t, numChar c := by
  obtain ⟨neg, ip, ft, fp, et, e, rfl, hip, hf, he, -⟩ := h
  intro c hc
  simp only [List.mem_append] at hc
  rcases hc with ((hc | hc) | hc) | hc
  · cases neg
    · simp at hc
    · simp at hc; subst hc; simp [numChar]
  · exact Or.inl (hip.2 c hc)
  · rcases hf with ⟨rfl, -⟩ | ⟨rfl, h⟩
    · simp at hc
    · rcases List.mem_cons.1 hc with rfl | hc
      · simp [numChar]
      · exact Or.inl (h.2 c hc)
  · rcases he with ⟨rfl, -⟩ | ⟨x, ds, hx, hd, h⟩
    · simp at hc
    · have hx' : numChar x := by rcases hx with rfl | rfl <;> simp [numChar]
      rcases h with ⟨rfl | rfl, -⟩ | ⟨rfl, -⟩ <;> simp only [List.mem_cons] at hc
      · rcases hc with rfl | hc
        · exact hx'
        · exact Or.inl (hd.2 c hc)
      · rcases hc with rfl | rfl | hc
        · exact hx'
        · simp [numChar]
        · exact Or.inl (hd.2 c hc)
      · rcases hc with rfl | rfl | hc
        · exact hx'
        · simp [numChar]
        · exact Or.inl (hd.2 c hc)

theorem numChar_json {c : Char} (h : numChar c) : c ≠ '"' ∧ c ≠ '/' ∧ Json.blank c = false := by
  rcases h with h | rfl | rfl | rfl | rfl | rfl
  · refine ⟨?_, ?_, ?_⟩
    · rintro rfl; exact absurd h (by decide)
    · rintro rfl; exact absurd h (by decide)
    · cases hw : Json.blank c with
      | false => rfl
      | true =>
        simp only [Json.blank, Bool.or_eq_true, beq_iff_eq] at hw
        rcases hw with ((rfl | rfl) | rfl) | rfl <;> exact absurd h (by decide)
  all_goals decide

theorem numeral_start {t : List Char} {q : ℝ} (h : Numeral t q) : ∃ c s, t = c :: s ∧ (c = '-' ∨ c.isDigit = true) := by
  obtain ⟨neg, ip, ft, fp, et, e, rfl, hip, -, -, -⟩ := h
  cases neg
  · obtain ⟨hne, hd⟩ := hip
    cases ip with
    | nil => exact absurd rfl hne
    | cons c l => exact ⟨c, l ++ ft ++ et, by simp, Or.inr (hd c List.mem_cons_self)⟩
  · exact ⟨'-', ip ++ ft ++ et, by simp, Or.inl rfl⟩

theorem numeral_isNumber {t : List Char} {q : ℝ} (h : Numeral t q) : Json.IsNumber double t (binary64.rnd q) where
  start := numeral_start h
  chars c hc := numChar_json (numeral_chars h c hc)
  value _ hr := strtod_numeral binary64 h (terminated_stops hr)

theorem intText_numeral (n : ℤ) : Numeral (IntStr.intText n) n := by
  refine ⟨decide (n < 0), IntStr.natText n.natAbs, [], [], [], 0, ?_, ⟨?_, ?_⟩, Or.inl ⟨rfl, rfl⟩, Or.inl ⟨rfl, rfl⟩, ?_⟩
  · unfold IntStr.intText
    by_cases h : n < 0 <;> simp [h]
  · exact Nat.toDigits_ne_nil
  · exact fun c hc => Nat.isDigit_of_mem_toDigits (by omega) (by omega) hc
  · rw [List.append_nil, show IntStr.natText n.natAbs = Nat.toDigits 10 n.natAbs from rfl, Nat.ofDigitChars_ten_toDigits]
    have h : ((n.natAbs : ℕ) : ℝ) = |(n : ℝ)| := by rw [Nat.cast_natAbs]; push_cast; rfl
    rw [h]
    by_cases hn : n < 0
    · have : (n : ℝ) < 0 := by exact_mod_cast hn
      simp [hn, abs_of_neg this]
    · have : (0 : ℝ) ≤ n := by exact_mod_cast not_lt.1 hn
      simp [hn, abs_of_nonneg this]

theorem trunc_int (n : ℤ) : trunc (n : ℝ) = n := by simp [trunc]

theorem top64 : (2 : ℝ) ^ 1000 ≤ binary64.top := by
  rw [show binary64.top = (2 ^ 53 - 1) * 2 ^ (971 : ℕ) by simp [Fmt.top, binary64]]
  set_option exponentiation.threshold 2000 in norm_num

theorem int_le_top {n : ℤ} (h : |n| ≤ 2 ^ 64) : |(n : ℝ)| ≤ binary64.top := by
  refine le_trans ?_ top64
  have : ((|n| : ℤ) : ℝ) ≤ ((2 ^ 64 : ℤ) : ℝ) := by exact_mod_cast h
  push_cast at this
  have h2 : (2 : ℝ) ^ 64 ≤ 2 ^ 1000 := pow_le_pow_right₀ (by norm_num) (by norm_num)
  norm_num at this
  rw [show (18446744073709551616 : ℝ) = 2 ^ 64 by norm_num] at this
  exact this.trans h2

theorem rnd_int {n : ℤ} (h : |n| ≤ 2 ^ 53) : binary64.rnd n = .fin n := by
  rw [rnd_fin dec64.good.p dec64.good.q (int_le_top (h.trans (by norm_num))), fl_int dec64 h]

theorem double_laws : Json.IntLaws double where
  strtod_int n _ _ hr := strtod_numeral binary64 (intText_numeral n) (terminated_stops hr)
  toInt_ofInt n h := by
    have h' : |n| ≤ 2 ^ 53 := by rw [Int.abs_eq_natAbs]; exact_mod_cast h
    show double.toInt (binary64.rnd n) = some n
    rw [rnd_int h']
    show (if -2 ^ 63 ≤ trunc (n : ℝ) ∧ trunc (n : ℝ) < 2 ^ 63 then some (trunc (n : ℝ)) else none) = some n
    rw [trunc_int, if_pos]
    rw [abs_le] at h'
    omega
  eq_ofInt n h := by
    have h' : |n| ≤ 2 ^ 53 := by rw [Int.abs_eq_natAbs]; exact_mod_cast h
    show double.eq (binary64.rnd n) (binary64.rnd n) = true
    rw [rnd_int h']
    simp [double]
  eq_symm a b := by
    cases a <;> cases b <;> simp [double, eq_comm]

/-! ## `strtod` does not look beyond a closing character -/

theorem closing_facts {c : Char} (h : c ∈ Json.closing) : c.isDigit = false ∧ c ≠ '.' ∧ c ≠ 'e' ∧ c ≠ 'E' ∧ c ≠ '-' ∧ c ≠ '+' ∧
    c ≠ 'i' ∧ c ≠ 'n' ∧ c ≠ 'f' ∧ c ≠ 'a' := by
  simp only [Json.closing, List.mem_cons, List.not_mem_nil, or_false] at h
  rcases h with rfl | rfl | rfl | rfl | rfl <;> decide

theorem spanDigits_stop {c : Char} (hc : c.isDigit = false) (u t : List Char) :
    spanDigits (u ++ c :: t) = ((spanDigits u).1, (spanDigits u).2 ++ c :: t) := by
  unfold spanDigits
  induction u with
  | nil => simp [hc]
  | cons d u ih =>
    cases hd : d.isDigit with
    | false => simp [hd]
    | true =>
      simp only [List.cons_append, List.takeWhile_cons, List.dropWhile_cons, hd, if_true] at ih ⊢
      simpa using ih

theorem spanSign_stop {c : Char} (h1 : c ≠ '-') (h2 : c ≠ '+') (u t : List Char) :
    spanSign (u ++ c :: t) = ((spanSign u).1, (spanSign u).2 ++ c :: t) := by
  cases u with
  | nil =>
    show spanSign (c :: t) = _
    rw [spanSign]
    · rfl
    · rintro s h; cases h; exact h1 rfl
    · rintro s h; cases h; exact h2 rfl
  | cons d u =>
    by_cases e1 : d = '-'
    · subst e1; rfl
    · by_cases e2 : d = '+'
      · subst e2; rfl
      · have : ∀ l, spanSign (d :: l) = ([], d :: l) := fun l => by
          rw [spanSign]
          · rintro s h; cases h; exact e1 rfl
          · rintro s h; cases h; exact e2 rfl
        rw [List.cons_append, this, this]; rfl

theorem spanFraction_stop {c : Char} (h1 : c ≠ '.') (h2 : c.isDigit = false) (u t : List Char) :
    spanFraction (u ++ c :: t) = ((spanFraction u).1, (spanFraction u).2.1, (spanFraction u).2.2 ++ c :: t) := by
  cases u with
  | nil =>
    show spanFraction (c :: t) = _
    rw [spanFraction]
    · rfl
    · rintro s h; cases h; exact h1 rfl
  | cons d u =>
    by_cases e1 : d = '.'
    · subst e1
      show (['.'], spanDigits (u ++ c :: t)) = _
      rw [spanDigits_stop h2]
      rfl
    · have : ∀ l, spanFraction (d :: l) = ([], [], d :: l) := fun l => by
        rw [spanFraction]
        rintro s h; cases h; exact e1 rfl
      rw [List.cons_append, this, this]; rfl

theorem spanExponent_stop {c : Char} (h : c ∈ Json.closing) (u t : List Char) : spanExponent (u ++ c :: t) = spanExponent u := by
  obtain ⟨f1, f2, f3, f4, f5, f6, -⟩ := closing_facts h
  cases u with
  | nil => simp [spanExponent, f3, f4]
  | cons d u =>
    rw [List.cons_append]
    unfold spanExponent
    dsimp only
    rw [spanSign_stop f5 f6]
    dsimp only
    rw [spanDigits_stop f1]

theorem prefix_stop {c : Char} (h : c ∈ Json.closing) (u t : List Char) (sg : List Char) :
    (match u ++ c :: t with
      | 'i' :: 'n' :: 'f' :: _ => (Scanned.inf (decide (sg = ['-'])), sg.length + 3)
      | 'n' :: 'a' :: 'n' :: _ => (.nan, sg.length + 3)
      | _ => (.nothing, 0)) =
    (match u with
      | 'i' :: 'n' :: 'f' :: _ => (Scanned.inf (decide (sg = ['-'])), sg.length + 3)
      | 'n' :: 'a' :: 'n' :: _ => (.nan, sg.length + 3)
      | _ => (.nothing, 0)) := by
  obtain ⟨-, -, -, -, -, -, f1, f2, f3, f4⟩ := closing_facts h
  rcases u with _ | ⟨a, _ | ⟨b, _ | ⟨d, u⟩⟩⟩
  · show (match c :: t with | 'i' :: 'n' :: 'f' :: _ => _ | 'n' :: 'a' :: 'n' :: _ => _ | _ => _) = _
    split
    · rename_i h; cases h; exact absurd rfl f1
    · rename_i h; cases h; exact absurd rfl f2
    · rfl
  · show (match a :: c :: t with | 'i' :: 'n' :: 'f' :: _ => _ | 'n' :: 'a' :: 'n' :: _ => _ | _ => _) = _
    split
    · rename_i h; cases h; exact absurd rfl f2
    · rename_i h; cases h; exact absurd rfl f4
    · split <;> first | rfl | (rename_i h; cases h)
  · show (match a :: b :: c :: t with | 'i' :: 'n' :: 'f' :: _ => _ | 'n' :: 'a' :: 'n' :: _ => _ | _ => _) = _
    split
    · rename_i h; cases h; exact absurd rfl f3
    · rename_i h; cases h; exact absurd rfl f2
    · split <;> first | rfl | (rename_i h; cases h)
  · show (match a :: b :: d :: (u ++ c :: t) with | 'i' :: 'n' :: 'f' :: _ => _ | 'n' :: 'a' :: 'n' :: _ => _ | _ => _) = _
    split
    · rename_i h; cases h; rfl
    · rename_i h; cases h; rfl
    · rename_i h1 h2
      split
      · rename_i h; cases h; exact absurd rfl (h1 _)
      · rename_i h; cases h; exact absurd rfl (h2 _)
      · rfl

theorem scan_stop {c : Char} (h : c ∈ Json.closing) (u t : List Char) : scan (u ++ c :: t) = scan u := by
  obtain ⟨f1, f2, f3, f4, f5, f6, -⟩ := closing_facts h
  unfold scan
  rw [spanSign_stop f5 f6]
  dsimp only
  rw [spanDigits_stop f1]
  dsimp only
  rw [spanFraction_stop f2 f1]
  dsimp only
  rw [← List.append_assoc, spanExponent_stop h]
  by_cases hc : (spanDigits (spanSign u).2).1 = [] ∧ (spanFraction (spanDigits (spanSign u).2).2).2.1 = []
  · rw [if_pos hc, if_pos hc]
    exact prefix_stop h _ t _
  · rw [if_neg hc, if_neg hc]

theorem spanDigits_len (s : List Char) : (spanDigits s).1.length + (spanDigits s).2.length = s.length := by
  unfold spanDigits
  rw [← List.length_append, List.takeWhile_append_dropWhile]

theorem spanSign_len (s : List Char) : (spanSign s).1.length + (spanSign s).2.length = s.length := by
  unfold spanSign
  split <;> simp [Nat.add_comm]

theorem spanFraction_len (s : List Char) :
    (spanFraction s).1.length + (spanFraction s).2.1.length + (spanFraction s).2.2.length = s.length := by
  unfold spanFraction
  split
  · rename_i t
    have := spanDigits_len t
    simp only [List.length_cons, List.length_nil]
    omega
  · simp

theorem spanExponent_len (s : List Char) : (spanExponent s).2 ≤ s.length := by
  unfold spanExponent
  cases s with
  | nil => simp
  | cons c s =>
    dsimp only
    by_cases h : c = 'e' ∨ c = 'E'
    · rw [if_pos h]
      by_cases h2 : (spanDigits (spanSign s).2).1 = []
      · rw [if_pos h2]; simp
      · rw [if_neg h2]
        have := spanSign_len s
        have := spanDigits_len (spanSign s).2
        simp only [List.length_cons]
        omega
    · rw [if_neg h]; simp

theorem scan_len (s : List Char) : (scan s).2 ≤ s.length := by
  have h1 := spanSign_len s
  have h2 := spanDigits_len (spanSign s).2
  have h3 := spanFraction_len (spanDigits (spanSign s).2).2
  have h4 := spanExponent_len (spanFraction (spanDigits (spanSign s).2).2).2.2
  unfold scan
  dsimp only
  by_cases hc : (spanDigits (spanSign s).2).1 = [] ∧ (spanFraction (spanDigits (spanSign s).2).2).2.1 = []
  · rw [if_pos hc]
    rw [hc.2] at h3
    have h5 : ((spanFraction (spanDigits (spanSign s).2).2).1 ++ (spanFraction (spanDigits (spanSign s).2).2).2.2).length + (spanSign s).1.length ≤ s.length := by
      rw [List.length_append]
      simp only [List.length_nil] at h3
      omega
    split
    · rename_i h; rw [h] at h5; simp only [List.length_cons] at h5; dsimp only; omega
    · rename_i h; rw [h] at h5; simp only [List.length_cons] at h5; dsimp only; omega
    · exact Nat.zero_le _
  · rw [if_neg hc]
    show (spanSign s).1.length + (spanDigits (spanSign s).2).1.length + (spanFraction (spanDigits (spanSign s).2).2).1.length +
      (spanFraction (spanDigits (spanSign s).2).2).2.1.length + (spanExponent (spanFraction (spanDigits (spanSign s).2).2).2.2).2 ≤ _
    omega

theorem strtod_scan (F : Fmt) (s : List Char) : strtod F s = (match (scan s).1 with
    | .nothing => .fin 0 | .inf neg => .inf neg | .nan => .nan | .num q => F.rnd q, (scan s).2) := by
  unfold strtod
  obtain ⟨a, n, h⟩ : ∃ a n, scan s = (a, n) := ⟨_, _, rfl⟩
  rw [h]
  cases a <;> rfl

theorem double_stops : Json.StrtodStops double where
  within s := by
    show (strtod binary64 s).2 ≤ _
    rw [strtod_scan]; exact scan_len s
  stops u c t h := by
    show strtod binary64 _ = strtod binary64 _
    rw [strtod_scan, strtod_scan, scan_stop h, scan_stop h]

end Verif.RealText
