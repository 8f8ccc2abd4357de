import Verif.Casts.Model
import Verif.Casts.Spec
import Verif.Num.Theorems
import Verif.IntStr.Theorems

/-! # C113, C114: casts, random numbers -/

namespace Verif.Casts

open Verif Num

/-! ## C113: conversions -/

theorem wrap_of_between (t : ITy) (x : Int) (h : Between t x) : wrap t x = x := by
  cases t <;> simp only [Between, wrap, ITy.min, ITy.count] at * <;> omega

theorem fits_iff (t : ITy) (x : Int) : fits t x = true ↔ Between t x := by
  rw [fits, decide_eq_true_eq]
  cases t <;> simp only [Between, ITy.min, ITy.count] <;>
    (constructor <;> rintro ⟨a, b⟩ <;> constructor <;> omega)

/-- **C113 (numbers).** `toNum` keeps every value that the target type has, and gives otherwise the value of the target type
that differs by a multiple of the number of its values. -/
theorem C113_toNum (t : ITy) (x : Val) :
    (toNum t x).ty = t ∧ Between t (toNum t x).v ∧ (Between t x.v → (toNum t x).v = x.v) ∧
      ∃ k : Int, (toNum t x).v = x.v + k * t.count := by
  refine ⟨rfl, ?_, wrap_of_between t x.v, -((x.v - t.min) / t.count), ?_⟩
  · cases t <;> simp only [toNum, conv, Between, wrap, ITy.min, ITy.count] <;> omega
  · have := Int.mul_ediv_add_emod (x.v - t.min) t.count
    simp only [toNum, conv, wrap]
    rw [Int.neg_mul, Int.mul_comm]
    omega

/-- **C113 (enums).** `toEnum` and `castEnum` are inverse to each other. -/
theorem C113_enum (t : ITy) (x : Val) (h : x.ty = t) :
    ∃ e, toEnum t x = some e ∧ castEnum e = x ∧ toEnum t (castEnum e) = some e :=
  ⟨x, by simp [toEnum, h], rfl, by simp [toEnum, castEnum, h]⟩

theorem toNat_inj {c d : Char} (h : c.toNat = d.toNat) : c = d := by
  apply Char.ext; apply UInt32.toNat_inj.mp; exact h

theorem isSpace_iff (c : Char) : isSpace c = true ↔ IsBlank c := by
  simp only [isSpace, IsBlank, Bool.or_eq_true, beq_iff_eq, Bool.and_eq_true, decide_eq_true_eq]
  constructor
  · intro h
    have h : c.toNat = 32 ∨ c.toNat = 9 ∨ c.toNat = 10 ∨ c.toNat = 11 ∨ c.toNat = 12 ∨ c.toNat = 13 := by omega
    rcases h with h | h | h | h | h | h
    · exact .inl (toNat_inj h)
    · exact .inr (.inl (toNat_inj h))
    · exact .inr (.inr (.inl (toNat_inj h)))
    · exact .inr (.inr (.inr (.inl (toNat_inj h))))
    · exact .inr (.inr (.inr (.inr (.inl (toNat_inj h)))))
    · exact .inr (.inr (.inr (.inr (.inr (toNat_inj h)))))
  · rintro (h | h | h | h | h | h) <;> subst h <;> decide

theorem isDigit_iff (c : Char) : isDigit c = true ↔ IsDigit c := by
  simp only [isDigit, IsDigit, Bool.and_eq_true, decide_eq_true_eq, Char.le_def, UInt32.le_iff_toNat_le]
  exact Iff.rfl

/-- The digits at the start. -/
theorem number_eq : (s : List Char) → (acc : Nat) → (any : Bool) →
    number s acc any = if any = true ∨ s.takeWhile isDigit ≠ [] then
      some (Nat.ofDigitChars 10 (s.takeWhile isDigit) acc : Int) else none
  | [], acc, any => by cases any <;> simp [number]
  | c :: s, acc, any => by
    rw [number]
    by_cases h : isDigit c = true
    · have e : (10 * (acc : Int) + ((c.toNat : Int) - 48)) = ((10 * acc + (c.toNat - '0'.toNat) : Nat) : Int) := by
        simp only [isDigit, Bool.and_eq_true, decide_eq_true_eq] at h
        simp; omega
      rw [if_pos h, e, number_eq s _ true]
      simp [h, Nat.ofDigitChars_cons]
    · rw [if_neg h]
      simp only [Bool.not_eq_true] at h
      simp [h]

theorem takeWhile_eq_of {p : Char → Bool} {ds rest : List Char} (h1 : ∀ c ∈ ds, p c = true)
    (h2 : ∀ c r, rest = c :: r → p c = false) : (ds ++ rest).takeWhile p = ds ∧ (ds ++ rest).dropWhile p = rest := by
  induction ds with
  | nil =>
    cases rest with
    | nil => simp
    | cons c r => simp [h2 c r rfl]
  | cons d ds ih =>
    obtain ⟨a, b⟩ := ih (fun c hc => h1 c (List.mem_cons_of_mem _ hc))
    simp [h1 d List.mem_cons_self, a, b]

theorem mem_takeWhile {p : Char → Bool} {s : List Char} {c : Char} (h : c ∈ s.takeWhile p) : p c = true := by
  induction s with
  | nil => simp at h
  | cons d s ih =>
    rw [List.takeWhile_cons] at h
    split at h
    · rename_i hd
      rcases List.mem_cons.mp h with rfl | h
      · exact hd
      · exact ih h
    · simp at h

theorem head_dropWhile {p : Char → Bool} {s r : List Char} {c : Char} (h : s.dropWhile p = c :: r) : p c = false := by
  induction s with
  | nil => simp at h
  | cons d s ih =>
    rw [List.dropWhile_cons] at h
    split at h
    · exact ih h
    · rename_i hd; simp at h; rw [← h.1]; simpa using hd

/-- The three cases of the sign. -/
theorem strtol_cases (s : List Char) :
    (∃ r, s.dropWhile isSpace = '-' :: r ∧ strtol s = (number r 0 false).map (fun n => -n)) ∨
    (∃ r, s.dropWhile isSpace = '+' :: r ∧ strtol s = number r 0 false) ∨
    ((∀ r, s.dropWhile isSpace ≠ '-' :: r) ∧ (∀ r, s.dropWhile isSpace ≠ '+' :: r) ∧
      strtol s = number (s.dropWhile isSpace) 0 false) := by
  rw [strtol]
  split
  · rename_i r e; exact .inl ⟨r, e, rfl⟩
  · rename_i r e; exact .inr (.inl ⟨r, e, rfl⟩)
  · rename_i h1 h2; exact .inr (.inr ⟨h1, h2, rfl⟩)

theorem number_some {r : List Char} {n : Int} (h : number r 0 false = some n) :
    ∃ ds rest, r = ds ++ rest ∧ ds ≠ [] ∧ (∀ c ∈ ds, IsDigit c) ∧ (∀ c t, rest = c :: t → ¬IsDigit c) ∧
      n = (Nat.ofDigitChars 10 ds 0 : Int) := by
  have h' := number_eq r 0 false
  simp only [Bool.false_eq_true, false_or, Int.natCast_zero] at h'
  rw [h'] at h
  split at h
  · rename_i hd
    refine ⟨r.takeWhile isDigit, r.dropWhile isDigit, (List.takeWhile_append_dropWhile).symm, hd, ?_, ?_, ?_⟩
    · intro c hc; exact (isDigit_iff c).mp (mem_takeWhile hc)
    · intro c t e hc
      have := head_dropWhile e
      rw [(isDigit_iff c).mpr hc] at this
      cases this
    · simpa using h.symm
  · cases h

theorem number_of {ds rest : List Char} (h0 : ds ≠ []) (h1 : ∀ c ∈ ds, IsDigit c) (h2 : ∀ c t, rest = c :: t → ¬IsDigit c) :
    number (ds ++ rest) 0 false = some (Nat.ofDigitChars 10 ds 0 : Int) := by
  have h' := number_eq (ds ++ rest) 0 false
  simp only [Bool.false_eq_true, false_or, Int.natCast_zero] at h'
  obtain ⟨e, _⟩ := takeWhile_eq_of (p := isDigit) (ds := ds) (rest := rest) (fun c hc => (isDigit_iff c).mpr (h1 c hc))
    (fun c r e => by
      have := h2 c r e
      rw [← isDigit_iff] at this
      simpa using this)
  rw [h', e, if_pos h0]

theorem not_blank_of_digit {c : Char} (h : IsDigit c) : isSpace c = false := by
  have := (isDigit_iff c).mpr h
  simp only [isDigit, isSpace, Bool.and_eq_true, decide_eq_true_eq, Bool.or_eq_false_iff, beq_eq_false_iff_ne,
    Bool.and_eq_false_iff, decide_eq_false_iff_not] at *
  omega

theorem strtol_iff (s : List Char) (n : Int) : strtol s = some n ↔ StartsWith s n := by
  have hs : s = s.takeWhile isSpace ++ s.dropWhile isSpace := (List.takeWhile_append_dropWhile).symm
  have hw : ∀ c ∈ s.takeWhile isSpace, IsBlank c := fun c hc => (isSpace_iff c).mp (mem_takeWhile hc)
  constructor
  · intro h
    rcases strtol_cases s with ⟨r, e, h'⟩ | ⟨r, e, h'⟩ | ⟨_, _, h'⟩
    · rw [h'] at h
      simp only [Option.map_eq_some_iff] at h
      obtain ⟨k, hk, rfl⟩ := h
      obtain ⟨ds, rest, h1, h2, h3, h4, h5⟩ := number_some hk
      refine ⟨s.takeWhile isSpace, ['-'], ds, rest, ?_, hw, h2, h3, h4, .inl ⟨rfl, by rw [h5]⟩⟩
      rw [e, h1] at hs
      simpa using hs
    · rw [h'] at h
      obtain ⟨ds, rest, h1, h2, h3, h4, h5⟩ := number_some h
      refine ⟨s.takeWhile isSpace, ['+'], ds, rest, ?_, hw, h2, h3, h4, .inr ⟨.inr rfl, h5⟩⟩
      rw [e, h1] at hs
      simpa using hs
    · rw [h'] at h
      obtain ⟨ds, rest, h1, h2, h3, h4, h5⟩ := number_some h
      refine ⟨s.takeWhile isSpace, [], ds, rest, ?_, hw, h2, h3, h4, .inr ⟨.inl rfl, h5⟩⟩
      rw [h1] at hs
      simpa using hs
  · rintro ⟨ws, sign, ds, rest, rfl, h1, h2, h3, h4, h5⟩
    have hw' : ∀ c ∈ ws, isSpace c = true := fun c hc => (isSpace_iff c).mpr (h1 c hc)
    obtain ⟨d, dt, rfl⟩ := List.exists_cons_of_ne_nil h2
    have hn := number_of h2 h3 h4
    have hd : IsDigit d := h3 d List.mem_cons_self
    have hdrop : ∀ t : List Char, (∀ c r, t = c :: r → isSpace c = false) → (ws ++ t).dropWhile isSpace = t := by
      intro t ht; exact (takeWhile_eq_of hw' ht).2
    rcases h5 with ⟨rfl, rfl⟩ | ⟨rfl | rfl, rfl⟩
    · rw [strtol, show ws ++ ['-'] ++ (d :: dt) ++ rest = ws ++ '-' :: ((d :: dt) ++ rest) by simp,
        hdrop _ (by intro c r e; simp at e; rw [← e.1]; decide)]
      simp only [hn, Option.map_some]
    · have e := hdrop ((d :: dt) ++ rest) (by intro c r e; simp at e; rw [← e.1]; exact not_blank_of_digit hd)
      rcases strtol_cases (ws ++ [] ++ (d :: dt) ++ rest) with ⟨r, e', h'⟩ | ⟨r, e', h'⟩ | ⟨_, _, h'⟩
      · simp only [List.append_nil, List.append_assoc] at e'
        rw [e] at e'
        simp at e'
        rw [e'.1] at hd
        exact absurd hd (by unfold IsDigit; decide)
      · simp only [List.append_nil, List.append_assoc] at e'
        rw [e] at e'
        simp at e'
        rw [e'.1] at hd
        exact absurd hd (by unfold IsDigit; decide)
      · rw [h']
        simp only [List.append_nil, List.append_assoc]
        rw [e, hn]
    · rw [strtol, show ws ++ ['+'] ++ (d :: dt) ++ rest = ws ++ '+' :: ((d :: dt) ++ rest) by simp,
        hdrop _ (by intro c r e; simp at e; rw [← e.1]; decide)]
      simp only [hn]

theorem sto_eq (t : ITy) (s : List Char) :
    (∃ n, StartsWith s n ∧ Between t n ∧ sto t s = .ok ⟨t, n⟩) ∨
    ((∀ n, StartsWith s n → ¬Between t n) ∧ sto t s = .throw) := by
  cases h : strtol s with
  | none =>
    refine .inr ⟨fun n hn => ?_, by simp [sto, h]⟩
    rw [(strtol_iff s n).mpr hn] at h
    cases h
  | some n =>
    by_cases hf : fits t n = true
    · exact .inl ⟨n, (strtol_iff s n).mp h, (fits_iff t n).mp hf, by simp [sto, h, hf]⟩
    · refine .inr ⟨fun k hk hb => ?_, by simp [sto, h, hf]⟩
      rw [(strtol_iff s k).mpr hk] at h
      cases h
      exact hf ((fits_iff t _).mpr hb)

theorem startsWith_unique {s : List Char} {a b : Int} (ha : StartsWith s a) (hb : StartsWith s b) : a = b := by
  have h1 := (strtol_iff s a).mpr ha
  have h2 := (strtol_iff s b).mpr hb
  rw [h1] at h2
  cases h2
  rfl

/-- **C113 (text to int).** `sToInt` gives the number the text starts with, and ends the program if there is none or it is
not an `int`. Whatever follows the number is ignored. -/
theorem C113_sToInt (s : List Char) :
    (∀ n, sToInt s = .ok ⟨.i32, n⟩ ↔ StartsWith s n ∧ Between .i32 n) ∧
    (sToInt s = .assertFail ↔ ¬∃ n, StartsWith s n ∧ Between .i32 n) := by
  rcases sto_eq .i32 s with ⟨n, h1, h2, h3⟩ | ⟨h1, h3⟩
  · have e : sToInt s = .ok ⟨.i32, n⟩ := by
      simp [sToInt, h3, noexcept, toNum, conv, wrap_of_between _ _ h2]
    refine ⟨fun m => ?_, ?_⟩
    · rw [e]
      constructor
      · intro h; cases h; exact ⟨h1, h2⟩
      · rintro ⟨h, _⟩; rw [startsWith_unique h h1]
    · rw [e]; simp; exact ⟨n, h1, h2⟩
  · have e : sToInt s = .assertFail := by simp [sToInt, h3, noexcept]
    refine ⟨fun m => ?_, ?_⟩
    · rw [e]; simp; exact h1 m
    · rw [e]; simp; exact h1

/-- **C113 (text to size_t).** The same for `sToSizeT`, except that the number must be a `long`: numbers of `2^63` and more end
the program, and negative numbers wrap around. -/
theorem C113_sToSizeT (s : List Char) :
    (∀ n, sToSizeT s = .ok ⟨.u64, n⟩ ↔
      ∃ k, StartsWith s k ∧ Between .i64 k ∧ n = if k < 0 then k + 18446744073709551616 else k) ∧
    (sToSizeT s = .assertFail ↔ ¬∃ n, StartsWith s n ∧ Between .i64 n) := by
  rcases sto_eq .i64 s with ⟨n, h1, h2, h3⟩ | ⟨h1, h3⟩
  · have e : sToSizeT s = .ok ⟨.u64, if n < 0 then n + 18446744073709551616 else n⟩ := by
      have : wrap .u64 n = if n < 0 then n + 18446744073709551616 else n := by
        simp only [Between] at h2
        simp only [wrap, ITy.min, ITy.count]
        split <;> omega
      simp [sToSizeT, h3, noexcept, toNum, conv, this]
    refine ⟨fun m => ?_, ?_⟩
    · rw [e]
      constructor
      · intro h; cases h; exact ⟨n, h1, h2, rfl⟩
      · rintro ⟨k, h, _, rfl⟩; rw [startsWith_unique h h1]
    · rw [e]; simp; exact ⟨n, h1, h2⟩
  · have e : sToSizeT s = .assertFail := by simp [sToSizeT, h3, noexcept]
    refine ⟨fun m => ?_, ?_⟩
    · rw [e]; simp; intro k hk hb; exact absurd hb (h1 k hk)
    · rw [e]; simp; exact h1

theorem natText_ne_nil (n : Nat) : IntStr.natText n ≠ [] := List.ne_nil_of_length_pos Nat.length_toDigits_pos

theorem natText_digits (n : Nat) : ∀ c ∈ IntStr.natText n, IsDigit c := by
  intro c hc
  have := Nat.isDigit_of_mem_toDigits (b := 10) (by omega) (by omega) hc
  simp only [Char.isDigit, Bool.and_eq_true, decide_eq_true_eq] at this
  simp only [IsDigit, Char.le_def]
  exact this

theorem startsWith_intText (v : Int) : StartsWith (IntStr.intText v) v := by
  have h := @Nat.ofDigitChars_ten_toDigits v.natAbs
  unfold IntStr.intText
  split
  · refine ⟨[], ['-'], IntStr.natText v.natAbs, [], by simp, by simp, natText_ne_nil _, natText_digits _, by simp, .inl ⟨rfl, ?_⟩⟩
    rw [IntStr.natText, h]; omega
  · refine ⟨[], [], IntStr.natText v.natAbs, [], by simp, by simp, natText_ne_nil _, natText_digits _, by simp, .inr ⟨.inl rfl, ?_⟩⟩
    rw [IntStr.natText, h]; omega

/-- **C113 (decimal texts).** The decimal notation of every `int` is converted back to it. -/
theorem C113_int_round_trip (n : Int) (h : Between .i32 n) : sToInt (IntStr.intText n) = .ok ⟨.i32, n⟩ :=
  ((C113_sToInt _).1 n).mpr ⟨startsWith_intText n, h⟩

/-- **C113 (decimal texts), partial:** only for sizes below `2^63`. -/
theorem C113_size_round_trip_partial (n : Int) (h0 : 0 ≤ n) (h : n < 9223372036854775808) :
    sToSizeT (IntStr.intText n) = .ok ⟨.u64, n⟩ := by
  refine ((C113_sToSizeT _).1 n).mpr ⟨n, startsWith_intText n, ?_, ?_⟩
  · simp only [Between]; omega
  · rw [if_neg (by omega)]

/-- The other half of the sizes end the program. -/
theorem C113_large_size_terminates (n : Int) (h : 9223372036854775808 ≤ n) (_ : Between .u64 n) :
    sToSizeT (IntStr.intText n) = .assertFail := by
  refine (C113_sToSizeT _).2.mpr ?_
  rintro ⟨k, hk, hb⟩
  rw [startsWith_unique hk (startsWith_intText n)] at hb
  simp only [Between] at hb
  omega

/-- Trailing text is ignored: "12abc" is 12, and "-1" is the largest size. -/
theorem C113_not_only_numbers :
    sToInt ['1', '2', 'a', 'b', 'c'] = .ok ⟨.i32, 12⟩ ∧ sToSizeT ['-', '1'] = .ok ⟨.u64, 18446744073709551615⟩ := by
  decide +kernel

example : sToInt [' ', '\t', '+', '4', '2', 'x'] = .ok ⟨.i32, 42⟩ :=
  ((C113_sToInt _).1 42).mpr
    ⟨⟨[' ', '\t'], ['+'], ['4', '2'], ['x'], rfl, by simp [IsBlank], by simp, by simp [IsDigit], by simp [IsDigit],
      .inr ⟨.inr rfl, by decide⟩⟩, by decide⟩

/-! ## C114: random integers -/

variable {G : Type} {draw : Int → Int → G → Int × G}

theorem uac_wide {t : ITy} : uac t .i32 = t ↔ Wide t := by
  cases t <;> simp [uac, promote, Wide]

theorem sub_one {t : ITy} (ht : uac t .i32 = t) {x : Int} (hx : Between t x) (hx' : Between t (x - 1)) :
    sub ⟨t, x⟩ (lit 1) = .ok ⟨t, x - 1⟩ := by
  have h1 : wrap t 1 = 1 := by
    rw [uac_wide] at ht
    rcases ht with rfl | rfl | rfl | rfl <;> decide
  simp only [sub, lit, ht, result, wrap_of_between t x hx, h1, wrap_of_between t _ hx', (fits_iff t _).mpr hx', if_true]
  split <;> rfl

theorem uac_self {t : ITy} (ht : uac t .i32 = t) : uac t t = t := by
  rw [uac_wide] at ht
  rcases ht with rfl | rfl | rfl | rfl <;> rfl

/-- **C114 (range).** For bounds that are values of the common type, `min < max`: the number returned is at least `min` and less
than `max`, in both builds. -/
theorem C114_range_partial (hd : Bounded draw) (dbg : Bool) (mMin mMax : Val) (g : G)
    (hc : Wide (commonType mMin.ty mMax.ty)) (h1 : Between (commonType mMin.ty mMax.ty) mMin.v)
    (h2 : Between (commonType mMin.ty mMax.ty) mMax.v) (h : mMin.v < mMax.v) :
    ∃ r g', getRndI draw dbg mMin mMax g = some (.ok (⟨commonType mMin.ty mMax.ty, r⟩, g')) ∧ mMin.v ≤ r ∧ r < mMax.v := by
  have hd' := hd mMin.v (mMax.v - 1) g (by omega)
  refine ⟨(draw mMin.v (mMax.v - 1) g).1, (draw mMin.v (mMax.v - 1) g).2, ?_, hd'.1, by omega⟩
  have hu := uac_wide.mpr hc
  have h3 : Between (commonType mMin.ty mMax.ty) (mMax.v - 1) := by
    generalize commonType mMin.ty mMax.ty = t at *
    cases t <;> simp only [Between] at * <;> omega
  have hl : lt (conv (commonType mMin.ty mMax.ty) mMin) (conv (commonType mMin.ty mMax.ty) mMax) = true := by
    simp only [lt, conv, uac_self hu, wrap_of_between _ _ h1, wrap_of_between _ _ h2, decide_eq_true_eq]
    exact h
  rw [getRndI]
  simp only [if_pos hu, hl]
  rw [show conv (commonType mMin.ty mMax.ty) mMax = ⟨commonType mMin.ty mMax.ty, mMax.v⟩ by simp only [conv, wrap_of_between _ _ h2],
    show conv (commonType mMin.ty mMax.ty) mMin = ⟨commonType mMin.ty mMax.ty, mMin.v⟩ by simp only [conv, wrap_of_between _ _ h1],
    sub_one hu h2 h3]
  have ha : assert' dbg true = .ok () := by cases dbg <;> rfl
  rw [ha, Outcome.bind_ok, Outcome.bind_ok, uniform, if_pos (by simp only; omega)]

/-- **C114 (coverage).** Under the same conditions every number of `[min, max)` is returned from some state of the engine. -/
theorem C114_covers_partial (hd : Covering draw) (dbg : Bool) (mMin mMax : Val) (hc : Wide (commonType mMin.ty mMax.ty))
    (h1 : Between (commonType mMin.ty mMax.ty) mMin.v) (h2 : Between (commonType mMin.ty mMax.ty) mMax.v) (x : Int)
    (hx : mMin.v ≤ x) (hx' : x < mMax.v) :
    ∃ g g', getRndI draw dbg mMin mMax g = some (.ok (⟨commonType mMin.ty mMax.ty, x⟩, g')) := by
  obtain ⟨g, hg⟩ := hd mMin.v (mMax.v - 1) x hx (by omega)
  refine ⟨g, (draw mMin.v (mMax.v - 1) g).2, ?_⟩
  have hu := uac_wide.mpr hc
  have h3 : Between (commonType mMin.ty mMax.ty) (mMax.v - 1) := by
    generalize commonType mMin.ty mMax.ty = t at *
    cases t <;> simp only [Between] at * <;> omega
  have hl : lt (conv (commonType mMin.ty mMax.ty) mMin) (conv (commonType mMin.ty mMax.ty) mMax) = true := by
    simp only [lt, conv, uac_self hu, wrap_of_between _ _ h1, wrap_of_between _ _ h2, decide_eq_true_eq]
    omega
  rw [getRndI]
  simp only [if_pos hu, hl]
  rw [show conv (commonType mMin.ty mMax.ty) mMax = ⟨commonType mMin.ty mMax.ty, mMax.v⟩ by simp only [conv, wrap_of_between _ _ h2],
    show conv (commonType mMin.ty mMax.ty) mMin = ⟨commonType mMin.ty mMax.ty, mMin.v⟩ by simp only [conv, wrap_of_between _ _ h1],
    sub_one hu h2 h3]
  have ha : assert' dbg true = .ok () := by cases dbg <;> rfl
  rw [ha, Outcome.bind_ok, Outcome.bind_ok, uniform, if_pos (by simp only; omega)]
  simp only [hg]

/-- **C114 (wrong order).** With `max ≤ min` the debug build asserts; the release build is undefined, except for `max = 0` in an
unsigned type, where the number returned is `min` or larger. -/
theorem C114_wrong_order (mMin mMax : Val) (g : G) (hc : Wide (commonType mMin.ty mMax.ty))
    (h1 : Between (commonType mMin.ty mMax.ty) mMin.v) (h2 : Between (commonType mMin.ty mMax.ty) mMax.v)
    (h : mMax.v ≤ mMin.v) :
    getRndI draw true mMin mMax g = some .assertFail ∧
    ((commonType mMin.ty mMax.ty).signed = true ∨ 0 < mMax.v → getRndI draw false mMin mMax g = some .ub) ∧
    ((commonType mMin.ty mMax.ty).signed = false → mMax.v = 0 → Bounded draw →
      ∃ r g', getRndI draw false mMin mMax g = some (.ok (⟨commonType mMin.ty mMax.ty, r⟩, g')) ∧ mMin.v ≤ r) := by
  have hu := uac_wide.mpr hc
  have e1 : conv (commonType mMin.ty mMax.ty) mMax = ⟨commonType mMin.ty mMax.ty, mMax.v⟩ := by
    simp only [conv, wrap_of_between _ _ h2]
  have e2 : conv (commonType mMin.ty mMax.ty) mMin = ⟨commonType mMin.ty mMax.ty, mMin.v⟩ := by
    simp only [conv, wrap_of_between _ _ h1]
  have hl : lt (conv (commonType mMin.ty mMax.ty) mMin) (conv (commonType mMin.ty mMax.ty) mMax) = false := by
    rw [e1, e2]
    simp only [lt, uac_self hu, wrap_of_between _ _ h1, wrap_of_between _ _ h2, decide_eq_false_iff_not]
    omega
  simp only [getRndI, if_pos hu, hl, e1, e2]
  generalize commonType mMin.ty mMax.ty = t at *
  have hw : Wide t := hc
  rw [e1, e2] at hl
  refine ⟨by rw [hl]; rfl, ?_, ?_⟩
  · intro hs
    by_cases hb : Between t (mMax.v - 1)
    · rw [sub_one hu h2 hb]
      simp only [assert', Bool.false_eq_true, if_false, Outcome.bind_ok]
      rw [uniform, if_neg (by simp only; omega)]
    · have : sub ⟨t, mMax.v⟩ (lit 1) = .ub := by
        have h1' : wrap t 1 = 1 := by rcases hw with rfl | rfl | rfl | rfl <;> decide
        have hf : fits t (mMax.v - 1) = false := by
          rw [← Bool.not_eq_true, fits_iff]; exact hb
        have hsg : t.signed = true := by
          rcases hs with hs | hs
          · exact hs
          · rcases hw with rfl | rfl | rfl | rfl <;> first | rfl | (exfalso; simp only [Between] at *; omega)
        simp only [sub, lit, hu, result, wrap_of_between t _ h2, h1', hf, hsg, if_true, Bool.false_eq_true, if_false]
      rw [this]
      rfl
  · intro hs h0 hd
    rw [h0]
    have : sub ⟨t, 0⟩ (lit 1) = .ok ⟨t, t.count - 1⟩ := by
      rcases hw with rfl | rfl | rfl | rfl <;> first | exact absurd hs (by decide) | rfl
    rw [this]
    simp only [assert', Bool.false_eq_true, if_false, Outcome.bind_ok]
    have hle : mMin.v ≤ t.count - 1 := by
      rcases hw with rfl | rfl | rfl | rfl <;> first | exact absurd hs (by decide) | (simp only [Between, ITy.count] at *; omega)
    rw [uniform, if_pos hle]
    exact ⟨_, _, rfl, (hd _ _ g hle).1⟩

/-- Small types: `getRndI` does not compile when both arguments have the same type of less than 32 bits. -/
theorem C114_small_types_rejected (dbg : Bool) (mMin mMax : Val) (g : G) (h : ¬Wide (commonType mMin.ty mMax.ty)) :
    getRndI draw dbg mMin mMax g = none := by
  rw [getRndI]
  simp only [if_neg (mt uac_wide.mp h)]

/-- A negative bound and an unsigned one: `getRndI(-5, 10u)` asserts, or is undefined; `getRndI(-5, 4294967295u)` never returns
anything between the two. -/
theorem C114_mixed_signs_fail (hd : Bounded draw) (g : G) :
    getRndI draw true ⟨.i32, -5⟩ ⟨.u32, 10⟩ g = some .assertFail ∧
    getRndI draw false ⟨.i32, -5⟩ ⟨.u32, 10⟩ g = some .ub ∧
    ∀ dbg, ∃ r g', getRndI draw dbg ⟨.i32, -5⟩ ⟨.u32, 4294967295⟩ g = some (.ok (⟨.u32, r⟩, g')) ∧ 4294967291 ≤ r := by
  refine ⟨rfl, rfl, fun dbg => ?_⟩
  have := hd 4294967291 4294967294 g (by decide)
  refine ⟨(draw 4294967291 4294967294 g).1, (draw 4294967291 4294967294 g).2, ?_, this.1⟩
  cases dbg <;> rfl

/-- **C114 (sign).** `getRndSign` gives -1 or 1 for signed types. -/
theorem C114_sign_partial (hd : Bounded draw) (t : ITy) (ht : t.signed = true) (g : G) :
    ∃ r g', getRndSign draw t g = .ok (⟨t, r⟩, g') ∧ (r = -1 ∨ r = 1) := by
  have := hd 0 1 g (by decide)
  have e : (draw 0 1 g).1 = 0 ∨ (draw 0 1 g).1 = 1 := by omega
  rcases e with e | e
  · refine ⟨1, (draw 0 1 g).2, ?_, .inr rfl⟩
    cases t <;> first | exact absurd ht (by decide) | simp [getRndSign, uniform, e, lt, uac, promote, lit, conv, wrap, ITy.min, ITy.count]
  · refine ⟨-1, (draw 0 1 g).2, ?_, .inl rfl⟩
    cases t <;> first | exact absurd ht (by decide) | simp [getRndSign, uniform, e, lt, uac, promote, lit, conv, wrap, ITy.min, ITy.count]

/-- Both signs come up. -/
theorem C114_sign_covers (hd : Covering draw) (t : ITy) (ht : t.signed = true) (r : Int) (hr : r = -1 ∨ r = 1) :
    ∃ g g', getRndSign draw t g = .ok (⟨t, r⟩, g') := by
  rcases hr with rfl | rfl
  · obtain ⟨g, e⟩ := hd 0 1 1 (by decide) (by decide)
    refine ⟨g, (draw 0 1 g).2, ?_⟩
    cases t <;> first | exact absurd ht (by decide) | simp [getRndSign, uniform, e, lt, uac, promote, lit, conv, wrap, ITy.min, ITy.count]
  · obtain ⟨g, e⟩ := hd 0 1 0 (by decide) (by decide)
    refine ⟨g, (draw 0 1 g).2, ?_⟩
    cases t <;> first | exact absurd ht (by decide) | simp [getRndSign, uniform, e, lt, uac, promote, lit, conv, wrap, ITy.min, ITy.count]

/-- For unsigned types the result is the largest value or 1. -/
theorem C114_sign_unsigned_fails (hd : Covering draw) (t : ITy) (ht : t.signed = false) :
    ∃ g g', getRndSign draw t g = .ok (⟨t, t.count - 1⟩, g') := by
  obtain ⟨g, e⟩ := hd 0 1 1 (by decide) (by decide)
  refine ⟨g, (draw 0 1 g).2, ?_⟩
  cases t <;> first | exact absurd ht (by decide) | simp [getRndSign, uniform, e, lt, uac, promote, lit, conv, wrap, ITy.min, ITy.count]

/-- A distribution that meets the conditions: the engine is a counter. -/
def demoDraw (a b : Int) (g : Int) : Int × Int := (a + g % (b - a + 1), g + 1)

theorem demoDraw_bounded : Bounded demoDraw := by
  intro a b g h
  simp only [demoDraw]
  have h1 := Int.emod_nonneg g (show b - a + 1 ≠ 0 by omega)
  have h2 := Int.emod_lt_of_pos g (show 0 < b - a + 1 by omega)
  omega

theorem demoDraw_covering : Covering demoDraw := by
  intro a b x h1 h2
  refine ⟨x - a, ?_⟩
  simp only [demoDraw]
  rw [Int.emod_eq_of_lt (by omega) (by omega)]
  omega

example : ∃ g g', getRndI demoDraw true ⟨.i32, -10⟩ ⟨.i64, 10⟩ g = some (.ok (⟨.i64, 9⟩, g')) :=
  C114_covers_partial demoDraw_covering true _ _ (by decide) (by decide) (by decide) 9 (by decide) (by decide)

end Verif.Casts
