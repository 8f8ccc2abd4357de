import Verif.RealText.LemmasText

/-! # Reading numerals -/

namespace Verif.RealText

open Verif Ieee Spec

/-- `rest` does not continue a numeral. -/
def Stops (rest : List Char) : Prop := ∀ c, rest.head? = some c → c.isDigit = false ∧ c ≠ '.' ∧ c ≠ 'e' ∧ c ≠ 'E'

theorem stops_nil : Stops [] := fun c h => by simp at h

theorem span_digits {ds : List Char} {rest : List Char} (h : ∀ c ∈ ds, c.isDigit = true)
    (hr : ∀ c, rest.head? = some c → c.isDigit = false) : spanDigits (ds ++ rest) = (ds, rest) := by
  unfold spanDigits
  induction ds with
  | nil =>
    cases rest with
    | nil => rfl
    | cons c r => simp [List.takeWhile_cons, List.dropWhile_cons, hr c rfl]
  | cons c ds ih =>
    have := ih (fun c hc => h c (List.mem_cons_of_mem _ hc))
    rw [Prod.mk.injEq] at this ⊢
    rw [List.cons_append, List.takeWhile_cons, List.dropWhile_cons, if_pos (h c (List.mem_cons_self ..)),
      if_pos (h c (List.mem_cons_self ..)), this.1]
    exact ⟨rfl, this.2⟩

theorem span_sign {neg : Bool} {ds rest : List Char} (h : Digits ds) :
    spanSign ((if neg then ['-'] else []) ++ (ds ++ rest)) = (if neg then ['-'] else [], ds ++ rest) := by
  cases neg with
  | true => rfl
  | false =>
    obtain ⟨h0, h⟩ := h
    cases ds with
    | nil => exact absurd rfl h0
    | cons c ds =>
      have := h c (List.mem_cons_self ..)
      rw [if_neg (by simp), List.nil_append, List.cons_append]
      unfold spanSign
      split
      · rename_i heq
        injection heq with h1 h2
        rw [h1] at this; exact absurd this (by decide)
      · rename_i heq
        injection heq with h1 h2
        rw [h1] at this; exact absurd this (by decide)
      · rfl

theorem exponent_head {et rest : List Char} {e : ℤ} (h : Exponent et e) (hr : Stops rest) :
    ∀ c, (et ++ rest).head? = some c → c.isDigit = false ∧ c ≠ '.' := by
  intro c hc
  rcases h with ⟨rfl, _⟩ | ⟨x, ds, hx, _, h⟩
  · exact ⟨(hr c hc).1, (hr c hc).2.1⟩
  · have : c = x := by
      rcases h with ⟨h | h, _⟩ | ⟨h, _⟩ <;> rw [h] at hc <;> simp at hc <;> exact hc.symm
    rcases hx with rfl | rfl <;> subst this <;> decide

theorem span_exponent {et rest : List Char} {e : ℤ} (h : Exponent et e) (hr : Stops rest) :
    spanExponent (et ++ rest) = (e, et.length) := by
  rcases h with ⟨rfl, rfl⟩ | ⟨x, ds, hx, hd, h⟩
  · cases rest with
    | nil => rfl
    | cons c r =>
      have := hr c rfl
      simp only [List.nil_append, spanExponent, List.length_nil]
      rw [if_neg (by rintro (h | h); exacts [this.2.2.1 h, this.2.2.2 h])]
  · have hdig : ∀ c, rest.head? = some c → c.isDigit = false := fun c hc => (hr c hc).1
    rcases h with ⟨h | h, rfl⟩ | ⟨h, rfl⟩ <;> subst h
    · have h1 := span_sign (neg := false) (rest := rest) hd
      simp only [Bool.false_eq_true, if_false, List.nil_append] at h1
      simp only [List.cons_append, spanExponent]
      rw [if_pos hx, h1]
      dsimp only
      rw [span_digits hd.2 hdig]
      dsimp only
      rw [if_neg hd.1]
      simp [Nat.add_comm]
    · simp only [List.cons_append, spanExponent]
      rw [if_pos hx, show spanSign ('+' :: (ds ++ rest)) = (['+'], ds ++ rest) from rfl]
      dsimp only
      rw [span_digits hd.2 hdig]
      dsimp only
      rw [if_neg hd.1]
      simp [Nat.add_comm]; omega
    · simp only [List.cons_append, spanExponent]
      rw [if_pos hx, show spanSign ('-' :: (ds ++ rest)) = (['-'], ds ++ rest) from rfl]
      dsimp only
      rw [span_digits hd.2 hdig]
      dsimp only
      rw [if_neg hd.1]
      simp [Nat.add_comm]; omega

theorem span_fraction {ft fp rest : List Char} (h : Fraction ft fp)
    (hr : ∀ c, rest.head? = some c → c.isDigit = false ∧ c ≠ '.') :
    spanFraction (ft ++ rest) = (ft.take 1, fp, rest) ∧ (ft.take 1).length + fp.length = ft.length ∧ ft.take 1 ++ fp = ft := by
  rcases h with ⟨rfl, rfl⟩ | ⟨rfl, hd⟩
  · refine ⟨?_, rfl, rfl⟩
    rw [List.nil_append]
    unfold spanFraction
    split
    · exact absurd rfl (hr '.' rfl).2
    · rfl
  · refine ⟨?_, by simp; omega, rfl⟩
    show (['.'], spanDigits (fp ++ rest)) = _
    rw [span_digits hd.2 (fun c hc => (hr c hc).1)]
    rfl

theorem scan_numeral {t : List Char} {q : ℝ} (h : Numeral t q) {rest : List Char} (hr : Stops rest) :
    scan (t ++ rest) = (.num q, t.length) := by
  obtain ⟨neg, ip, ft, fp, et, e, rfl, hip, hf, he, rfl⟩ := h
  have h1 := exponent_head he hr
  have h2 : ∀ c, (ft ++ (et ++ rest)).head? = some c → c.isDigit = false := by
    intro c hc
    rcases hf with ⟨rfl, _⟩ | ⟨rfl, _⟩
    · exact (h1 c hc).1
    · simp at hc; subst hc; rfl
  obtain ⟨h3, h4, h5⟩ := span_fraction hf h1
  unfold scan
  rw [show (if neg then ['-'] else []) ++ ip ++ ft ++ et ++ rest = (if neg then ['-'] else []) ++ (ip ++ (ft ++ (et ++ rest))) by simp,
    span_sign hip]
  dsimp only
  rw [span_digits hip.2 h2]
  dsimp only
  rw [h3]
  dsimp only
  rw [if_neg (fun h => hip.1 h.1), span_exponent he hr]
  dsimp only
  rw [Prod.mk.injEq]
  refine ⟨?_, ?_⟩
  · cases neg
    · simp
    · simp
  · simp only [List.length_append]
    omega

theorem collect_numeral {t : List Char} {q : ℝ} (h : Numeral t q) : collect t = t := by
  obtain ⟨neg, ip, ft, fp, et, e, rfl, hip, hf, he, rfl⟩ := h
  have h1 := exponent_head he stops_nil
  have h2 : ∀ c, (ft ++ (et ++ [])).head? = some c → c.isDigit = false := by
    intro c hc
    rcases hf with ⟨rfl, _⟩ | ⟨rfl, _⟩
    · exact (h1 c hc).1
    · simp at hc; subst hc; rfl
  obtain ⟨h3, h4, h5⟩ := span_fraction hf h1
  unfold collect
  rw [show (if neg then ['-'] else []) ++ ip ++ ft ++ et = (if neg then ['-'] else []) ++ (ip ++ (ft ++ (et ++ []))) by simp,
    span_sign hip]
  dsimp only
  rw [span_digits hip.2 h2]
  dsimp only
  rw [h3]
  dsimp only
  rw [List.append_nil]
  have h6 : (match et with
    | c :: s => if (c = 'e' ∨ c = 'E') ∧ ¬ (ip = [] ∧ fp = []) then
        c :: (spanSign s).1 ++ (spanDigits (spanSign s).2).1
      else []
    | [] => []) = et := by
    rcases he with ⟨rfl, _⟩ | ⟨x, ds, hx, hd, h⟩
    · rfl
    · have hno : ∀ c : Char, ([] : List Char).head? = some c → c.isDigit = false := by simp
      have hdd := span_digits hd.2 hno
      rw [List.append_nil] at hdd
      have hip' : ¬ (ip = [] ∧ fp = []) := fun h => hip.1 h.1
      rcases h with ⟨h | h, _⟩ | ⟨h, _⟩ <;> subst h <;> dsimp only <;> rw [if_pos ⟨hx, hip'⟩]
      · have h1 := span_sign (neg := false) (rest := []) hd
        simp only [Bool.false_eq_true, if_false, List.nil_append, List.append_nil] at h1
        rw [h1]; dsimp only; rw [hdd]; rfl
      · rw [show spanSign ('+' :: ds) = (['+'], ds) from rfl]; dsimp only; rw [hdd]; rfl
      · rw [show spanSign ('-' :: ds) = (['-'], ds) from rfl]; dsimp only; rw [hdd]; rfl
  have h7 : ∀ a b c : List Char, a ++ ip ++ ft.take 1 ++ fp ++ b = a ++ (ip ++ (ft ++ b)) := by
    intro a b c
    rw [show a ++ ip ++ ft.take 1 ++ fp ++ b = a ++ (ip ++ ((ft.take 1 ++ fp) ++ b)) by simp, h5]
  rw [h7 _ _ []]
  congr 3

theorem strtod_numeral (F : Fmt) {t : List Char} {q : ℝ} (h : Numeral t q) {rest : List Char} (hr : Stops rest) :
    strtod F (t ++ rest) = (F.rnd q, t.length) := by
  unfold strtod
  rw [scan_numeral h hr]

theorem numeral_length {t : List Char} {q : ℝ} (h : Numeral t q) : t.length ≠ 0 := by
  obtain ⟨neg, ip, ft, fp, et, e, rfl, hip, hf, he, rfl⟩ := h
  have := List.length_pos_of_ne_nil hip.1
  simp only [List.length_append]
  omega

theorem fromStr_numeral (F : Fmt) {t : List Char} {q : ℝ} (h : Numeral t q) :
    fromStr F t = match F.rnd q with
      | .inf neg => .fin (if neg then -F.top else F.top)
      | x => x := by
  have h1 := strtod_numeral F h stops_nil
  rw [List.append_nil] at h1
  unfold fromStr
  dsimp only
  rw [collect_numeral h, h1]
  dsimp only
  rw [if_neg (by rintro (h2 | h2); exacts [numeral_length h h2, h2 rfl])]
  cases F.rnd q <;> rfl

end Verif.RealText
