import Verif.Json.LemmasLayout
import Verif.Json.Theorems

/-!
# Layout and errors: C17 and C18 for texts that need not be documents

`C17_layout_does_not_matter_partial` speaks of well-formed documents. Here the text is arbitrary: if reading it without
any whitespace, in a build with assertions, ends by itself (with a value or a read error, not by running off the end),
then every layout of it gives the same value or the same read error, in both build modes.
-/

namespace Verif.Json

open Verif

variable {R : Type} {ops : RealOps R}

/-- Characters that are part of no number. -/
def closing : List Char := [']', '}', '"', ',', ':']

/-- What is assumed of `strtod`: it consumes no more than there is, and what follows a character that is part of no
number does not change its result. -/
structure StrtodStops (ops : RealOps R) : Prop where
  within : ∀ s, (ops.strtod s).2 ≤ s.length
  stops : ∀ u c t, c ∈ closing → ops.strtod (u ++ c :: t) = ops.strtod (u ++ [c])

theorem localNums_of_closing (ho : StrtodStops ops) {k : List Char} (hk : ∃ c, k.getLast? = some c ∧ c ∈ closing)
    (t : List Char) : LocalNums ops t k := by
  intro u hu hne
  refine ⟨?_, ho.within u⟩
  obtain ⟨c, hc, hcl⟩ := hk
  obtain ⟨w, rfl⟩ := hu
  obtain ⟨v, rfl⟩ : ∃ v, u = v ++ [c] := by
    rw [← List.getLast?_eq_some_iff]
    rw [List.getLast?_append] at hc
    cases hu : u.getLast? with
    | none => exact absurd (List.getLast?_eq_none_iff.1 hu) hne
    | some d => rw [hu] at hc; simpa using hc
  rw [List.append_assoc]
  exact ho.stops v c t hcl

/-- **C17 (partial: any text ending in a closing character).** Let `k` be any text, well formed or not, without whitespace
and comments outside string literals, whose last character is part of no number. If reading `k` with assertions gives a
value, every layout of `k` is read as that value, with and without assertions; if it gives a read error, so does every
layout. Missing: texts ending in a number, for which the claim is false (`C17_leading_space_changes_number`), and texts on
which the reader runs off the end, see `C18_left_over_text`. -/
theorem C17_layout_of_any_text_partial (ho : StrtodStops ops) (k s : List Char) (h : Layout k s)
    (hk : ∃ c, k.getLast? = some c ∧ c ∈ closing) (dbg : Bool) :
    (∀ v, read ops true k = .ok v → read ops dbg s = .ok v) ∧ (read ops true k = .throw → read ops dbg s = .throw) := by
  have := read_foll (ops := ops) h (localNums_of_closing ho hk _) dbg
  constructor
  · intro v hv; rw [hv] at this; exact this.2
  · intro hv; rw [hv] at this; exact this

/-- **C18 (partial: layouts of texts on which the reader stops by itself).** Let `s` be a layout of `k`, where `k` is not
empty, ends in a character that is part of no number and has only numbers within `long`. Then either reading `k` fails an
assertion, or reading `s`, with and without assertions, gives a value or a read error and never reads outside the
source. Missing: see `C18_no_out_of_range_access_partial`. -/
theorem C18_layout_safe_partial (ho : StrtodStops ops) (k s : List Char) (h : Layout k s)
    (hk : ∃ c, k.getLast? = some c ∧ c ∈ closing) (hc : NumbersOk ops k) (dbg : Bool) :
    read ops true k = .assertFail ∨ (∃ v, read ops dbg s = .ok v) ∨ read ops dbg s = .throw := by
  have hne : k ≠ [] := by rintro rfl; obtain ⟨c, hc, _⟩ := hk; simp at hc
  obtain ⟨h1, h2⟩ := C17_layout_of_any_text_partial ho k s h hk dbg
  rcases C18_no_out_of_range_access_partial true k hne (purge_layout true h.self) (.inl rfl) hc with ⟨v, hv⟩ | hv | hv
  · exact .inr (.inl ⟨v, h1 v hv⟩)
  · exact .inr (.inr (h2 hv))
  · exact .inl hv.2

/-! ### The example number type meets the assumption -/

theorem closing_facts {c : Char} (h : c ∈ closing) :
    c.isDigit = false ∧ c ≠ '-' ∧ c ≠ '+' ∧ c ≠ '.' ∧ c ≠ 'e' ∧ c ≠ 'E' := by
  simp only [closing, List.mem_cons, List.not_mem_nil, or_false] at h
  rcases h with rfl | rfl | rfl | rfl | rfl <;> decide

theorem takeWhile_stop {c : Char} (h : c.isDigit = false) (u t : List Char) :
    (u ++ c :: t).takeWhile Char.isDigit = u.takeWhile Char.isDigit := by
  induction u with
  | nil => simp [h]
  | cons d u ih => rw [List.cons_append, List.takeWhile_cons, List.takeWhile_cons, ih]

theorem head?_stop (c : Char) (u t : List Char) : (u ++ c :: t).head? = (u ++ [c]).head? := by
  cases u <;> rfl

theorem demoExp_unsigned {a : Char} (h1 : a ≠ '-') (h2 : a ≠ '+') (r : List Char) : demoExp (a :: r) =
    if (a :: r).takeWhile Char.isDigit = [] then none
    else some (((Nat.ofDigitChars 10 ((a :: r).takeWhile Char.isDigit) 0 : Nat) : Int),
      ((a :: r).takeWhile Char.isDigit).length) := by
  unfold demoExp
  have hh : ¬ (a :: r).head? = some '-' := by simpa using h1
  simp only [if_neg hh]
  split
  · rename_i h; simp at h; exact absurd h.1 h1
  · rename_i h; simp at h; exact absurd h.1 h2
  · simp only [List.drop_zero, Nat.zero_add]

theorem demoExp_stop {c : Char} (h : c ∈ closing) (u t : List Char) : demoExp (u ++ c :: t) = demoExp (u ++ [c]) := by
  obtain ⟨hd, hm, hp, _⟩ := closing_facts h
  cases u with
  | nil => rw [List.nil_append, List.nil_append, demoExp_unsigned hm hp, demoExp_unsigned hm hp]; simp [hd]
  | cons a u =>
    by_cases h1 : a = '-'
    · subst h1; simp [demoExp, takeWhile_stop hd]
    · by_cases h2 : a = '+'
      · subst h2; simp [demoExp, takeWhile_stop hd]
      · have e := takeWhile_stop hd (a :: u) t
        have e' := takeWhile_stop hd (a :: u) []
        rw [List.cons_append] at e e' ⊢
        rw [List.cons_append, demoExp_unsigned h1 h2, demoExp_unsigned h1 h2, e, e']

theorem drop_stop {a c : Char} {u : List Char} (h : (u ++ [c]).head? = some a) (ha : c ≠ a) (t : List Char) :
    (u ++ c :: t).drop 1 = u.drop 1 ++ c :: t := by
  cases u with
  | nil => simp at h; exact absurd h ha
  | cons b u => rfl

/-- What `demoStrtod` does after the sign. -/
def demoUnsigned (hd : Option Char) (sg : Nat) (s1 : List Char) : Rat × Nat :=
  let d1 := s1.takeWhile Char.isDigit
  let s2 := s1.drop d1.length
  let d2 := if s2.head? = some '.' then (s2.drop 1).takeWhile Char.isDigit else []
  let n2 := if s2.head? = some '.' then 1 + d2.length else 0
  let s3 := s2.drop n2
  if d1 = [] ∧ d2 = [] then (0, 0)
  else
    let (e, n3) : Int × Nat := if s3.head? = some 'e' ∨ s3.head? = some 'E' then
        (match demoExp (s3.drop 1) with
          | some (e, n) => (e, n + 1)
          | none => (0, 0))
      else (0, 0)
    let m : Nat := Nat.ofDigitChars 10 (d1 ++ d2) 0
    let e' := e - d2.length
    let v : Rat := if e' = 0 then ((round53 m : Nat) : Rat) else (m : Rat) * pow10 e'
    (if hd = some '-' then -v else v, sg + d1.length + n2 + n3)

theorem demoStrtod_eq (s : List Char) : demoStrtod s =
    demoUnsigned s.head? (if s.head? = some '-' then 1 else 0)
      (s.drop (if s.head? = some '-' then 1 else 0)) := rfl

theorem demoUnsigned_stop (o : Option Char) (sg : Nat) {c : Char} (h : c ∈ closing) (u t : List Char) :
    demoUnsigned o sg (u ++ c :: t) = demoUnsigned o sg (u ++ [c]) := by
  obtain ⟨hd, _, _, hdot, he, hE⟩ := closing_facts h
  have htw : ∀ (w t : List Char), (w ++ c :: t).takeWhile Char.isDigit = w.takeWhile Char.isDigit := takeWhile_stop hd
  have hdr : ∀ (w t : List Char), (w ++ c :: t).drop (w.takeWhile Char.isDigit).length
      = w.drop (w.takeWhile Char.isDigit).length ++ c :: t := fun w t =>
    List.drop_append_of_le_length (List.takeWhile_prefix _).length_le
  unfold demoUnsigned
  simp only [htw, hdr]
  generalize hu : u.drop (u.takeWhile Char.isDigit).length = u2
  simp only [head?_stop c u2 t]
  have hexp : ∀ (w : List Char), (if (w ++ c :: t).head? = some 'e' ∨ (w ++ c :: t).head? = some 'E' then
        (match demoExp ((w ++ c :: t).drop 1) with
          | some (e, n) => (e, n + 1)
          | none => ((0, 0) : Int × Nat))
      else (0, 0)) = (if (w ++ [c]).head? = some 'e' ∨ (w ++ [c]).head? = some 'E' then
        (match demoExp ((w ++ [c]).drop 1) with
          | some (e, n) => (e, n + 1)
          | none => (0, 0))
      else (0, 0)) := by
    intro w
    rw [head?_stop c w t]
    by_cases hh : (w ++ [c]).head? = some 'e' ∨ (w ++ [c]).head? = some 'E'
    · have hd1 : ∀ t, (w ++ c :: t).drop 1 = w.drop 1 ++ c :: t := by
        intro t
        rcases hh with hh | hh
        · exact drop_stop hh he t
        · exact drop_stop hh hE t
      rw [if_pos hh, if_pos hh, hd1 t, hd1 [], demoExp_stop h]
    · rw [if_neg hh, if_neg hh]
  by_cases h2 : (u2 ++ [c]).head? = some '.'
  · have hd2 : ∀ t, (u2 ++ c :: t).drop 1 = u2.drop 1 ++ c :: t := drop_stop h2 hdot
    have hd3 : ∀ t, (u2 ++ c :: t).drop (1 + ((u2.drop 1).takeWhile Char.isDigit).length)
        = (u2.drop 1).drop ((u2.drop 1).takeWhile Char.isDigit).length ++ c :: t := by
      intro t
      rw [← List.drop_drop, hd2, hdr]
    simp only [if_pos h2, hd2, htw, hd3, hexp]
  · simp only [if_neg h2, List.drop_zero, hexp]

theorem demoExp_within {r : List Char} {e : Int} {n : Nat} (h : demoExp r = some (e, n)) : n ≤ r.length := by
  cases r with
  | nil => simp [demoExp] at h
  | cons a r =>
    have ht := (List.takeWhile_prefix (l := r) Char.isDigit).length_le
    by_cases h1 : a = '-'
    · subst h1; simp [demoExp] at h; simp; omega
    · by_cases h2 : a = '+'
      · subst h2; simp [demoExp] at h; simp; omega
      · rw [demoExp_unsigned h1 h2] at h
        split at h
        · cases h
        · have ht := (List.takeWhile_prefix (l := a :: r) Char.isDigit).length_le
          injection h with h; injection h with h3 h4; omega

theorem demoUnsigned_within (o : Option Char) (sg : Nat) (s1 : List Char) :
    (demoUnsigned o sg s1).2 ≤ sg + s1.length := by
  unfold demoUnsigned
  simp only []
  have h1 := (List.takeWhile_prefix (l := s1) Char.isDigit).length_le
  have l2 : (s1.drop (s1.takeWhile Char.isDigit).length).length = s1.length - (s1.takeWhile Char.isDigit).length :=
    List.length_drop
  revert l2
  generalize s1.drop (s1.takeWhile Char.isDigit).length = s2
  intro l2
  have h2 : (if s2.head? = some '.' then 1 + (if s2.head? = some '.' then (s2.drop 1).takeWhile Char.isDigit
      else []).length else 0) ≤ s2.length := by
    split
    · have := (List.takeWhile_prefix (l := s2.drop 1) Char.isDigit).length_le
      cases s2 with
      | nil => simp at *
      | cons a s2 => simp at this ⊢; omega
    · omega
  revert h2
  generalize (if s2.head? = some '.' then (s2.drop 1).takeWhile Char.isDigit else []) = d2
  generalize (if s2.head? = some '.' then 1 + d2.length else 0) = n2
  intro h2
  split
  · simp
  · have h3 : (if (s2.drop n2).head? = some 'e' ∨ (s2.drop n2).head? = some 'E' then
        (match demoExp ((s2.drop n2).drop 1) with
          | some (e, n) => (e, n + 1)
          | none => ((0, 0) : Int × Nat))
      else (0, 0)).2 ≤ (s2.drop n2).length := by
      split
      · rename_i hh
        have hp : 1 ≤ (s2.drop n2).length := by
          cases hc : s2.drop n2 with
          | nil => rw [hc] at hh; simp at hh
          | cons _ _ => simp
        split
        · rename_i e n he
          have := demoExp_within he
          rw [List.length_drop] at this
          show n + 1 ≤ _
          omega
        · exact Nat.zero_le _
      · exact Nat.zero_le _
    have l3 : (s2.drop n2).length = s2.length - n2 := List.length_drop
    show _ + _ + n2 + _ ≤ _
    omega

theorem demoStops : StrtodStops demoOps where
  within := by
    intro s
    show (demoStrtod s).2 ≤ s.length
    rw [demoStrtod_eq]
    refine Nat.le_trans (demoUnsigned_within _ _ _) ?_
    cases s with
    | nil => simp
    | cons a s => split <;> simp; omega
  stops := by
    intro u c t h
    show demoStrtod (u ++ c :: t) = demoStrtod (u ++ [c])
    obtain ⟨_, hm, _⟩ := closing_facts h
    rw [demoStrtod_eq, demoStrtod_eq, head?_stop c u t]
    by_cases h1 : (u ++ [c]).head? = some '-'
    · rw [if_pos h1, drop_stop h1 hm, drop_stop h1 hm]
      exact demoUnsigned_stop _ _ h _ _
    · rw [if_neg h1]
      exact demoUnsigned_stop _ _ h _ _

/-- A malformed text and a layout of it meeting the hypotheses: the array is closed by the wrong bracket. -/
theorem demoBroken_layout : Layout "{\"a b\":[1,2}".toList " { \"a b\" :[1, //\"c\n2\t}".toList := by
  have e : "{\"a b\":[1,2}".toList = '{' :: ('"' :: "a b".toList ++ '"' :: ':' :: '[' :: '1' :: ',' :: '2' :: '}' :: [])
      := by decide +kernel
  rw [e]
  refine .ws (by decide) (.chr (by decide) (by decide) (by decide) (.ws (by decide)
    (.lit (body := "a b".toList) (by simp [StrBody]) (.ws (by decide) ?_))))
  iterate 4 refine .chr (by decide) (by decide) (by decide) ?_
  refine .ws (by decide) (.comment "\"c".toList (by decide) (.chr (by decide) (by decide) (by decide)
    (.ws (by decide) (.chr (by decide) (by decide) (by decide) .nil))))

example (dbg : Bool) : read demoOps dbg " { \"a b\" :[1, //\"c\n2\t}".toList = .throw :=
  (C17_layout_of_any_text_partial demoStops _ _ demoBroken_layout ⟨'}', by decide +kernel, by decide⟩ dbg).2
    (by decide +kernel)

example (dbg : Bool) : read demoOps true "{\"a b\":[1,2}".toList = .assertFail ∨
    (∃ v, read demoOps dbg " { \"a b\" :[1, //\"c\n2\t}".toList = .ok v) ∨
    read demoOps dbg " { \"a b\" :[1, //\"c\n2\t}".toList = .throw :=
  C18_layout_safe_partial demoStops _ _ demoBroken_layout ⟨'}', by decide +kernel, by decide⟩
    (numbersOk_of_drops (by decide +kernel)) dbg

/-- The condition cannot be dropped: the compact text fails an assertion (it runs off the end), and a layout of it runs into
undefined behaviour even with assertions. -/
theorem C18_layout_condition_needed : read demoOps true "[[[[[[".toList = .assertFail ∧
    Layout "[[[[[[".toList "      [[[[[[ ".toList ∧ read demoOps true "      [[[[[[ ".toList = .ub := by
  refine ⟨by decide +kernel, ?_, C18_left_over_text⟩
  iterate 6 refine .ws (by decide) ?_
  iterate 6 refine .chr (by decide) (by decide) (by decide) ?_
  exact .ws (by decide) .nil

end Verif.Json
