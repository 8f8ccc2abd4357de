import Verif.Str.LemmasReplace
import Verif.Str.LemmasLev

/-! # C31 to C36: string utilities -/

namespace Verif.Str

open Verif Spec

/-! ## C31: splitting -/

/-- The texts a separator argument stands for; a character array has to be a C string (one zero, at the end). -/
inductive Texts : Separator → List Str → Prop
  | char (c : Char) : Texts (.char c) [[c]]
  | array (t : Str) (h : '\x00' ∉ t) : Texts (.array (t ++ ['\x00'])) [t]
  | string (t : Str) : Texts (.string t) [t]
  | strings (l : List Str) : Texts (.strings l) l

theorem array_text {t : Str} (h : '\x00' ∉ t) : (t ++ ['\x00']).takeWhile (· ≠ '\x00') = t := by
  induction t with
  | nil => rfl
  | cons c t ih =>
    have hc : c ≠ '\x00' := by rintro rfl; simp at h
    rw [List.cons_append, List.takeWhile_cons_of_pos (by simpa using hc), ih (fun hm => h (List.mem_cons_of_mem _ hm))]

theorem getSplit_many {m : Mode} (hm : m ≠ .tokenizeSeparator) (s : Str) {sep : Separator} {texts : List Str} (h : Texts sep texts) :
    getSplit m s sep = splitMany m s texts [] 0 := by
  cases h with
  | char c => exact splitImpl_eq_many hm s [c] [] 0
  | array t h =>
    show (if '\x00' ∈ t ++ ['\x00'] then _ else _) = _
    rw [if_pos (show '\x00' ∈ t ++ ['\x00'] by simp), array_text h]
    have : (t ++ ['\x00']).length - 1 = t.length := by simp
    rw [this]
    exact splitImpl_eq_many hm s t [] 0
  | string t => exact splitImpl_eq_many hm s t [] 0
  | strings l => rfl

/-- **C31.** Every text can be cut in exactly one way at given non-empty separators … -/
theorem C31_cuts_exist_uniquely (s : Str) (texts : List Str) (hne : ∀ x ∈ texts, x ≠ []) :
    ∃ cuts last, Cuts texts s cuts last ∧ ∀ cuts' last', Cuts texts s cuts' last' → cuts' = cuts ∧ last' = last := by
  obtain ⟨cuts, last, h, _⟩ := splitMany_cuts (m := .normal) hne s [] 0 (Nat.zero_le _)
  rw [List.drop_zero] at h
  exact ⟨cuts, last, h, fun _ _ h' => cuts_unique h' h⟩

/-- **C31.** … and `getSplit` returns the non-empty pieces of that cut in the normal mode, for all four kinds of separator.
Missing: empty separators (`C31_empty_separator`) and arrays that are not C strings (`C31_array_with_zero`). -/
theorem C31_normal_partial (s : Str) {sep : Separator} {texts : List Str} (h : Texts sep texts) (hne : ∀ x ∈ texts, x ≠ [])
    {cuts : List (Str × Str)} {last : Str} (hc : Cuts texts s cuts last) : getSplit .normal s sep = .ok (pieces cuts last) := by
  rw [getSplit_many (by decide) s h]
  obtain ⟨cuts', last', h1, h2⟩ := splitMany_cuts (m := .normal) hne s [] 0 (Nat.zero_le _)
  rw [List.drop_zero] at h1
  obtain ⟨rfl, rfl⟩ := cuts_unique h1 hc
  simpa [outcome] using h2

/-- **C31.** In the trailing mode each piece keeps the separator that ended it. -/
theorem C31_trailing_partial (s : Str) {sep : Separator} {texts : List Str} (h : Texts sep texts) (hne : ∀ x ∈ texts, x ≠ [])
    {cuts : List (Str × Str)} {last : Str} (hc : Cuts texts s cuts last) : getSplit .trailingSeparator s sep = .ok (trailing cuts last) := by
  rw [getSplit_many (by decide) s h]
  obtain ⟨cuts', last', h1, h2⟩ := splitMany_cuts (m := .trailingSeparator) hne s [] 0 (Nat.zero_le _)
  rw [List.drop_zero] at h1
  obtain ⟨rfl, rfl⟩ := cuts_unique h1 hc
  simpa [outcome] using h2

/-- **C31.** No returned piece is empty or contains a separator, in the normal mode. -/
theorem C31_pieces_free_partial (s : Str) {sep : Separator} {texts : List Str} (h : Texts sep texts) (hne : ∀ x ∈ texts, x ≠ []) :
    ∃ l, getSplit .normal s sep = .ok l ∧ ∀ p ∈ l, p ≠ [] ∧ ∀ x ∈ texts, ¬ x <:+: p := by
  obtain ⟨cuts, last, hc, _⟩ := C31_cuts_exist_uniquely s texts hne
  refine ⟨_, C31_normal_partial s h hne hc, fun p hp => ?_⟩
  obtain ⟨hp1, hp2⟩ := List.mem_filter.1 hp
  refine ⟨by rintro rfl; simp at hp2, fun x hx => ?_⟩
  obtain ⟨h1, h2⟩ := cuts_free hc
  rcases List.mem_append.1 hp1 with h3 | h3
  · obtain ⟨q, hq, rfl⟩ := List.mem_map.1 h3
    exact (h1 q hq).2 x hx (hne x hx)
  · rw [List.mem_singleton.1 h3]; exact h2 x hx (hne x hx)

/-- **C31.** In the trailing mode the pieces, concatenated, are the text. -/
theorem C31_trailing_concat_partial (s : Str) {sep : Separator} {texts : List Str} (h : Texts sep texts) (hne : ∀ x ∈ texts, x ≠ []) :
    ∃ l, getSplit .trailingSeparator s sep = .ok l ∧ l.flatten = s := by
  obtain ⟨cuts, last, hc, _⟩ := C31_cuts_exist_uniquely s texts hne
  refine ⟨_, C31_trailing_partial s h hne hc, ?_⟩
  unfold trailing
  rw [flatten_nonempty, List.flatten_append, ← cuts_join hc]
  simp [List.flatMap]

/-- With an empty separator the loop never ends. -/
theorem C31_empty_separator (s : Str) : getSplit .normal s (.string []) = .diverge ∧ getSplit .trailingSeparator s (.string []) = .diverge := by
  have : ∀ p, find s [] 0 = some p → p = 0 := by
    intro p hp
    by_contra hne
    exact (find_some hp).2.2.2 0 (Nat.le_refl _) (by omega) (List.nil_prefix)
  have hf : find s [] 0 = some 0 := by
    cases hf : find s [] 0 with
    | none => exact absurd (List.nil_infix) (find_zero_none.1 hf)
    | some p => rw [this p hf]
  have key : ∀ m, m ≠ .tokenizeSeparator → splitImpl m s [] 0 [] 0 = .diverge := by
    intro m hm
    unfold splitImpl
    rw [hf]
    simp [substr, hm]
  exact ⟨key _ (by decide), key _ (by decide)⟩

/-- The same for an empty text in a list of separators, in every mode. -/
theorem C31_empty_in_list (m : Mode) (s : Str) (l : List Str) (h : [] ∈ l) : getSplit m s (.strings l) = .diverge := by
  suffices ∀ target st, st ≤ s.length → splitMany m s l target st = .diverge from this [] 0 (Nat.zero_le _)
  intro target st hst
  induction hn : s.length + 1 - st using Nat.strongRecOn generalizing target st with
  | _ n ih =>
    have hb := findFirstOf_spec hst l
    unfold splitMany
    cases hf : findFirstOf s st l none with
    | none =>
      rw [hf] at hb
      exact absurd ⟨[], h, List.nil_prefix⟩ (hb st (Nat.le_refl _) hst)
    | some p =>
      obtain ⟨pos, len⟩ := p
      rw [hf] at hb
      obtain ⟨h1, h2, ⟨sep, h3, rfl⟩, h5⟩ := hb
      have hpos : pos = st := by
        by_contra hne
        exact h5 st (Nat.le_refl _) (by omega) ⟨[], h, List.nil_prefix⟩
      subst hpos
      have hpre : sep <+: s.drop pos := by obtain ⟨l, r, _, h, _⟩ := h3; exact h
      have hle := hpre.length_le
      simp only [List.length_drop] at hle
      simp only [substr_ok hst, Outcome.bind_ok, Outcome.pure_eq]
      have key : ∀ target', (if h : pos < pos + sep.length ∧ pos ≤ s.length then splitMany m s l target' (pos + sep.length) else .diverge)
          = .diverge := by
        intro target'
        split
        · rename_i hlt
          exact ih _ (by omega) target' (pos + sep.length) (by omega) rfl
        · rfl
      by_cases hm : m = .tokenizeSeparator
      · simp only [hm, if_true]
        subst hm
        exact key _
      · simp only [hm, if_false]
        exact key _

/-! Concrete cases. -/

example : getSplit .normal ",,a,b,,".toList (.char ',') = .ok ["a".toList, "b".toList] := by decide +kernel
example : getSplit .trailingSeparator "xxxax".toList (.string "xx".toList) = .ok ["xx".toList, "xax".toList] := by decide +kernel
example : Cuts ["xx".toList] "xxxax".toList [([], "xx".toList)] "xax".toList :=
  .cut (piece := []) (sep := "xx".toList) (rest := "xax".toList) (by simp) ⟨[], [], rfl, by decide, by simp⟩
    (.last (by
      intro i hi h
      obtain ⟨sep, hs, hp⟩ := h
      rw [List.mem_singleton.1 hs] at hp
      have : i = 0 ∨ i = 1 ∨ i = 2 ∨ i = 3 := by
        have : i ≤ 3 := by simpa using hi
        omega
      rcases this with rfl | rfl | rfl | rfl <;> revert hp <;> decide))

/-! ## C32: tokenized separators -/

/-- **C32.** For a list of non-empty separators the pieces are those of the cut with the separators between them … -/
theorem C32_list_tokens_partial (s : Str) (l : List Str) (hne : ∀ x ∈ l, x ≠ []) {cuts : List (Str × Str)} {last : Str}
    (hc : Cuts l s cuts last) : getSplit .tokenizeSeparator s (.strings l) = .ok (tokens cuts last) := by
  obtain ⟨cuts', last', h1, h2⟩ := splitMany_cuts (m := .tokenizeSeparator) hne s [] 0 (Nat.zero_le _)
  rw [List.drop_zero] at h1
  obtain ⟨rfl, rfl⟩ := cuts_unique h1 hc
  simpa [outcome, getSplit] using h2

/-- **C32.** … and, concatenated, are the text. Missing: the other kinds of separator, for which it is false
(`C32_single_separator_wrong`). -/
theorem C32_list_concat_partial (s : Str) (l : List Str) (hne : ∀ x ∈ l, x ≠ []) :
    ∃ r, getSplit .tokenizeSeparator s (.strings l) = .ok r ∧ r.flatten = s := by
  obtain ⟨cuts, last, hc, _⟩ := C31_cuts_exist_uniquely s l hne
  refine ⟨_, C32_list_tokens_partial s l hne hc, ?_⟩
  unfold tokens
  rw [List.flatten_append, flatten_nonempty, ← cuts_join hc]
  congr 1
  · induction cuts with
    | nil => rfl
    | cons c cuts ih =>
      have hf := fun l => flatten_nonempty l
      clear hc ih
      induction (c :: cuts) with
      | nil => rfl
      | cons c cuts ih =>
        simp only [List.flatMap_cons, List.flatten_append, hf, ih]
        simp
  · simp

/-- What has been put into the target stays there. -/
theorem splitImpl_extends (m : Mode) (s sep : Str) (n : Nat) (target : List Str) (st : Nat) (r : List Str)
    (h : splitImpl m s sep n target st = .ok r) : target <+: r := by
  have hpush : ∀ (t : List Str) (x : Str), t <+: pushNonempty t x := by
    intro t x; rw [pushNonempty_eq]; exact List.prefix_append ..
  induction hk : s.length + 1 - st using Nat.strongRecOn generalizing target st with
  | _ k ih =>
    unfold splitImpl at h
    cases hf : find s sep st with
    | none =>
      rw [hf] at h
      simp only [finishSplit] at h
      obtain ⟨x, _, h2⟩ := Outcome.bind_eq_ok.1 h
      cases h2
      exact hpush _ _
    | some pos =>
      rw [hf] at h
      simp only at h
      obtain ⟨token, _, h⟩ := Outcome.bind_eq_ok.1 h
      by_cases hm : m = .tokenizeSeparator
      · simp only [hm, if_true] at h
        split at h
        · simp at h
        · obtain ⟨t, ht, h⟩ := Outcome.bind_eq_ok.1 h
          obtain ⟨t', _, ht⟩ := Outcome.bind_eq_ok.1 ht
          cases ht
          split at h
          · rename_i hlt
            exact (hpush target token).trans ((List.prefix_append _ _).trans
              (ih (s.length + 1 - (pos + n)) (by omega) _ (pos + n) (by rw [hm]; exact h) rfl))
          · simp at h
      · simp only [hm, if_false, Outcome.pure_eq, Outcome.bind_ok] at h
        split at h
        · rename_i hlt
          exact (hpush target token).trans (ih (s.length + 1 - (pos + n)) (by omega) _ (pos + n) h rfl)
        · simp at h

/-- For a single separator (string; likewise character, `C32_single_char_wrong`) the property is false for *every* text that
contains it: the function throws, or the pieces do not make up the text. -/
theorem C32_single_separator_wrong (s sep : Str) (hne : sep ≠ []) (h : sep <:+: s) (r : List Str)
    (hr : getSplit .tokenizeSeparator s (.string sep) = .ok r) : r.flatten ≠ s := by
  have hpos := List.length_pos_iff.2 hne
  have hr : splitImpl .tokenizeSeparator s sep sep.length [] 0 = .ok r := hr
  unfold splitImpl at hr
  cases hf : find s sep 0 with
  | none => exact absurd h (find_zero_none.1 hf)
  | some pos =>
    rw [hf] at hr
    obtain ⟨_, h1, h2, h3⟩ := find_some hf
    simp only [substr_ok (Nat.zero_le _), Outcome.bind_ok, if_true] at hr
    split at hr
    · simp at hr
    · rename_i hp0
      have hle : pos + sep.length ≤ s.length := by
        have := h2.length_le
        simp at this
        omega
      rw [substr_ok (show pos - 1 ≤ s.length by omega)] at hr
      simp only [Outcome.bind_ok, Outcome.pure_eq] at hr
      rw [dif_pos ⟨by omega, by omega⟩, pushNonempty_eq] at hr
      obtain ⟨x, hx⟩ := splitImpl_extends _ _ _ _ _ _ _ hr
      intro he
      rw [← hx] at he
      rw [List.flatten_append, List.flatten_append, List.nil_append, flatten_nonempty] at he
      have htok : tokenLength .tokenizeSeparator pos 0 sep.length = pos := by simp [tokenLength]
      rw [htok, List.drop_zero] at he
      simp only [List.flatten_cons, List.flatten_nil, List.append_nil, List.append_assoc] at he
      -- he : s.take pos ++ (tok ++ x.flatten) = s
      have h4 := congrArg (List.drop pos) he
      rw [List.drop_left' (by simp; omega)] at h4
      have h5 : (s.drop (pos - 1)).take sep.length = sep := by
        obtain ⟨y, hy⟩ := h2
        rw [← hy] at h4
        exact (List.append_inj h4 (by simp; omega)).1
      exact h3 (pos - 1) (Nat.zero_le _) (by omega) (by rw [← h5]; exact List.take_prefix ..)

theorem C32_single_char_wrong (s : Str) (c : Char) (h : c ∈ s) (r : List Str)
    (hr : getSplit .tokenizeSeparator s (.char c) = .ok r) : r.flatten ≠ s := by
  refine C32_single_separator_wrong s [c] (by simp) ?_ r hr
  obtain ⟨a, b, rfl⟩ := List.append_of_mem h
  exact ⟨a, b, by simp⟩

/-- A text that starts with the separator makes it throw. -/
theorem C32_leading_separator_throws (s sep : Str) (h : sep <+: s) : getSplit .tokenizeSeparator s (.string sep) = .throw := by
  have hf : find s sep 0 = some 0 := find_eq (Nat.le_refl _) (Nat.zero_le _) (by simpa using h) (by omega)
  show splitImpl .tokenizeSeparator s sep sep.length [] 0 = .throw
  unfold splitImpl
  rw [hf]
  simp [substr]

example : getSplit .tokenizeSeparator "a,b".toList (.char ',') = .ok ["a".toList, "a".toList, "b".toList] := by decide +kernel
example : getSplit .tokenizeSeparator ",ab;c".toList (.strings [",".toList, ";".toList]) =
    .ok [",".toList, "ab".toList, ";".toList, "c".toList] := by decide +kernel

/-! ## C33: trimming -/

section
variable {α : Type}

theorem trimL_spec (p : α → Bool) (l : List α) : ∃ pre, l = pre ++ trimL p l ∧ (∀ x ∈ pre, p x = true) ∧
    ∀ x, (trimL p l).head? = some x → p x = false := by
  obtain ⟨_, h2, h3⟩ := findIfNot_spec p l
  refine ⟨l.take (findIfNot p l), ?_, h2, ?_⟩
  · simp [trimL, eraseRange]
  · simpa [trimL, eraseRange] using h3

theorem trimR_reverse (p : α → Bool) (l : List α) : trimR p l = (trimL p l.reverse).reverse := by
  unfold trimR trimL eraseRange
  simp [List.drop_reverse]

/-- **C33.** Trimming on the left removes a prefix of matching elements and leaves nothing matching in front. -/
theorem C33_left (p : α → Bool) (l : List α) : ∃ pre, l = pre ++ trimL p l ∧ (∀ x ∈ pre, p x = true) ∧
    ∀ x, (trimL p l).head? = some x → p x = false := trimL_spec p l

/-- **C33.** Trimming on the right removes a suffix of matching elements and leaves nothing matching at the end. -/
theorem C33_right (p : α → Bool) (l : List α) : ∃ suf, l = trimR p l ++ suf ∧ (∀ x ∈ suf, p x = true) ∧
    ∀ x, (trimR p l).getLast? = some x → p x = false := by
  obtain ⟨pre, h1, h2, h3⟩ := trimL_spec p l.reverse
  refine ⟨pre.reverse, ?_, by simpa using h2, ?_⟩
  · rw [trimR_reverse, ← List.reverse_append, ← h1, List.reverse_reverse]
  · rw [trimR_reverse, List.getLast?_reverse]; exact h3

/-- **C33.** Trimming on both sides does both. -/
theorem C33_both (p : α → Bool) (l : List α) : ∃ pre suf, l = pre ++ trimLR p l ++ suf ∧ (∀ x ∈ pre, p x = true) ∧
    (∀ x ∈ suf, p x = true) ∧ (∀ x, (trimLR p l).head? = some x → p x = false) ∧
    ∀ x, (trimLR p l).getLast? = some x → p x = false := by
  obtain ⟨pre, h1, h2, h3⟩ := trimL_spec p l
  obtain ⟨suf, h4, h5, h6⟩ := C33_right p (trimL p l)
  refine ⟨pre, suf, ?_, h2, h5, ?_, h6⟩
  · rw [List.append_assoc]
    show l = pre ++ (trimR p (trimL p l) ++ suf)
    rw [← h4, ← h1]
  · intro x hx
    apply h3
    rw [h4]
    cases h : trimR p (trimL p l) with
    | nil => simp [trimLR, h] at hx
    | cons y t => rw [trimLR, h] at hx; exact hx

/-- Such a result is unique: nothing else than the maximal prefix can have been removed. -/
theorem C33_left_unique (p : α → Bool) (l pre r : List α) (h1 : l = pre ++ r) (h2 : ∀ x ∈ pre, p x = true)
    (h3 : ∀ x, r.head? = some x → p x = false) : trimL p l = r := by
  obtain ⟨pre', g1, g2, g3⟩ := trimL_spec p l
  have key : ∀ (a b c d : List α), a ++ b = c ++ d → (∀ x ∈ a, p x = true) → (∀ x ∈ c, p x = true) →
      (∀ x, b.head? = some x → p x = false) → (∀ x, d.head? = some x → p x = false) → b = d := by
    intro a
    induction a with
    | nil =>
      intro b c d he _ hc hb _
      cases c with
      | nil => exact he
      | cons y c =>
        rw [List.nil_append] at he
        have := hb y (by rw [he]; rfl)
        rw [hc y (by simp)] at this
        cases this
    | cons x a ih =>
      intro b c d he ha hc hb hd
      cases c with
      | nil =>
        rw [List.nil_append] at he
        have := hd x (by rw [← he]; rfl)
        rw [ha x (by simp)] at this
        cases this
      | cons y c =>
        simp only [List.cons_append, List.cons.injEq] at he
        exact ih b c d he.2 (fun z hz => ha z (List.mem_cons_of_mem _ hz)) (fun z hz => hc z (List.mem_cons_of_mem _ hz)) hb hd
  exact key pre' (trimL p l) pre r (g1.symm.trans h1) g2 h2 g3 h3

theorem C33_right_unique (p : α → Bool) (l suf r : List α) (h1 : l = r ++ suf) (h2 : ∀ x ∈ suf, p x = true)
    (h3 : ∀ x, r.getLast? = some x → p x = false) : trimR p l = r := by
  rw [trimR_reverse, C33_left_unique p l.reverse suf.reverse r.reverse (by rw [h1]; simp) (by simpa using h2)
    (by simpa using h3), List.reverse_reverse]

/-- **C33.** Trimming twice is trimming once. -/
theorem C33_idempotent (p : α → Bool) (l : List α) : trimL p (trimL p l) = trimL p l ∧ trimR p (trimR p l) = trimR p l ∧
    trimLR p (trimLR p l) = trimLR p l := by
  obtain ⟨_, _, _, h3⟩ := trimL_spec p l
  obtain ⟨_, _, _, g3⟩ := C33_right p l
  obtain ⟨_, _, _, _, _, h, g⟩ := C33_both p l
  refine ⟨C33_left_unique p _ [] _ rfl (by simp) h3, C33_right_unique p _ [] _ (List.append_nil _).symm (by simp) g3, ?_⟩
  show trimR p (trimL p (trimLR p l)) = _
  rw [C33_left_unique p (trimLR p l) [] _ rfl (by simp) h]
  exact C33_right_unique p _ [] _ (List.append_nil _).symm (by simp) g

end

/-- **C33.** The string functions trim the given character. -/
theorem C33_strings (s : Str) (c : Char) : (∃ n, s = List.replicate n c ++ trimStrL s c ∧ (trimStrL s c).head? ≠ some c) ∧
    (∃ n, s = trimStrR s c ++ List.replicate n c ∧ (trimStrR s c).getLast? ≠ some c) ∧
    ∃ n k, s = List.replicate n c ++ trimStrLR s c ++ List.replicate k c ∧ (trimStrLR s c).head? ≠ some c ∧
      (trimStrLR s c).getLast? ≠ some c := by
  have rep : ∀ l : Str, (∀ x ∈ l, (x == c) = true) → l = List.replicate l.length c := by
    intro l h
    exact List.eq_replicate_iff.2 ⟨rfl, fun x hx => by simpa using h x hx⟩
  have ne : ∀ o : Option Char, (∀ x, o = some x → (x == c) = false) → o ≠ some c := by
    intro o h ho
    have := h c ho
    simp at this
  refine ⟨?_, ?_, ?_⟩
  · obtain ⟨pre, h1, h2, h3⟩ := C33_left (fun d => d == c) s
    exact ⟨pre.length, by rw [← rep pre h2]; exact h1, ne _ h3⟩
  · obtain ⟨suf, h1, h2, h3⟩ := C33_right (fun d => d == c) s
    exact ⟨suf.length, by rw [← rep suf h2]; exact h1, ne _ h3⟩
  · obtain ⟨pre, suf, h1, h2, h3, h4, h5⟩ := C33_both (fun d => d == c) s
    exact ⟨pre.length, suf.length, by rw [← rep pre h2, ← rep suf h3]; exact h1, ne _ h4, ne _ h5⟩

example : trimStrLR "  a b ".toList ' ' = "a b".toList ∧ trimStrR "   ".toList ' ' = [] := by decide

/-! ## C34: replacing -/

/-- **C34.** If no occurrence of `a` can touch an inserted `b`, `getReplacedAll` ends, and the result is the text with `b` in place
of each occurrence of `a` met from left to right (any larger bound on the iterations gives the same). Missing: the other pairs
`a`, `b`; the property is false for many of them, see below. -/
theorem C34_replaceAll_partial (s a b : Str) (ha : a ≠ []) (hab : Apart a b) {cuts : List (Str × Str)} {last : Str}
    (hc : Cuts [a] s cuts last) : ∀ fuel > cuts.length, replaceAllFuel fuel s a b = .ok (joined b cuts last) := by
  intro fuel hf
  refine replaceAll_mono (n := cuts.length + 1) hf ?_
  simpa using replaceAll_apart ha hab hc [] (by simp)

/-- **C34.** In particular if `a` and `b` share no character, and `b` is not empty or `a` is a single character. -/
theorem C34_disjoint_partial (s a b : Str) (ha : a ≠ []) (hd : ∀ c ∈ a, c ∉ b) (hb : b ≠ [] ∨ a.length = 1) :
    ∃ cuts last n, Cuts [a] s cuts last ∧ ∀ fuel > n, replaceAllFuel fuel s a b = .ok (joined b cuts last) := by
  obtain ⟨cuts, last, hc, _⟩ := C31_cuts_exist_uniquely s [a] (by simpa using ha)
  exact ⟨cuts, last, _, hc, C34_replaceAll_partial s a b ha (apart_of_disjoint ha hd hb) hc⟩

/-- **C34.** If the replacement is shorter, the function ends for every text. -/
theorem C34_shorter_terminates_partial (s a b : Str) (h : b.length < a.length) : ∃ r, ∀ fuel > s.length, replaceAllFuel fuel s a b = .ok r := by
  obtain ⟨r, hr⟩ := replaceAll_shrinks h (s.length + 1) s (by omega)
  exact ⟨r, fun fuel hf => replaceAll_mono hf hr⟩

/-- **C34.** Whenever it ends, no occurrence is left. -/
theorem C34_none_left (fuel : Nat) (s a b r : Str) (h : replaceAllFuel fuel s a b = .ok r) : ¬ a <:+: r := replaceAll_free h

/-- The property is false: if the replacement contains what it replaces (in particular for an empty `a`) the loop never ends, for
every text that contains `a`. -/
theorem C34_never_ends (s a b : Str) (hs : a <:+: s) (hb : a <:+: b) : ∀ fuel, replaceAllFuel fuel s a b = .diverge :=
  fun fuel => replaceAll_diverges fuel hs hb

/-- The property is false: text formed by a replacement and its surroundings is replaced again. -/
theorem C34_replaces_again : replaceAllFuel 9 "aabb".toList "ab".toList [] = .ok [] ∧
    replaceAllFuel 9 "aab".toList "ab".toList "b".toList = .ok "b".toList := by
  constructor <;> decide +kernel

example : replaceAllFuel 9 "a.b..c".toList ".".toList ", ".toList = .ok "a, b, , c".toList := by decide +kernel
example : Apart ".".toList ", ".toList := apart_of_disjoint (by simp) (by simp) (.inl (by simp))

/-- **C66.** `getReplaced` replaces the first occurrence, and nothing if there is none. -/
theorem C66_replace_first (s a b : Str) : (¬ a <:+: s → replace s a b = .ok s) ∧
    ∀ l r, s = l ++ a ++ r → (∀ i < l.length, ¬ a <+: s.drop i) → replace s a b = .ok (l ++ b ++ r) := by
  constructor
  · intro h
    simp [replace, find_zero_none.2 h]
  · intro l r hs hl
    have hf : find s a 0 = some l.length := by
      refine find_eq (Nat.zero_le _) (by rw [hs]; simp) ?_ (fun j _ hj => hl j hj)
      rw [hs, List.append_assoc, List.drop_left]; exact List.prefix_append ..
    simp only [replace, hf]
    rw [replaceAt_ok (by rw [hs]; simp), hs]
    congr 1
    rw [← List.drop_drop, List.append_assoc l a r, List.take_left, List.drop_left, List.drop_left]

/-- Every text that contains `a` is of this form. -/
theorem C66_first_exists (s a : Str) (h : a <:+: s) : ∃ l r, s = l ++ a ++ r ∧ ∀ i < l.length, ¬ a <+: s.drop i := by
  cases hf : find s a 0 with
  | none => exact absurd h (find_zero_none.1 hf)
  | some p =>
    obtain ⟨_, h1, ⟨r, hr⟩, h3⟩ := find_some hf
    refine ⟨s.take p, r, ?_, fun i hi => h3 i (Nat.zero_le _) (by simp at hi; omega)⟩
    rw [List.append_assoc, hr, List.take_append_drop]

example : replace "abcabc".toList "bc".toList "x".toList = .ok "axabc".toList := by decide +kernel

/-! ## C35: prefixes and suffixes -/

/-- **C35.** `beginsWith` decides prefixes, `endsWith` suffixes; neither throws. -/
theorem C35_prefix_suffix (s n : Str) : beginsWith s n = .ok (decide (n <+: s)) ∧ endsWith s n = .ok (decide (n <:+ s)) := by
  constructor
  · unfold beginsWith
    split
    · rename_i h
      simp only [compareAt, substr_ok (Nat.zero_le _), Outcome.bind_ok, Outcome.pure_eq, List.drop_zero]
      congr 1
      rw [Bool.eq_iff_iff]
      simp only [beq_iff_eq, compareStr_zero, decide_eq_true_eq]
      rw [List.prefix_iff_eq_take]
      exact eq_comm
    · rename_i h
      have : ¬ n <+: s := fun hp => h hp.length_le
      simp [this]
  · unfold endsWith
    split
    · rename_i h
      simp only [compareAt, substr_ok (show s.length - n.length ≤ s.length by omega), Outcome.bind_ok, Outcome.pure_eq]
      congr 1
      rw [Bool.eq_iff_iff]
      simp only [beq_iff_eq, compareStr_zero, decide_eq_true_eq]
      rw [List.suffix_iff_eq_drop, List.take_of_length_le (by simp; omega)]
      exact eq_comm
    · rename_i h
      have : ¬ n <:+ s := fun hp => h hp.length_le
      simp [this]

/-- **C35.** The character versions are the string versions for that one character. -/
theorem C35_chars (s : Str) (c : Char) : beginsWithChar s c = decide ([c] <+: s) ∧ endsWithChar s c = decide ([c] <:+ s) := by
  constructor
  · rw [Bool.eq_iff_iff, decide_eq_true_eq]
    cases s with
    | nil => simp [beginsWithChar]
    | cons d s =>
      rw [List.cons_prefix_cons]
      simp only [beginsWithChar, beq_iff_eq, List.nil_prefix, and_true]
      exact eq_comm
  · rw [Bool.eq_iff_iff, decide_eq_true_eq]
    rcases List.eq_nil_or_concat s with rfl | ⟨t, d, rfl⟩
    · simp [endsWithChar]
    · simp only [endsWithChar, List.concat_eq_append, List.getLast?_append, List.getLast?_singleton, Option.some_or, beq_iff_eq]
      constructor
      · rintro rfl; exact List.suffix_append ..
      · rintro ⟨u, hu⟩
        have := congrArg List.getLast? hu
        simpa [eq_comm] using this

/-- **C35.** `getCharCount` counts occurrences. -/
theorem C35_char_count (s : Str) (c : Char) : getCharCount s c = s.count c ∧ getNewLinesCount s = s.count '\n' := by
  have key : ∀ (s : Str) (c : Char) (n : Nat), s.foldl (fun n d => if d == c then n + 1 else n) n = n + s.count c := by
    intro s c n
    induction s generalizing n with
    | nil => rfl
    | cons d s ih =>
      rw [List.foldl_cons, ih, List.count_cons]
      split <;> omega
  constructor
  · exact (key s c 0).trans (Nat.zero_add _)
  · exact (key s '\n' 0).trans (Nat.zero_add _)

/-! ## C36: Levenshtein distance -/

/-- **C36.** The result is the least number of single-character insertions, deletions and substitutions turning `a` into `b`. -/
theorem C36_least_edits (a b : Str) : ∃ n, getDistLevenshtein a b = .ok n ∧ IsDistance a b n := by
  obtain ⟨n, h1, h2⟩ := getDistLevenshtein_ok a b
  exact ⟨n, h1, isDistance_of_isMin h2⟩

/-- **C36.** It is a metric: zero exactly for equal strings, symmetric, and subject to the triangle inequality. -/
theorem C36_metric (a b c : Str) : ∃ ab ba bc ac, getDistLevenshtein a b = .ok ab ∧ getDistLevenshtein b a = .ok ba ∧
    getDistLevenshtein b c = .ok bc ∧ getDistLevenshtein a c = .ok ac ∧ (ab = 0 ↔ a = b) ∧ ab = ba ∧ ac ≤ ab + bc := by
  obtain ⟨ab, e1, h1, m1⟩ := C36_least_edits a b
  obtain ⟨ba, e2, h2, m2⟩ := C36_least_edits b a
  obtain ⟨bc, e3, h3, m3⟩ := C36_least_edits b c
  obtain ⟨ac, e4, h4, m4⟩ := C36_least_edits a c
  refine ⟨ab, ba, bc, ac, e1, e2, e3, e4, ⟨?_, ?_⟩, ?_, m4 _ (edits_trans h1 h3)⟩
  · rintro rfl; cases h1; rfl
  · rintro rfl; exact Nat.le_zero.1 (m1 0 (.refl _))
  · exact Nat.le_antisymm (m1 _ (edits_symm h2)) (m2 _ (edits_symm h1))

example : getDistLevenshtein "kitten".toList "sitting".toList = .ok 3 := by decide +kernel
example : Edits 1 "cat".toList "cart".toList := .step (.insert "ca".toList "t".toList 'r') (.refl _)

end Verif.Str
