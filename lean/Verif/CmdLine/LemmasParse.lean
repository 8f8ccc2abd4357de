import Verif.CmdLine.LemmasFloat
import Verif.CmdLine.Spec
import Verif.Str.Theorems
import Mathlib.Data.List.Forall2
import Mathlib.Tactic.Tauto

/-! # Parsing agrees with `Reads` -/

namespace Verif.CmdLine

open Verif Spec

theorem isSpace_iff (c : Char) : isSpace c = true ↔ White c := by
  unfold isSpace White
  simp only [Bool.or_eq_true, beq_iff_eq, Bool.and_eq_true, decide_eq_true_eq]
  constructor
  · rintro (h | ⟨h1, h2⟩)
    · exact .inl h
    · have e1 : '\t'.toNat = 9 := rfl
      have e2 : '\r'.toNat = 13 := rfl
      rw [e1] at h1; rw [e2] at h2
      have hc : c = Char.ofNat c.toNat := (Char.ofNat_toNat c).symm
      have : c.toNat = 9 ∨ c.toNat = 10 ∨ c.toNat = 11 ∨ c.toNat = 12 ∨ c.toNat = 13 := by omega
      rcases this with h | h | h | h | h <;> rw [h] at hc <;> subst hc <;> decide
  · rintro (h | h | h | h | h | h) <;> subst h <;> decide

theorem digitVal_ofNat (d : Nat) (h : d < 10) : digitVal (Char.ofNat (48 + d)) = some d := by
  have : d = 0 ∨ d = 1 ∨ d = 2 ∨ d = 3 ∨ d = 4 ∨ d = 5 ∨ d = 6 ∨ d = 7 ∨ d = 8 ∨ d = 9 := by omega
  rcases this with h | h | h | h | h | h | h | h | h | h <;> subst h <;> decide

theorem digitVal_some {c : Char} {d : Nat} (h : digitVal c = some d) : d < 10 ∧ c = Char.ofNat (48 + d) := by
  unfold digitVal at h
  split at h
  · rename_i hc
    obtain ⟨h1, h2⟩ := hc
    have h1' : 48 ≤ c.toNat := h1
    have h2' : c.toNat ≤ 57 := h2
    have e0 : '0'.toNat = 48 := rfl
    rw [e0] at h
    simp only [Option.some.injEq] at h
    refine ⟨by omega, ?_⟩
    have : 48 + d = c.toNat := by omega
    rw [this, Char.ofNat_toNat]
  · cases h

theorem digitVal_none {c : Char} : digitVal c = none ↔ ¬ ('0' ≤ c ∧ c ≤ '9') := by
  unfold digitVal; split <;> simp_all

theorem go_digits (s : Str) : ∀ (pre : Str) (acc : Nat), Digits pre acc →
    ∃ ds rest, s = ds ++ rest ∧ Digits (pre ++ ds) (leadingNat.go acc s) ∧ (∀ c, rest.head? = some c → ¬ ('0' ≤ c ∧ c ≤ '9')) := by
  induction s with
  | nil => intro pre acc h; exact ⟨[], [], rfl, by simpa [leadingNat.go] using h, by simp⟩
  | cons c s ih =>
    intro pre acc h
    unfold leadingNat.go
    cases hd : digitVal c with
    | none =>
      refine ⟨[], c :: s, rfl, by simpa using h, ?_⟩
      intro c' hc'
      simp only [List.head?_cons, Option.some.injEq] at hc'
      subst hc'
      exact digitVal_none.1 hd
    | some d =>
      obtain ⟨hlt, rfl⟩ := digitVal_some hd
      obtain ⟨ds, rest, e, h1, h2⟩ := ih (pre ++ [Char.ofNat (48 + d)]) (acc * 10 + d) (by rw [Nat.mul_comm]; exact .snoc h d hlt)
      exact ⟨Char.ofNat (48 + d) :: ds, rest, by simp [e], by simpa using h1, h2⟩

theorem go_of_digits {s : Str} {n : Nat} (h : Digits s n) : ∀ (rest : Str) (hr : ∀ c, rest.head? = some c → ¬ ('0' ≤ c ∧ c ≤ '9')),
    leadingNat (s ++ rest) = some (leadingNat.go n rest) := by
  induction h with
  | one d h =>
    intro rest _
    simp [leadingNat, digitVal_ofNat d h]
  | @snoc s n t d h ih =>
    intro rest hr
    have : leadingNat (s ++ (Char.ofNat (48 + d) :: rest)) = some (leadingNat.go n (Char.ofNat (48 + d) :: rest)) := by
      clear ih hr
      generalize Char.ofNat (48 + d) :: rest = r
      induction t generalizing r with
      | one d h => simp [leadingNat, digitVal_ofNat d h]
      | @snoc s n t d h ih =>
        rw [List.append_assoc, List.singleton_append, ih, leadingNat.go, digitVal_ofNat d h]
        simp only [Nat.mul_comm]
    rw [List.append_assoc, List.singleton_append, this, leadingNat.go, digitVal_ofNat d h]
    simp only [Nat.mul_comm]

theorem go_stop {n : Nat} {rest : Str} (hr : ∀ c, rest.head? = some c → ¬ ('0' ≤ c ∧ c ≤ '9')) : leadingNat.go n rest = n := by
  cases rest with
  | nil => rfl
  | cons c s => rw [leadingNat.go, digitVal_none.2 (hr c rfl)]

theorem leadingNat_iff (s : Str) (n : Nat) : leadingNat s = some n ↔
    ∃ ds rest, s = ds ++ rest ∧ Digits ds n ∧ ∀ c, rest.head? = some c → ¬ ('0' ≤ c ∧ c ≤ '9') := by
  constructor
  · intro h
    cases s with
    | nil => cases h
    | cons c s =>
      rw [leadingNat] at h
      cases hd : digitVal c with
      | none => rw [hd] at h; cases h
      | some d =>
        rw [hd] at h
        obtain ⟨hlt, rfl⟩ := digitVal_some hd
        obtain ⟨ds, rest, e, h1, h2⟩ := go_digits s [Char.ofNat (48 + d)] d (.one d hlt)
        simp only [Option.some.injEq] at h
        rw [h] at h1
        exact ⟨Char.ofNat (48 + d) :: ds, rest, by simp [e], by simpa using h1, h2⟩
  · rintro ⟨ds, rest, rfl, hd, hr⟩
    rw [go_of_digits hd rest hr, go_stop hr]

theorem digits_head {s : Str} {n : Nat} (h : Digits s n) : ∃ c t, s = c :: t ∧ '0' ≤ c ∧ c ≤ '9' := by
  induction h with
  | one d h =>
    refine ⟨_, [], rfl, ?_⟩
    by_contra hc
    have := digitVal_ofNat d h
    rw [digitVal_none.2 hc] at this
    cases this
  | snoc t d h ih =>
    obtain ⟨c, t, rfl, hc⟩ := ih
    exact ⟨c, _, rfl, hc⟩

theorem dropWhile_white (s : Str) : ∃ sp, s = sp ++ s.dropWhile isSpace ∧ ∀ c ∈ sp, White c :=
  ⟨s.takeWhile isSpace, (List.takeWhile_append_dropWhile).symm, fun c hc => (isSpace_iff c).1 (List.all_eq_true.1 List.all_takeWhile c hc)⟩

theorem dropWhile_append {sp s : Str} (h : ∀ c ∈ sp, White c) (hs : ∀ c, s.head? = some c → ¬ White c) :
    (sp ++ s).dropWhile isSpace = s := by
  induction sp with
  | nil =>
    cases s with
    | nil => rfl
    | cons c s =>
      have : isSpace c = false := by
        rw [Bool.eq_false_iff]; intro hc; exact hs c rfl ((isSpace_iff c).1 hc)
      simp [this]
  | cons c sp ih =>
    have : isSpace c = true := (isSpace_iff c).2 (h c (by simp))
    simp only [List.cons_append, List.dropWhile_cons, this, if_true]
    exact ih (fun c hc => h c (by simp [hc]))

theorem digit_not_white {c : Char} (h : '0' ≤ c ∧ c ≤ '9') : ¬ White c := by
  rintro (e | e | e | e | e | e) <;> subst e <;> revert h <;> decide

theorem digit_not_sign {c : Char} (h : '0' ≤ c ∧ c ≤ '9') : c ≠ '-' ∧ c ≠ '+' := by
  constructor <;> rintro rfl <;> revert h <;> decide

theorem stoi_iff (s : Str) (i : Int) : stoi s = some i ↔ Reads .int s (.int i) := by
  constructor
  · intro h
    obtain ⟨sp, e, hsp⟩ := dropWhile_white s
    unfold stoi at h
    generalize s.dropWhile isSpace = t at e h
    subst e
    split at h
    · cases h
    · rename_i j hj
      split at h
      · rename_i hb
        simp only [Option.some.injEq] at h
        subst h
        unfold signedNum at hj
        split at hj
        · rename_i u
          simp only [Option.map_eq_some_iff] at hj
          obtain ⟨n, hn, rfl⟩ := hj
          obtain ⟨ds, rest, rfl, hd, hr⟩ := (leadingNat_iff _ _).1 hn
          have := Reads.neg hsp hd hr (by omega)
          simpa using this
        · rename_i u
          simp only [Option.map_eq_some_iff] at hj
          obtain ⟨n, hn, rfl⟩ := hj
          obtain ⟨ds, rest, rfl, hd, hr⟩ := (leadingNat_iff _ _).1 hn
          have := Reads.pos true hsp hd hr (by omega)
          simpa using this
        · simp only [Option.map_eq_some_iff] at hj
          obtain ⟨n, hn, rfl⟩ := hj
          obtain ⟨ds, rest, rfl, hd, hr⟩ := (leadingNat_iff _ _).1 hn
          have := Reads.pos false hsp hd hr (by omega)
          simpa using this
      · cases h
  · intro h
    generalize hk : Kind.int = k at h
    generalize hv : Val.int i = v at h
    cases h with
    | str => cases hk
    | yes => cases hk
    | no => cases hk
    | float => cases hk
    | inf => cases hk
    | nan => cases hk
    | @pos sp ds rest n plus hs hd hr hn =>
      cases hv
      obtain ⟨c, t, rfl, hc⟩ := digits_head hd
      have hl : leadingNat ((c :: t) ++ rest) = some n := (leadingNat_iff _ _).2 ⟨_, rest, rfl, hd, hr⟩
      cases plus
      · unfold stoi
        simp only [Bool.false_eq_true, if_false, List.append_nil, List.append_assoc]
        rw [dropWhile_append hs (by intro c' h'; simp only [List.cons_append, List.head?_cons, Option.some.injEq] at h'; subst h'; exact digit_not_white hc)]
        have := digit_not_sign hc
        have e : signedNum ((c :: t) ++ rest) = some (n : Int) := by
          unfold signedNum
          split
          · rename_i h; simp only [List.cons_append, List.cons.injEq] at h; exact absurd h.1 this.1
          · rename_i h; simp only [List.cons_append, List.cons.injEq] at h; exact absurd h.1 this.2
          · rw [hl]; rfl
        rw [e]
        simp only [ite_eq_left_iff]
        intro h; exfalso; apply h; omega
      · unfold stoi
        simp only [if_true, List.append_assoc]
        rw [dropWhile_append hs (by intro c' h'; simp only [List.cons_append, List.head?_cons, Option.some.injEq] at h'; subst h'; unfold White; decide)]
        simp only [List.cons_append, List.nil_append] at hl ⊢
        simp only [signedNum, hl, Option.map_some, ite_eq_left_iff]
        intro h; exfalso; apply h; omega
    | @neg sp ds rest n hs hd hr hn =>
      cases hv
      have hl : leadingNat (ds ++ rest) = some n := (leadingNat_iff _ _).2 ⟨_, rest, rfl, hd, hr⟩
      unfold stoi
      simp only [List.append_assoc]
      rw [dropWhile_append hs (by intro c' h'; simp only [List.cons_append, List.head?_cons, Option.some.injEq] at h'; subst h'; unfold White; decide)]
      simp only [List.cons_append, List.nil_append]
      simp only [signedNum, hl, Option.map_some, ite_eq_left_iff]
      intro h; exfalso; apply h; omega

theorem toLower_cases (s : Str) : (Verif.Path.toLower s = .ok (s.map lower) ∧ ∀ c ∈ s, c.toNat < 128) ∨
    (Verif.Path.toLower s = .ub ∧ ∃ c ∈ s, 128 ≤ c.toNat) := by
  induction s with
  | nil => exact .inl ⟨rfl, by simp⟩
  | cons c s ih =>
    by_cases hc : 128 ≤ c.toNat
    · refine .inr ⟨?_, c, by simp, hc⟩
      simp [Verif.Path.toLower, Verif.Path.toLowerChar, hc]
    · have e : Verif.Path.toLowerChar c = .ok (lower c) := by simp [Verif.Path.toLowerChar, hc, lower]
      rcases ih with ⟨h1, h2⟩ | ⟨h1, d, hd, h2⟩
      · left
        refine ⟨by simp [Verif.Path.toLower, e, h1], ?_⟩
        intro d hd
        rcases List.mem_cons.1 hd with rfl | hd
        · omega
        · exact h2 d hd
      · right
        exact ⟨by simp [Verif.Path.toLower, e, h1], d, by simp [hd], h2⟩

theorem lower_big {c : Char} (h : 128 ≤ c.toNat) : lower c = c := by
  unfold lower
  rw [if_neg]
  rintro ⟨_, h2⟩
  have : c.toNat ≤ 90 := h2
  omega

theorem bool_ascii {s : Str} (h : s.map lower ∈ trueValues ++ falseValues) : ∀ c ∈ s, c.toNat < 128 := by
  intro c hc
  by_contra hb
  have hm : lower c ∈ s.map lower := List.mem_map.2 ⟨c, hc, rfl⟩
  rw [lower_big (by omega)] at hm
  generalize s.map lower = t at h hm
  have : ∀ t ∈ trueValues ++ falseValues, ∀ c ∈ t, c.toNat < 128 := by decide
  exact hb (this t h c hm)

theorem lower_eq {c : Char} {n : ℕ} (hn : 97 ≤ n ∧ n ≤ 122) : lower c = Char.ofNat n ↔ c = Char.ofNat n ∨ c = Char.ofNat (n - 32) := by
  have t1 := FloatText.toNat_small (n := n) (by omega)
  have t2 := FloatText.toNat_small (n := n - 32) (by omega)
  unfold lower
  split
  · rename_i h
    have h1 : 65 ≤ c.toNat := h.1
    have h2 : c.toNat ≤ 90 := h.2
    have t3 := FloatText.toNat_small (n := c.toNat + 32) (by omega)
    constructor
    · intro e
      have := congrArg Char.toNat e
      rw [t1, t3] at this
      exact .inr (FloatText.char_eq (by rw [t2]; omega))
    · rintro (rfl | rfl)
      · omega
      · rw [t2, show n - 32 + 32 = n by omega]
  · rename_i h
    constructor
    · exact .inl
    · rintro (e | rfl)
      · exact e
      · exfalso
        refine h ⟨show 65 ≤ (Char.ofNat (n - 32)).toNat from ?_, show (Char.ofNat (n - 32)).toNat ≤ 90 from ?_⟩ <;> rw [t2] <;> omega

theorem word_iff {i j k : ℕ} (hi : 97 ≤ i ∧ i ≤ 122) (hj : 97 ≤ j ∧ j ≤ 122) (hk : 97 ≤ k ∧ k ≤ 122) (t : Str) :
    FloatText.word (Char.ofNat i) (Char.ofNat j) (Char.ofNat k) (Char.ofNat (i - 32)) (Char.ofNat (j - 32)) (Char.ofNat (k - 32)) t = true ↔
      Begins [Char.ofNat i, Char.ofNat j, Char.ofNat k] t := by
  constructor
  · intro h
    unfold FloatText.word at h
    split at h
    · rename_i x y z r
      simp only [decide_eq_true_eq, ← lower_eq hi, ← lower_eq hj, ← lower_eq hk] at h
      exact ⟨[x, y, z], r, rfl, by simp [h]⟩
    · cases h
  · rintro ⟨a, r, rfl, h⟩
    have hl : a.length = 3 := by have := congrArg List.length h; simpa using this
    match a, hl, h with
    | [x, y, z], _, h =>
      simp only [List.map_cons, List.map_nil, List.cons.injEq, and_true] at h
      simp only [List.cons_append, List.nil_append, FloatText.word, decide_eq_true_eq, ← lower_eq hi, ← lower_eq hj, ← lower_eq hk]
      exact h

theorem inf_iff (t : Str) : FloatText.word 'i' 'n' 'f' 'I' 'N' 'F' t = true ↔ Begins ['i', 'n', 'f'] t :=
  word_iff (i := 105) (j := 110) (k := 102) (by omega) (by omega) (by omega) t

theorem nan_iff (t : Str) : FloatText.word 'n' 'a' 'n' 'N' 'A' 'N' t = true ↔ Begins ['n', 'a', 'n'] t :=
  word_iff (i := 110) (j := 97) (k := 110) (by omega) (by omega) (by omega) t

theorem sign_split (u : Str) : ∃ sg, u = sg ++ (FloatText.sign u).2 ∧ Sign (FloatText.sign u).1 sg := by
  unfold FloatText.sign
  split
  · exact ⟨['-'], rfl, by simp [Sign]⟩
  · exact ⟨['+'], rfl, by simp [Sign]⟩
  · exact ⟨[], rfl, by simp [Sign]⟩

/-- What is neither white space nor a sign. -/
def Plain (t : Str) : Prop := ∃ c r, t = c :: r ∧ ¬ White c ∧ c ≠ '-' ∧ c ≠ '+'

theorem strip_sign {sp sg t : Str} {neg : Bool} (hs : ∀ c ∈ sp, White c) (hg : Sign neg sg) (ht : Plain t) :
    FloatText.sign ((sp ++ sg ++ t).dropWhile isSpace) = (neg, t) := by
  obtain ⟨c, r, rfl, h1, h2, h3⟩ := ht
  have e : sg = [] ∧ neg = false ∨ sg = ['+'] ∧ neg = false ∨ sg = ['-'] ∧ neg = true := by
    unfold Sign at hg
    cases neg <;> simp at hg <;> tauto
  rw [List.append_assoc]
  rcases e with ⟨rfl, rfl⟩ | ⟨rfl, rfl⟩ | ⟨rfl, rfl⟩
  · rw [dropWhile_append hs (by intro c' h'; simp only [List.nil_append, List.head?_cons, Option.some.injEq] at h'; subst h'; exact h1)]
    unfold FloatText.sign
    split
    · rename_i h; simp only [List.nil_append, List.cons.injEq] at h; exact absurd h.1 h2
    · rename_i h; simp only [List.nil_append, List.cons.injEq] at h; exact absurd h.1 h3
    · rfl
  · rw [dropWhile_append hs (by intro c' h'; simp only [List.cons_append, List.head?_cons, Option.some.injEq] at h'; subst h'; unfold White; decide)]
    rfl
  · rw [dropWhile_append hs (by intro c' h'; simp only [List.cons_append, List.head?_cons, Option.some.injEq] at h'; subst h'; unfold White; decide)]
    rfl

theorem magnitude_head {t : Str} {q : ℚ} (h : FloatText.magnitude t = some q) : ∃ c r, t = c :: r ∧ (('0' ≤ c ∧ c ≤ '9') ∨ c = '.') := by
  have key : ∀ {t q}, FloatText.numeral digitVal 10 10 'e' 'E' t = some q → ∃ c r, t = c :: r ∧ (('0' ≤ c ∧ c ≤ '9') ∨ c = '.') := by
    intro t q h
    by_contra hc
    have := (FloatText.numeral_none (eb := 10) (low := 'e') (up := 'E') FloatText.dec_iff (by norm_num) (s := t)).2 (by
      rintro ⟨c, d, r, hd, rfl | rfl⟩
      · refine hc ⟨c, r, rfl, .inl ?_⟩
        rw [← FloatText.dec_iff] at hd
        unfold digitVal at hd
        split at hd
        · assumption
        · cases hd
      · exact hc ⟨'.', _, rfl, .inr rfl⟩)
    rw [h] at this
    cases this
  unfold FloatText.magnitude at h
  split at h
  · exact ⟨'0', _, rfl, .inl (by decide)⟩
  · exact key h

theorem word_plain {w t : Str} (h : Begins w t) (hw : ∃ a b, w = a :: b ∧ ¬ White a ∧ a ≠ '-' ∧ a ≠ '+') : Plain t := by
  obtain ⟨a, r, rfl, h⟩ := h
  obtain ⟨x, y, rfl, h1, h2, h3⟩ := hw
  cases a with
  | nil => simp at h
  | cons c a =>
    simp only [List.map_cons, List.cons.injEq] at h
    refine ⟨c, a ++ r, rfl, ?_, ?_, ?_⟩
    · intro hc
      apply h1
      rw [← h.1]
      rcases hc with e | e | e | e | e | e <;> subst e <;> unfold White <;> decide
    · rintro rfl; apply h2; rw [← h.1]; decide
    · rintro rfl; apply h3; rw [← h.1]; decide

theorem head_word {t w : Str} {c : Char} {r : Str} (e : t = c :: r) (h : Begins w t) (hw : w ≠ []) : w.head? = some (lower c) := by
  obtain ⟨a, r', rfl, h⟩ := h
  cases a with
  | nil => exact absurd h.symm hw
  | cons x a =>
    simp only [List.cons_append, List.cons.injEq] at e
    rw [← h, ← e.1]; rfl

theorem stof_numeral {sp sg t : Str} {q : ℚ} {neg : Bool} (hs : ∀ c ∈ sp, White c) (hg : Sign neg sg) (hm : FloatSpec.Magnitude t q) :
    FloatText.stof (sp ++ sg ++ t) =
      if FloatText.erange (if neg then -q else q) then none else some (.fin (FloatText.round (if neg then -q else q))) := by
  have hmag := (FloatText.magnitude_iff _ _).2 hm
  obtain ⟨c, r, e, hc⟩ := magnitude_head hmag
  have hl : lower c = c := by
    rcases hc with hc | rfl
    · unfold lower
      rw [if_neg]
      rintro ⟨h1, _⟩
      have a1 : c.toNat ≤ 57 := hc.2
      have a2 : 65 ≤ c.toNat := h1
      omega
    · decide
  have hp : Plain t := by
    refine ⟨c, r, e, ?_⟩
    rcases hc with hc | rfl
    · exact ⟨digit_not_white hc, digit_not_sign hc⟩
    · unfold White; decide
  have hw : ∀ a : Char, 58 ≤ a.toNat → c ≠ a := by
    rintro a ha rfl
    rcases hc with hc | rfl
    · have : c.toNat ≤ 57 := hc.2
      omega
    · revert ha; decide
  unfold FloatText.stof
  rw [strip_sign hs hg hp]
  simp only [hmag]
  rw [if_neg, if_neg]
  · intro h
    have := head_word e ((nan_iff _).1 h) (by simp)
    rw [hl] at this
    simp only [List.head?_cons, Option.some.injEq] at this
    exact hw 'n' (by decide) this.symm
  · intro h
    have := head_word e ((inf_iff _).1 h) (by simp)
    rw [hl] at this
    simp only [List.head?_cons, Option.some.injEq] at this
    exact hw 'i' (by decide) this.symm

theorem stof_iff (s : Str) (x : Flt) : FloatText.stof s = some x ↔ Reads .float s (.float x) := by
  constructor
  · intro h
    obtain ⟨sp, e, hsp⟩ := dropWhile_white s
    obtain ⟨sg, e', hsg⟩ := sign_split (s.dropWhile isSpace)
    unfold FloatText.stof at h
    generalize s.dropWhile isSpace = u at *
    generalize hp : FloatText.sign u = p at *
    obtain ⟨neg, t⟩ := p
    simp only at h e' hsg
    have es : s = sp ++ sg ++ t := by rw [e, e', List.append_assoc]
    rw [es]
    split at h
    · rename_i hw; cases h; exact .inf hsp hsg ((inf_iff t).1 hw)
    · split at h
      · rename_i hw; cases h; exact .nan hsp hsg ((nan_iff t).1 hw)
      · split at h
        · cases h
        · rename_i q hq
          generalize hq' : (if neg = true then -q else q) = q' at h
          by_cases her : FloatText.erange q' = true
          · rw [if_pos her] at h; cases h
          · rw [if_neg her] at h
            cases h
            subst hq'
            exact .float hsp hsg ((FloatText.magnitude_iff t q).1 hq) ((FloatText.becomes_iff _ _).2 ⟨by simpa using her, rfl⟩)
  · intro h
    generalize hk : Kind.float = k at h
    generalize hv : Val.float x = v at h
    cases h with
    | str => cases hk
    | yes => cases hk
    | no => cases hk
    | pos => cases hk
    | neg => cases hk
    | inf hs hg hm =>
      cases hv
      unfold FloatText.stof
      rw [strip_sign hs hg (word_plain hm ⟨_, _, rfl, by unfold White; decide, by decide, by decide⟩)]
      simp only
      rw [if_pos ((inf_iff _).2 hm)]
    | nan hs hg hm =>
      cases hv
      unfold FloatText.stof
      have hp := word_plain hm ⟨_, _, rfl, by unfold White; decide, by decide, by decide⟩
      rw [strip_sign hs hg hp]
      obtain ⟨c, r, e, -⟩ := hp
      simp only
      rw [if_neg, if_pos ((nan_iff _).2 hm)]
      intro h
      have h1 := head_word e ((inf_iff _).1 h) (by simp)
      have h2 := head_word e hm (by simp)
      rw [← h2] at h1
      simp at h1
    | @float sp sg t q v neg hs hg hm hv' =>
      cases hv
      obtain ⟨h1, rfl⟩ := (FloatText.becomes_iff _ _).1 hv'
      rw [stof_numeral hs hg hm, h1]
      rfl

/-- **Parsing.** -/
theorem parse_iff (k : Kind) (w : Str) (v : Val) : parse k w = .ok v ↔ Reads k w v := by
  cases k with
  | str =>
    simp only [parse]
    constructor
    · rintro ⟨⟩; exact .str w
    · rintro ⟨⟩; rfl
  | int =>
    simp only [parse]
    constructor
    · intro h
      cases hs : stoi w with
      | none => rw [hs] at h; cases h
      | some i => rw [hs] at h; cases h; exact (stoi_iff w i).1 hs
    · intro h
      have : ∃ i, v = .int i := by
        generalize hk : Kind.int = k at h
        cases h <;> first | exact ⟨_, rfl⟩ | cases hk
      obtain ⟨i, rfl⟩ := this
      rw [(stoi_iff w i).2 h]
  | float =>
    simp only [parse]
    constructor
    · intro h
      cases hs : FloatText.stof w with
      | none => rw [hs] at h; cases h
      | some x => rw [hs] at h; cases h; exact (stof_iff w x).1 hs
    · intro h
      have : ∃ x, v = .float x := by
        generalize hk : Kind.float = k at h
        cases h <;> first | exact ⟨_, rfl⟩ | cases hk
      obtain ⟨x, rfl⟩ := this
      rw [(stof_iff w x).2 h]
  | bool =>
    simp only [parse]
    constructor
    · intro h
      rcases toLower_cases w with ⟨e, _⟩ | ⟨e, _⟩
      · rw [e] at h
        simp only at h
        split at h
        · cases h; exact .yes (by assumption)
        · split at h
          · cases h; exact .no (by assumption)
          · cases h
      · rw [e] at h; cases h
    · intro h
      generalize hk : Kind.bool = k at h
      have dj : ∀ t ∈ falseValues, t ∉ trueValues := by decide
      cases h with
      | str => cases hk
      | pos => cases hk
      | neg => cases hk
      | float => cases hk
      | inf => cases hk
      | nan => cases hk
      | yes h =>
        have h' : w.map lower ∈ trueValues := h
        rcases toLower_cases w with ⟨e, _⟩ | ⟨e, c, hc, hb⟩
        · rw [e]; simp [h']
        · exact absurd (bool_ascii (List.mem_append_left _ h') c hc) (by omega)
      | no h =>
        have h' : w.map lower ∈ falseValues := h
        rcases toLower_cases w with ⟨e, _⟩ | ⟨e, c, hc, hb⟩
        · rw [e]; simp [h', dj _ h']
        · exact absurd (bool_ascii (List.mem_append_right _ h') c hc) (by omega)

theorem beginsAsFlag_eq (s : Str) : beginsAsFlag s = .ok (isFlagWord s) := by
  cases s with
  | nil => rfl
  | cons c s =>
    unfold beginsAsFlag
    rw [(Verif.Str.C35_prefix_suffix _ _).1, (Verif.Str.C35_prefix_suffix _ _).1]
    by_cases h : c = '-'
    · subst h; simp [isFlagWord]
    · have e : isFlagWord (c :: s) = false := by
        unfold isFlagWord; split
        · rename_i h'; simp only [List.cons.injEq] at h'; exact absurd h'.1 h
        · rfl
      rw [e]
      simp [List.cons_prefix_cons, Ne.symm h]

end Verif.CmdLine
