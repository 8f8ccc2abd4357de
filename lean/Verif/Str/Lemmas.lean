import Verif.Str.Model
import Verif.Str.Spec
import Mathlib.Tactic.Linarith
import Mathlib.Data.Char

/-! # Searching, trimming, prefixes -/

namespace Verif.Str

open Verif

theorem matchesHere_iff {s n : Str} : matchesHere s n = true ↔ n <+: s := by
  induction s generalizing n with
  | nil => cases n <;> simp [matchesHere]
  | cons c s ih =>
    cases n with
    | nil => simp [matchesHere]
    | cons d n =>
      simp only [matchesHere, Bool.and_eq_true, beq_iff_eq, ih, List.cons_prefix_cons]
      exact ⟨fun h => ⟨h.1.symm, h.2⟩, fun h => ⟨h.1.symm, h.2⟩⟩

theorem findFrom_some {s n : Str} {i : Nat} (h : findFrom s n = some i) :
    i ≤ s.length ∧ n <+: s.drop i ∧ ∀ j < i, ¬ n <+: s.drop j := by
  induction s generalizing i with
  | nil =>
    simp only [findFrom] at h
    split at h
    · rename_i hm; cases h
      exact ⟨Nat.le_refl _, matchesHere_iff.1 hm, by omega⟩
    · cases h
  | cons c s ih =>
    simp only [findFrom] at h
    split at h
    · rename_i hm; cases h
      exact ⟨by omega, matchesHere_iff.1 hm, by omega⟩
    · rename_i hm
      obtain ⟨k, hk, rfl⟩ := Option.map_eq_some_iff.1 h
      obtain ⟨h1, h2, h3⟩ := ih hk
      refine ⟨by simpa using h1, by simpa using h2, ?_⟩
      intro j hj
      cases j with
      | zero => intro hp; exact hm (matchesHere_iff.2 hp)
      | succ j => simpa using h3 j (by omega)

theorem findFrom_none {s n : Str} (h : findFrom s n = none) : ∀ j ≤ s.length, ¬ n <+: s.drop j := by
  induction s with
  | nil =>
    simp only [findFrom] at h
    split at h
    · cases h
    · rename_i hm
      intro j hj hp
      have : j = 0 := by simpa using hj
      subst this
      exact hm (matchesHere_iff.2 hp)
  | cons c s ih =>
    simp only [findFrom] at h
    split at h
    · cases h
    · rename_i hm
      have h := Option.map_eq_none_iff.1 h
      intro j hj
      cases j with
      | zero => intro hp; exact hm (matchesHere_iff.2 hp)
      | succ j => simpa using ih h j (by simpa using hj)

theorem find_some {s n : Str} {p i : Nat} (h : find s n p = some i) :
    p ≤ i ∧ i ≤ s.length ∧ n <+: s.drop i ∧ ∀ j, p ≤ j → j < i → ¬ n <+: s.drop j := by
  unfold find at h
  split at h
  · rename_i hp
    obtain ⟨k, hk, rfl⟩ := Option.map_eq_some_iff.1 h
    obtain ⟨h1, h2, h3⟩ := findFrom_some hk
    rw [List.drop_drop] at h2
    refine ⟨by omega, by simp at h1; omega, h2, ?_⟩
    intro j hj1 hj2
    have := h3 (j - p) (by omega)
    rw [List.drop_drop, show p + (j - p) = j by omega] at this
    exact this
  · cases h

theorem find_none {s n : Str} {p : Nat} (hp : p ≤ s.length) (h : find s n p = none) :
    ∀ j, p ≤ j → j ≤ s.length → ¬ n <+: s.drop j := by
  unfold find at h
  rw [if_pos hp] at h
  have h := findFrom_none (Option.map_eq_none_iff.1 h)
  intro j hj1 hj2
  have := h (j - p) (by simp; omega)
  rw [List.drop_drop, show p + (j - p) = j by omega] at this
  exact this

theorem find_eq {s n : Str} {p i : Nat} (hp : p ≤ i) (hi : i ≤ s.length) (h : n <+: s.drop i)
    (hb : ∀ j, p ≤ j → j < i → ¬ n <+: s.drop j) : find s n p = some i := by
  cases hf : find s n p with
  | none => exact absurd h (find_none (by omega) hf i hp hi)
  | some k =>
    obtain ⟨h1, h2, h3, h4⟩ := find_some hf
    rcases Nat.lt_trichotomy k i with hlt | rfl | hgt
    · exact absurd h3 (hb k h1 hlt)
    · rfl
    · exact absurd h (h4 i hp hgt)

/-! ## Trimming -/

section
variable {α : Type}

theorem findIfNot_spec (p : α → Bool) (l : List α) : findIfNot p l ≤ l.length ∧
    (∀ x ∈ l.take (findIfNot p l), p x = true) ∧ ∀ x, (l.drop (findIfNot p l)).head? = some x → p x = false := by
  induction l with
  | nil => simp [findIfNot]
  | cons a l ih =>
    cases h : p a with
    | true => simpa [findIfNot, h] using ih
    | false => simp [findIfNot, h]

end

/-! ## Comparing -/

theorem compareStr_zero {s t : Str} : compareStr s t = 0 ↔ s = t := by
  induction s generalizing t with
  | nil => cases t <;> simp [compareStr]
  | cons c s ih =>
    cases t with
    | nil => simp [compareStr]
    | cons d t =>
      simp only [compareStr]
      split
      · rename_i h
        simp only [List.cons.injEq]
        constructor
        · intro h; exact absurd h (by decide)
        · rintro ⟨rfl, -⟩; exact absurd h (lt_irrefl _)
      · split
        · rename_i h
          simp only [List.cons.injEq]
          constructor
          · intro h; exact absurd h (by decide)
          · rintro ⟨rfl, -⟩; exact absurd h (lt_irrefl _)
        · rename_i h1 h2
          have : c = d := le_antisymm (not_lt.1 h2) (not_lt.1 h1)
          subst this
          simp [ih]

end Verif.Str
