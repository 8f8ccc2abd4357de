import Verif.Range.Theorems

/-! # Adaptors over reverse iterators (C107) -/

namespace Verif.Range

open Verif

variable {α β : Type}

/-- Counted from the end of the container, a reverse iterator moves like a plain one. -/
theorem move_reverse (c : List α) (op : Op) (p : Nat) (hp : p ≤ c.length) :
    move (reverseIt c) op ⟨c.length - p⟩ =
      if 0 ≤ (p : Int) + dist op ∧ (p : Int) + dist op ≤ c.length then
        .ok (⟨c.length - ((p : Int) + dist op).toNat⟩, ⟨c.length - ((p : Int) + dist op).toNat⟩) else .ub := by
  have hadd : ∀ k : Int, (adapt (reverseIt c) (reverseIt c).deref).add ⟨c.length - p⟩ k =
      if 0 ≤ (p : Int) + k ∧ (p : Int) + k ≤ c.length then .ok ⟨c.length - ((p : Int) + k).toNat⟩ else .ub := by
    intro k
    simp only [adapt, reverseIt, plain]
    by_cases h : 0 ≤ (p : Int) + k ∧ (p : Int) + k ≤ c.length
    · rw [if_pos h, if_pos (by omega)]
      simp only [Outcome.bind_ok, Outcome.pure_eq]
      rw [show (((c.length - p : Nat) : Int) + -k).toNat = c.length - ((p : Int) + k).toNat by omega]
    · rw [if_neg h, if_neg (by omega)]; rfl
  have hinc : (adapt (reverseIt c) (reverseIt c).deref).inc ⟨c.length - p⟩ =
      if 0 ≤ (p : Int) + 1 ∧ (p : Int) + 1 ≤ c.length then .ok ⟨c.length - ((p : Int) + 1).toNat⟩ else .ub := by
    simp only [adapt, reverseIt, plain]
    by_cases h : p < c.length
    · rw [if_pos (by omega), if_pos (by omega)]
      simp only [Outcome.bind_ok, Outcome.pure_eq]
      rw [show c.length - p - 1 = c.length - ((p : Int) + 1).toNat by omega]
    · rw [if_neg (by omega), if_neg (by omega)]; rfl
  have hdec : (adapt (reverseIt c) (reverseIt c).deref).dec ⟨c.length - p⟩ =
      if 0 ≤ (p : Int) + -1 ∧ (p : Int) + -1 ≤ c.length then .ok ⟨c.length - ((p : Int) + -1).toNat⟩ else .ub := by
    simp only [adapt, reverseIt, plain]
    by_cases h : 0 < p
    · rw [if_pos (by omega), if_pos (by omega)]
      simp only [Outcome.bind_ok, Outcome.pure_eq]
      rw [show c.length - p + 1 = c.length - ((p : Int) + -1).toNat by omega]
    · rw [if_neg (by omega), if_neg (by omega)]; rfl
  have fin : ∀ (d : Int) (r : Outcome (Ad Nat)),
      r = (if 0 ≤ (p : Int) + d ∧ (p : Int) + d ≤ c.length then .ok ⟨c.length - ((p : Int) + d).toNat⟩ else .ub) →
      (do let y ← r; return (y, y)) =
        (if 0 ≤ (p : Int) + d ∧ (p : Int) + d ≤ c.length then
          .ok (⟨c.length - ((p : Int) + d).toNat⟩, ⟨c.length - ((p : Int) + d).toNat⟩) else .ub : Outcome (Ad Nat × Ad Nat)) := by
    rintro d r rfl
    by_cases h : 0 ≤ (p : Int) + d ∧ (p : Int) + d ≤ c.length
    · rw [if_pos h, if_pos h]; rfl
    · rw [if_neg h, if_neg h]; rfl
  cases op with
  | inc => exact fin 1 _ hinc
  | postInc => exact fin 1 _ hinc
  | dec => exact fin (-1) _ hdec
  | postDec => exact fin (-1) _ hdec
  | add k => exact fin k _ (hadd k)
  | sub k => exact fin (-k) _ (hadd (-k))

theorem moves_reverse (c : List α) (ops : List Op) (p : Nat) (hp : p ≤ c.length) :
    moves (reverseIt c) ops ⟨c.length - p⟩ = (moves (plain c) ops ⟨p⟩).bind fun x => .ok ⟨c.length - x.itr⟩ := by
  induction ops generalizing p with
  | nil => rfl
  | cons op ops ih =>
    rw [moves, moves, move_reverse c op p hp, move_plain c op p hp]
    by_cases h : 0 ≤ (p : Int) + dist op ∧ (p : Int) + dist op ≤ c.length
    · rw [if_pos h, if_pos h, Outcome.bind_ok, Outcome.bind_ok]
      exact ih _ (by omega)
    · rw [if_neg h, if_neg h]; rfl

/-- **C107 (reverse ranges).** Adaptors over reverse iterators: after any sequence of moves from the `p`-th element counted from the back, the iterator
is at the element the moves lead to, counted from the back, and reads it (at the end, reading is undefined); sequences that leave the container are undefined. -/
theorem C107_reverse_moves (c : List α) (ops : List Op) (p : Nat) (hp : p ≤ c.length) :
    (Inside c.length p ops → ∃ x, moves (reverseIt c) ops ⟨c.length - p⟩ = .ok x ∧
      (∀ v, c.reverse[((p : Int) + total ops).toNat]? = some v → (adapt (reverseIt c) (reverseIt c).deref).deref x = .ok v) ∧
      ((p : Int) + total ops = c.length → (adapt (reverseIt c) (reverseIt c).deref).deref x = .ub)) ∧
    (¬ Inside c.length p ops → moves (reverseIt c) ops ⟨c.length - p⟩ = .ub) := by
  rw [moves_reverse c ops p hp]
  constructor
  · intro h
    rw [C107_moves c ops p hp h]
    refine ⟨_, rfl, fun v hv => ?_, fun he => by rw [he]; simp [adapt, reverseIt]⟩
    generalize ((p : Int) + total ops).toNat = k at hv
    have hk : k < c.length := by simpa using (List.getElem?_eq_some_iff.1 hv).1
    rw [List.getElem?_reverse hk] at hv
    simp only [adapt, reverseIt]
    rw [if_pos (by omega), show c.length - k - 1 = c.length - 1 - k by omega, hv]
    rfl
  · intro h
    rw [C107_moves_outside c ops p hp h]
    rfl

/-- **C107 (reverse ranges).** Comparisons are those of the positions counted from the back. -/
theorem C107_reverse_compare (c : List α) (get : Nat → Outcome β) (p q : Nat) (hp : p ≤ c.length) (hq : q ≤ c.length) :
    ((adapt (reverseIt c) get).eq ⟨c.length - p⟩ ⟨c.length - q⟩ = true ↔ p = q) ∧ ((adapt (reverseIt c) get).ne ⟨c.length - p⟩ ⟨c.length - q⟩ = true ↔ p ≠ q) ∧
    ((adapt (reverseIt c) get).lt ⟨c.length - p⟩ ⟨c.length - q⟩ = true ↔ p < q) ∧ ((adapt (reverseIt c) get).gt ⟨c.length - p⟩ ⟨c.length - q⟩ = true ↔ q < p) ∧
    ((adapt (reverseIt c) get).le ⟨c.length - p⟩ ⟨c.length - q⟩ = true ↔ p ≤ q) ∧ ((adapt (reverseIt c) get).ge ⟨c.length - p⟩ ⟨c.length - q⟩ = true ↔ q ≤ p) := by
  simp only [adapt, reverseIt, beq_iff_eq, bne_iff_ne, decide_eq_true_eq]
  omega

example : moves (reverseIt [10, 20, 30, 40]) [.inc, .add 2, .postDec] ⟨4 - 0⟩ = .ok ⟨4 - 2⟩ ∧
    (adapt (reverseIt [10, 20, 30, 40]) (reverseIt [10, 20, 30, 40]).deref).deref ⟨2⟩ = .ok 20 := by decide

end Verif.Range
