import Verif.Str.Alias
import Verif.Str.Theorems

/-! # C34 and C66 when an argument is the text itself -/

namespace Verif.Str

open Verif Spec

theorem find_self (s : Str) : find s s 0 = some 0 := by
  have h : findFrom s s = some 0 := by
    have hm : ∀ t : Str, matchesHere t t = true := by
      intro t
      induction t with
      | nil => rfl
      | cons c t ih => simp [matchesHere, ih]
    cases s with
    | nil => rfl
    | cons c s => rw [findFrom, if_pos (hm _)]
  simp [find, h]

/-- **C34.** With other objects as arguments the references make no difference. -/
theorem C34_other_objects (fuel : Nat) (s a b : Str) : replaceAllRef fuel s (.other a) (.other b) = replaceAllFuel fuel s a b := by
  induction fuel generalizing s with
  | zero => rfl
  | succ n ih =>
    simp only [replaceAllRef, replaceAllFuel, Arg.read, ih]
    rfl

/-- The property is false: `replaceAll(s, s, t)` never returns, whatever `s` and `t` (or `t` is `s` too). -/
theorem C34_self_never_ends (fuel : Nat) (s : Str) (t : Arg) : replaceAllRef fuel s .self t = .diverge := by
  induction fuel generalizing s with
  | zero => rfl
  | succ n ih =>
    simp only [replaceAllRef, Arg.read, find_self]
    rw [replaceAt_ok (Nat.zero_le _)]
    exact ih _

/-- **C34.** `replaceAll(s, a, s)` returns exactly if there is nothing to replace. -/
theorem C34_by_self (s a : Str) : (¬ a <:+: s → ∀ fuel > 0, replaceAllRef fuel s (.other a) .self = .ok s) ∧
    (a <:+: s → ∀ fuel, replaceAllRef fuel s (.other a) .self = .diverge) := by
  constructor
  · intro h fuel hf
    obtain ⟨n, rfl⟩ : ∃ n, fuel = n + 1 := ⟨fuel - 1, by omega⟩
    simp only [replaceAllRef, Arg.read, find_zero_none.2 h]
  · intro h fuel
    induction fuel generalizing s with
    | zero => rfl
    | succ n ih =>
      cases hf : find s a 0 with
      | none => exact absurd h (find_zero_none.1 hf)
      | some p =>
        simp only [replaceAllRef, Arg.read, hf]
        rw [replaceAt_ok (find_some hf).2.1]
        refine ih _ ?_
        obtain ⟨x, y, hxy⟩ := h
        exact ⟨s.take p ++ x, y ++ s.drop (p + a.length), by rw [← hxy]; simp⟩

/-- **C34.** `getReplacedAll` works on a copy: if the text to replace is the text itself the result is the replacement, provided
the text does not occur in it. -/
theorem C34_copy_of_self (s t : Str) (h : ¬ s <:+: t) : ∀ fuel > 1, getReplacedAllRef fuel s .self (.other t) = .ok t := by
  intro fuel hf
  obtain ⟨n, rfl⟩ : ∃ n, fuel = n + 2 := ⟨fuel - 2, by omega⟩
  simp only [getReplacedAllRef, Arg.read, replaceAllRef, find_self]
  rw [replaceAt_ok (Nat.zero_le _)]
  simp [find_zero_none.2 h]

example : ¬ "ab".toList <:+: "ba".toList := by decide +kernel
example : getReplacedAllRef 2 "ab".toList .self (.other "ba".toList) = .ok "ba".toList := by decide +kernel

/-- **C66.** `replace(s, s, t)` makes `s` equal to `t`. -/
theorem C66_replace_self (s t : Str) : replaceRef s .self (.other t) = .ok t := by
  simp only [replaceRef, Arg.read, find_self]
  rw [replaceAt_ok (Nat.zero_le _)]
  simp

/-- **C66.** `replace(s, a, s)` puts a copy of the old text in place of the first occurrence. -/
theorem C66_replace_by_self (s a : Str) : (¬ a <:+: s → replaceRef s (.other a) .self = .ok s) ∧
    ∀ l r, s = l ++ a ++ r → (∀ i < l.length, ¬ a <+: s.drop i) → replaceRef s (.other a) .self = .ok (l ++ s ++ r) :=
  C66_replace_first s a s

example : replaceRef "abcabc".toList (.other "bc".toList) .self = .ok "aabcabcabc".toList := by decide +kernel

end Verif.Str
