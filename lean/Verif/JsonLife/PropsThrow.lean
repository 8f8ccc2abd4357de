import Verif.JsonLife.Theorems

/-! # C21: converters that throw -/

namespace Verif.JsonLife

open Verif Json

variable {R : Type}

/-- **C21 (converters that throw).** After any allowed assignments, the converter of the next one throws. If the value was null, a
number or a boolean, the next plain assignment works as ever, with every payload destroyed exactly once, and so does the
destructor. -/
theorem C21_throw_scalar (xs : List (Src R)) (h : AllAllowed .nll xs) (ho : ¬ Owning (final .nll xs)) (w : Val R) :
    ∃ s s1 s2 s3, run St.init xs = .ok s ∧ assignThrow s = .ok s1 ∧ assign s1 (.direct w) = .ok s2 ∧ Holds w s2 ∧
      destroy s1 = .ok s3 ∧ s3.live = none ∧ s3.destroyed = List.range s3.next := by
  obtain ⟨s, _, e, hh, _⟩ := C21_assignments_partial xs h
  obtain ⟨s1, e1, ht, hl, hd⟩ := deinitCurrent_holds hh
  have e2 : deinitCurrent s1 = .ok s1 := by
    have htag : s1.tag = kindOf (final .nll xs) := ht.trans hh.1
    generalize final .nll xs = v at *
    unfold deinitCurrent
    rw [htag]
    cases v <;> simp [kindOf, deinit, hl, Owning] at ho ⊢
  exact ⟨s, s1, setter w s1, s1, e, e1, by simp [assign, e2], setter_holds w hl hd, e2, hl, hd⟩

/-- **C21 fails** if the value held a string, an array or an object when the converter threw: there is no way on, every assignment and
the destructor itself are undefined behaviour. -/
theorem C21_throw_owning (xs : List (Src R)) (h : AllAllowed .nll xs) (ho : Owning (final .nll xs)) :
    ∃ s s1, run St.init xs = .ok s ∧ assignThrow s = .ok s1 ∧ destroy s1 = .ub ∧ assignThrow s1 = .ub ∧ ∀ x, assign s1 x = .ub := by
  obtain ⟨s, _, e, hh, _⟩ := C21_assignments_partial xs h
  obtain ⟨s1, e1, ht, hl, hd⟩ := deinitCurrent_holds hh
  have e2 : deinitCurrent s1 = .ub := by
    have htag : s1.tag = kindOf (final .nll xs) := ht.trans hh.1
    generalize final .nll xs = v at *
    unfold deinitCurrent
    rw [htag]
    cases v <;> simp [kindOf, deinit, hl, Owning] at ho ⊢
  refine ⟨s, s1, e, e1, e2, e2, ?_⟩
  intro x
  cases x <;> simp [assign, e2]

example : AllAllowed (.nll : Val Rat) [.direct (.arr [.nll]), .direct (.str ['a'])] ∧
    Owning (final (.nll : Val Rat) [.direct (.arr [.nll]), .direct (.str ['a'])]) := by
  simp [AllAllowed, Allowed, final, after, Owning]
example : AllAllowed (.nll : Val Rat) [.direct (.arr [.nll]), .direct (.bln true)] ∧
    ¬ Owning (final (.nll : Val Rat) [.direct (.arr [.nll]), .direct (.bln true)]) := by
  simp [AllAllowed, Allowed, final, after, Owning]

end Verif.JsonLife
