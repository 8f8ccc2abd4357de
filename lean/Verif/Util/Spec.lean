import Verif.Basic

/-!
# What searching and erasing mean
-/

namespace Verif.Util.Spec

variable {α : Type}

/-- `i` is the position of the first element with the property `P`. -/
def FirstAt (P : α → Prop) (c : List α) (i : Nat) : Prop :=
  (∃ x, c[i]? = some x ∧ P x) ∧ ∀ (j : Nat) (x : α), j < i → c[j]? = some x → ¬ P x

/-- `r` is `c` without the elements that have the property `P`: the others are kept, in their order and
number. -/
inductive Without (P : α → Prop) : List α → List α → Prop
  | nil : Without P [] []
  | drop {x c r} : P x → Without P c r → Without P (x :: c) r
  | keep {x c r} : ¬ P x → Without P c r → Without P (x :: c) (x :: r)

end Verif.Util.Spec
