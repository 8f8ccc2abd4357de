import Verif.Log.Model

/-!
# Specification of the log used by several threads
-/

namespace Verif.Log.Spec

/-- `h` takes operations from the front of the given lists, in any order; `rest` is what is left of
the lists. The operations of each list stay in their order. -/
inductive Merge {α : Type} : List (List α) → List α → List (List α) → Prop
  | nil (ls) : Merge ls [] ls
  | cons {ls h rest} (i : Nat) (x : α) (xs : List α) : ls[i]? = some (x :: xs) →
      Merge (ls.set i xs) h rest → Merge ls (x :: h) rest

/-- `h` is an interleaving of the given lists: it consists of all their operations, those of each list
in their order. -/
def Interleaving {α : Type} (ls : List (List α)) (h : List α) : Prop :=
  ∃ rest, Merge ls h rest ∧ ∀ l ∈ rest, l = []

end Verif.Log.Spec
