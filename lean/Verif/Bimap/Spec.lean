import Verif.Bimap.Model
import Verif.Container.Spec

/-! # Specification: a finite bijection, as the list of its pairs in order of insertion -/

namespace Verif.Bimap

variable {A B : Type} [DecidableEq A] [DecidableEq B]

/-- The call respects the documented precondition: `emplace` only for keys not in use on either side,
`erase` only for a key that is there. -/
def Legal (ps : List (A × B)) : Op A B → Prop
  | .emplace a b => (∀ q ∈ ps, q.1 ≠ a) ∧ (∀ q ∈ ps, q.2 ≠ b)
  | .erase1 a => ∃ q ∈ ps, q.1 = a
  | .erase2 b => ∃ q ∈ ps, q.2 = b
  | .clear => True

/-- What the call does to the bijection. -/
def specStep (ps : List (A × B)) : Op A B → List (A × B)
  | .emplace a b => ps ++ [(a, b)]
  | .erase1 a => ps.filter (fun q => q.1 ≠ a)
  | .erase2 b => ps.filter (fun q => q.2 ≠ b)
  | .clear => []

def specRun (ps : List (A × B)) : List (Op A B) → List (A × B)
  | [] => ps
  | o :: os => specRun (specStep ps o) os

/-- Every call of the history respects its precondition. -/
def LegalRun (ps : List (A × B)) : List (Op A B) → Prop
  | [] => True
  | o :: os => Legal ps o ∧ LegalRun (specStep ps o) os

/-- Both columns have no repetition: the pairs are a bijection. -/
def Bijection (ps : List (A × B)) : Prop := (ps.map (·.1)).Nodup ∧ (ps.map (·.2)).Nodup

end Verif.Bimap
