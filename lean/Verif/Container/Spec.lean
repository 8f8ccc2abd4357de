import Verif.Container.Model

/-! # Specification side: orders, and the finite map a `VecMap` should be -/

namespace Verif.Container

/-- `operator<` is a strict total order (compatible with `==`). -/
structure StrictTotal {K : Type} (lt : K → K → Bool) : Prop where
  irrefl : ∀ a, lt a a = false
  trans : ∀ a b c, lt a b = true → lt b c = true → lt a c = true
  total : ∀ a b, a ≠ b → lt a b = true ∨ lt b a = true

/-- The comparator is a strict weak order: irreflexive, transitive, and "not before" is transitive. -/
structure StrictWeak {T : Type} (cmp : T → T → Bool) : Prop where
  irrefl : ∀ a, cmp a a = false
  trans : ∀ a b c, cmp a b = true → cmp b c = true → cmp a c = true
  incomp : ∀ a b c, cmp a b = false → cmp b c = false → cmp a c = false

/-- A finite map as a function. -/
def specStep {K V : Type} [DecidableEq K] (dflt : V) (f : K → Option V) : Op K V → (K → Option V)
  | .write k v => fun k' => if k' = k then some v else f k'
  | .touch k => fun k' => if k' = k then some ((f k).getD dflt) else f k'
  | .clear => fun _ => none

/-- The map after a history. -/
def specRun {K V : Type} [DecidableEq K] (dflt : V) (f : K → Option V) (os : List (Op K V)) : K → Option V :=
  os.foldl (specStep dflt) f

end Verif.Container
