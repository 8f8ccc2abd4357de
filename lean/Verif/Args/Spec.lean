import Verif.Basic

/-!
# What calling a function for packs and tuples means

Nothing here refers to the model of the code.
-/

namespace Verif.Args.Spec

variable {α σ : Type}

/-- The pieces of a pack: put together they are the pack, and each has `k` arguments. -/
def Groups (k : Nat) (xs : List α) (gs : List (List α)) : Prop :=
  gs.flatten = xs ∧ ∀ g ∈ gs, g.length = k

/-- One call for each element of a list, in order; a call that does not end normally is
the last one. -/
def inOrder {γ : Type} (f : γ → σ → Outcome σ) : List γ → σ → Outcome σ
  | [], s => .ok s
  | g :: gs, s =>
    match f g s with
    | .ok s' => inOrder f gs s'
    | .throw => .throw
    | .assertFail => .assertFail
    | .ub => .ub
    | .diverge => .diverge

/-- The rows of some tuples: row `i` has the elements number `i`, tuple after tuple, and
there are as many rows as the shortest tuple has elements. -/
structure Rows (tpls : List (List α)) (rows : List (List α)) : Prop where
  enough : ∀ t ∈ tpls, rows.length ≤ t.length
  shortest : ∃ t ∈ tpls, t.length = rows.length
  row : ∀ (i : Nat) (r : List α), rows[i]? = some r → r.map some = tpls.map (fun t => t[i]?)

/-- `m` is the least of the numbers. -/
def IsMin (m : Nat) (xs : List Nat) : Prop := m ∈ xs ∧ ∀ x ∈ xs, m ≤ x

/-- `m` is the greatest of the numbers. -/
def IsMax (m : Nat) (xs : List Nat) : Prop := m ∈ xs ∧ ∀ x ∈ xs, x ≤ m

end Verif.Args.Spec
