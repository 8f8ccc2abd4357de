import Verif.Grow.Model

/-! # What users of a growable array may do and expect -/

namespace Verif.Grow.Spec

/-- A legal history from capacity `cap` to capacity `cap'`: it never shrinks and only elements below the capacity are written. -/
inductive Legal {V : Type} : List (Op V) → Nat → Nat → Prop where
  | nil (cap : Nat) : Legal [] cap cap
  | grow {ops cap n cap'} (h : cap ≤ n) (hn : cap < 2 ^ 32) (t : Legal ops n cap') : Legal (.grow n :: ops) cap cap'
  | write {ops cap cap' i v} (h : i < cap) (t : Legal ops cap cap') : Legal (.write i v :: ops) cap cap'

/-- The values written to element `i`. -/
def writes {V : Type} (i : Nat) (ops : List (Op V)) : List V :=
  ops.filterMap fun o => match o with
    | .write j v => if j = i then some v else none
    | _ => none

/-- The value that element `i` should have: the one written last, or that of a new element. -/
def expected {V : Type} (T : Elem V) (i : Nat) (ops : List (Op V)) : V := ((writes i ops).getLast?).getD T.dflt

end Verif.Grow.Spec
