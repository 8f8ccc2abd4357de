

/-!
# What a plain variable of an integer type does

Written with the width and the signedness of the type.
-/

namespace Verif.Obf.Plain

/-- An integer type: its width in bits and whether it has negative values. -/
structure Ty where
  width : Nat
  signed : Bool

def Ty.lo (t : Ty) : Int := if t.signed then -(2 ^ (t.width - 1)) else 0
def Ty.hi (t : Ty) : Int := if t.signed then 2 ^ (t.width - 1) - 1 else 2 ^ t.width - 1

/-- The value of the type that is congruent to `x` modulo `2 ^ width`. -/
def Ty.wrap (t : Ty) (x : Int) : Int := t.lo + (x - t.lo) % 2 ^ t.width

/-- Client operations: read the variable; assign to it; a compound assignment, given by its mathematical result. -/
inductive Op where
  | read
  | assign (v : Int)
  | add (v : Int)
  | sub (v : Int)
  | mul (v : Int)
  | div (v : Int)

/-- The mathematical result of a compound assignment on value `a`; division rounds towards zero. -/
def exact (a : Int) : Op → Option Int
  | .read => some a
  | .assign v => some v
  | .add v => some (a + v)
  | .sub v => some (a - v)
  | .mul v => some (a * v)
  | .div v => if v = 0 then none else some (Int.sign a * Int.sign v * ((a.natAbs / v.natAbs : Nat) : Int))

/-- The new value of the variable, if C++ defines it: types narrower than 32 bits calculate in a signed 32-bit type and wrap on
assignment; for the others a signed result has to be representable and an unsigned one wraps. -/
def next (t : Ty) (a : Int) (op : Op) : Option Int :=
  (exact a op).bind fun x =>
    if t.width < 32 then if -(2 ^ 31) ≤ x ∧ x < 2 ^ 31 then some (t.wrap x) else none
    else if t.signed then if t.lo ≤ x ∧ x ≤ t.hi then some x else none
    else some (t.wrap x)

/-- What the operation returns, given the new value: nothing for an assignment. -/
def returned (x : Int) : Op → Option Int
  | .assign _ => none
  | _ => some x

/-- A history: the returned values, if every operation is defined and every value stored satisfies `storable`. -/
def run (t : Ty) (storable : Int → Bool) : Int → List Op → Option (List (Option Int))
  | _, [] => some []
  | a, op :: ops =>
    (next t a op).bind fun x =>
      if storable x then (run t storable x ops).map (returned x op :: ·) else none

end Verif.Obf.Plain
