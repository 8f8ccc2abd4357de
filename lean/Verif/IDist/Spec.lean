import Verif.Num.Spec

/-!
# Specification of integer results that do not fit
-/

namespace Verif.IDist

open Verif.Num

/-- The number of values of a type. -/
def size : ITy → Int
  | .i8 | .u8 => 2 ^ 8
  | .i16 | .u16 => 2 ^ 16
  | .i32 | .u32 => 2 ^ 32
  | .i64 | .u64 => 2 ^ 64

/-- The value `r` of type `t` that is equal to `x` up to a multiple of the number of values of the
type: what is left of `x` in a variable of that type. -/
def Reduced (t : ITy) (x r : Int) : Prop := Between t r ∧ ∃ k : Int, x = r + k * size t

end Verif.IDist
