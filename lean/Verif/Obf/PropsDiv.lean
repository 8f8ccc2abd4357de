import Verif.Obf.Theorems

/-! # Dividing obfuscated values by zero (C30) -/

namespace Verif.Obf

open Verif

/-- **C30.** Dividing an obfuscated value that can be read by zero fails the assertion in checked builds and is undefined in others, as
part of any history: what comes after it does not matter. -/
theorem C30_divide_by_zero (t : IntStr.IntType) (o : Obj) (a : Int) (ha : get t o = .ok a) (buf : List Char) (ops : List (List Char × Op)) :
    run true t o ((buf, .compound .div 0) :: ops) = .assertFail ∧ run false t o ((buf, .compound .div 0) :: ops) = .ub := by
  constructor
  · simp [run, step, compound, divAssert, Outcome.check]
  · simp [run, step, compound, divAssert, ha]

/-- A history that divides by zero. -/
example : runFrom true .int (List.replicate 9 'x') 100 [(List.replicate 9 ' ', .compound .div 0), (List.replicate 9 ' ', .get)] = .assertFail ∧
    runFrom false .int (List.replicate 9 'x') 100 [(List.replicate 9 ' ', .compound .div 0), (List.replicate 9 ' ', .get)] = .ub := by
  constructor <;> decide +kernel

end Verif.Obf
