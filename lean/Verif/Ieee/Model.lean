import Mathlib.Data.Int.Log
import Mathlib.Analysis.Real.Sqrt
import Mathlib.Algebra.Order.Round

/-!
# IEEE 754 binary arithmetic

The arithmetic of `float` and `double` on the platforms the library is built for: IEEE 754 binary formats, rounding to nearest with
ties to even, gradual underflow, infinities and NaN. (`FLT_EVAL_METHOD` is 0: no extended precision, no fused operations.) The sign
of a zero and the payload of a NaN are not modelled.
-/

namespace Verif.Ieee

noncomputable section

/-- A format: `p` binary digits, `2 ^ qmin` is the smallest positive number, `(2 ^ p - 1) * 2 ^ qmax` the largest. -/
structure Fmt where
  p : ℕ
  qmin : ℤ
  qmax : ℤ

/-- `float`. -/
def binary32 : Fmt := ⟨24, -149, 104⟩

/-- `double`. -/
def binary64 : Fmt := ⟨53, -1074, 971⟩

/-- The largest finite number. -/
def Fmt.top (F : Fmt) : ℝ := (2 ^ F.p - 1) * 2 ^ F.qmax

/-- The nearest integer, ties to even. -/
def rne (x : ℝ) : ℤ :=
  if x - ⌊x⌋ < 1 / 2 then ⌊x⌋
  else if 1 / 2 < x - ⌊x⌋ then ⌊x⌋ + 1
  else if Even ⌊x⌋ then ⌊x⌋ else ⌊x⌋ + 1

/-- The exponent of the last digit of the numbers around `x`. -/
def Fmt.ulpExp (F : Fmt) (x : ℝ) : ℤ := max (Int.log 2 |x| + 1 - F.p) F.qmin

/-- Rounding as if there were no largest number. -/
def Fmt.fl (F : Fmt) (x : ℝ) : ℝ := (rne (x / 2 ^ F.ulpExp x) : ℝ) * 2 ^ F.ulpExp x

/-- A floating-point value. -/
inductive FP where
  | fin (x : ℝ)
  | inf (neg : Bool)
  | nan

/-- The result of an operation whose exact value is `x`. -/
def Fmt.rnd (F : Fmt) (x : ℝ) : FP :=
  if |F.fl x| ≤ F.top then .fin (F.fl x) else .inf (decide (x < 0))

/-- `-a`. -/
def neg : FP → FP
  | .fin a => .fin (-a)
  | .inf s => .inf !s
  | .nan => .nan

/-- `std::abs(a)`. -/
def abs : FP → FP
  | .fin a => .fin |a|
  | .inf _ => .inf false
  | .nan => .nan

/-- `a + b`. -/
def add (F : Fmt) : FP → FP → FP
  | .nan, _ => .nan
  | _, .nan => .nan
  | .inf s, .inf t => if s = t then .inf s else .nan
  | .inf s, .fin _ => .inf s
  | .fin _, .inf t => .inf t
  | .fin a, .fin b => F.rnd (a + b)

/-- `a - b`. -/
def sub (F : Fmt) (a b : FP) : FP := add F a (neg b)

/-- `a * b`. -/
def mul (F : Fmt) : FP → FP → FP
  | .nan, _ => .nan
  | _, .nan => .nan
  | .inf s, .inf t => .inf (s != t)
  | .inf s, .fin b => if b = 0 then .nan else .inf (s != decide (b < 0))
  | .fin a, .inf t => if a = 0 then .nan else .inf (t != decide (a < 0))
  | .fin a, .fin b => F.rnd (a * b)

/-- `a / b`. Dividing by a zero gives an infinity whose sign depends on that of the zero, `z`. -/
def div (F : Fmt) (z : Bool) : FP → FP → FP
  | .nan, _ => .nan
  | _, .nan => .nan
  | .inf _, .inf _ => .nan
  | .inf s, .fin b => .inf (if b = 0 then s != z else s != decide (b < 0))
  | .fin _, .inf _ => .fin 0
  | .fin a, .fin b =>
    if b = 0 then (if a = 0 then .nan else .inf (z != decide (a < 0))) else F.rnd (a / b)

/-- `std::fmod(a, b)`: the remainder of the division truncated towards zero, which is always exact. -/
def fmod : FP → FP → FP
  | .nan, _ => .nan
  | _, .nan => .nan
  | .inf _, _ => .nan
  | .fin a, .inf _ => .fin a
  | .fin a, .fin b =>
    if b = 0 then .nan else .fin (a - b * (if 0 ≤ a / b then (⌊a / b⌋ : ℝ) else (⌈a / b⌉ : ℝ)))

/-- `std::sqrt(a)`. -/
def sqrt (F : Fmt) : FP → FP
  | .nan => .nan
  | .inf s => if s then .nan else .inf false
  | .fin a => if a < 0 then .nan else F.rnd (Real.sqrt a)

/-- `a < b`: false if one of them is NaN. -/
def lt : FP → FP → Prop
  | .nan, _ => False
  | _, .nan => False
  | .inf s, .inf t => s = true ∧ t = false
  | .inf s, .fin _ => s = true
  | .fin _, .inf t => t = false
  | .fin a, .fin b => a < b

/-- `std::max(a, b)`: `a < b ? b : a`. -/
def max (a b : FP) : FP :=
  open Classical in if lt a b then b else a

end

end Verif.Ieee
