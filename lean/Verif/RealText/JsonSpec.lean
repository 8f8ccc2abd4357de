import Verif.RealText.Spec
import Verif.Json.SpecWrite

/-! # As what numbers come back from JSON text -/

namespace Verif.RealText.Spec

open Ieee Ieee.Spec

/-- Integers up to 2^53 come back as signed integers; a `double` below 2^63 in absolute value comes back as the number nearest to the
decimal number with six digits nearest to it, and as a signed integer if that number is one. -/
inductive NumKept : Json.Num FP → Json.Num FP → Prop
  | intS (n : ℤ) (h : n.natAbs ≤ 2 ^ 53) : NumKept (.intS n) (.intS n)
  | intU (n : ℕ) (h : n ≤ 2 ^ 53) : NumKept (.intU n) (.intS n)
  | whole {x d : ℝ} {i : ℤ} (hx : Num binary64 x) (hb : |x| < 2 ^ 63) (hd : NearestSix x d) (hi : binary64.fl d = i) :
      NumKept (.real (.fin x)) (.intS i)
  | real {x d : ℝ} (hx : Num binary64 x) (hb : |x| < 2 ^ 63) (hd : NearestSix x d) (hi : ∀ i : ℤ, binary64.fl d ≠ i) :
      NumKept (.real (.fin x)) (.real (.fin (binary64.fl d)))

end Verif.RealText.Spec
