import Verif.EasingInt.Model

/-! # Values of the integer type -/

namespace Verif.EasingInt.Spec

/-- `x` is a value of the type. -/
def Fits (g : Cfg) (x : Int) : Prop := -g.max ≤ x ∧ x < g.max

/-- A type, its bounds and arguments of it: the duration is positive and the change is not the least value (whose negation overflows). -/
structure Args (g : Cfg) (b c d : Int) : Prop where
  type : 8 ≤ g.max
  start : Fits g b
  change : -g.max < c ∧ c < g.max
  duration : 0 < d ∧ d < g.max

/-- The polynomials. -/
def Poly (e : Ease) : Prop := e = .back ∨ e = .cubic ∨ e = .quad ∨ e = .quart ∨ e = .quint

end Verif.EasingInt.Spec
