import Verif.PcgExt.Model

/-!
# What extended generators inherit

`extended` derives publicly from the base engine (`pcg_random.hpp` 1192-1194) and declares its own `operator()`, `advance` and
`backstep`. No function is virtual: the functions below are those of the base class, and the `advance` that they call is that of the
base class. The difference is a function template whose parameters are references to base engines; extended generators convert to
them.
-/

namespace Verif.PcgExt

open Verif Verif.Pcg

variable {w x : Nat}

/-- `discard(delta)` of the base class — `pcg_random.hpp` 457-460: `engine::advance` (447-450) on `state_`; `data_` is not touched. -/
def discard (c : Cfg w x) (d : BitVec w) (g : Gen w x) : Gen w x := ⟨Pcg.advance c.base g.s d, g.data⟩

/-- `operator-` of base engines — `pcg_random.hpp` 684-699. -/
def minus (dbg : Bool) (fuel : Nat) (c : Cfg w x) (lhs rhs : Gen w x) : Outcome (BitVec w) := Pcg.minus dbg fuel c.base lhs.s rhs.s

/-- `wrapped()` of the base class — `pcg_random.hpp` 462-475. -/
def wrapped (c : Cfg w x) (g : Gen w x) : Bool := Pcg.wrapped c.base g.s

end Verif.PcgExt
