import Verif.Ieee.Model
import Verif.Ticker.Model
import Verif.Timeline.Model

/-!
# Tickers and timelines with the arithmetic of `float`

`FT` is `float` (`Core/Common/Frametime.hpp:18`). `Verif.Ticker` and `Verif.Timeline` are written for any arithmetic; here it is that of IEEE 754.
-/

namespace Verif.Clock

open Verif.Ieee

noncomputable section

open Classical in
/-- The arithmetic of `Ticker`, Ticker.cpp:16-28: `mFT * running` converts the flag to 0 or 1; `<` is false for NaN. -/
def ticker (F : Fmt) : Ticker.Ops FP where
  zero := .fin 0
  add := Ieee.add F
  times := fun a b => Ieee.mul F a (.fin (if b then 1 else 0))
  lt := fun a b => decide (Ieee.lt a b)

open Classical in
/-- The arithmetic of `Timeline` and `Wait`, Timeline.cpp:53-68, Wait.cpp:14-24: `currentTime > 0` is false for NaN. -/
def timeline (F : Fmt) : Timeline.Ops FP where
  zero := .fin 0
  add := Ieee.add F
  sub := Ieee.sub F
  pos := fun a => decide (Ieee.lt (.fin 0) a)

end

end Verif.Clock
