import Verif.Ieee.Model

/-! # The frametime conversions on IEEE 754 values (`Core/Common/Frametime.hpp`) -/

namespace Verif.Frame.Fp

open Verif.Ieee

noncomputable section

/-- `getFTToSeconds` for `float` or `double`, Frametime.hpp:30-34. -/
def getFTToSeconds (F : Fmt) (ft : FP) : FP := div F false ft (.fin 60)

/-- `getSecondsToFT` for `float` or `double`, Frametime.hpp:37-41. -/
def getSecondsToFT (F : Fmt) (seconds : FP) : FP := mul F seconds (.fin 60)

/-- `getFTToFPS` for `float` or `double`, Frametime.hpp:44-48; `z` is the sign of a frametime that is zero. -/
def getFTToFPS (F : Fmt) (z : Bool) (ft : FP) : FP := div F z (.fin 60) ft

end

end Verif.Frame.Fp
