import Verif.Clock.Model
import Verif.Ieee.Spec
import Verif.Ticker.Spec

/-! # Frame times and targets -/

namespace Verif.Clock.Spec

open Verif.Ieee Verif.Ieee.Spec

/-- A frame time from 0 to `b`. -/
def UpTo (F : Fmt) (b : ℝ) (ft : FP) : Prop := ∃ f, ft = .fin f ∧ Num F f ∧ 0 ≤ f ∧ f ≤ b

/-- A frame time that is not less than `b` (an infinity and NaN are not). -/
def NotLess (F : Fmt) (b : ℝ) (ft : FP) : Prop := Val F ft ∧ ¬ lt ft (.fin b)

/-- Every frame time of the call satisfies `p`. -/
def Frames (p : FP → Prop) : Ticker.Op FP → Prop
  | .update ft => p ft
  | .updateTo ft _ => p ft
  | _ => True

/-- Every target the call sets satisfies `p`. -/
def Targets (p : FP → Prop) : Ticker.Op FP → Prop
  | .updateTo _ tg => p tg
  | .restartTo tg => p tg
  | _ => True

/-- A rational number as a floating-point value. -/
noncomputable def ofRat (q : ℚ) : FP := .fin (q : ℝ)

/-- The same call with floating-point arguments. -/
noncomputable def ofExact : Ticker.Op ℚ → Ticker.Op FP
  | .update ft => .update (ofRat ft)
  | .updateTo ft tg => .updateTo (ofRat ft) (ofRat tg)
  | .pause => .pause
  | .resume => .resume
  | .stop => .stop
  | .restart => .restart
  | .restartTo tg => .restartTo (ofRat tg)
  | .resetCurrent => .resetCurrent
  | .resetTicks => .resetTicks
  | .resetTotal => .resetTotal
  | .resetAll => .resetAll
  | .setLoop b => .setLoop b

/-- The size of the frame time of a call. -/
def frame : Ticker.Op ℚ → ℚ
  | .update ft => |ft|
  | .updateTo ft _ => |ft|
  | _ => 0

/-- The frame time of a call is a whole number of units of `2 ^ j`. -/
def Whole (j : ℤ) : Ticker.Op ℚ → Prop
  | .update ft => ∃ m : ℤ, ft = m * 2 ^ j
  | .updateTo ft _ => ∃ m : ℤ, ft = m * 2 ^ j
  | _ => True

end Verif.Clock.Spec
