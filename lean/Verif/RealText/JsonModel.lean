import Verif.RealText.Model
import Verif.Json.Writer

/-! # `double` in the JSON code: the operations of `Verif.Json.RealOps` on IEEE 754 values -/

namespace Verif.RealText

open Verif Ieee

noncomputable section

/-- Truncation. -/
def trunc (x : ℝ) : ℤ := if 0 ≤ x then ⌊x⌋ else ⌈x⌉

open Classical in
/-- `strtod` (Reader.hpp:233), the conversions of `Num` (Reader.hpp:234; Num.hpp:66-103), `==` of two `double`s (Reader.hpp:238,
Num.hpp:140-149) and `toStr` (Writer.hpp:169). `strtod` is that of `Model.lean`, without hexadecimal numerals. -/
def double : Json.RealOps FP where
  strtod := strtod binary64
  toInt
    | .fin x => if -2 ^ 63 ≤ trunc x ∧ trunc x < 2 ^ 63 then some (trunc x) else none
    | _ => none
  toUInt
    | .fin x => if 0 ≤ trunc x ∧ trunc x < 2 ^ 64 then some (trunc x).toNat else none
    | _ => none
  ofInt n := binary64.rnd n
  eq
    | .fin a, .fin b => decide (a = b)
    | .inf s, .inf t => decide (s = t)
    | _, _ => false
  toText := toStr
  isdigitHigh _ := none

end

end Verif.RealText
