/-!
# Decimal notation of integers
-/

namespace Verif.IntStr

/-- Decimal digits of a natural number: most significant first, no leading zeros, "0" for zero. -/
def natText (n : Nat) : List Char := Nat.toDigits 10 n

/-- Decimal notation: a minus sign exactly for negative numbers, then the digits of the magnitude. -/
def intText (v : Int) : List Char := if v < 0 then '-' :: natText v.natAbs else natText v.natAbs

/-- Value of a decimal numeral (inverse of the above). -/
def parse : List Char → Int
  | '-' :: ds => -(Nat.ofDigitChars 10 ds 0 : Int)
  | ds => Nat.ofDigitChars 10 ds 0

end Verif.IntStr
