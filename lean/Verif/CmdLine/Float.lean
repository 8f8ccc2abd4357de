import Mathlib.Data.Int.Log
import Mathlib.Data.Rat.Floor
import Verif.Str.Model

/-!
# `float` values of command lines

Source: `include/SSVUtils/Core/Common/Casts.hpp:148-151`, `sToFloat`, which is `std::stof`. The conversion is that of glibc (`strtof` in the
"C" locale): white space, a sign, then a decimal or hexadecimal numeral, `inf` or `nan`; what follows is ignored. Values are exact
rational numbers; the sign of a zero and that of a NaN are left out.
-/

namespace Verif.CmdLine

abbrev Str := List Char

/-- A `float`. -/
inductive Flt where
  | fin (q : ℚ)
  | inf (neg : Bool)
  | nan
  deriving Repr, DecidableEq

/-- `std::isspace` in the "C" locale. -/
def isSpace (c : Char) : Bool := c == ' ' || ('\t'.toNat ≤ c.toNat && c.toNat ≤ '\r'.toNat)

/-- The value of a digit. -/
def digitVal (c : Char) : Option Nat := if '0' ≤ c ∧ c ≤ '9' then some (c.toNat - '0'.toNat) else none

namespace FloatText

/-- The value of a hexadecimal digit. -/
def hexVal (c : Char) : Option ℕ :=
  if '0' ≤ c ∧ c ≤ '9' then some (c.toNat - 48)
  else if 'a' ≤ c ∧ c ≤ 'f' then some (c.toNat - 87)
  else if 'A' ≤ c ∧ c ≤ 'F' then some (c.toNat - 55)
  else none

/-- The digits in front of a text, and what is behind them. -/
def span (dig : Char → Option ℕ) : Str → List ℕ × Str
  | [] => ([], [])
  | c :: s =>
    match dig c with
    | none => ([], c :: s)
    | some d => (d :: (span dig s).1, (span dig s).2)

/-- The number with the given digits. -/
def ofDigits (b : ℕ) (ds : List ℕ) : ℕ := ds.foldl (fun n d => n * b + d) 0

/-- An optional sign; true for minus. -/
def sign : Str → Bool × Str
  | '-' :: s => (true, s)
  | '+' :: s => (false, s)
  | s => (false, s)

/-- A point and the digits behind it. -/
def fraction (dig : Char → Option ℕ) : Str → List ℕ × Str
  | '.' :: s => span dig s
  | s => ([], s)

/-- The exponent after the letter `low` or `up`; 0 without a letter or without digits. -/
def exponent (low up : Char) : Str → ℤ
  | [] => 0
  | c :: s =>
    if c = low ∨ c = up then
      let n := ofDigits 10 (span digitVal (sign s).2).1
      if (sign s).1 then -(n : ℤ) else n
    else 0

/-- A numeral to the base `b` whose exponent is to the base `eb`; `none` without digits. -/
def numeral (dig : Char → Option ℕ) (b eb : ℕ) (low up : Char) (s : Str) : Option ℚ :=
  let (ip, s) := span dig s
  let (fp, s) := fraction dig s
  if ip = [] ∧ fp = [] then none
  else some ((ofDigits b (ip ++ fp) : ℚ) / b ^ fp.length * eb ^ exponent low up s)

/-- A number without sign. `0x` without digits is the numeral `0` followed by something else. -/
def magnitude (s : Str) : Option ℚ :=
  match s with
  | '0' :: x :: t =>
    if x = 'x' ∨ x = 'X' then
      match numeral hexVal 16 2 'p' 'P' t with
      | some q => some q
      | none => some 0
    else numeral digitVal 10 10 'e' 'E' s
  | _ => numeral digitVal 10 10 'e' 'E' s

/-- The nearest integer, ties to even. -/
def nearest (q : ℚ) : ℤ :=
  if q - ⌊q⌋ < 1 / 2 then ⌊q⌋
  else if 1 / 2 < q - ⌊q⌋ then ⌊q⌋ + 1
  else if ⌊q⌋ % 2 = 0 then ⌊q⌋ else ⌊q⌋ + 1

/-- The exponent of the last one of the 24 binary digits of the numbers around `q`; at least -149. -/
def lastExp (q : ℚ) : ℤ := max (Int.log 2 |q| - 23) (-149)

/-- Rounding to a `float`, as if there were no largest one. -/
def round (q : ℚ) : ℚ := nearest (q / 2 ^ lastExp q) * 2 ^ lastExp q

/-- `errno == ERANGE` after `strtof`: the number is too large, or smaller than the normal numbers (after rounding to 24 digits) and not
exact. `std::stof` throws `std::out_of_range`. -/
def erange (q : ℚ) : Bool := 2 ^ 128 ≤ |round q| ∨ (round q ≠ q ∧ |q| < 2 ^ (-126 : ℤ) - 2 ^ (-151 : ℤ))

/-- Three letters in lower or upper case. -/
def word (a b c A B C : Char) : Str → Bool
  | x :: y :: z :: _ => (x = a ∨ x = A) ∧ (y = b ∨ y = B) ∧ (z = c ∨ z = C)
  | _ => false

/-- `std::stof(s)`; `none` if it throws. -/
def stof (s : Str) : Option Flt :=
  let (neg, s) := sign (s.dropWhile isSpace)
  if word 'i' 'n' 'f' 'I' 'N' 'F' s then some (.inf neg)
  else if word 'n' 'a' 'n' 'N' 'A' 'N' s then some .nan
  else
    match magnitude s with
    | none => none
    | some q =>
      let q := if neg then -q else q
      if erange q then none else some (.fin (round q))

end FloatText

end Verif.CmdLine
