/-!
# RFC 4648, section 4

"The encoding process represents 24-bit groups of input bits as output strings of 4 encoded characters. […] These 24 bits are then
treated as 4 concatenated 6-bit groups, each of which is translated into a single character in the base 64 alphabet. […]
When fewer than 24 input bits are available in an input group, bits with value zero are added (on the right) to form an
integral number of 6-bit groups." The output is filled with `=` to a multiple of four characters.
-/

namespace Verif.Base64.Rfc

/-- The bits of the message, the most significant bit of each byte first. -/
def bits (s : List (Fin 256)) : List Bool := s.flatMap fun b => [7, 6, 5, 4, 3, 2, 1, 0].map fun i => b.val.testBit i

/-- Number with the given binary digits, most significant first. -/
def number (l : List Bool) : Nat := l.foldl (fun n b => 2 * n + b.toNat) 0

/-- Cut into groups of six bits; the last one is filled with zeros on the right. -/
def groups : List Bool → List (List Bool)
  | [] => []
  | [a] => [[a, false, false, false, false, false]]
  | [a, b] => [[a, b, false, false, false, false]]
  | [a, b, c] => [[a, b, c, false, false, false]]
  | [a, b, c, d] => [[a, b, c, d, false, false]]
  | [a, b, c, d, e] => [[a, b, c, d, e, false]]
  | a :: b :: c :: d :: e :: f :: l => [a, b, c, d, e, f] :: groups l

/-- Table 1: `A`–`Z`, `a`–`z`, `0`–`9`, `+`, `/`. -/
def letter (n : Nat) : Char :=
  if n < 26 then Char.ofNat (65 + n)
  else if n < 52 then Char.ofNat (97 + (n - 26))
  else if n < 62 then Char.ofNat (48 + (n - 52))
  else if n = 62 then '+'
  else '/'

/-- The base 64 encoding of `s`. -/
def encode (s : List (Fin 256)) : List Char :=
  let cs := (groups (bits s)).map fun g => letter (number g)
  cs ++ List.replicate ((4 - cs.length % 4) % 4) '='

/-- The number a character stands for. -/
def value (c : Fin 256) : Option Nat :=
  if 65 ≤ c.val ∧ c.val ≤ 90 then some (c.val - 65)
  else if 97 ≤ c.val ∧ c.val ≤ 122 then some (c.val - 97 + 26)
  else if 48 ≤ c.val ∧ c.val ≤ 57 then some (c.val - 48 + 52)
  else if c.val = 43 then some 62
  else if c.val = 47 then some 63
  else none

/-- Group bits to bytes; an incomplete byte at the end is dropped. -/
def bytes : List Bool → List Nat
  | a :: b :: c :: d :: e :: f :: g :: h :: l => number [a, b, c, d, e, f, g, h] :: bytes l
  | _ => []

/-- The values of the characters up to the first one that is not in the alphabet. -/
def values : List (Fin 256) → List Nat
  | [] => []
  | c :: cs => match value c with
    | some n => n :: values cs
    | none => []

/-- The bytes that a text stands for: six bits for each character, up to the first character that is not in the alphabet. -/
def decode (t : List (Fin 256)) : List Nat :=
  bytes ((values t).flatMap fun n => [5, 4, 3, 2, 1, 0].map fun i => n.testBit i)

end Verif.Base64.Rfc
