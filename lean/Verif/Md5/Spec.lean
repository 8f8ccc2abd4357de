import Mathlib.Analysis.SpecialFunctions.Trigonometric.Basic

/-!
# RFC 1321, section 3
-/

namespace Verif.Md5.Rfc

/-- A word, and the four-word buffer (A, B, C, D). -/
abbrev Word := BitVec 32

structure Buf where
  A : Word
  B : Word
  C : Word
  D : Word

/-- 3.1 and 3.2: a single "1" bit is appended, then "0" bits until the length is congruent to 448 modulo 512, then the length
in bits as a 64-bit number, low-order bytes first. -/
def pad (m : List (BitVec 8)) : List (BitVec 8) :=
  m ++ [0x80#8] ++ List.replicate ((55 + 64 - m.length % 64) % 64) 0#8 ++
    (List.range 8).map fun k => BitVec.ofNat 8 (8 * m.length / 256 ^ k)

/-- 3.3: word A: 01 23 45 67, B: 89 ab cd ef, C: fe dc ba 98, D: 76 54 32 10, low-order bytes first. -/
def start : Buf := { A := 0x67452301, B := 0xefcdab89, C := 0x98badcfe, D := 0x10325476 }

/-- 3.4: the auxiliary functions, bit by bit. "In each bit position F acts as a conditional: if X then Y else Z." -/
def F (X Y Z : Word) : Word := (X &&& Y) ||| (~~~X &&& Z)
def G (X Y Z : Word) : Word := (X &&& Z) ||| (Y &&& ~~~Z)
def H (X Y Z : Word) : Word := X ^^^ Y ^^^ Z
def I (X Y Z : Word) : Word := Y ^^^ (X ||| ~~~Z)

/-- "Let T[i] denote the i-th element of the table, which is equal to the integer part of 4294967296 times abs(sin(i)), where i is
in radians." -/
noncomputable def T (i : Nat) : Word := BitVec.ofNat 32 ⌊4294967296 * |Real.sin i|⌋₊

/-- The function, word index and rotation of operation `i`, counted from 0: four rounds of 16 operations. -/
def fn (i : Nat) : Word → Word → Word → Word :=
  if i < 16 then F else if i < 32 then G else if i < 48 then H else I

def index (i : Nat) : Nat :=
  if i < 16 then i else if i < 32 then (5 * i + 1) % 16 else if i < 48 then (3 * i + 5) % 16 else (7 * i) % 16

def shift (i : Nat) : Nat :=
  (if i < 16 then [7, 12, 17, 22] else if i < 32 then [5, 9, 14, 20] else if i < 48 then [4, 11, 16, 23]
    else [6, 10, 15, 21])[i % 4]!

/-- "a = b + ((a + F(b,c,d) + X[k] + T[i]) <<< s)", after which the four words change places for the next operation. -/
noncomputable def op (X : Nat → Word) (i : Nat) (v : Buf) : Buf :=
  { A := v.D
    B := v.B + (v.A + fn i v.B v.C v.D + X (index i) + T (i + 1)).rotateLeft (shift i)
    C := v.B
    D := v.C }

/-- Word `j` of a block, low-order byte first. -/
def word (block : List (BitVec 8)) (j : Nat) : Word :=
  BitVec.ofNat 32 (((block.drop (4 * j)).take 4).foldr (fun b n => b.toNat + 256 * n) 0)

/-- 3.4: one block. -/
noncomputable def compress (v : Buf) (block : List (BitVec 8)) : Buf :=
  let w := (List.range 64).foldl (fun w i => op (word block) i w) v
  { A := v.A + w.A, B := v.B + w.B, C := v.C + w.C, D := v.D + w.D }

/-- All whole blocks of a text, in order. -/
noncomputable def blocks (v : Buf) (m : List (BitVec 8)) : Buf :=
  if m.length < 64 then v else blocks (compress v (m.take 64)) (m.drop 64)
termination_by m.length

/-- 3.5: A, B, C, D, each with the low-order byte first. -/
noncomputable def digest (m : List (BitVec 8)) : List (BitVec 8) :=
  let v := blocks start (pad m)
  [v.A, v.B, v.C, v.D].flatMap fun w => (List.range 4).map fun k => BitVec.ofNat 8 (w.toNat / 256 ^ k)

/-- Lower-case hexadecimal. -/
def hex (l : List (BitVec 8)) : List Char :=
  l.flatMap fun b => ["0123456789abcdef".toList[b.toNat / 16]!, "0123456789abcdef".toList[b.toNat % 16]!]

end Verif.Md5.Rfc
