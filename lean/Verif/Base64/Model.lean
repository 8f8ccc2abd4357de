import Verif.Basic

/-!
# Base64 (`include/SSVUtils/Encoding/Src/Base64.cpp`)

Strings are lists of bytes. `unsigned char` arithmetic is done in `int` and cut to 8 bits when stored: `byte`. The classification
`std::isalnum` is that of the "C" locale. `int` has 32 bits.
-/

namespace Verif.Base64

open Verif

abbrev Byte := Fin 256

/-- Conversion to `unsigned char`. -/
def byte (n : Nat) : Byte := ⟨n % 256, Nat.mod_lt _ (by decide)⟩

def chr (c : Char) : Byte := byte c.toNat

/-- `base64_chars`, Base64.cpp:17-19. -/
def alphabet : List Byte :=
  "ABCDEFGHIJKLMNOPQRSTUVWXYZabcdefghijklmnopqrstuvwxyz0123456789+/".toList.map chr

/-- `is_base64`, Base64.cpp:20-23. -/
def isBase64 (c : Byte) : Bool :=
  (48 ≤ c.val && c.val ≤ 57) || (65 ≤ c.val && c.val ≤ 90) || (97 ≤ c.val && c.val ≤ 122) || c == chr '+' || c == chr '/'

/-- `base64_chars[i]`. -/
def charAt (i : Byte) : Outcome Byte := .ofOption alphabet[i.val]?

/-- `base64_chars.find(c)` stored in an `unsigned char`; `npos` becomes 255. -/
def indexOf (c : Byte) : Byte :=
  match alphabet.idxOf? c with
  | some i => byte i
  | none => 255

/-- `char_array_4` from `char_array_3`, Base64.cpp:37-42 and 53-58. -/
def split3 (a b c : Byte) : List Byte :=
  [byte ((a.val &&& 0xfc) >>> 2),
   byte (((a.val &&& 0x03) <<< 4) + ((b.val &&& 0xf0) >>> 4)),
   byte (((b.val &&& 0x0f) <<< 2) + ((c.val &&& 0xc0) >>> 6)),
   byte (c.val &&& 0x3f)]

/-- `ret += base64_chars[x]` for each `x`. -/
def putChars : List Byte → List Byte → Outcome (List Byte)
  | [], ret => .ok ret
  | x :: xs, ret => do
    let c ← charAt x
    putChars xs (ret ++ [c])

/-- `while(in_len--)`, Base64.cpp:32-47. `buf` holds the bytes `char_array_3[0..i)`. -/
def encLoop : List Byte → List Byte → List Byte → Outcome (List Byte × List Byte)
  | [], buf, ret => .ok (buf, ret)
  | x :: xs, buf, ret =>
    match buf ++ [x] with
    | [a, b, c] => do
      let ret ← putChars (split3 a b c) ret
      encLoop xs [] ret
    | buf => encLoop xs buf ret

/-- `if(i) …`, Base64.cpp:49-62. The rest of `char_array_3` is set to zero first. -/
def encTail (buf ret : List Byte) : Outcome (List Byte) :=
  match buf with
  | [] => .ok ret
  | [a] => do
    let ret ← putChars ((split3 a 0 0).take 2) ret
    return ret ++ [chr '=', chr '=']
  | [a, b] => do
    let ret ← putChars ((split3 a b 0).take 3) ret
    return ret ++ [chr '=']
  | _ => .ub

/-- `Base64Encode`, Base64.cpp:25-65 and 111-115. The length is passed as `unsigned int`. -/
def encode (s : List Byte) : Outcome (List Byte) := do
  let r ← encLoop (s.take (s.length % 2 ^ 32)) [] []
  encTail r.1 r.2

/-- `char_array_3` from `char_array_4` after the table look-up, Base64.cpp:79-86 and 95-104. -/
def join4 (p q r s : Byte) : List Byte :=
  [byte ((p.val <<< 2) + ((q.val &&& 0x30) >>> 4)),
   byte (((q.val &&& 0xf) <<< 4) + ((r.val &&& 0x3c) >>> 2)),
   byte (((r.val &&& 0x3) <<< 6) + s.val)]

/-- `while(in_len-- && (mStr[in_] != '=') && is_base64(mStr[in_]))`, Base64.cpp:73-92. `len` is the `int` `in_len`, `buf` the
characters `char_array_4[0..i)`, `rest` the string from `in_` on. The position after the end reads as zero. -/
def decLoop (len : Int) (rest buf ret : List Byte) : Outcome (List Byte × List Byte) :=
  if len = 0 then .ok (buf, ret)
  else if len = -2147483648 then .ub
  else
    match rest with
    | [] => .ok (buf, ret)
    | x :: xs =>
      if x ≠ chr '=' ∧ isBase64 x = true then
        match buf ++ [x] with
        | [p, q, r, s] => decLoop (len - 1) xs [] (ret ++ join4 (indexOf p) (indexOf q) (indexOf r) (indexOf s))
        | buf => decLoop (len - 1) xs buf ret
      else .ok (buf, ret)

/-- `if(i) …`, Base64.cpp:94-108. The missing characters are zero, which is not in the table. -/
def decTail (buf ret : List Byte) : List Byte :=
  match buf with
  | [] => ret
  | [p] => ret ++ (join4 (indexOf p) (indexOf 0) (indexOf 0) (indexOf 0)).take 0
  | [p, q] => ret ++ (join4 (indexOf p) (indexOf q) (indexOf 0) (indexOf 0)).take 1
  | p :: q :: r :: _ => ret ++ (join4 (indexOf p) (indexOf q) (indexOf r) (indexOf 0)).take 2

/-- Conversion of a `size_t` to `int`. -/
def toInt32 (n : Nat) : Int := if n % 2 ^ 32 < 2 ^ 31 then (n % 2 ^ 32 : Nat) else ((n % 2 ^ 32 : Nat) : Int) - 2 ^ 32

/-- `Base64Decode`, Base64.cpp:67-109. -/
def decode (s : List Byte) : Outcome (List Byte) := do
  let r ← decLoop (toInt32 s.length) s [] []
  return decTail r.1 r.2

end Verif.Base64
