import Verif.Ieee.Model
import Verif.Basic
import Verif.Base64.Model

/-!
# Floating-point numbers as text

What `toStr` writes for a `float` or `double` (`include/SSVUtils/Core/String/ToStr.hpp`), and what `ObfuscatedValue`
(`include/SSVUtils/Encoding/Inc/ObfuscatedValue.hpp`), `sToFloat` and `sToDouble` (`include/SSVUtils/Core/Common/Casts.hpp`) and the
JSON reader (`include/SSVUtils/Json/Io/Reader.hpp`) read back.

The library leaves both directions to the C++ library; they are modelled as in libstdc++ with glibc. Writing is `printf` with
`%.6g` (the stream has its default flags, see C141 for the rest), whose decimal digits are the exact value rounded to nearest, ties
to even. Reading is `strtod` (`strtof` for `float`), which rounds the exact value of the numeral to nearest, ties to even. Floating-point
values are those of `Verif.Ieee`: the sign of a zero, which is written `-0` if negative, and the sign of a NaN are left out.
-/

namespace Verif.RealText

open Verif Ieee

noncomputable section

/-! ## Writing -/

/-- The last `k` decimal digits of `n`. -/
def fixed : ℕ → ℕ → List Char
  | 0, _ => []
  | k + 1, n => fixed k (n / 10) ++ [Nat.digitChar (n % 10)]

/-- `%g` removes trailing zeros of the fraction. -/
def strip (ds : List Char) : List Char := (ds.reverse.dropWhile (· == '0')).reverse

/-- A fraction, without the point if it is empty. -/
def fraction (ds : List Char) : List Char := if strip ds = [] then [] else '.' :: strip ds

/-- The exponent has a sign and at least two digits. -/
def exponent (e : ℤ) : List Char :=
  'e' :: (if e < 0 then '-' else '+') :: (if e.natAbs < 100 then fixed 2 e.natAbs else Nat.toDigits 10 e.natAbs)

/-- The six digits and the exponent that `%.5e` gives for `x > 0`: the digits are rounded, which can carry into a
further one. -/
def digits (x : ℝ) : ℕ × ℤ :=
  let e := Int.log 10 x
  let m := (rne (x / 10 ^ (e - 5))).toNat
  if m = 10 ^ 6 then (10 ^ 5, e + 1) else (m, e)

/-- `%.6g` of a positive number with six digits `m` and exponent `e`: fixed notation for exponents from -4 to 5, else
scientific notation. -/
def layout (m : ℕ) (e : ℤ) : List Char :=
  let ds := fixed 6 m
  if -4 ≤ e ∧ e < 6 then
    if 0 ≤ e then ds.take (e.toNat + 1) ++ fraction (ds.drop (e.toNat + 1))
    else '0' :: fraction (List.replicate (e.natAbs - 1) '0' ++ ds)
  else ds.take 1 ++ fraction (ds.drop 1) ++ exponent e

/-- `toStr`, ToStr.hpp:25-30, of a floating-point number: `mStream << mValue`, Stringifier.hpp:187. -/
def toStr : FP → List Char
  | .nan => ['n', 'a', 'n']
  | .inf s => (if s then ['-'] else []) ++ ['i', 'n', 'f']
  | .fin x =>
    if x = 0 then ['0']
    else (if x < 0 then ['-'] else []) ++ layout (digits |x|).1 (digits |x|).2

/-! ## Reading -/

/-- An optional sign. -/
def spanSign : List Char → List Char × List Char
  | '-' :: s => (['-'], s)
  | '+' :: s => (['+'], s)
  | s => ([], s)

/-- The digits in front. -/
def spanDigits (s : List Char) : List Char × List Char := (s.takeWhile Char.isDigit, s.dropWhile Char.isDigit)

/-- A point with the digits behind it. -/
def spanFraction : List Char → List Char × List Char × List Char
  | '.' :: s => (['.'], spanDigits s)
  | s => ([], [], s)

/-- An exponent: its value and the number of its characters; an `e` without digits is not an exponent. -/
def spanExponent : List Char → ℤ × ℕ
  | [] => (0, 0)
  | c :: s =>
    if c = 'e' ∨ c = 'E' then
      let (sg, s) := spanSign s
      let (ds, _) := spanDigits s
      if ds = [] then (0, 0)
      else (if sg = ['-'] then -(Nat.ofDigitChars 10 ds 0 : ℤ) else Nat.ofDigitChars 10 ds 0, 1 + sg.length + ds.length)
    else (0, 0)

/-- What is at the beginning of a text. -/
inductive Scanned where
  | nothing
  | inf (neg : Bool)
  | nan
  | num (q : ℝ)

/-- The number `strtod` finds, with its exact value, and the number of characters: decimal numerals, `inf` and `nan`. Leading blanks,
hexadecimal numerals, `infinity` and `nan(...)` and other spellings are left out. -/
def scan (s : List Char) : Scanned × ℕ :=
  let (sg, s) := spanSign s
  let (ip, s) := spanDigits s
  let (pt, fp, s) := spanFraction s
  if ip = [] ∧ fp = [] then
    match pt ++ s with
    | 'i' :: 'n' :: 'f' :: _ => (.inf (decide (sg = ['-'])), sg.length + 3)
    | 'n' :: 'a' :: 'n' :: _ => (.nan, sg.length + 3)
    | _ => (.nothing, 0)
  else
    let (e, n) := spanExponent s
    let q : ℝ := (Nat.ofDigitChars 10 (ip ++ fp) 0 : ℕ) * 10 ^ (e - fp.length)
    (.num (if sg = ['-'] then -q else q), sg.length + ip.length + pt.length + fp.length + n)

/-- `strtod`, or `strtof`: the value and the number of characters read; the value is 0 if there is no number. -/
def strtod (F : Fmt) (s : List Char) : FP × ℕ :=
  match scan s with
  | (.nothing, n) => (.fin 0, n)
  | (.inf neg, n) => (.inf neg, n)
  | (.nan, n) => (.nan, n)
  | (.num q, n) => (F.rnd q, n)

/-- The characters `operator>>` collects for a floating-point number (`num_get`): sign, digits, point, and after a digit an exponent.
(It also drops superfluous leading zeros, which does not change the value.) -/
def collect (s : List Char) : List Char :=
  let (sg, s) := spanSign s
  let (ip, s) := spanDigits s
  let (pt, fp, s) := spanFraction s
  sg ++ ip ++ pt ++ fp ++
    match s with
    | c :: s => if (c = 'e' ∨ c = 'E') ∧ ¬ (ip = [] ∧ fp = []) then
        let (es, s) := spanSign s
        c :: es ++ (spanDigits s).1
      else []
    | [] => []

/-- `fromStr`, ObfuscatedValue.hpp:40-46, for `float` and `double`: `stream >> t` stores 0 unless the characters collected are a
number, and the largest number with its sign if that is too large. Leading blanks are left out. -/
def fromStr (F : Fmt) (s : List Char) : FP :=
  let t := collect s
  let (x, n) := strtod F t
  if n = 0 ∨ n ≠ t.length then .fin 0
  else match x with
    | .inf neg => .fin (if neg then -F.top else F.top)
    | x => x

/-! ## ObfuscatedValue -/

/-- `set`, ObfuscatedValue.hpp:58-62; also the constructor (51-54) and `operator=` (112-115). The object is its
`encodedValue`; `dummy` is never read. -/
def set (x : FP) : Outcome (List Base64.Byte) := Base64.encode ((toStr x).map Base64.chr)

/-- A character from its byte. -/
def ofByte (b : Base64.Byte) : Char := Char.ofNat b.val

/-- `get`, ObfuscatedValue.hpp:66-69; also the conversion operator (72-75). -/
def get (F : Fmt) (o : List Base64.Byte) : Outcome FP := do
  let s ← Base64.decode o
  pure (fromStr F (s.map ofByte))

inductive Arith where
  | add | sub | mul | div

/-- Operations of a client; `z` is the sign of the operand if it is zero. -/
inductive Op where
  | get
  | set (v : FP)
  | compound (op : Arith) (v : FP) (z : Bool)

/-- The built-in operators. -/
def arith (F : Fmt) (z : Bool) : Arith → FP → FP → FP
  | .add, a, b => Ieee.add F a b
  | .sub, a, b => Ieee.sub F a b
  | .mul, a, b => Ieee.mul F a b
  | .div, a, b => Ieee.div F z a b

open Classical in
/-- `assert(mValue != 0)`, ObfuscatedValue.hpp:105; in `operator/=` only, and in debug builds only. -/
def divAssert (dbg : Bool) : Arith → FP → Outcome Unit
  | .div, v => if dbg = true then Outcome.check (decide (v ≠ .fin 0)) else pure ()
  | _, _ => pure ()

/-- One operation with the value it returns; `operator+=`, `-=`, `*=`, `/=`, ObfuscatedValue.hpp:79-108. -/
def step (F : Fmt) (dbg : Bool) (o : List Base64.Byte) : Op → Outcome (List Base64.Byte × Option FP)
  | .get => do let v ← get F o; pure (o, some v)
  | .set v => do let o ← set v; pure (o, none)
  | .compound op v z => do
    divAssert dbg op v
    let a ← get F o
    let o ← set (arith F z op a v)
    let r ← get F o
    pure (o, some r)

/-- A history. -/
def run (F : Fmt) (dbg : Bool) : List Base64.Byte → List Op → Outcome (List (Option FP))
  | _, [] => .ok []
  | o, op :: ops => do
    let (o, r) ← step F dbg o op
    let rs ← run F dbg o ops
    pure (r :: rs)

/-- Construction from `v` followed by a history. -/
def runFrom (F : Fmt) (dbg : Bool) (v : FP) (ops : List Op) : Outcome (List (Option FP)) := do
  let o ← set v
  run F dbg o ops

/-! ## `sToFloat`, `sToDouble` -/

/-- `strtod` sets `ERANGE`: the exact value is too large, or it is not a number of the format and smaller than the normal numbers.
The latter is decided after rounding to the full number of digits, so a value that then is `2 ^ (qmin + p - 1)`, the smallest normal
number, is not too small. -/
def erange (F : Fmt) (q : ℝ) : Prop :=
  F.top < |F.fl q| ∨ (F.fl q ≠ q ∧ |q| < 2 ^ (F.qmin + F.p - 1) - 2 ^ (F.qmin - 2))

open Classical in
/-- `sToFloat` and `sToDouble`, Casts.hpp:148-157: `std::stof` and `std::stod` throw without a number (`std::invalid_argument`)
and on `ERANGE` (`std::out_of_range`); the functions are `noexcept`, so that ends the program (here `assertFail`). -/
def sToReal (F : Fmt) (s : List Char) : Outcome FP :=
  match (scan s).1 with
  | .nothing => .assertFail
  | .inf neg => .ok (.inf neg)
  | .nan => .ok .nan
  | .num q => if erange F q then .assertFail else .ok (F.rnd q)

end

end Verif.RealText
