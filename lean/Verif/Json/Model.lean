import Verif.Basic
import Verif.Container.Model

/-!
# Model of the JSON reader

Source: `include/SSVUtils/Json/Io/Reader.hpp`, `Io.hpp`, `Json/Val/Val.inl`, `Json/Common/Common.hpp`.

Texts are lists of characters (the bytes of a `std::string`). The reader's position is represented by the rest of
the source from `idx` on (the reader never moves backwards), so reading outside the source is reading from an
empty rest: in a debug build (`dbg`) the `assert` of `getC` fails, in a release build the position `idx == size`
holds the terminating `'\0'` and anything further is UB.

Floating point is not modelled concretely: `RealOps` collects the operations the code applies to `double`
(`strtod`, conversion to and from `long`, comparison, text output) as arbitrary functions; `Verif/RealText/JsonModel.lean` gives
them for IEEE 754 numbers. Arbitrary is also what `isdigit` does with negative `char`s, which the language leaves undefined and some
libraries define.
Not modelled: texts of 2^31 characters or more (the code indexes with `unsigned int` and `int`).
-/

namespace Verif.Json

open Verif

/-- Operations on `double` used by the JSON code, and `isdigit` outside ASCII. -/
structure RealOps (R : Type) where
  /-- `strtod(p, &end)` on the characters from `p` to the end of the string: value and number of characters
  consumed. -/
  strtod : List Char → R × Nat
  /-- `(IntS) r`; `none` when the value does not fit, which is UB. -/
  toInt : R → Option Int
  /-- `(IntU) r`; `none` when the value does not fit, which is UB. -/
  toUInt : R → Option Nat
  /-- `(Real) n` -/
  ofInt : Int → R
  /-- `r == r'` -/
  eq : R → R → Bool
  /-- `toStr(r)` -/
  toText : R → List Char
  /-- `std::isdigit` on a character outside ASCII, a negative `char`; `none` is undefined. -/
  isdigitHigh : Char → Option Bool

/-- `Num`, Json/Num/Num.hpp:20-45: the representation tag and the payload. `IntS` is `long`, `IntU` is
`unsigned long`. -/
inductive Num (R : Type) where
  | intS (n : Int)
  | intU (n : Nat)
  | real (r : R)
  deriving Repr, DecidableEq

/-- `Val`, Json/Val/Val.hpp:43-60: a payload for each type tag. Objects are the underlying vector of a
`VecMap<std::string, Val>`. -/
inductive Val (R : Type) where
  | obj (kvs : List (List Char × Val R))
  | arr (vs : List (Val R))
  | str (s : List Char)
  | num (n : Num R)
  | bln (b : Bool)
  | nll
  deriving Repr

/-- `std::string::operator<`: lexicographic by (unsigned) character. -/
def strLt : List Char → List Char → Bool
  | [], [] => false
  | [], _ :: _ => true
  | _ :: _, [] => false
  | a :: as, b :: bs => if a = b then strLt as bs else decide (a.toNat < b.toNat)

/-- `isValidEscapeSequenceChar`, Reader.hpp:22-26. -/
def isValidEscape (c : Char) : Bool :=
  c == '"' || c == '\\' || c == '/' || c == 'b' || c == 'f' || c == 'n' || c == 'r' || c == 't'

/-- `getEscapeSequence`, Reader.hpp:28-45. The `default` branch is marked unreachable: UB. -/
def getEscape (dbg : Bool) (c : Char) : Outcome Char :=
  if dbg && !isValidEscape c then .assertFail
  else if c = '"' ∨ c = '\\' ∨ c = '/' then .ok c
  else if c = 'b' then .ok (Char.ofNat 8)
  else if c = 'f' then .ok (Char.ofNat 12)
  else if c = 'n' then .ok '\n'
  else if c = 'r' then .ok '\r'
  else if c = 't' then .ok '\t'
  else .ub

/-- `isWhitespace`, Reader.hpp:119-122. -/
def isWhitespace (c : Char) : Bool := c == ' ' || c == '\t' || c == '\r' || c == '\n'

/-- `isNumStart`, Reader.hpp:123-126; `isDigit` passes a `char` to `std::isdigit`, String/Utils.hpp:19-22. -/
def isNumStart {R : Type} (ops : RealOps R) (c : Char) : Outcome Bool :=
  if c = '-' then .ok true
  else if c.toNat < 128 then .ok c.isDigit
  else
    match ops.isdigitHigh c with
    | some b => .ok b
    | none => .ub

/-- Skipping a string in `purgeSource`, Reader.hpp:71-75: copy up to and including the first `"` that does not
follow a backslash; `prev` is the character before. Returns what is copied and what follows. -/
def purgeStr (dbg : Bool) (prev : Char) : List Char → Outcome (List Char × List Char)
  | [] => if dbg then .assertFail else .ub
  | c :: cs =>
    if c ≠ '"' ∨ prev = '\\' then do
      let (a, b) ← purgeStr dbg c cs
      return (c :: a, b)
    else .ok ([c], cs)

/-- Skipping a comment in `purgeSource`, Reader.hpp:82-83: up to and including the next newline. -/
def purgeComment (dbg : Bool) : List Char → Outcome (List Char)
  | [] => if dbg then .assertFail else .ub
  | c :: cs => if c = '\n' then .ok cs else purgeComment dbg cs

/-- `purgeSource`, Reader.hpp:59-90: the characters written to the front of `src` (`realSize` of them). The copy is
in place, but the write position never passes the read position, so every character is read before it is
overwritten. `fuel` bounds the number of iterations. -/
def purgeLoop (dbg : Bool) : Nat → List Char → Outcome (List Char)
  | 0, _ => .diverge
  | _ + 1, [] => .ok []
  | fuel + 1, c :: cs =>
    if c = '"' then do
      let (a, b) ← purgeStr dbg '"' cs
      let r ← purgeLoop dbg fuel b
      return c :: (a ++ r)
    else if c = '/' ∧ cs = [] ∧ dbg then .assertFail
    else if c = '/' ∧ cs.head? = some '/' then do
      let b ← purgeComment dbg cs
      purgeLoop dbg fuel b
    else do
      let r ← purgeLoop dbg fuel cs
      return if isWhitespace c then r else c :: r

def purge (dbg : Bool) (s : List Char) : Outcome (List Char) := purgeLoop dbg (s.length + 1) s

/-- What stays constant while parsing: build mode, `src.size()` and `realSize`. -/
structure Ctx where
  dbg : Bool
  size : Nat
  realSize : Nat
  deriving Repr

/-- `getC()`, Reader.hpp:128-147. -/
def cur (x : Ctx) : List Char → Outcome Char
  | c :: _ => .ok c
  | [] => if x.dbg then .assertFail else .ok (Char.ofNat 0)

/-- `throwError`, Reader.hpp:54-57, with `getErrorSrc`, 92-117: the exception is thrown only if the ranges
`[max(0, idx-4), min(realSize-1, idx+4))` used to build the message are not inverted. -/
def throwError {α : Type} (x : Ctx) (rest : List Char) : Outcome α :=
  if 1 ≤ x.realSize ∧ x.size - rest.length ≤ x.realSize + 3 then .throw else .ub

/-- `match`, Reader.hpp:153-164. -/
def matchKw (x : Ctx) : List Char → List Char → Outcome (List Char)
  | [], rest => .ok rest
  | k :: ks, rest => do
    let c ← cur x rest
    if c ≠ k then throwError x rest else matchKw x ks rest.tail

/-- First loop of `readStr`, Reader.hpp:171-185: distance from `idx` to the closing quote. At the end of the source
a release build reads the terminating `'\0'` and then goes past it. -/
def scanEnd (dbg : Bool) : List Char → Outcome Nat
  | [] => if dbg then .assertFail else .ub
  | [c] => if c = '"' then .ok 0 else if dbg then .assertFail else .ub
  | c :: d :: cs =>
    if c = '"' then .ok 0
    else if c = '\\' then
      if dbg && !isValidEscape d then .assertFail
      else do let n ← scanEnd dbg cs; return n + 2
    else do let n ← scanEnd dbg (d :: cs); return n + 1

/-- Second loop of `readStr`, Reader.hpp:191-205: `n` is `end - idx`. Returns the decoded text and the rest from
`idx` on. -/
def convert (x : Ctx) (n : Nat) (rest : List Char) : Outcome (List Char × List Char) :=
  if h : n = 0 then .ok ([], rest)
  else do
    let c ← cur x rest
    if c ≠ '\\' then do
      let (a, b) ← convert x (n - 1) rest.tail
      return (c :: a, b)
    else do
      let e ← cur x rest.tail
      let e ← getEscape x.dbg e
      let (a, b) ← convert x (n - 2) rest.tail.tail
      return (e :: a, b)
termination_by n

/-- `readStr`, Reader.hpp:166-211; `rest` starts at the opening quote. -/
def readStr (x : Ctx) (rest : List Char) : Outcome (List Char × List Char) := do
  let n ← scanEnd x.dbg rest.tail
  let (s, r) ← convert x n rest.tail
  return (s, r.tail)

variable {R : Type} (ops : RealOps R)

/-- `parseNum`, Reader.hpp:229-242. -/
def parseNum (rest : List Char) : Outcome (Val R × List Char) :=
  let (r, n) := ops.strtod rest
  match ops.toInt r with
  | none => .ub
  | some i => .ok (.num (if ops.eq (ops.ofInt i) r then .intS i else .real r), rest.drop n)

mutual

/-- `parseVal`, Reader.hpp:352-372, with `parseNll`, `parseBlnFalse`, `parseBlnTrue` (213-227), `parseStr` (244-247)
and the heads of `parseArr` (251-257) and `parseObj` (292-298). `fuel` bounds the number of nested calls and loop
iterations. -/
def parseVal (x : Ctx) : Nat → List Char → Outcome (Val R × List Char)
  | 0, _ => .diverge
  | fuel + 1, rest => do
    let c ← cur x rest
    if c = '{' then do
      let d ← cur x rest.tail
      if d = '}' then return (.obj [], rest.tail.tail) else objLoop x fuel rest.tail []
    else if c = '[' then do
      let d ← cur x rest.tail
      if d = ']' then return (.arr [], rest.tail.tail) else arrLoop x fuel rest.tail []
    else if c = '"' then do
      let (s, r) ← readStr x rest
      return (.str s, r)
    else if c = 't' then do
      let r ← matchKw x "true".toList rest
      return (.bln true, r)
    else if c = 'f' then do
      let r ← matchKw x "false".toList rest
      return (.bln false, r)
    else if c = 'n' then do
      let r ← matchKw x "null".toList rest
      return (.nll, r)
    else do
      let b ← isNumStart ops c
      if b then parseNum ops rest else throwError x rest

/-- The loop of `parseArr`, Reader.hpp:262-287. -/
def arrLoop (x : Ctx) : Nat → List Char → List (Val R) → Outcome (Val R × List Char)
  | 0, _, _ => .diverge
  | fuel + 1, rest, acc => do
    let (v, rest) ← parseVal x fuel rest
    let c ← cur x rest
    if c = ',' then arrLoop x fuel rest.tail (acc ++ [v])
    else if c = ']' then return (.arr (acc ++ [v]), rest.tail)
    else throwError x rest

/-- The loop of `parseObj`, Reader.hpp:303-342; `obj[key] = parseVal()` is `VecMap::operator[]` and assignment. -/
def objLoop (x : Ctx) : Nat → List Char → List (List Char × Val R) → Outcome (Val R × List Char)
  | 0, _, _ => .diverge
  | fuel + 1, rest, acc => do
    let c ← cur x rest
    if c ≠ '"' then throwError x rest
    else do
      let (key, rest) ← readStr x rest
      let c ← cur x rest
      if c ≠ ':' then throwError x rest
      else do
        let (v, rest) ← parseVal x fuel rest.tail
        let acc ← Container.setIndex strLt .nll acc key v
        let c ← cur x rest
        if c = ',' then objLoop x fuel rest.tail acc
        else if c = '}' then return (.obj acc, rest.tail)
        else throwError x rest

end

/-- The source after `purgeSource`: the purged characters overwrite the front, the string is not shortened. -/
def purgedSrc (s p : List Char) : List Char := p ++ s.drop p.length

/-- `Reader{s}.parseVal()`, Reader.hpp:345-372. -/
def read (dbg : Bool) (s : List Char) : Outcome (Val R) := do
  let p ← purge dbg s
  let src := purgedSrc s p
  let (v, _) ← parseVal ops { dbg := dbg, size := src.length, realSize := p.length } (2 * src.length + 3) src
  return v

/-- `Val::readFromStr`, Val.inl:59-64, with `tryParse`, Io.hpp:19-35: a read error leaves the value as it was. The
result of `tryParse` is returned too. -/
def readFromStr (dbg : Bool) (old : Val R) (s : List Char) : Outcome (Bool × Val R) :=
  match read ops dbg s with
  | .ok v => .ok (true, v)
  | .throw => .ok (false, old)
  | .assertFail => .assertFail
  | .ub => .ub
  | .diverge => .diverge

end Verif.Json
