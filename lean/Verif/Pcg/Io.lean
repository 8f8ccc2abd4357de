import Verif.Pcg.Model

/-!
# Seeding the engines, and their text form

Model of the seeding code of `include/SSVUtils/Internal/PCG/pcg_extras.hpp` (386-521) and
`pcg_random.hpp` (477-520), and of the stream operators of the engines (`pcg_random.hpp` 566-626).
-/

namespace Verif.Pcg

/-! ## Seeding -/

/-- `uneven_copy_impl(…, true_type)` — `pcg_extras.hpp` 386-412: copies 32-bit words to `n` smaller
integers of `d` bits. `value` is not initialised in the code; it is read only after the first
assignment. Reading behind the words is undefined. -/
def copySmall (d scale : Nat) : (n count : Nat) → BitVec 32 → List (BitVec 32) →
    Outcome (List (BitVec d))
  | 0, _, _, _ => .ok []
  | n + 1, count, value, src =>
    if count % scale = 0 then
      match src with
      | [] => .ub
      | value :: src => do
        let rest ← copySmall d scale n (count + 1) value src
        pure (value.setWidth d :: rest)
    else do
      let value := value >>> d
      let rest ← copySmall d scale n (count + 1) value src
      pure (value.setWidth d :: rest)

/-- The inner loop of `uneven_copy_impl(…, false_type)` — `pcg_extras.hpp` 432-439: the value and the
words that are left. -/
def gather (d : Nat) : (i shift : Nat) → BitVec d → List (BitVec 32) →
    Outcome (BitVec d × List (BitVec 32))
  | 0, _, value, src => .ok (value, src)
  | _ + 1, _, _, [] => .ub
  | i + 1, shift, value, word :: src =>
    gather d i (shift + 32) (value ||| word.setWidth d <<< shift) src

/-- `uneven_copy_impl(…, false_type)` — `pcg_extras.hpp` 416-444: copies 32-bit words to `n` larger integers
of `d` bits. -/
def copyLarge (d scale : Nat) : (n : Nat) → List (BitVec 32) → Outcome (List (BitVec d))
  | 0, _ => .ok []
  | n + 1, src => do
    let (value, src) ← gather d scale 0 0#d src
    let rest ← copyLarge d scale n src
    pure (value :: rest)

/-- `uneven_copy` — `pcg_extras.hpp` 446-458. -/
def unevenCopy (d n : Nat) (src : List (BitVec 32)) : Outcome (List (BitVec d)) :=
  if d / 8 < 4 then copySmall d (4 / (d / 8)) n 0 0#32 src
  else copyLarge d ((d / 8 + 4 - 1) / 4) n src

/-- `FROM_ELEMS`, the number of 32-bit words to be generated — `pcg_extras.hpp` 473-482; for 32-bit integers
they are generated in place (463-467). -/
def fromElems (d size : Nat) : Nat :=
  if d / 8 = 4 then size
  else if 4 < d / 8 then size * ((d / 8 + 4 - 1) / 4)
  else (size + 4 / (d / 8) - 1) / (4 / (d / 8) + 0)

/-- `generate_to<size>` — `pcg_extras.hpp` 460-508, with a seed sequence that delivers the words of `gen`
for a request of that many words. -/
def generateTo (d size : Nat) (gen : Nat → List (BitVec 32)) : Outcome (List (BitVec d)) :=
  if h : d = 32 then .ok (h ▸ gen (fromElems d size))
  else unevenCopy d size (gen (fromElems d size))

/-- `generate_one<UInt, i, N>` — `pcg_extras.hpp` 515-521. -/
def generateOne (d i n : Nat) (gen : Nat → List (BitVec 32)) : Outcome (BitVec d) := do
  let result ← generateTo d n gen
  Outcome.ofOption result[i]?

/-- `engine(SeedSeq&&)` without specifiable stream — `pcg_random.hpp` 495-505. -/
def seedOne (p : Par w) (gen : Nat → List (BitVec 32)) : Outcome (BitVec w) := do
  let s ← generateOne w 0 1 gen
  pure (init p s)

/-- `engine(SeedSeq&&)` with specifiable stream — `pcg_random.hpp` 507-518: the increment and the state. The
seed sequence is asked twice; the answers are `gen` and `gen'`. -/
def seedTwo (mult : BitVec w) (gen gen' : Nat → List (BitVec 32)) :
    Outcome (BitVec w × BitVec w) := do
  let s ← generateOne w 1 2 gen
  let stream ← generateOne w 0 2 gen'
  let inc := setStream stream
  pure (inc, init ⟨mult, inc, false⟩ s)

/-! ## Text -/

/-- An input stream: the characters to come, `eofbit` and `failbit`. -/
structure In where
  rest : List Char
  eof : Bool
  fail : Bool
  deriving DecidableEq

/-- White space in the "C" locale. -/
def isWs (c : Char) : Bool :=
  c == ' ' || c == '\t' || c == '\n' || c == '\x0b' || c == '\x0c' || c == '\r'

/-- The value of a string of decimal digits. -/
def digitsVal (ds : List Char) : Nat := ds.foldl (fun n c => 10 * n + (c.toNat - '0'.toNat)) 0

/-- `in >> value` of the standard library for unsigned integers of `w` bits, with the flags `dec` and
`skipws`; `none` if the variable is not assigned. Values that are too large give the maximum, negative
ones wrap. -/
def readU (w : Nat) (i : In) : Option (BitVec w) × In :=
  if i.eof || i.fail then (none, { i with fail := true })
  else
    let r := i.rest.dropWhile isWs
    if r = [] then (none, ⟨[], true, true⟩)
    else
      let neg := r.head? = some '-'
      let r := if r.head? = some '-' ∨ r.head? = some '+' then r.tail else r
      let ds := r.takeWhile Char.isDigit
      let r := r.dropWhile Char.isDigit
      let n := digitsVal ds
      (some (if ds = [] then 0#w else if 2 ^ w ≤ n then BitVec.allOnes w
        else if neg then -BitVec.ofNat w n else BitVec.ofNat w n),
        ⟨r, r.isEmpty, ds.isEmpty || decide (2 ^ w ≤ n)⟩)

/-- `out << engine` — `pcg_random.hpp` 566-585, for engines of 16, 32 or 64 bits, whose numbers are
written by the standard library, and a stream with width 0. -/
def writeEngine (p : Par w) (s : BitVec w) : List Char :=
  Nat.toDigits 10 p.mult.toNat ++ ' ' :: (Nat.toDigits 10 p.inc.toNat ++ ' ' :: Nat.toDigits 10 s.toNat)

/-- `in >> engine` — `pcg_random.hpp` 587-626: the engine and the stream afterwards. `canSpecify` tells
whether the stream of the engine can be set. -/
def readEngine (canSpecify : Bool) (p : Par w) (s : BitVec w) (i : In) : (Par w × BitVec w) × In :=
  let (m, i) := readU w i
  let (c, i) := readU w i
  let (t, i) := readU w i
  if i.fail then ((p, s), i)
  else
    match m, c, t with
    | some m, some c, some t =>
      if m ≠ p.mult then ((p, s), ⟨i.rest, false, true⟩)
      else if canSpecify then (({ p with inc := setStream (c >>> 1) }, t), i)
      else if c ≠ p.inc then ((p, s), ⟨i.rest, false, true⟩)
      else ((p, t), i)
    | _, _, _ => ((p, s), i)

end Verif.Pcg
