import Verif.IntStr.Model
import Verif.Base64.Model

/-!
# ObfuscatedValue (`include/SSVUtils/Encoding/Inc/ObfuscatedValue.hpp`)

The class over the eight integer types for which `toStr` is specialised, and over `char`, which goes through the general
stringifier. Floating point instances are in `Verif.RealText`. `TCrypto` is the default, Base64; its `Encoding::encode` and
`Encoding::decode` are the functions of `Verif.Base64`. The thread-local buffer of `toStr` has arbitrary contents before
each call.
-/

namespace Verif.Obf

open Verif IntStr Base64

/-- White space skipped by `operator>>` ("C" locale). -/
def isSpace (c : Byte) : Bool := c.val == 32 || (9 ≤ c.val && c.val ≤ 13)

def isDigit (c : Byte) : Bool := 48 ≤ c.val && c.val ≤ 57

/-- Value of a run of decimal digits. -/
def digitsValue (ds : List Byte) : Nat := ds.foldl (fun n d => n * 10 + (d.val - 48)) 0

/-- Optional sign of a numeral. -/
def takeSign : List Byte → Bool × List Byte
  | [] => (false, [])
  | c :: s => if c = chr '-' then (true, s) else if c = chr '+' then (false, s) else (false, c :: s)

/-- The value stored for a numeral of magnitude `n`: the nearest value of the type if out of range; a negated numeral for an
unsigned type wraps. -/
def stored (t : IntType) (neg : Bool) (n : Nat) : Int :=
  if t.signed then
    if neg then max (-(n : Int)) (-(2 ^ t.bits)) else min (n : Int) (2 ^ t.bits - 1)
  else
    if n < 2 ^ t.bits then (if neg then (-(n : Int)) % 2 ^ t.bits else n) else 2 ^ t.bits - 1

/-- `fromStr`, ObfuscatedValue.hpp:40-46, for an integer type: `stream >> t` skips white space and reads an optional sign and
decimal digits; without digits it stores zero. -/
def fromStr (t : IntType) (s : List Byte) : Int :=
  let (neg, s) := takeSign (s.dropWhile isSpace)
  match s.takeWhile isDigit with
  | [] => 0
  | ds => stored t neg (digitsValue ds)

/-- An object; `dummy` and `encodedValue`, ObfuscatedValue.hpp:32-35. -/
structure Obj where
  dummy : Int
  encoded : List Byte
  deriving Repr, DecidableEq

/-- `set`, ObfuscatedValue.hpp:58-62; also the constructor (51-54) and `operator=` (112-115). -/
def set (t : IntType) (buf : List Char) (v : Int) : Outcome Obj := do
  let s ← toStr t buf v
  let e ← encode (s.map chr)
  pure ⟨v, e⟩

/-- `get`, ObfuscatedValue.hpp:66-69; also the conversion operator (72-75). -/
def get (t : IntType) (o : Obj) : Outcome Int := do
  let s ← decode o.encoded
  pure (fromStr t s)

/-- The type in which arithmetic on `T` is done: `short` and `unsigned short` are promoted to `int`. -/
def promoted : IntType → IntType
  | .short => .int
  | .ushort => .int
  | t => t

inductive Arith where
  | add | sub | mul | div
  deriving Repr, DecidableEq

/-- The mathematical result of an operator (division by zero excluded before). -/
def result : Arith → Int → Int → Int
  | .add, a, b => a + b
  | .sub, a, b => a - b
  | .mul, a, b => a * b
  | .div, a, b => a.tdiv b

/-- Arithmetic in type `t`: overflow of a signed type is undefined, unsigned types wrap. -/
def arithIn (t : IntType) (x : Int) : Outcome Int :=
  if t.signed then if -(2 ^ t.bits) ≤ x ∧ x < 2 ^ t.bits then .ok x else .ub
  else .ok (x % 2 ^ t.bits)

/-- Conversion of an arithmetic result to `const T&`. -/
def convert (t : IntType) (x : Int) : Int :=
  if t.signed then (x + 2 ^ t.bits) % 2 ^ (t.bits + 1) - 2 ^ t.bits else x % 2 ^ t.bits

/-- `assert(mValue != 0)`, ObfuscatedValue.hpp:105; in `operator/=` only, and in debug builds only. -/
def divAssert (dbg : Bool) (op : Arith) (v : Int) : Outcome Unit :=
  if op = .div ∧ dbg = true then Outcome.check (v != 0) else pure ()

/-- `operator+=`, `-=`, `*=`, `/=`, ObfuscatedValue.hpp:79-108: the new object and the returned value. -/
def compound (dbg : Bool) (t : IntType) (buf : List Char) (op : Arith) (o : Obj) (v : Int) : Outcome (Obj × Int) := do
  divAssert dbg op v
  let a ← get t o
  if op = .div ∧ v = 0 then .ub
  else do
    let x ← arithIn (promoted t) (result op a v)
    let o ← set t buf (convert t x)
    let r ← get t o
    pure (o, r)

/-- Operations of a client. -/
inductive Op where
  | get
  | set (v : Int)
  | compound (op : Arith) (v : Int)
  deriving Repr, DecidableEq

/-- One operation, with the value it returns (`set` returns none). -/
def step (dbg : Bool) (t : IntType) (buf : List Char) (o : Obj) : Op → Outcome (Obj × Option Int)
  | .get => do let v ← get t o; pure (o, some v)
  | .set v => do let o ← set t buf v; pure (o, none)
  | .compound op v => do let (o, r) ← compound dbg t buf op o v; pure (o, some r)

/-- A history, each operation with the contents of the `toStr` buffer at that time. -/
def run (dbg : Bool) (t : IntType) : Obj → List (List Char × Op) → Outcome (List (Option Int))
  | _, [] => .ok []
  | o, (buf, op) :: ops => do
    let (o, r) ← step dbg t buf o op
    let rs ← run dbg t o ops
    pure (r :: rs)

/-- Construction from `v` followed by a history. -/
def runFrom (dbg : Bool) (t : IntType) (buf : List Char) (v : Int) (ops : List (List Char × Op)) :
    Outcome (List (Option Int)) := do
  let o ← set t buf v
  run dbg t o ops

/-! ## `ObfuscatedValue<char>` -/

/-- `set` for `char`: the stringifier streams the character (StringifierBase.hpp:24). -/
def setChar (c : Byte) : Outcome (List Byte) := encode [c]

/-- `get` for `char`: `stream >> t` skips white space; if no character is left `t` stays uninitialised and is returned. -/
def getChar (e : List Byte) : Outcome Byte := do
  let s ← decode e
  match s.dropWhile isSpace with
  | [] => .ub
  | c :: _ => .ok c

end Verif.Obf
