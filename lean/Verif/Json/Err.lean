import Verif.Json.Model
import Verif.Log.Model

/-!
# Model of the exceptions of the JSON reader

Source: `include/SSVUtils/Json/Io/Reader.hpp:54-57, 92-117, 153-164, 249-372`, `Io/ReadException.hpp`,
`Io/Io.hpp:19-35`.

`Model.lean` says only that an exception leaves the reader. Here the same functions say which one: title, message and the
excerpt of the source. While the exception travels the excerpt is represented by the position where it was thrown; it is made
when the exception leaves the reader (the source is not changed after purging, so this is the same text).
-/

namespace Verif.Json

open Verif

/-- The arguments of `throwError` and where it was called: the rest of the source from `idx` on. -/
structure Raised where
  title : List Char
  body : List Char
  rest : List Char
  deriving Repr, DecidableEq

/-- `ReadException`, ReadException.hpp:16-38: `getTitle()`, `what()`, `getSrc()`. -/
structure ReadException where
  title : List Char
  what : List Char
  src : List Char
  deriving Repr, DecidableEq

/-- A call that may be left by a `ReadException`. -/
abbrev OutE (α : Type) := Outcome (Except Raised α)

/-- Sequencing: the exception ends the function. -/
def andThen {α β : Type} (o : OutE α) (f : α → OutE β) : OutE β :=
  match o with
  | .ok (.ok a) => f a
  | .ok (.error e) => .ok (.error e)
  | .throw => .throw
  | .assertFail => .assertFail
  | .ub => .ub
  | .diverge => .diverge

/-- `throwError`, Reader.hpp:54-57. Building the excerpt (92-117) needs ranges that are not inverted. -/
def throwErrorE {α : Type} (x : Ctx) (title body rest : List Char) : OutE α :=
  if 1 ≤ x.realSize ∧ x.size - rest.length ≤ x.realSize + 3 then .ok (.error ⟨title, body, rest⟩) else .ub

/-- `"Invalid keyword"` -/
def tKeyword : List Char := ['I', 'n', 'v', 'a', 'l', 'i', 'd', ' ', 'k', 'e', 'y', 'w', 'o', 'r', 'd']
/-- `"Invalid array"` -/
def tArray : List Char := ['I', 'n', 'v', 'a', 'l', 'i', 'd', ' ', 'a', 'r', 'r', 'a', 'y']
/-- `"Invalid object"` -/
def tObject : List Char := ['I', 'n', 'v', 'a', 'l', 'i', 'd', ' ', 'o', 'b', 'j', 'e', 'c', 't']
/-- `"Invalid value"` -/
def tValue : List Char := ['I', 'n', 'v', 'a', 'l', 'i', 'd', ' ', 'v', 'a', 'l', 'u', 'e']

/-- The message of `match`, Reader.hpp:160-161. -/
def bKeyword (kw : List Char) : List Char :=
  ['C', 'o', 'u', 'l', 'd', 'n', '\'', 't', ' ', 'm', 'a', 't', 'c', 'h', ' ', 'k', 'e', 'y', 'w', 'o', 'r', 'd', ' ', '`'] ++
    kw ++ ['\'']
/-- The message of `parseArr`, Reader.hpp:278-279. -/
def bArray (c : Char) : List Char :=
  ['E', 'x', 'p', 'e', 'c', 't', 'e', 'd', ' ', 'e', 'i', 't', 'h', 'e', 'r', ' ', '`', ',', '`', ' ', 'o', 'r', ' ', '`', ']', '`',
    ',', ' ', 'g', 'o', 't', ' ', '`', c, '`']
/-- The message of `parseObj` for a missing key, Reader.hpp:308. -/
def bKey (c : Char) : List Char :=
  ['E', 'x', 'p', 'e', 'c', 't', 'e', 'd', ' ', '`', '"', '`', ' ', ',', ' ', 'g', 'o', 't', ' ', '`', c, '`']
/-- The message of `parseObj` for a missing colon, Reader.hpp:314. -/
def bColon (c : Char) : List Char :=
  ['E', 'x', 'p', 'e', 'c', 't', 'e', 'd', ' ', '`', ':', '`', ' ', ',', ' ', 'g', 'o', 't', ' ', '`', c, '`']
/-- The message of `parseObj` after a pair, Reader.hpp:333-334. -/
def bObject (c : Char) : List Char :=
  ['E', 'x', 'p', 'e', 'c', 't', 'e', 'd', ' ', 'e', 'i', 't', 'h', 'e', 'r', ' ', '`', ',', '`', ' ', 'o', 'r', ' ', '`', '}', '`',
    ',', ' ', 'g', 'o', 't', ' ', '`', c, '`']
/-- The message of `parseVal`, Reader.hpp:369. -/
def bValue (c : Char) : List Char :=
  ['N', 'o', ' ', 'm', 'a', 't', 'c', 'h', ' ', 'f', 'o', 'r', ' ', 'v', 'a', 'l', 'u', 'e', 's', ' ', 'b', 'e', 'g', 'i', 'n', 'n',
    'i', 'n', 'g', ' ', 'w', 'i', 't', 'h', ' ', '`', c, '`']

/-- A call that throws no `ReadException`. -/
def plain {α : Type} (o : Outcome α) : OutE α :=
  match o with
  | .ok a => .ok (.ok a)
  | .throw => .throw
  | .assertFail => .assertFail
  | .ub => .ub
  | .diverge => .diverge

/-- `match`, Reader.hpp:153-164; `all` is the whole keyword. -/
def matchKwE (x : Ctx) (all : List Char) : List Char → List Char → OutE (List Char)
  | [], rest => .ok (.ok rest)
  | k :: ks, rest =>
    andThen (plain (cur x rest)) fun c =>
    if c ≠ k then throwErrorE x tKeyword (bKeyword all) rest else matchKwE x all ks rest.tail

variable {R : Type} (ops : RealOps R)

mutual

/-- `parseVal`, Reader.hpp:352-372, see `parseVal` in `Model.lean`. -/
def parseValE (x : Ctx) : Nat → List Char → OutE (Val R × List Char)
  | 0, _ => .diverge
  | fuel + 1, rest =>
    andThen (plain (cur x rest)) fun c =>
    if c = '{' then
      andThen (plain (cur x rest.tail)) fun d =>
      if d = '}' then .ok (.ok (.obj [], rest.tail.tail)) else objLoopE x fuel rest.tail []
    else if c = '[' then
      andThen (plain (cur x rest.tail)) fun d =>
      if d = ']' then .ok (.ok (.arr [], rest.tail.tail)) else arrLoopE x fuel rest.tail []
    else if c = '"' then
      andThen (plain (readStr x rest)) fun sr => .ok (.ok (.str sr.1, sr.2))
    else if c = 't' then
      andThen (matchKwE x ['t', 'r', 'u', 'e'] ['t', 'r', 'u', 'e'] rest) fun r => .ok (.ok (.bln true, r))
    else if c = 'f' then
      andThen (matchKwE x ['f', 'a', 'l', 's', 'e'] ['f', 'a', 'l', 's', 'e'] rest) fun r => .ok (.ok (.bln false, r))
    else if c = 'n' then
      andThen (matchKwE x ['n', 'u', 'l', 'l'] ['n', 'u', 'l', 'l'] rest) fun r => .ok (.ok (.nll, r))
    else
      andThen (plain (isNumStart ops c)) fun b =>
      if b then plain (parseNum ops rest) else throwErrorE x tValue (bValue c) rest

/-- The loop of `parseArr`, Reader.hpp:262-287. -/
def arrLoopE (x : Ctx) : Nat → List Char → List (Val R) → OutE (Val R × List Char)
  | 0, _, _ => .diverge
  | fuel + 1, rest, acc =>
    andThen (parseValE x fuel rest) fun vr =>
    andThen (plain (cur x vr.2)) fun c =>
    if c = ',' then arrLoopE x fuel vr.2.tail (acc ++ [vr.1])
    else if c = ']' then .ok (.ok (.arr (acc ++ [vr.1]), vr.2.tail))
    else throwErrorE x tArray (bArray c) vr.2

/-- The loop of `parseObj`, Reader.hpp:303-342. -/
def objLoopE (x : Ctx) : Nat → List Char → List (List Char × Val R) → OutE (Val R × List Char)
  | 0, _, _ => .diverge
  | fuel + 1, rest, acc =>
    andThen (plain (cur x rest)) fun c =>
    if c ≠ '"' then throwErrorE x tObject (bKey c) rest
    else
      andThen (plain (readStr x rest)) fun kr =>
      andThen (plain (cur x kr.2)) fun c =>
      if c ≠ ':' then throwErrorE x tObject (bColon c) kr.2
      else
        andThen (parseValE x fuel kr.2.tail) fun vr =>
        andThen (plain (Container.setIndex strLt .nll acc kr.1 vr.1)) fun acc =>
        andThen (plain (cur x vr.2)) fun c =>
        if c = ',' then objLoopE x fuel vr.2.tail acc
        else if c = '}' then .ok (.ok (.obj acc, vr.2.tail))
        else throwErrorE x tObject (bObject c) vr.2

end

/-- `replaceAll(s, "\n", "")`, String/Utils.hpp:122-128: for a one-character pattern and an empty replacement, all occurrences are
removed (`Str.replaceAllFuel` models the function, see `dropNewlines_eq`). -/
def dropNewlines (s : List Char) : List Char := s.filter (· ≠ '\n')

/-- `std::string{begin(src) + a, begin(src) + b}` -/
def range (src : List Char) (a b : Nat) : List Char := (src.take b).drop a

/-- `getErrorSrc`, Reader.hpp:92-117. `realSize` is at least 1 (`throwErrorE`). -/
def errorSrc (src : List Char) (realSize idx : Nat) : List Char :=
  let iStart := idx - 20
  let iEnd := min (realSize - 1) (idx + 20)
  let iDStart := idx - 4
  let iDEnd := min (realSize - 1) (idx + 4)
  let marked := range src iStart iDStart ++ [' ', 'o', '>', '>', '>', ' '] ++ range src iDStart iDEnd ++
    [' ', '<', '<', '<', 'o', ' '] ++ range src iDEnd iEnd
  let unmarked := range src iStart iEnd
  dropNewlines unmarked ++ ['\n'] ++ dropNewlines marked

/-- What a C string shows of a text: `std::runtime_error` keeps the message, `what()` returns a C string. -/
def cStr (s : List Char) : List Char := s.takeWhile (· ≠ Char.ofNat 0)

/-- `Reader{s}.parseVal()`: the value or the exception. -/
def readE (dbg : Bool) (s : List Char) : Outcome (Except ReadException (Val R)) := do
  let p ← purge dbg s
  let src := purgedSrc s p
  let r ← parseValE ops { dbg := dbg, size := src.length, realSize := p.length } (2 * src.length + 3) src
  match r with
  | .error e => return .error ⟨e.title, cStr e.body, errorSrc src p.length (src.length - e.rest.length)⟩
  | .ok (v, _) => return .ok v

/-- The log statements of `tryParse`, Io.hpp:28-30. `what()` and the literals are C strings, title and excerpt `std::string`s. -/
def logOps (e : ReadException) : List Log.Op :=
  [.title (.leaf .other "JSON".toList), .val (.leaf .other "Error occured during read\n".toList),
    .title (.leaf .string e.title), .val (.leaf .other e.what), .val (.leaf .string (" - at:\n".toList ++ e.src)), .endl]

/-- `tryParse`, Io.hpp:19-35, as called from `Val::readFromStr`, Val.inl:59-64: result, value and log afterwards. -/
def tryParse (dbg : Bool) (con : Stringify.Con) (lit : List Char) (old : Val R) (s : List Char) (log : Log.LogSt) :
    Outcome (Bool × Val R × Log.LogSt) :=
  match readE ops dbg s with
  | .ok (.ok v) => .ok (true, v, log)
  | .ok (.error e) => .ok (false, old, Log.exec con lit (logOps e) log)
  | .throw => .throw
  | .assertFail => .assertFail
  | .ub => .ub
  | .diverge => .diverge

end Verif.Json
