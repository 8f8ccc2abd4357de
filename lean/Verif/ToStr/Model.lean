import Verif.Basic

/-!
# `toStr` and the stream it shares

Model of `Core/String/ToStr.hpp` 23-31 and `Core/String/StringifierBase.hpp` 17-41, 72-87 for values whose stringifier is
any program, in particular one written by the user.

Every conversion of a thread goes through one stream, which is emptied at the beginning (`str("")`) and read at the end. Emptying
leaves the formatting flags and the error state of a stream as they are; a stream in an error state ignores output.

The values `V`, the flags `F` and what the standard library writes for a value under given flags are parameters.
`toStr` of a number of the eight types of C37 does not use the stream; here it is the text `t` it gives.

Simplification: allocation failure is not modelled.
-/

namespace Verif.ToStr

/-- What the standard library does. -/
structure Lib (F V : Type) where
  /-- flags of a new stream -/
  init : F
  /-- `stream << v`: the text and the flags afterwards (the field width is reset) -/
  put : F → V → List Char × F
  /-- `stream << std::string` -/
  putStr : F → List Char → List Char × F
  /-- what `resetFmt` writes (nothing without console formatting), character by character -/
  reset : List Char

/-- One step of a stringifier writing to `mStream`. -/
inductive Act (F V : Type) where
  /-- `mStream << v` -/
  | out (v : V)
  /-- a manipulator, or `mStream.flags(…)`, `mStream.precision(…)` -/
  | manip (f : F → F)
  /-- something that puts `mStream` into an error state -/
  | fail
  /-- the stringifier throws -/
  | throw
  /-- `mStream << toStr(number)` -/
  | fast (t : List Char)
  /-- `callStringifyImpl<false>(mStream, part)`, the stringifier of a part on the same stream -/
  | part (body : List (Act F V))
  /-- `mStream << toStr(part)`, where the part has the given stringifier -/
  | toStr (body : List (Act F V))

/-- A stream: its text, its flags, and whether it is free of errors. -/
structure Stream (F : Type) where
  text : List Char
  flags : F
  good : Bool
  deriving DecidableEq, Repr

variable {F V : Type}

/-- A new stream. -/
def Stream.new (L : Lib F V) : Stream F := { text := [], flags := L.init, good := true }

/-- Formatted output: ignored in an error state. -/
def Stream.write (s : Stream F) (r : List Char × F) : Stream F :=
  if s.good then { s with text := s.text ++ r.1, flags := r.2 } else s

/-- `resetFmt(mStream)`. -/
def Stream.raw (s : Stream F) (t : List Char) : Stream F :=
  if s.good then { s with text := s.text ++ t } else s

/-- The state: the stream of `getStringifyStream()` (StringifierBase.hpp:34-40), and the stream a stringifier writes to, if it is
another one. -/
structure St (F : Type) where
  tls : Stream F
  own : Option (Stream F)

/-- Doing something to `mStream`. -/
def St.on (s : St F) (g : Stream F → Stream F) : St F :=
  match s.own with
  | none => { s with tls := g s.tls }
  | some w => { s with own := some (g w) }

mutual
/-- One step; `true`: left by an exception. -/
def exec (L : Lib F V) : Act F V → St F → St F × Bool
  | .out v, s => (s.on fun w => w.write (L.put w.flags v), false)
  | .manip f, s => (s.on fun w => { w with flags := f w.flags }, false)
  | .fail, s => (s.on fun w => { w with good := false }, false)
  | .throw, s => (s, true)
  | .fast t, s => (s.on fun w => w.write (L.putStr w.flags t), false)
  | .part body, s =>
    -- StringifierBase.hpp:80-87
    let s1 := s.on fun w => w.raw L.reset
    let r := execAll L body s1
    if r.2 then (r.1, true) else (r.1.on fun w => w.raw L.reset, false)
  | .toStr body, s =>
    -- ToStr.hpp:26-30, then `mStream << result`
    let r := execAll L body { tls := { s.tls with text := [] }, own := none }
    if r.2 then ({ tls := r.1.tls, own := s.own }, true)
    else (St.on { tls := r.1.tls, own := s.own } fun w => w.write (L.putStr w.flags r.1.tls.text), false)
/-- A stringifier: its steps in order. -/
def execAll (L : Lib F V) : List (Act F V) → St F → St F × Bool
  | [], s => (s, false)
  | a :: as, s =>
    let r := exec L a s
    if r.2 then (r.1, true) else execAll L as r.1
end

/-- `toStr(x)`, ToStr.hpp:23-31, for `x` with the given stringifier: the shared stream afterwards and the result; `none` if the
stringifier throws. -/
def toStr (L : Lib F V) (tls : Stream F) (x : List (Act F V)) : Stream F × Option (List Char) :=
  let r := execAll L x { tls := { tls with text := [] }, own := none }
  (r.1.tls, if r.2 then none else some r.1.tls.text)

/-- `stringify<false>(stream, x)`, StringifierBase.hpp:72-76, for a new stream of the caller: the shared stream and what the
caller's stream holds. -/
def stringify (L : Lib F V) (tls : Stream F) (x : List (Act F V)) : Stream F × Option (List Char) :=
  let r := execAll L x { tls := tls, own := some (Stream.new L) }
  (r.1.tls, if r.2 then none else r.1.own.map (·.text))

/-- A call by the program. -/
inductive Call (F V : Type) where
  | toStr (x : List (Act F V))
  | stringify (x : List (Act F V))

def Call.run (L : Lib F V) (tls : Stream F) : Call F V → Stream F × Option (List Char)
  | .toStr x => ToStr.toStr L tls x
  | .stringify x => ToStr.stringify L tls x

/-- The calls of one thread in order: the results. -/
def runs (L : Lib F V) : Stream F → List (Call F V) → Stream F × List (Option (List Char))
  | tls, [] => (tls, [])
  | tls, c :: cs =>
    let r := c.run L tls
    let q := runs L r.1 cs
    (q.1, r.2 :: q.2)

end Verif.ToStr
