import Verif.Stringify.Model
import Verif.Basic

/-!
# Console formatting

`Core/ConsoleFmt/ConsoleFmt.hpp`, `Core/ConsoleFmt/Internal/ConsoleFmtImplUnix.hpp`, `ConsoleFmtImplNull.hpp`, and the horizontal rulers of
`Core/Log/Internal/LogImplEnabled.hpp`. The tables of codes and the text of a format string are those of `Verif/Stringify/Model.lean`.
-/

namespace Verif.Console

open Verif.Stringify (Style Color Cache Con fmtStr)

/-! ### Format strings -/

/-- A call of a function that returns a format string — `ConsoleFmt.hpp` 80-106. -/
inductive Fmt where
  | reset | style (y : Style) | fg (k : Color) | bg (k : Color)
  deriving DecidableEq, Repr

/-- What the streams and the library remember: the last style and colours (`getFmtCache`), the one static object that every format function
returns a reference to (`result` in `getFmtStr`, `ConsoleFmtImplUnix.hpp` 153), and what was written to each of the streams, which are numbered. -/
structure St where
  cache : Cache
  result : List Char
  outs : Nat → List Char

/-- Before the first call — `ConsoleFmtImplUnix.hpp` 103-104, 153: the cache has no format, the string is empty. -/
def St.init : St := ⟨Cache.init, [], fun _ => []⟩

/-- The update of the cache — `ConsoleFmtImplUnix.hpp` 160-180. -/
def update (f : Fmt) (c : Cache) : Cache :=
  match f with
  | .reset => { c with style := .none, fg := .default, bg := .default }
  | .style y => { c with style := y }
  | .fg k => { c with fg := k }
  | .bg k => { c with bg := k }

/-- `resetFmt`, `setStyle`, `setColorFG`, `setColorBG` — `ConsoleFmtImplUnix.hpp` 151-180, `ConsoleFmtImplNull.hpp` 19-34: update of the
cache and assignment to the static object; without console support nothing, and the string is empty. -/
def call (con : Con) (f : Fmt) (s : St) : St :=
  match con with
  | .null => s
  | .unix => { s with cache := update f s.cache, result := fmtStr (update f s.cache) }

/-- `stream << text`. -/
def put (i : Nat) (t : List Char) (s : St) : St := { s with outs := fun j => if j = i then s.outs j ++ t else s.outs j }

/-- `getStrClear` — `ConsoleFmtImplUnix.hpp` 30, 106, 181-184, `ConsoleFmtImplNull.hpp` 35-38. -/
def clearStr (con : Con) : List Char :=
  match con with
  | .null => []
  | .unix => ['\x1b', '[', '1', ';', '1', 'H', '\x1b', '[', '2', 'J']

/-- What a program does:
* `send i f`: `stream << setStyle(y)` and so on, where the string is written at once;
* `keep f`: `const auto& r = setStyle(y);` and so on, where the reference is kept for later;
* `use i`: `stream << r` with such a reference;
* `clear i`: `stream << clear()`;
* `text i t`: `stream << t`. -/
inductive Op where
  | send (i : Nat) (f : Fmt) | keep (f : Fmt) | use (i : Nat) | clear (i : Nat) | text (i : Nat) (t : List Char)

/-- One of these. All references refer to the same object; it is written character by character, `IgnoreManip.hpp` 54-58. -/
def step (con : Con) (o : Op) (s : St) : St :=
  match o with
  | .send i f => put i (call con f s).result (call con f s)
  | .keep f => call con f s
  | .use i => put i s.result s
  | .clear i => put i (clearStr con) s
  | .text i t => put i t s

/-- A program, from the first call on. -/
def exec (con : Con) (ops : List Op) : St := ops.foldl (fun s o => step con o s) St.init

/-! ### The size of the console -/

/-- What `ioctl(STDOUT_FILENO, TIOCGWINSZ, &w)` finds: the size of the terminal, or nothing if the standard output is not a terminal. -/
abbrev Tty := Option (Nat × Nat)

/-- `InfoImpl` and the ruler that `hr()` keeps. `none` while the static object does not exist; `some none`: the numbers are indeterminate. -/
structure Info where
  size : Option Tty
  ruler : Option (List Char)

/-- Before the first call. -/
def Info.init : Info := ⟨none, none⟩

/-- `getInfoImpl` — `ConsoleFmtImplUnix.hpp` 186-204: the size is asked for once, when it is first needed; the result of `ioctl` is not
looked at. `now` is the terminal at the time of the call. -/
def getInfo (now : Tty) (s : Info) : Tty × Info :=
  match s.size with
  | some t => (t, s)
  | none => (now, { s with size := some now })

/-- Reading a member of it: undefined if `ioctl` failed, as the variable was not initialised. -/
def read (f : Nat × Nat → Nat) : Tty → Outcome Nat
  | some p => .ok (f p)
  | none => .ub

/-- `Info::getColumnCount` — `ConsoleFmt.hpp` 123-126, `ConsoleFmtImplUnix.hpp` 212-215, `ConsoleFmtImplNull.hpp` 46-49. -/
def getColumnCount (con : Con) (now : Tty) (s : Info) : Outcome Nat × Info :=
  match con with
  | .null => (.ok 80, s)
  | .unix => (read Prod.fst (getInfo now s).1, (getInfo now s).2)

/-- `Info::getRowCount` — `ConsoleFmt.hpp` 129-132, `ConsoleFmtImplUnix.hpp` 216-219, `ConsoleFmtImplNull.hpp` 50-53. -/
def getRowCount (con : Con) (now : Tty) (s : Info) : Outcome Nat × Info :=
  match con with
  | .null => (.ok 50, s)
  | .unix => (read Prod.snd (getInfo now s).1, (getInfo now s).2)

/-- `isInfoValid` — `ConsoleFmt.hpp` 115-118, `ConsoleFmtImplUnix.hpp` 205-208, `ConsoleFmtImplNull.hpp` 39-42. -/
def isInfoValid : Con → Bool
  | .unix => true
  | .null => false

/-- `std::string(n, c)`: an exception if `n` is more than the longest string. -/
def mkString (maxSize n : Nat) (c : Char) : Outcome (List Char) := if n ≤ maxSize then .ok (List.replicate n c) else .throw

/-- `hr(offset, c)` — `LogImplEnabled.hpp` 137-140: the `int` is converted to `std::size_t` (64 bits) and the sum wraps around. -/
def hrOffset (con : Con) (maxSize : Nat) (now : Tty) (offset : Int) (c : Char) (s : Info) : Outcome (List Char) × Info :=
  match getColumnCount con now s with
  | (r, s) => (r >>= fun n => mkString maxSize ((n + offset) % 2 ^ 64).toNat c, s)

/-- `hr()` — `LogImplEnabled.hpp` 130-134: the string is made once. -/
def hr (con : Con) (maxSize : Nat) (now : Tty) (s : Info) : Outcome (List Char) × Info :=
  match s.ruler with
  | some t => (.ok t, s)
  | none =>
    match getColumnCount con now s with
    | (r, s) =>
      match r >>= fun n => mkString maxSize n '_' with
      | .ok t => (.ok t, { s with ruler := some t })
      | e => (e, s)

end Verif.Console
