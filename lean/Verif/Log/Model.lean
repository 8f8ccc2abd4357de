import Verif.Stringify.Model

/-!
# The log

Model of `Core/Log/Log.hpp` and `Core/Log/Internal/LogImplEnabled.hpp`: the object `lo()`, its
titles, the log stream and the console.

Simplifications: one thread, and stringifiers that do not log themselves (for several threads, the
mutex and such stringifiers see `Verif.Log.Threads`); `std::cout` is only written to by the log; the
counter of colours does not overflow (2^31 titles);
`hr` is not modelled; saving the log to a file: see `Verif.Files`.
-/

namespace Verif.Log

open Verif.Stringify

/-- What the log works on: `std::cout` with the console format cache, the log stream
(`Log.hpp` 26-32), the title of `lo()` (`LogImplEnabled.hpp` 43), the flag of `setLogSuppressed`
(`Log.hpp` 35-39), the map and the counter of `getUniqueColor` (`LogImplEnabled.hpp` 26, 30). -/
structure LogSt where
  cout : St
  log : List Char
  title : List Char
  suppressed : Bool
  colors : List (List Char × Color)
  lastColorIdx : Nat

/-- The state at the start of the program. -/
def LogSt.init : LogSt := ⟨⟨[], Cache.init⟩, [], [], false, [], 2⟩

/-- `Console::Color(getMod(i, 2, 7))` — `LogImplEnabled.hpp` 31: for `i >= 2` it is
`2 + (i - 2) % 5` (see `Verif.Num` for `getMod`), the enumerators are those of `ConsoleFmt.hpp`
41-60. -/
def colorOfIdx (i : Nat) : Color :=
  match 2 + (i - 2) % 5 with
  | 2 => .red
  | 3 => .green
  | 4 => .yellow
  | 5 => .blue
  | _ => .magenta

/-- `map.count(mStr)` / `map[mStr]`. -/
def findColor (t : List Char) : List (List Char × Color) → Option Color
  | [] => none
  | (k, c) :: m => if k = t then some c else findColor t m

/-- `std::cout << getUniqueColor(tStr)` — `LogImplEnabled.hpp` 24-35, 79. -/
def getUniqueColor (con : Con) (t : List Char) (s : LogSt) : LogSt :=
  match findColor t s.colors with
  | some c => { s with cout := setColorFG con c s.cout }
  | none =>
    { s with
      cout := setColorFG con (colorOfIdx s.lastColorIdx) s.cout
      colors := s.colors ++ [(t, colorOfIdx s.lastColorIdx)]
      lastColorIdx := s.lastColorIdx + 1 }

/-- `std::left << std::setw(LOut::leftW) << tStr` with `leftW = 38` — `LogImplEnabled.hpp` 40,
80-82. -/
def padded (t : List Char) : List Char := t ++ List.replicate (38 - t.length) ' '

/-- The title part of `operator<<` — `LogImplEnabled.hpp` 76-84. -/
def putTitle (con : Con) (s : LogSt) : LogSt :=
  match s.title with
  | [] => s
  | _ :: _ =>
    let tStr := ['['] ++ s.title ++ [']', ' ']
    let s1 := getUniqueColor con tStr s
    let s2 := { s1 with cout := put (padded tStr) (setStyle con .bold s1.cout) }
    let s3 := { s2 with log := s2.log ++ padded tStr }
    { s3 with title := [] }

/-- `lo() << value` — `LogImplEnabled.hpp` 69-94. -/
def putVal (con : Con) (litAddr : List Char) (v : Val) (s : LogSt) : LogSt :=
  if s.suppressed then s
  else
    let s1 := putTitle con s
    let c1 := resetFmt con s1.cout
    let c2 := stringify con true litAddr v c1
    let c3 := resetFmt con c2
    let l := stringify con false litAddr v ⟨s1.log, c3.cache⟩
    { s1 with cout := ⟨c3.out, l.cache⟩, log := l.out }

/-- `lo() << std::endl` — `LogImplEnabled.hpp` 98-105. -/
def endl (s : LogSt) : LogSt :=
  { s with cout := put ['\n'] s.cout, log := s.log ++ ['\n'] }

/-- `lo() << x` for an `IgnoreManip` (a format string of the console with text `t`) —
`LogImplEnabled.hpp` 109-113. -/
def putManip (t : List Char) (s : LogSt) : LogSt := { s with cout := put t s.cout }

/-- `lo(mTitle)` — `LogImplEnabled.hpp` 116-127. -/
def setTitle (con : Con) (litAddr : List Char) (v : Val) (s : LogSt) : LogSt :=
  if s.suppressed then s
  else
    let r := toStr con litAddr v s.cout.cache
    { s with cout := ⟨s.cout.out, r.2⟩, title := r.1 }

/-- `setLogSuppressed` — `Log.hpp` 109-112. -/
def setSuppressed (b : Bool) (s : LogSt) : LogSt := { s with suppressed := b }

/-- What a program can do with the log. -/
inductive Op where
  | title (v : Val) | val (v : Val) | endl | manip (t : List Char) | suppress (b : Bool)

/-- One operation. -/
def step (con : Con) (litAddr : List Char) (s : LogSt) : Op → LogSt
  | .title v => setTitle con litAddr v s
  | .val v => putVal con litAddr v s
  | .endl => endl s
  | .manip t => putManip t s
  | .suppress b => setSuppressed b s

/-- A history. -/
def exec (con : Con) (litAddr : List Char) (ops : List Op) (s : LogSt) : LogSt :=
  ops.foldl (step con litAddr) s

end Verif.Log
