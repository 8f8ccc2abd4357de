import Verif.Basic
import Mathlib.Algebra.Order.Ring.Rat

/-!
# Benchmarks

Source: `include/SSVUtils/Benchmark/Src/ImplEnabled.cpp`, `Src/Data.cpp`, `Src/DataGroup.cpp`, `Inc/DataBase.hpp`,
`Inc/Benchmark.hpp:42-86`.

One thread (all data is `thread_local`). Points in time are what the clock returns, in nanoseconds since its epoch; nothing
is assumed about them. What is logged is modelled as a list of lines: the title given to `lo` and the duration whose text is
written (for the text, see `getString`; for how `lo` writes a title, see the area `Log`).
-/

namespace Verif.Bench

open Verif

abbrev Str := List Char

/-- `Data`, Inc/Data.hpp:22-33. -/
structure Data where
  tp : Int
  name : Str
  deriving DecidableEq, Repr

/-- `Data::getDuration()` called at time `t`, Src/Data.cpp:23-27. -/
def Data.getDuration (d : Data) (t : Int) : Int := t - d.tp

/-- `DataGroup`, Inc/DataGroup.hpp:18-31. `⟨0, 0⟩` is the value-initialised object. -/
structure Grp where
  tp : Int
  duration : Int
  deriving DecidableEq, Repr

/-- `reset`, Src/DataGroup.cpp:15-19. -/
def Grp.reset (t : Int) (_ : Grp) : Grp := ⟨t, 0⟩

/-- `resume`, Src/DataGroup.cpp:21-24. -/
def Grp.resume (t : Int) (g : Grp) : Grp := { g with tp := t }

/-- `pause`, Src/DataGroup.cpp:26-30. -/
def Grp.pause (t : Int) (g : Grp) : Grp := { g with duration := g.duration + (t - g.tp) }

/-- What is logged. -/
inductive Ev where
  /-- a title and a duration, by `endLo` -/
  | bench (title : Str) (ns : Int)
  /-- by `groupEndLo` -/
  | group (title : Str) (ns : Int)
  /-- an empty line -/
  | blank
  deriving DecidableEq, Repr

/-- The `thread_local` variables, ImplEnabled.cpp:21-37, and the log. The stack begins with its last element. The map of
groups is a function: `operator[]` makes a value-initialised object for a name it does not have. -/
structure St where
  stack : List Data
  hadNested : Bool
  groups : Str → Grp
  log : List Ev

/-- At the start of the program. -/
def St.init : St := ⟨[], false, fun _ => ⟨0, 0⟩, []⟩

/-- `getGroupMap()[g]` changed by `f`. -/
def St.onGroup (st : St) (g : Str) (f : Grp → Grp) : St :=
  { st with groups := fun h => if h = g then f (st.groups h) else st.groups h }

/-- `start`, ImplEnabled.cpp:45-50. -/
def start (t : Int) (name : Str) (st : St) : St :=
  let st := { st with stack := ⟨t, name⟩ :: st.stack }
  if 1 < st.stack.length then { st with hadNested := true } else st

/-- `getEndData`, ImplEnabled.cpp:39-43, 52-58. -/
def getEndData (dbg : Bool) (st : St) : Outcome (Data × St) :=
  match st.stack with
  | d :: ds => .ok (d, { st with stack := ds })
  | [] => if dbg then .assertFail else .ub

def titleStart : Str := ['B', 'e', 'n', 'c', 'h', 'm', 'a', 'r', 'k', ' ', '#']

/-- The loop that adds the dashes, ImplEnabled.cpp:69. -/
def dashes : Nat → Str → Str
  | 0, s => s
  | n + 1, s => dashes n (s ++ ['-', '-', '-', '-'])

/-- The title, ImplEnabled.cpp:64-73, for the size of the stack. -/
def logTitle (size : Nat) : Str :=
  if 0 < size then dashes size titleStart ++ ['>', ' '] else titleStart ++ ['^', ' ']

/-- `endLo`, ImplEnabled.cpp:60-85; `t` is the time at which `last.getString()` asks for the duration. -/
def endLo (dbg : Bool) (t : Int) (st : St) : Outcome St := do
  let (last, st) ← getEndData dbg st
  let st := { st with log := st.log ++ [Ev.bench (logTitle st.stack.length ++ last.name) (last.getDuration t)] }
  if st.stack.isEmpty && st.hadNested then
    return { st with hadNested := false, log := st.log ++ [.blank] }
  else return st

def groupTitle : Str := ['B', 'e', 'n', 'c', 'h', 'm', 'a', 'r', 'k', 'G', 'r', 'o', 'u', 'p', ' ', '#']

/-- `groupEndLo`, ImplEnabled.cpp:100-107; `t` is the time of the reset. -/
def groupEndLo (t : Int) (g : Str) (st : St) : St :=
  let st := { st with log := st.log ++ [Ev.group (groupTitle ++ g) (st.groups g).duration] }
  st.onGroup g (Grp.reset t)

/-- The calls of the interface, ImplEnabled.cpp:45-107. -/
inductive Call where
  | start (name : Str)
  /-- `getEndData()`, result dropped -/
  | getEnd
  | endLo
  | groupReset (g : Str)
  | groupResume (g : Str)
  | groupPause (g : Str)
  | groupEndLo (g : Str)

/-- One call, at a time. -/
def step (dbg : Bool) (t : Int) (st : St) : Call → Outcome St
  | .start n => .ok (start t n st)
  | .getEnd => do
    let r ← getEndData dbg st
    return r.2
  | .endLo => endLo dbg t st
  | .groupReset g => .ok (st.onGroup g (Grp.reset t))
  | .groupResume g => .ok (st.onGroup g (Grp.resume t))
  | .groupPause g => .ok (st.onGroup g (Grp.pause t))
  | .groupEndLo g => .ok (groupEndLo t g st)

/-- Calls one after the other. -/
def run (dbg : Bool) : List (Int × Call) → St → Outcome St
  | [], st => .ok st
  | (t, c) :: cs, st => do
    let st ← step dbg t st c
    run dbg cs st

/-! ## The text of a duration -/

/-- The last `k` decimal digits of `n`. -/
def lastDigits : Nat → Nat → Str
  | 0, _ => []
  | k + 1, n => lastDigits k (n / 10) ++ [Nat.digitChar (n % 10)]

/-- `printf("%f", x)` given the nearest multiple of 10⁻⁶, as a number of millionths. -/
def fixed (n : Int) : Str :=
  (if n < 0 then ['-'] else []) ++ Nat.toDigits 10 (n.natAbs / 1000000) ++ '.' :: lastDigits 6 (n.natAbs % 1000000)

/-- `getString()`, Inc/DataBase.hpp:25-30. `rnd` rounds to `double`, `nearest` is how `std::to_string` rounds to
millionths. -/
def getString (rnd : ℚ → ℚ) (nearest : ℚ → ℤ) (ns : Int) : Str :=
  let ms := rnd (rnd (ns : ℚ) / 1000000)
  fixed (nearest (ms * 1000000)) ++ [' ', 'm', 's']

end Verif.Bench
