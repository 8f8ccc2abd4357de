import Verif.Str.Model
import Verif.CmdLine.Float
import Verif.Path.Model

/-!
# Command lines

Source: `include/SSVUtils/CmdLine/` (`Ctx.hpp`, `Ctx.inl`, `Cmd.hpp`, `Elements/*`, `Internal/Parser.hpp`).

Arguments are of the types `std::string`, `int`, `float` and `bool`. The recycling vector that owns the elements of a
command and the grouping by kind are one list per kind here, in order of creation. The action of a command is not modelled: the
model says that it runs and with which values. `FlagValueOpt<T>` calls the members of `FlagValue<T>`, which is not one of its bases (FlagValueOpt.hpp:34-42), so
that no program with an optional flag value compiles; it is modelled as if the calls were to its base `FlagValueImpl<T>`.
Commands with 2^32 words or more are not modelled.
-/

namespace Verif.CmdLine

open Verif

/-- The argument types. -/
inductive Kind where
  | str | int | float | bool
  deriving Repr, DecidableEq

inductive Val where
  | str (s : Str)
  | int (i : Int)
  | float (x : Flt)
  | bool (b : Bool)
  deriving Repr, DecidableEq

/-- What there is a wrong number of, Ctx.inl:75-76, 93-94, 108-109, 120-121. -/
inductive What where
  | flags | optionalFlagValues | requiredFlagValues | args
  deriving Repr, DecidableEq

/-- The exceptions: those of Exceptions.hpp:36-80, and the `std::runtime_error` of Parser.hpp. The pack of `packMismatch` is the one
with `behind` packs behind it. Their texts are in `Verif/CmdLine/Errors.lean`. -/
inductive Err where
  | cmdNotFound (name suggestion : Str)
  | mismatch (what : What) (expected : Nat)
  | packPosition
  | packMismatch (behind : Nat)
  | tooMany
  | flagNotFound (name : Str)
  | badValue (w : Str)
  deriving Repr, DecidableEq

/-- Why a computation does not go on: an exception, `std::terminate`, or undefined behaviour. -/
inductive Stop where
  | threw (e : Err)
  | died
  | ub
  deriving Repr, DecidableEq

/-! ## Parsing of values -/

/-- The number a text starts with; `none` if it does not start with a digit. -/
def leadingNat : Str → Option Nat
  | [] => none
  | c :: s =>
    match digitVal c with
    | none => none
    | some d => some (go d s)
where
  go (acc : Nat) : Str → Nat
    | [] => acc
    | c :: s =>
      match digitVal c with
      | none => acc
      | some d => go (acc * 10 + d) s

/-- A number with an optional sign. -/
def signedNum : Str → Option Int
  | '-' :: s => (leadingNat s).map (fun n : Nat => -(n : Int))
  | '+' :: s => (leadingNat s).map (fun n : Nat => (n : Int))
  | s => (leadingNat s).map (fun n : Nat => (n : Int))

/-- `std::stoi(s)`: white space, a sign, digits; what follows is ignored. `none` if it throws. -/
def stoi (s : Str) : Option Int :=
  match signedNum (s.dropWhile isSpace) with
  | none => none
  | some i => if -2 ^ 31 ≤ i ∧ i < 2 ^ 31 then some i else none

def trueValues : List Str := ["y".toList, "yes".toList, "on".toList, "true".toList, "1".toList]
def falseValues : List Str := ["n".toList, "no".toList, "off".toList, "false".toList, "0".toList]

/-- `Parser<T>::parse`, Parser.hpp:21-75. `sToInt` and `sToFloat` are `noexcept` (Casts.hpp:142-151), so that an exception of
`std::stoi` or `std::stof` ends the program. -/
def parse : Kind → Str → Except Stop Val
  | .str, s => .ok (.str s)
  | .int, s =>
    match stoi s with
    | some i => .ok (.int i)
    | none => .error .died
  | .float, s =>
    match FloatText.stof s with
    | some x => .ok (.float x)
    | none => .error .died
  | .bool, s =>
    match Verif.Path.toLower s with
    | .ok l =>
      if l ∈ trueValues then .ok (.bool true)
      else if l ∈ falseValues then .ok (.bool false)
      else .error (.threw (.badValue s))
    | _ => .error .ub

/-! ## Elements and commands -/

/-- `Arg`, Arg.hpp; no value before the first `set`. -/
structure Arg where
  kind : Kind
  value : Option Val
  deriving Repr, DecidableEq

/-- `ArgOpt`, ArgOpt.hpp. -/
structure ArgOpt where
  kind : Kind
  dflt : Val
  value : Option Val
  active : Bool
  deriving Repr, DecidableEq

/-- `ArgOpt::get`, ArgOpt.hpp:38-41. -/
def ArgOpt.get (a : ArgOpt) : Option Val := if a.active then a.value else some a.dflt

/-- `ArgPack`, ArgPack.hpp, BaseArgPack.hpp. -/
structure Pack where
  kind : Kind
  min : Nat
  max : Nat
  values : List Val
  deriving Repr, DecidableEq

/-- `isInfinite`, BaseArgPack.hpp:35-38. -/
def Pack.isInfinite (p : Pack) : Bool := p.min == 0 && p.max == 0

/-- `Flag`, Flag.hpp, BaseFlag.hpp; names with their prefixes. -/
structure Flag where
  short : Str
  long : Str
  active : Bool
  deriving Repr, DecidableEq

/-- `BaseFlag::BaseFlag`, BaseFlag.hpp:28-32. -/
def mkFlag (short long : Str) : Flag := ⟨'-' :: short, '-' :: '-' :: long, false⟩

/-- `FlagValue`, FlagValue.hpp. -/
structure FlagValue where
  short : Str
  long : Str
  kind : Kind
  value : Option Val
  deriving Repr, DecidableEq

def mkFlagValue (short long : Str) (kind : Kind) : FlagValue := ⟨'-' :: short, '-' :: '-' :: long, kind, none⟩

/-- `FlagValueOpt`, FlagValueOpt.hpp. -/
structure FlagValueOpt where
  short : Str
  long : Str
  kind : Kind
  dflt : Val
  value : Option Val
  active : Bool
  deriving Repr, DecidableEq

/-- `BaseFlag::hasName`, BaseFlag.hpp:41-44. -/
def hasName (short long name : Str) : Bool := name == short || name == long

/-- `Cmd`, Cmd.hpp:115-121. -/
structure Cmd where
  names : List Str
  args : List Arg
  argsOpt : List ArgOpt
  packs : List Pack
  flags : List Flag
  flagValues : List FlagValue
  flagValuesOpt : List FlagValueOpt
  deriving Repr, DecidableEq

/-- `Ctx`, Ctx.hpp:22-24. -/
structure Ctx where
  cmds : List Cmd
  main : Cmd
  deriving Repr, DecidableEq

/-- A command of a context. -/
inductive CmdRef where
  | main
  | cmd (i : Nat)
  deriving Repr, DecidableEq

def Ctx.get (x : Ctx) : CmdRef → Option Cmd
  | .main => some x.main
  | .cmd i => x.cmds[i]?

def Ctx.set (x : Ctx) (c : Cmd) : CmdRef → Ctx
  | .main => { x with main := c }
  | .cmd i => { x with cmds := x.cmds.set i c }

/-! ## Lookup -/

/-- The first command with the name, Ctx.inl:25-26; Cmd.hpp:186-189. -/
def findByName (cmds : List Cmd) (name : Str) : Option Nat :=
  match cmds with
  | [] => none
  | c :: cmds => if c.names.contains name then some 0 else (findByName cmds name).map (· + 1)

/-- The inner loop of the search for a suggestion, Ctx.inl:32-36. -/
def closestIn (name : Str) : List Str → Nat × Str → Outcome (Nat × Str)
  | [], best => .ok best
  | n :: ns, best => do
    let dist ← Verif.Str.getDistLevenshtein n name
    closestIn name ns (if dist < best.1 then (dist, n) else best)

/-- The outer loop, Ctx.inl:31. -/
def closest (name : Str) : List Cmd → Nat × Str → Outcome (Nat × Str)
  | [], best => .ok best
  | c :: cmds, best => do
    let best ← closestIn name c.names best
    closest name cmds best

/-- `findCmd`, Ctx.inl:23-39. -/
def findCmd (x : Ctx) (name : Str) : Except Stop Nat :=
  match findByName x.cmds name with
  | some i => .ok i
  | none =>
    match closest name x.cmds (2 ^ 64 - 1, []) with
    | .ok best => .error (.threw (.cmdNotFound name best.2))
    | _ => .error .ub

/-! ## Sorting the words -/

/-- `beginsAsFlag`, Ctx.hpp:26-30. -/
def beginsAsFlag (s : Str) : Except Stop Bool :=
  match Verif.Str.beginsWith s ['-'], Verif.Str.beginsWith s ['-', '-'] with
  | .ok a, .ok b => .ok (a || b)
  | _, _ => .error .ub

/-- The vectors `cFlags`, …, Ctx.inl:63-64. -/
structure Scan where
  flags : List Str
  fvs : List Str
  fvValues : List Str
  fvos : List Str
  fvoValues : List Str
  deriving Repr, DecidableEq

/-- One word, Ctx.inl:67-104. -/
def scanWord (cmd : Cmd) (sc : Scan) (s : Str) : Except Stop Scan := do
  let f ← beginsAsFlag s
  if f then
    match s.findIdx? (· == '=') with
    | none =>
      let sc := { sc with flags := sc.flags ++ [s] }
      if cmd.flags.length < sc.flags.length then .error (.threw (.mismatch .flags cmd.flags.length)) else pure sc
    | some pos =>
      let name := s.take pos
      let value := s.drop (pos + 1)
      if cmd.flagValuesOpt.any (fun f => hasName f.short f.long name) then
        let sc := { sc with fvos := sc.fvos ++ [s] }
        if cmd.flagValuesOpt.length < sc.fvos.length then .error (.threw (.mismatch .optionalFlagValues cmd.flagValuesOpt.length))
        else pure { sc with fvoValues := sc.fvoValues ++ [value] }
      else pure { sc with fvs := sc.fvs ++ [s], fvValues := sc.fvValues ++ [value] }
  else pure sc

/-- All words, Ctx.inl:65-105. -/
def scan (cmd : Cmd) : List Str → Scan → Except Stop Scan
  | [], sc => .ok sc
  | s :: ss, sc => do
    let sc ← scanWord cmd sc s
    scan cmd ss sc

/-- `eraseRemove(entered, f)`, Containers.hpp:193-197. -/
def eraseRemove (entered : List Str) (f : Str) : List Str := entered.filter (· ≠ f)

/-- Required arguments, Ctx.inl:116-125. -/
def takeArgs (count : Nat) : Nat → List Str → Except Stop (List Str × List Str)
  | 0, entered => .ok ([], entered)
  | _ + 1, [] => .error (.threw (.mismatch .args count))
  | n + 1, w :: entered => do
    let (taken, rest) ← takeArgs count n entered
    pure (w :: taken, rest)

/-- Optional arguments, Ctx.inl:129-137; the check in the loop never fires. -/
def takeOpt : Nat → List Str → List Str × List Str
  | 0, entered => ([], entered)
  | _ + 1, [] => ([], [])
  | n + 1, w :: entered =>
    let (taken, rest) := takeOpt n entered
    (w :: taken, rest)

/-! ## Setting values -/

/-- `ArgPack::set`, ArgPack.hpp:32-36. -/
def Pack.set (p : Pack) : List Str → Pack × Option Stop
  | [] => (p, none)
  | w :: ws =>
    match parse p.kind w with
    | .error e => (p, some e)
    | .ok v => ({ p with values := p.values ++ [v] } : Pack).set ws

/-- The packs, Ctx.inl:140-166. Returns the packs and the words that are left, and why it stopped. -/
def setPacks : List Pack → List Str → List Pack × List Str × Option Stop
  | [], entered => ([], entered, none)
  | p :: ps, entered =>
    if p.isInfinite then
      if ps ≠ [] then (p :: ps, entered, some (.threw .packPosition))
      else
        match p.set entered with
        | (p, some e) => (p :: ps, [], some e)
        | (p, none) =>
          match setPacks ps [] with
          | (ps, rest, e) => (p :: ps, rest, e)
    else if entered.length < p.min then (p :: ps, entered, some (.threw (.packMismatch ps.length)))
    else
      let count := if entered.length > p.max then p.max else entered.length
      match p.set (entered.take count) with
      | (p, some e) => (p :: ps, entered.drop count, some e)
      | (p, none) =>
        match setPacks ps (entered.drop count) with
        | (ps, rest, e) => (p :: ps, rest, e)

/-- `setElementValue<EType::Arg>` for `i = 0, 1, …`, Ctx.inl:171-172; Arg.hpp:24-27. -/
def setArgs : List Arg → List Str → List Arg × Option Stop
  | as, [] => (as, none)
  | [], _ :: _ => ([], some .ub)
  | a :: as, w :: ws =>
    match parse a.kind w with
    | .error e => (a :: as, some e)
    | .ok v =>
      match setArgs as ws with
      | (as, e) => ({ a with value := some v } :: as, e)

/-- `setElementValue<EType::ArgOpt>`, Ctx.inl:173-174; ArgOpt.hpp:33-37. -/
def setArgsOpt : List ArgOpt → List Str → List ArgOpt × Option Stop
  | as, [] => (as, none)
  | [], _ :: _ => ([], some .ub)
  | a :: as, w :: ws =>
    match parse a.kind w with
    | .error e => (a :: as, some e)
    | .ok v =>
      match setArgsOpt as ws with
      | (as, e) => ({ a with value := some v, active := true } :: as, e)

/-- `activateFlag`, Cmd.hpp:133-138, 181-184. -/
def activateFlag : List Flag → Str → List Flag × Option Stop
  | [], name => ([], some (.threw (.flagNotFound name)))
  | f :: fs, name =>
    if hasName f.short f.long name then ({ f with active := true } :: fs, none)
    else
      match activateFlag fs name with
      | (fs, e) => (f :: fs, e)

/-- Ctx.inl:175. -/
def activateFlags : List Flag → List Str → List Flag × Option Stop
  | fs, [] => (fs, none)
  | fs, n :: ns =>
    match activateFlag fs n with
    | (fs, some e) => (fs, some e)
    | (fs, none) => activateFlags fs ns

/-- `setElementValue<EType::FlagValue>`, Ctx.inl:176-177; FlagValue.hpp:30-33. -/
def setFlagValues : List FlagValue → List Str → List FlagValue × Option Stop
  | fs, [] => (fs, none)
  | [], _ :: _ => ([], some .ub)
  | f :: fs, w :: ws =>
    match parse f.kind w with
    | .error e => (f :: fs, some e)
    | .ok v =>
      match setFlagValues fs ws with
      | (fs, e) => ({ f with value := some v } :: fs, e)

/-- `setElementValue<EType::FlagValueOpt>`, Ctx.inl:178-179; FlagValueOpt.hpp:32-36. -/
def setFlagValuesOpt : List FlagValueOpt → List Str → List FlagValueOpt × Option Stop
  | fs, [] => (fs, none)
  | [], _ :: _ => ([], some .ub)
  | f :: fs, w :: ws =>
    match parse f.kind w with
    | .error e => (f :: fs, some e)
    | .ok v =>
      match setFlagValuesOpt fs ws with
      | (fs, e) => ({ f with value := some v, active := true } :: fs, e)

/-! ## Processing -/

/-- How `process` ends. -/
inductive Result where
  | ran (c : CmdRef)
  | stopped (s : Stop)
  deriving Repr, DecidableEq

/-- Everything before the first value is set, Ctx.inl:61-137. -/
def sortWords (cmd : Cmd) (entered : List Str) : Except Stop (Scan × List Str × List Str × List Str) := do
  let sc ← scan cmd entered ⟨[], [], [], [], []⟩
  if sc.fvs.length ≠ cmd.flagValues.length then .error (.threw (.mismatch .requiredFlagValues cmd.flagValues.length))
  else
    let entered := sc.flags.foldl eraseRemove entered
    let entered := sc.fvs.foldl eraseRemove entered
    let entered := sc.fvos.foldl eraseRemove entered
    let (as, entered) ← takeArgs cmd.args.length cmd.args.length entered
    let (os, entered) := takeOpt cmd.argsOpt.length entered
    pure (sc, as, os, entered)

/-- Setting the values, Ctx.inl:139-179. -/
def setValues (cmd : Cmd) (sc : Scan) (as os entered : List Str) : Cmd × Option Stop :=
  match setPacks cmd.packs entered with
  | (packs, _, some e) => ({ cmd with packs := packs }, some e)
  | (packs, rest, none) =>
    let cmd := { cmd with packs := packs }
    if rest ≠ [] then (cmd, some (.threw .tooMany))
    else
      match setArgs cmd.args as with
      | (args, some e) => ({ cmd with args := args }, some e)
      | (args, none) =>
        let cmd := { cmd with args := args }
        match setArgsOpt cmd.argsOpt os with
        | (argsOpt, some e) => ({ cmd with argsOpt := argsOpt }, some e)
        | (argsOpt, none) =>
          let cmd := { cmd with argsOpt := argsOpt }
          match activateFlags cmd.flags sc.flags with
          | (flags, some e) => ({ cmd with flags := flags }, some e)
          | (flags, none) =>
            let cmd := { cmd with flags := flags }
            match setFlagValues cmd.flagValues sc.fvValues with
            | (fvs, some e) => ({ cmd with flagValues := fvs }, some e)
            | (fvs, none) =>
              let cmd := { cmd with flagValues := fvs }
              match setFlagValuesOpt cmd.flagValuesOpt sc.fvoValues with
              | (fvos, e) => ({ cmd with flagValuesOpt := fvos }, e)

/-- The rest of `process` for one command. -/
def runCmd (x : Ctx) (r : CmdRef) (entered : List Str) : Ctx × Result :=
  match x.get r with
  | none => (x, .stopped .ub)
  | some cmd =>
    match sortWords cmd entered with
    | .error e => (x, .stopped e)
    | .ok (sc, as, os, entered) =>
      match setValues cmd sc as os entered with
      | (cmd, some e) => (x.set cmd r, .stopped e)
      | (cmd, none) => (x.set cmd r, .ran r)

/-- `process`, Ctx.inl:46-181. -/
def process (x : Ctx) (words : List Str) : Ctx × Result :=
  match words with
  | [] => runCmd x .main []
  | w :: ws =>
    match beginsAsFlag w with
    | .error e => (x, .stopped e)
    | .ok true => runCmd x .main (w :: ws)
    | .ok false =>
      match findCmd x w with
      | .error e => (x, .stopped e)
      | .ok i => runCmd x (.cmd i) ws

end Verif.CmdLine
