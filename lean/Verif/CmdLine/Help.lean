import Verif.CmdLine.Model
import Verif.IntStr.Model

/-!
# Help texts of commands

Source: `include/SSVUtils/CmdLine/Cmd.hpp` (`ManagerElements`, `getHelpStr`, `getNamesStr`, `getStr`) and the usage strings of
`Elements/*`. `buf` is the buffer of `toStr` for `unsigned long`; what it holds before a call does not matter (C37), so one
buffer stands for all calls.
-/

namespace Verif.CmdLine

open Verif

/-- `EType`, Internal/EType.hpp:12-20. -/
inductive EType where
  | arg | argOpt | argPack | flag | flagValue | flagValueOpt
  deriving Repr, DecidableEq

/-- What the usage string depends on. Flag names are given as to the constructor, without their prefixes. -/
inductive EInfo where
  | arg | argOpt
  | argPack (min max : Nat)
  | flag (short long : Str)
  | flagValue (short long : Str)
  | flagValueOpt (short long : Str)
  deriving Repr, DecidableEq

/-- `T::getEType()`, EType.hpp:24-31. -/
def EInfo.etype : EInfo → EType
  | .arg => .arg
  | .argOpt => .argOpt
  | .argPack _ _ => .argPack
  | .flag _ _ => .flag
  | .flagValue _ _ => .flagValue
  | .flagValueOpt _ _ => .flagValueOpt

/-- `BaseElement`, BaseElement.hpp:17-44. -/
structure Elem where
  info : EInfo
  name : Str
  brief : Str
  desc : Str
  deriving Repr, DecidableEq

/-- `getUsageStr()`: BaseArg.hpp:20-23, ArgOpt.hpp:45-48, BaseArgPack.hpp:51-55, Flag.hpp:37-40, FlagValue.hpp:42-45,
FlagValueOpt.hpp:44-48; prefixes BaseFlag.hpp:18-33. -/
def usageStr (buf : Str) (e : Elem) : Outcome Str :=
  match e.info with
  | .arg => .ok (['(', 'A', 'R', 'G', ' '] ++ e.name ++ [')'])
  | .argOpt => .ok (['(', 'A', 'R', 'G', 'O', 'P', 'T', ' '] ++ e.name ++ [')'])
  | .argPack min max => do
    let a ← IntStr.toStr .ulong buf min
    let b ← if min == 0 && max == 0 then .ok ['.', '.', '.'] else IntStr.toStr .ulong buf max
    return ['(', 'P', 'A', 'C', 'K', ' '] ++ e.name ++ [' ', '['] ++ a ++ ['/'] ++ b ++ [']', ')']
  | .flag s l => .ok (['['] ++ ('-' :: s) ++ [' ', '|', '|', ' '] ++ ('-' :: '-' :: l) ++ [']'])
  | .flagValue s l =>
    .ok (['['] ++ ('-' :: s) ++ ['=', '(', '.', '.', '.', ')', ' ', '|', '|', ' '] ++ ('-' :: '-' :: l) ++ ['=', '(', '.', '.', '.', ')', ']'])
  | .flagValueOpt s l =>
    .ok (['[', 'O', 'P', 'T', ' '] ++ ('-' :: s) ++ ['=', '(', '.', '.', '.', ')', ' ', '|', '|', ' ', 'O', 'P', 'T', ' '] ++ ('-' :: '-' :: l) ++ ['=', '(', '.', '.', '.', ')', ']'])

/-- `BaseElement::getHelpStr()`, BaseElement.hpp:46-56. -/
def elemHelp (buf : Str) (e : Elem) : Outcome Str := do
  let u ← usageStr buf e
  let r := if u.isEmpty then [] else ['*', ' '] ++ u
  let r := if e.name.isEmpty then r else r ++ ['\n', ' ', ' ', '-', '-'] ++ e.name
  let r := if e.brief.isEmpty then r else r ++ ['\n', ' ', ' ', '-', '-'] ++ e.brief
  let r := if e.desc.isEmpty then r else r ++ ['\n', ' ', ' ', '-', '-'] ++ e.desc
  return r ++ ['\n', '\n']

/-- `groupedElements`, Cmd.hpp:52-66: one list for each kind. -/
abbrev Groups := EType → List Elem

/-- `ManagerElements::create`, Cmd.hpp:69-78. -/
def Groups.create (g : Groups) (e : Elem) : Groups :=
  fun k => if k = e.info.etype then g k ++ [e] else g k

/-- A command after a sequence of `create` calls. -/
def created : List Elem → Groups → Groups
  | [], g => g
  | e :: es, g => created es (g.create e)

/-- The loop over the elements of a group. -/
def addHelps (buf : Str) : List Elem → Str → Outcome Str
  | [], r => .ok r
  | e :: es, r => do
    let h ← elemHelp buf e
    addHelps buf es (r ++ h)

/-- `getHelpStrForET`, Cmd.hpp:147-158. -/
def helpFor (buf : Str) (g : Groups) (r : Str) (k : EType) (title : Str) : Outcome Str :=
  if (g k).isEmpty then .ok r
  else do
    let r := r ++ (['\t'] ++ title ++ [':', '\n'])
    let r ← addHelps buf (g k) r
    return r ++ ['\n']

def tArg : Str := ['R', 'e', 'q', 'u', 'i', 'r', 'e', 'd', ' ', 'a', 'r', 'g', 'u', 'm', 'e', 'n', 't', 's']
def tArgOpt : Str := ['O', 'p', 't', 'i', 'o', 'n', 'a', 'l', ' ', 'a', 'r', 'g', 'u', 'm', 'e', 'n', 't', 's']
def tPack : Str := ['A', 'r', 'g', 'u', 'm', 'e', 'n', 't', ' ', 'p', 'a', 'c', 'k', 's']
def tFlag : Str := ['F', 'l', 'a', 'g', 's']
def tFlagValue : Str := ['F', 'l', 'a', 'g', ' ', 'v', 'a', 'l', 'u', 'e', 's']
def tFlagValueOpt : Str := ['O', 'p', 't', 'i', 'o', 'n', 'a', 'l', ' ', 'f', 'l', 'a', 'g', ' ', 'v', 'a', 'l', 'u', 'e', 's']

/-- `Cmd::getHelpStr()`, Cmd.hpp:229-245. -/
def helpStr (buf : Str) (desc : Str) (g : Groups) : Outcome Str := do
  let r := if desc.isEmpty then [] else ['>', '>'] ++ desc ++ ['\n', '\n']
  let r ← helpFor buf g r .arg tArg
  let r ← helpFor buf g r .argOpt tArgOpt
  let r ← helpFor buf g r .argPack tPack
  let r ← helpFor buf g r .flag tFlag
  let r ← helpFor buf g r .flagValue tFlagValue
  helpFor buf g r .flagValueOpt tFlagValueOpt

/-- The loop of `buildCmdStr`, Cmd.hpp:25-46, from index `i`; `i < size - 1` is computed in `std::size_t`. -/
def buildLoop (f : α → Outcome Str) (sep : Str) (c : List α) (i : Nat) (r : Str) : Outcome Str :=
  match h : c[i]? with
  | none => .ok r
  | some x => do
    let t ← f x
    let r := r ++ t
    buildLoop f sep c (i + 1) (if i < c.length - 1 then r ++ sep else r)
termination_by c.length - i
decreasing_by
  have := (List.getElem?_eq_some_iff.mp h).1
  omega

/-- `buildCmdStr(c, start, end, sep)`, Cmd.hpp:25-46. -/
def buildCmdStr (f : α → Outcome Str) (c : List α) (start fin sep : Str) : Outcome Str := do
  let r ← buildLoop f sep c 0 start
  return r ++ fin

/-- `Cmd::getNamesStr()`, Cmd.hpp:217-220. -/
def namesStr (names : List Str) : Outcome Str := buildCmdStr .ok names ['<'] ['>'] [' ', '|', '|', ' ']

/-- `Cmd::getStr<TET>()`, Cmd.hpp:221-225. -/
def groupStr (buf : Str) (g : Groups) (k : EType) : Outcome Str := buildCmdStr (usageStr buf) (g k) [] [] [' ']

end Verif.CmdLine
