import Verif.CmdLine.Help

/-!
# The exceptions of command lines

Source: `include/SSVUtils/CmdLine/Internal/Exceptions.hpp`, and where they are thrown: `Ctx.inl`, `Cmd.hpp`, `Internal/Parser.hpp`. As for
the help texts, `buf` stands for the buffer of `toStr`. Running out of memory is not modelled.
-/

namespace Verif.CmdLine

open Verif

/-- What a handler gets: `getTitle()`, for exceptions of the type `Exception::Base` (Exceptions.hpp:21-35), and `what()`. -/
structure Exc where
  title : Option Str
  what : Str
  deriving Repr, DecidableEq

def xSig : Str := ['S', 'i', 'g', 'n', 'a', 't', 'u', 'r', 'e', ' ', 'm', 'i', 's', 'm', 'a', 't', 'c', 'h']
def xNo : Str := ['I', 'n', 'c', 'o', 'r', 'r', 'e', 'c', 't', ' ', 'n', 'u', 'm', 'b', 'e', 'r', ' ', 'o', 'f', ' ']
def xExp : Str := [' ', '-', ' ', 'e', 'x', 'p', 'e', 'c', 't', 'e', 'd', ':', ' ']
def xFor : Str := [' ', 'f', 'o', 'r', ' ', 'c', 'o', 'm', 'm', 'a', 'n', 'd', ' ']
def xWFlags : Str := ['f', 'l', 'a', 'g', 's']
def xWOpts : Str := ['o', 'p', 't', 'i', 'o', 'n', 'a', 'l', ' ', 'f', 'l', 'a', 'g', ' ', 'v', 'a', 'l', 'u', 'e', 's']
def xWReqs : Str := ['r', 'e', 'q', 'u', 'i', 'r', 'e', 'd', ' ', 'f', 'l', 'a', 'g', ' ', 'v', 'a', 'l', 'u', 'e', 's']
def xWArgs : Str := ['a', 'r', 'g', 's']
def xFlag404 : Str := ['F', 'l', 'a', 'g', ' ', 'n', 'o', 't', ' ', 'f', 'o', 'u', 'n', 'd']
def xFlagA : Str := ['F', 'l', 'a', 'g', ' ', '`']
def xFlagB : Str := ['`', ' ', 'n', 'o', 't', ' ', 'f', 'o', 'u', 'n', 'd', ' ', 'i', 'n', ' ', 'c', 'o', 'm', 'm', 'a', 'n', 'd',
  ' ']
def xCmd404 : Str := ['C', 'o', 'm', 'm', 'a', 'n', 'd', ' ', 'n', 'o', 't', ' ', 'f', 'o', 'u', 'n', 'd']
def xCmdA : Str := ['C', 'o', 'm', 'm', 'a', 'n', 'd', ' ', 'w', 'i', 't', 'h', ' ', 'n', 'a', 'm', 'e', ' ', '<']
def xCmdB : Str := ['>', ' ', 'n', 'o', 't', ' ', 'f', 'o', 'u', 'n', 'd', ' ', '-', ' ', 'd', 'i', 'd', ' ', 'y', 'o', 'u', ' ', 'm',
  'e', 'a', 'n', ' ', '<']
def xCmdC : Str := ['>', '?']
def xPos : Str := ['I', 'n', 'f', 'i', 'n', 'i', 't', 'e', ' ', 'A', 'r', 'g', 'P', 'a', 'c', 'k', ' ', 'p', 'o', 's', 'i', 't', 'i',
  'o', 'n', ' ', 'e', 'r', 'r', 'o', 'r']
def xPosA : Str := ['I', 'n', 'f', 'i', 'n', 'i', 't', 'e', ' ', 'A', 'r', 'g', 'P', 'a', 'c', 'k', 's', ' ', 'm', 'u', 's', 't', ' ',
  'b', 'e', ' ', 's', 'p', 'e', 'c', 'i', 'f', 'i', 'e', 'd', ' ', 'l', 'a', 's', 't', ' ', 'i', 'n', ' ', 't', 'h', 'e', ' ', 'c', 'o',
  'm', 'm', 'a', 'n', 'd']
def xPackMis : Str := ['A', 'r', 'g', 'P', 'a', 'c', 'k', ' ', 's', 'i', 'g', 'n', 'a', 't', 'u', 'r', 'e', ' ', 'm', 'i', 's', 'm',
  'a', 't', 'c', 'h']
def xPackA : Str := ['I', 'n', 'c', 'o', 'r', 'r', 'e', 'c', 't', ' ', 'n', 'u', 'm', 'b', 'e', 'r', ' ', 'o', 'f', ' ', 'p', 'a',
  'r', 'a', 'm', 'e', 't', 'e', 'r', 's', ' ', 'f', 'o', 'r', ' ', 'A', 'r', 'g', 'P', 'a', 'c', 'k', ' ', '`']
def xPackB : Str := ['`', ' ', '-', ' ', 'e', 'x', 'p', 'e', 'c', 't', 'e', 'd', ' ', '(']
def xDots : Str := [' ', '.', '.', ' ']
def xParse : Str := ['P', 'a', 'r', 's', 'i', 'n', 'g', ' ', 'e', 'r', 'r', 'o', 'r']
def xMany : Str := ['T', 'o', 'o', ' ', 'm', 'a', 'n', 'y', ' ', 'a', 'r', 'g', 'u', 'm', 'e', 'n', 't', 's', ' ', 'u', 's', 'e', 'd',
  ' ', 'i', 'n', ' ', 'c', 'o', 'm', 'm', 'a', 'n', 'd', ' ', 'l', 'i', 'n', 'e']
def xCannot : Str := ['C', 'a', 'n', 'n', 'o', 't', ' ', 'p', 'a', 'r', 's', 'e', ' ', '\'']
def xBool : Str := ['\'', ' ', 't', 'o', ' ', 'b', 'o', 'o', 'l']

/-- The names of elements in the messages, Ctx.inl:75, 93, 108, 121. -/
def What.name : What → Str
  | .flags => xWFlags
  | .optionalFlagValues => xWOpts
  | .requiredFlagValues => xWReqs
  | .args => xWArgs

/-- `getForCmdPhrase`, Ctx.hpp:32-37. -/
def forCmdPhrase (main : Bool) (names : List Str) : Outcome Str :=
  if main then .ok [] else do
    let n ← namesStr names
    return xFor ++ n

/-- The exception objects: `createFlagNotFound`, `createCmdNotFound`, `createSignatureMismatch`, `createArgPackInfinitePositionError`,
`createArgPackSignatureMismatch`, `createParsingError`, Exceptions.hpp:37-80, with the arguments of the `throw` expressions in Ctx.inl and
Cmd.hpp:137; `std::runtime_error`, Parser.hpp:72. `main` says whether `c` is the main command, `packNames` are the names of its packs. -/
def excOf (buf : Str) (main : Bool) (c : Cmd) (packNames : List Str) : Err → Outcome Exc
  | .flagNotFound f => do
    let n ← namesStr c.names
    return ⟨some xFlag404, xFlagA ++ f ++ xFlagB ++ n⟩
  | .cmdNotFound w s => .ok ⟨some xCmd404, xCmdA ++ w ++ xCmdB ++ s ++ xCmdC⟩
  | .mismatch w n => do
    let p ← forCmdPhrase main c.names
    let t ← IntStr.toStr .ulong buf n
    return ⟨some xSig, xNo ++ w.name ++ [' '] ++ p ++ xExp ++ t⟩
  | .packPosition => .ok ⟨some xPos, xPosA⟩
  | .packMismatch behind =>
    match c.packs[c.packs.length - 1 - behind]?, packNames[c.packs.length - 1 - behind]? with
    | some p, some name => do
      let a ← IntStr.toStr .ulong buf p.min
      let b ← IntStr.toStr .ulong buf p.max
      return ⟨some xPackMis, xPackA ++ name ++ xPackB ++ a ++ xDots ++ b ++ [')']⟩
    | _, _ => .ub
  | .tooMany => .ok ⟨some xParse, xMany⟩
  | .badValue w => .ok ⟨none, xCannot ++ w ++ xBool⟩

/-- The command `process` uses, Ctx.inl:53-58; the main command also when there is no such command. -/
def selected (x : Ctx) : List Str → CmdRef
  | [] => .main
  | w :: _ =>
    match beginsAsFlag w with
    | .ok false => (match findByName x.cmds w with | some i => .cmd i | none => .main)
    | _ => .main

/-- What `try { ctx.process(words); } catch(…) { … }` catches; `none` if nothing is thrown. -/
def caught (buf : Str) (x : Ctx) (packNames : CmdRef → List Str) (words : List Str) : Option (Outcome Exc) :=
  match (process x words).2 with
  | .stopped (.threw e) =>
    some (excOf buf (selected x words == .main) ((x.get (selected x words)).getD x.main) (packNames (selected x words)) e)
  | _ => none

end Verif.CmdLine
