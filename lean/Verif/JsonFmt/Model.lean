import Verif.Json.Writer
import Verif.Stringify.Model

/-!
# The JSON writer with console colours

Source: `include/SSVUtils/Json/Io/Writer.hpp`, `Writer.inl`, `Json/Common/Common.hpp:60-80`,
`Core/String/Utils.hpp:278-285`, `Core/ConsoleFmt`.

Here both settings of the writer, `fmt` and `pretty`, are modelled; `Verif.Json.writeVal` is the case `fmt = false`
(`JsonFmt.plain_writer`).

`wFmt` passes the results of three calls to `appendTo`. Each of them returns a reference to the same static object
(`getFmtStr`, ConsoleFmtImplUnix.hpp:151-158), and C++ leaves open in which order the arguments are evaluated: the order
is a parameter, `ord`.
-/

namespace Verif.JsonFmt

open Verif Verif.Json Verif.Stringify

variable {R : Type} (ops : RealOps R)

/-- The three argument expressions of the call in `wFmt`, Writer.hpp:46-47. -/
inductive Arg where
  | reset | fg | style
  deriving DecidableEq, Repr

/-- Compile-time settings of the writer (Common.hpp:62-80), console implementation, evaluation order. -/
structure Cfg where
  con : Con
  fmt : Bool
  pretty : Bool
  ord : List Arg

/-- Members of `Writer`, Writer.hpp:27-29, and the console format cache. -/
structure FW where
  out : List Char
  depth : Nat
  needIndent : Bool
  cache : Cache
  deriving Repr, DecidableEq

/-- Effect of evaluating an argument on the cache: `getStrResetFmt`, `getStrColorFG`, `getStrStyle`,
ConsoleFmtImplUnix.hpp:160-175. -/
def Arg.eval (k : Color) (y : Style) (c : Cache) : Arg → Cache
  | .reset => ⟨.none, .default, .default⟩
  | .fg => { c with fg := k }
  | .style => { c with style := y }

/-- `wFmt`, Writer.hpp:43-48, with `appendTo`, String/Utils.hpp:281-285: the three references denote the same string,
which holds what the argument evaluated last put there. -/
def FW.fmt (cfg : Cfg) (k : Color) (y : Style) (w : FW) : FW :=
  if cfg.fmt then
    match cfg.con with
    | .null => w
    | .unix =>
      let c := cfg.ord.foldl (Arg.eval k y) w.cache
      { w with out := w.out ++ fmtStr c ++ fmtStr c ++ fmtStr c, cache := c }
  else w

/-- `indent`, Writer.hpp:37-41. -/
def FW.indent (w : FW) : FW :=
  { w with out := w.out ++ (List.replicate w.depth [' ', ' ', ' ', ' ']).flatten, needIndent := false }

/-- `wNL`, Writer.hpp:50-57. -/
def FW.nl (cfg : Cfg) (w : FW) : FW :=
  if cfg.pretty then { w with out := w.out ++ ['\n'], needIndent := true } else w

/-- `wWS`, Writer.hpp:58-64. -/
def FW.ws (cfg : Cfg) (w : FW) : FW := if cfg.pretty then { w with out := w.out ++ [' '] } else w

/-- `wOut`, Writer.hpp:66-74. -/
def FW.put (cfg : Cfg) (s : List Char) (w : FW) : FW :=
  let w := if cfg.pretty && w.needIndent then w.indent else w
  { w with out := w.out ++ s }

/-- `++depth`, `--depth`, Writer.hpp:96, 117, 130, 142. -/
def FW.deeper (w : FW) : FW := { w with depth := w.depth + 1 }
def FW.shallower (w : FW) : FW := { w with depth := w.depth - 1 }

/-- `writeKey`, the colon and what follows it, Writer.hpp:149-153 and 101-107. -/
def FW.key (cfg : Cfg) (k : List Char) (nl : Bool) (w : FW) : FW :=
  let w := (w.fmt cfg .lightGray .none).put cfg ('"' :: k ++ ['"'])
  let w := ((w.fmt cfg .lightGray .bold).put cfg [':']).ws cfg
  if nl then w.nl cfg else w

/-- The separator of members, Writer.hpp:111-115: no `wFmt`. -/
def FW.objSep (cfg : Cfg) (w : FW) : FW := ((w.put cfg [',']).ws cfg).nl cfg

/-- The separator of elements, Writer.hpp:135-140. -/
def FW.arrSep (cfg : Cfg) (w : FW) : FW := (((w.fmt cfg .lightGray .bold).put cfg [',']).ws cfg).nl cfg

/-- Opening and closing of objects and arrays, Writer.hpp:92-96, 117-121, 126-130, 142-146. -/
def FW.opening (cfg : Cfg) (c : Char) (w : FW) : FW := (((w.fmt cfg .lightGray .bold).put cfg [c]).nl cfg).deeper
def FW.closing (cfg : Cfg) (c : Char) (w : FW) : FW := ((w.shallower.fmt cfg .lightGray .bold).nl cfg).put cfg [c]

mutual
/-- `write(const Val&)`, Writer.inl:19-32, with the `write` overloads for `Obj` (Writer.hpp:90-122), `Arr` (124-147), `Str`
(155-159), `Num` (161-171), `Bln` (173-177), `Nll` (179-183). -/
def writeValF (cfg : Cfg) : Val R → FW → Outcome FW
  | .obj kvs, w => do
    let w ← writeObjF cfg kvs (w.opening cfg '{')
    return w.closing cfg '}'
  | .arr vs, w => do
    let w ← writeArrF cfg vs (w.opening cfg '[')
    return w.closing cfg ']'
  | .str s, w => .ok ((w.fmt cfg .lightYellow .none).put cfg ('"' :: s ++ ['"']))
  | .num n, w => do
    let t ← numText ops n
    return (w.fmt cfg .lightRed .none).put cfg t
  | .bln b, w =>
    .ok ((w.fmt cfg .lightCyan .none).put cfg (if b then ['t', 'r', 'u', 'e'] else ['f', 'a', 'l', 's', 'e']))
  | .nll, w => .ok ((w.fmt cfg .lightMagenta .none).put cfg ['n', 'u', 'l', 'l'])

/-- `repeatWithSeparator` over the elements of an `Arr`, Writer.hpp:76-86, 132-140. -/
def writeArrF (cfg : Cfg) : List (Val R) → FW → Outcome FW
  | [], w => .ok w
  | [v], w => writeValF cfg v w
  | v :: vs, w => do
    let w ← writeValF cfg v w
    writeArrF cfg vs (w.arrSep cfg)

/-- `repeatWithSeparator` over the pairs of an `Obj`, Writer.hpp:76-86, 98-115. -/
def writeObjF (cfg : Cfg) : List (List Char × Val R) → FW → Outcome FW
  | [], w => .ok w
  | [(k, v)], w => writeValF cfg v (w.key cfg k (isObjOrArr v))
  | (k, v) :: kvs, w => do
    let w ← writeValF cfg v (w.key cfg k (isObjOrArr v))
    writeObjF cfg kvs (w.objSep cfg)
end

/-- `getWriteToStr`, Val.hpp:376-382, with the console format cache `c` at that moment. -/
def writeF (cfg : Cfg) (v : Val R) (c : Cache) : Outcome (List Char × Cache) := do
  let w ← writeValF ops cfg v ⟨[], 0, false, c⟩
  return (w.out, w.cache)

end Verif.JsonFmt
