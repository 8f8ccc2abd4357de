import Verif.Basic

/-!
# Stringification

Model of `Core/Stringifier/Stringifier.hpp`, `Core/String/StringifierBase.hpp`,
`Core/String/ToStr.hpp`, `Bimap/Inc/Stringifier.hpp` and of the format strings of
`Core/ConsoleFmt`.

Simplifications:

* what `mStream << value` writes for a value of a basic type (and the digits of an address) is a
  given text, part of the value;
* the types of the elements are not modelled: a container is a list of values, which may be of
  different types here (a C++ container is a special case);
* sets have no stringifier (the code does not compile), the empty tuple does not compile either;
* the console format cache is a plain value: data races between threads are not modelled;
* containers of 2^31 elements or more are not modelled (`auto i(0)` is an `int`).
-/

namespace Verif.Stringify

/-- `Console::Style` — `Core/ConsoleFmt/ConsoleFmt.hpp` 23-38. -/
inductive Style where
  | none | bold | dim | underline | blink | reverseFGBG | hidden
  | resetBold | resetDim | resetUnderline | resetBlink | resetReverse | resetHidden
  deriving DecidableEq, Repr

/-- `Console::Color` — `Core/ConsoleFmt/ConsoleFmt.hpp` 41-60. -/
inductive Color where
  | default | black | red | green | yellow | blue | magenta | cyan | lightGray | darkGray
  | lightRed | lightGreen | lightYellow | lightBlue | lightMagenta | lightCyan | lightWhite
  deriving DecidableEq, Repr

/-- `getStyleStr` with `getStyleCodes` — `ConsoleFmtImplUnix.hpp` 32-51, 108-111, 138-141: the
decimal text of the code in the table. -/
def styleStr : Style → List Char
  | .none => ['0']
  | .bold => ['1']
  | .dim => ['2']
  | .underline => ['4']
  | .blink => ['5']
  | .reverseFGBG => ['7']
  | .hidden => ['8']
  | .resetBold => ['2', '1']
  | .resetDim => ['2', '2']
  | .resetUnderline => ['2', '4']
  | .resetBlink => ['2', '5']
  | .resetReverse => ['2', '7']
  | .resetHidden => ['2', '8']

/-- `getColorFGStr` with `getColorFGCodes` — `ConsoleFmtImplUnix.hpp` 52-75, 112-113, 142-145. -/
def colorFGStr : Color → List Char
  | .default => ['3', '9']
  | .black => ['3', '0']
  | .red => ['3', '1']
  | .green => ['3', '2']
  | .yellow => ['3', '3']
  | .blue => ['3', '4']
  | .magenta => ['3', '5']
  | .cyan => ['3', '6']
  | .lightGray => ['3', '7']
  | .darkGray => ['9', '0']
  | .lightRed => ['9', '1']
  | .lightGreen => ['9', '2']
  | .lightYellow => ['9', '3']
  | .lightBlue => ['9', '4']
  | .lightMagenta => ['9', '5']
  | .lightCyan => ['9', '6']
  | .lightWhite => ['9', '7']

/-- `getColorBGStr` with `getColorBGCodes` — `ConsoleFmtImplUnix.hpp` 76-99, 114-115, 146-149. -/
def colorBGStr : Color → List Char
  | .default => ['4', '9']
  | .black => ['4', '0']
  | .red => ['4', '1']
  | .green => ['4', '2']
  | .yellow => ['4', '3']
  | .blue => ['4', '4']
  | .magenta => ['4', '5']
  | .cyan => ['4', '6']
  | .lightGray => ['4', '7']
  | .darkGray => ['1', '0', '0']
  | .lightRed => ['1', '0', '1']
  | .lightGreen => ['1', '0', '2']
  | .lightYellow => ['1', '0', '3']
  | .lightBlue => ['1', '0', '4']
  | .lightMagenta => ['1', '0', '5']
  | .lightCyan => ['1', '0', '6']
  | .lightWhite => ['1', '0', '7']

/-- `FmtCache` — `ConsoleFmtImplUnix.hpp` 101-106 (the last style and colours). -/
structure Cache where
  style : Style
  fg : Color
  bg : Color
  deriving DecidableEq, Repr

/-- The initial cache — `ConsoleFmtImplUnix.hpp` 103-104. -/
def Cache.init : Cache := ⟨.none, .default, .default⟩

/-- Which console implementation is compiled in — `ConsoleFmt.hpp` 66-73: the one with escape
sequences (Linux) or the one where everything is the empty string. -/
inductive Con where
  | unix | null
  deriving DecidableEq, Repr

/-- `getFmtStr` — `ConsoleFmtImplUnix.hpp` 151-158. -/
def fmtStr (c : Cache) : List Char :=
  ['\x1b', '['] ++ styleStr c.style ++ [';'] ++ colorFGStr c.fg ++ [';'] ++ colorBGStr c.bg ++ ['m']

/-- What a stringifier works on: the text streamed so far and the console format cache. -/
structure St where
  out : List Char
  cache : Cache
  deriving DecidableEq, Repr

/-- `mStream << text`. -/
def put (t : List Char) (s : St) : St := { s with out := s.out ++ t }

/-- `mStream << Console::resetFmt()` — `ConsoleFmt.hpp` 80-83, `ConsoleFmtImplUnix.hpp` 160-165,
`ConsoleFmtImplNull.hpp` 19-22, `StringifierBase.hpp` 28-31; streamed character by character,
`IgnoreManip.hpp` 54-58. -/
def resetFmt (con : Con) (s : St) : St :=
  match con with
  | .null => s
  | .unix =>
    let c : Cache := { style := .none, fg := .default, bg := .default }
    { out := s.out ++ fmtStr c, cache := c }

/-- `mStream << Console::setStyle(mStyle)` — `ConsoleFmt.hpp` 87-90, `ConsoleFmtImplUnix.hpp`
166-170, `ConsoleFmtImplNull.hpp` 23-26. -/
def setStyle (con : Con) (y : Style) (s : St) : St :=
  match con with
  | .null => s
  | .unix =>
    let c : Cache := { s.cache with style := y }
    { out := s.out ++ fmtStr c, cache := c }

/-- `mStream << Console::setColorFG(mColor)` — `ConsoleFmt.hpp` 95-98, `ConsoleFmtImplUnix.hpp`
171-175, `ConsoleFmtImplNull.hpp` 27-30. -/
def setColorFG (con : Con) (k : Color) (s : St) : St :=
  match con with
  | .null => s
  | .unix =>
    let c : Cache := { s.cache with fg := k }
    { out := s.out ++ fmtStr c, cache := c }

/-- `printFmt<TFmt>` (with its default `TResetFmt = true`) — `Stringifier.hpp` 28-40. -/
def printFmt (con : Con) (fmt : Bool) (t : List Char) (k : Color) (y : Style) (s : St) : St :=
  put t (if fmt then setStyle con y (setColorFG con k (resetFmt con s)) else s)

/-- `printBold<TFmt>` — `Stringifier.hpp` 43-48. -/
def printBold (con : Con) (fmt : Bool) (t : List Char) (k : Color) (s : St) : St :=
  printFmt con fmt t k .bold s

/-- The types with a stringifier of their own (`Stringifier.hpp` 192-205) and all the others, which
use the default one (`StringifierBase.hpp` 18-26, 42-63: other numbers, `char`, C strings, ...). -/
inductive Leaf where
  | int | long | uint | ulong | float | double | string | other
  deriving DecidableEq, Repr

/-- Style, colour and postfix of the base types — `Stringifier.hpp` 192-205. -/
def baseOf : Leaf → Option (Color × Style × List Char)
  | .int => some (.lightBlue, .bold, [])
  | .long => some (.lightBlue, .bold, ['l'])
  | .uint => some (.lightBlue, .bold, ['u'])
  | .ulong => some (.lightBlue, .bold, ['u', 'l'])
  | .float => some (.lightRed, .bold, ['f'])
  | .double => some (.lightRed, .bold, ['d'])
  | .string => some (.lightYellow, .none, [])
  | .other => none

/-- `Stringifier<mType>::impl` of a base type — `Stringifier.hpp` 177-190 — or
`StringifierDefault<T>::impl` — `StringifierBase.hpp` 18-26. -/
def strLeaf (con : Con) (fmt : Bool) (l : Leaf) (t : List Char) (s : St) : St :=
  match baseOf l with
  | none => put t s
  | some (k, y, post) =>
    let s1 := if fmt then setColorFG con k (setStyle con y s) else s
    let s2 := put t s1
    if fmt then put post s2 else s2

/-- A value that can be stringified. `bidir` says which kind of iterator a linear container has
(bidirectional or only forward); a tuple or pair has at least one element; `addr = none` is the null
pointer. The entries of maps and bimaps are in iteration order (those of maps with `bidir` as
above: the iterators of `std::unordered_map` are only forward iterators). -/
inductive Val where
  | leaf (l : Leaf) (text : List Char)
  | ptr (addr : Option (List Char))
  | seq (bidir : Bool) (elems : List Val)
  | tuple (first : Val) (rest : List Val)
  | map (bidir : Bool) (entries : List (Val × Val))
  | bimap (entries : List (Val × Val))

/-- `repeatPenultimateImpl` for bidirectional iterators — `Stringifier.hpp` 60-71. The range is
never empty (the callers return before); it is given by its first element and the other ones. -/
def repeatBidir {α : Type} (f sep : α → St → St) : α → List α → St → St
  | x, [], s => f x s
  | x, y :: ys, s => repeatBidir f sep y ys (sep x (f x s))

/-- The loop of `repeatPenultimateImpl` for forward iterators — `Stringifier.hpp` 80-85, from index
`i` on. -/
def fwdLoop {α : Type} (f sep : α → St → St) (count : Nat) : Nat → List α → St → St
  | _, [], s => s
  | i, x :: xs, s =>
    let s1 := f x s
    let s2 := if (i : Int) < (count : Int) - 1 then sep x s1 else s1
    fwdLoop f sep count (i + 1) xs s2

/-- `repeatPenultimateImpl` for forward iterators — `Stringifier.hpp` 75-86. -/
def repeatFwd {α : Type} (f sep : α → St → St) (x : α) (xs : List α) (s : St) : St :=
  fwdLoop f sep (x :: xs).length 0 (x :: xs) s

/-- `repeatPenultimate` — `Stringifier.hpp` 91-97. -/
def repeatPenultimate {α : Type} (bidir : Bool) (f sep : α → St → St) (x : α) (xs : List α)
    (s : St) : St :=
  if bidir then repeatBidir f sep x xs s else repeatFwd f sep x xs s

/-- The loop of `tplForData` in `StringifierTuple::impl` — `Stringifier.hpp` 135-141: elements from
index `i` on, of a tuple of `n` elements. -/
def tplLoop (con : Con) (fmt : Bool) (n : Nat) : Nat → List (St → St) → St → St
  | _, [], s => s
  | i, p :: ps, s =>
    let s1 := p s
    let s2 := if i < n - 1 then printBold con fmt [',', ' '] .default s1 else s1
    tplLoop con fmt n (i + 1) ps s2

/-- `StringifierContainer<T>::impl` — `Stringifier.hpp` 104-125; the elements are given by what
`callStringifyImpl<TFmt>` does for each of them. -/
def strSeq (con : Con) (fmt bidir : Bool) (ps : List (St → St)) (s : St) : St :=
  match ps with
  | [] => printBold con fmt ['{', ' ', 'E', 'M', 'P', 'T', 'Y', ' ', '}'] .default s
  | x :: xs =>
    let s1 := printBold con fmt ['{'] .default s
    let s2 := repeatPenultimate bidir (fun p => p)
      (fun _ => printBold con fmt [',', ' '] .default) x xs s1
    printBold con fmt ['}'] .default s2

/-- `StringifierTuple<T>::impl` — `Stringifier.hpp` 128-144. -/
def strTuple (con : Con) (fmt : Bool) (ps : List (St → St)) (s : St) : St :=
  let s1 := printBold con fmt ['{'] .default s
  let s2 := tplLoop con fmt ps.length 0 ps s1
  printBold con fmt ['}'] .default s2

/-- `stringifyMapImpl` — `Stringifier.hpp` 148-171; `psep` is what is printed between two entries:
a comma there, a line break in `Stringifier<Bimap<T1, T2>>::impl` — `Bimap/Inc/Stringifier.hpp`
13-40, which is otherwise the same. -/
def strMap (con : Con) (fmt bidir : Bool) (sep psep : List Char)
    (ps : List ((St → St) × (St → St))) (s : St) : St :=
  match ps with
  | [] => printBold con fmt ['{', ' ', 'E', 'M', 'P', 'T', 'Y', ' ', '}'] .default s
  | x :: xs =>
    let s1 := printBold con fmt ['{'] .default s
    let s2 := repeatPenultimate bidir
      (fun e s => e.2 (printBold con fmt sep .default (e.1 s)))
      (fun _ => printBold con fmt psep .default) x xs s1
    printBold con fmt ['}'] .default s2

/-- `Stringifier<T*>::impl` — `Stringifier.hpp` 281-295. Both branches of the conditional have the
type `const void*`, so for a null pointer the address of the literal `"nullptr"` is printed;
`litAddr` is its text. -/
def strPtr (con : Con) (fmt : Bool) (litAddr : List Char) (a : Option (List Char)) (s : St) : St :=
  let s1 := printBold con fmt ['['] .blue s
  let s2 := printFmt con fmt (match a with | some t => t | none => litAddr) .cyan .underline s1
  printBold con fmt [']'] .blue s2

/-- `callStringifyImpl<TFmt, TResetFmt>` — `StringifierBase.hpp` 80-87; `p` is
`stringify<TFmt>` of the value. -/
def callStringifyImpl (con : Con) (resetF : Bool) (p : St → St) (s : St) : St :=
  let s1 := if resetF then resetFmt con s else s
  let s2 := p s1
  if resetF then resetFmt con s2 else s2

mutual
/-- `stringify<TFmt>` — `StringifierBase.hpp` 72-76: the stringifier of the type. -/
def stringify (con : Con) (fmt : Bool) (litAddr : List Char) : Val → St → St
  | .leaf l t => strLeaf con fmt l t
  | .ptr a => strPtr con fmt litAddr a
  | .seq b vs => strSeq con fmt b (callAll con fmt litAddr vs)
  | .tuple v vs =>
    strTuple con fmt
      (callStringifyImpl con true (stringify con fmt litAddr v) :: callAll con fmt litAddr vs)
  | .map b es => strMap con fmt b [' ', '-', '>', ' '] [',', ' '] (callEntries con fmt litAddr es)
  | .bimap es => strMap con fmt true [' ', '<', '-', '>', ' '] ['\n'] (callEntries con fmt litAddr es)
/-- `callStringifyImpl<TFmt>(mStream, mE)` for each element — `Stringifier.hpp` 120-121. -/
def callAll (con : Con) (fmt : Bool) (litAddr : List Char) : List Val → List (St → St)
  | [] => []
  | v :: vs =>
    callStringifyImpl con true (stringify con fmt litAddr v) :: callAll con fmt litAddr vs
/-- The same for the keys and values of a map — `Stringifier.hpp` 163-167. -/
def callEntries (con : Con) (fmt : Bool) (litAddr : List Char) :
    List (Val × Val) → List ((St → St) × (St → St))
  | [] => []
  | (k, v) :: es =>
    (callStringifyImpl con true (stringify con fmt litAddr k),
     callStringifyImpl con true (stringify con fmt litAddr v)) :: callEntries con fmt litAddr es
end

/-- `toStr` of a value with no conversion of its own — `ToStr.hpp` 23-31 (the stream is emptied
first); the result and the format cache afterwards. -/
def toStr (con : Con) (litAddr : List Char) (v : Val) (c : Cache) : List Char × Cache :=
  let s := callStringifyImpl con false (stringify con false litAddr v) ⟨[], c⟩
  (s.out, s.cache)

end Verif.Stringify
