import Verif.Basic

/-!
# Templates

Source: `include/SSVUtils/TemplateSystem/Internal/` (`Dictionary.hpp`, `Expander.hpp`, `Expander.inl`).

`dbg` tells whether `assert` is active. Characters are `Char`s. A dictionary is a tree; the pointer of a dictionary to the one that
contains it, which `refreshParents` sets before anything is expanded (Dictionary.hpp:143-151, 175), is replaced by the list of the
dictionaries from the current one up to the root. The sorted vectors `VecMap` are association lists (they are modelled in
`Verif.Container`). Texts with 2^32 characters or more are not modelled (`auto i(0u)` counts in 32 bits). The buffers `bufResult` and
`bufKey` are values; `bufKey` is shared by the nested expansions but never read after one. Loops count steps with `fuel` and
answer `diverge` when it is used up.
-/

namespace Verif.Tmpl

open Verif

abbrev Str := List Char

/-- `Settings`, Expander.hpp:18-27. -/
inductive Settings where
  | erase | maintain | onlyCnt
  deriving Repr, DecidableEq

/-- `Dictionary`, Dictionary.hpp:21-32. -/
inductive Dict where
  | mk (repls : List (Str × Str)) (sects : List (Str × List Dict))

def Dict.repls : Dict → List (Str × Str)
  | .mk r _ => r

def Dict.sects : Dict → List (Str × List Dict)
  | .mk _ s => s

/-- The empty dictionary, Dictionary.hpp:160-164. -/
def Dict.empty : Dict := .mk [] []

/-- Sets a key of an association list. -/
def assign {α : Type} (k : Str) (v : α) : List (Str × α) → List (Str × α)
  | [] => [(k, v)]
  | (k', v') :: l => if k' = k then (k, v) :: l else (k', v') :: assign k v l

/-- `has`, Dictionary.hpp:167-170. -/
def Dict.has (d : Dict) (k : Str) : Bool := (d.repls.lookup k).isSome

/-- `dict[key] = replacement`, Dictionary.hpp:54-59 (also 88-97). -/
def Dict.setRepl (d : Dict) (k v : Str) : Dict := .mk (assign k v d.repls) d.sects

/-- `dict[key] += d`, Dictionary.hpp:60-65. -/
def Dict.addSect (d : Dict) (k : Str) (e : Dict) : Dict := .mk d.repls (assign k ((d.sects.lookup k).getD [] ++ [e]) d.sects)

/-- `Dictionary{key, vector}`, Dictionary.hpp:100-109. -/
def Dict.setSect (d : Dict) (k : Str) (es : List Dict) : Dict := .mk d.repls (assign k es d.sects)

/-- `dict[key].asStr()` of a dictionary that is not `const`, read: `VecMap::operator[]` adds a missing key with an empty text,
Dictionary.hpp:44-47, VecMap.hpp:90-96. Returns the dictionary afterwards and the text. -/
def Dict.asStr (d : Dict) (k : Str) : Dict × Str :=
  match d.repls.lookup k with
  | some v => (d, v)
  | none => (d.setRepl k [], [])

/-- `dict[key].asStr()` of a `const` dictionary, Dictionary.hpp:82-85 (also 49-52): `VecMap::at` throws for a missing key, and the function is
`noexcept`, so the program ends (here `assertFail`). -/
def Dict.asStrConst (d : Dict) (k : Str) : Outcome Str :=
  match d.repls.lookup k with
  | some v => .ok v
  | none => .assertFail

/-- `dict[key].asStr() = v` and `dict[key].asStr() += v`: writing through the reference, Dictionary.hpp:44-47. -/
def Dict.asStrSet (d : Dict) (k v : Str) : Dict := (d.asStr k).1.setRepl k v

def Dict.asStrAppend (d : Dict) (k v : Str) : Dict := (d.asStr k).1.setRepl k ((d.asStr k).2 ++ v)

/-- `dict[key] += dict`: the section is looked up, and added if missing, before the dictionary is copied into it, Dictionary.hpp:60-65. -/
def Dict.addSelf (d : Dict) (k : Str) : Dict :=
  let d := Dict.mk d.repls (match d.sects.lookup k with | some _ => d.sects | none => assign k [] d.sects)
  d.addSect k d

/-! ## One expansion -/

/-- `getC(mIdx)`, Expander.hpp:44-48; the element after the last of a `std::string` is the character zero. -/
def getC (dbg : Bool) (src : Str) (i : Nat) : Outcome Char :=
  match src[i]? with
  | some c => .ok c
  | none => if dbg then .assertFail else if i = src.length then .ok (Char.ofNat 0) else .ub

/-- `assert(c)` for a condition that reads characters. -/
def checkC (dbg : Bool) (c : Outcome Bool) : Outcome Unit :=
  if dbg then
    match c with
    | .ok true => .ok ()
    | .ok false => .assertFail
    | .throw => .throw
    | .assertFail => .assertFail
    | .ub => .ub
    | .diverge => .diverge
  else .ok ()

/-- The value of a key: in the current dictionary, then in those that contain it, Expander.inl:22-29. -/
def lookupKey (chain : List Dict) (k : Str) : Option Str :=
  match chain with
  | [] => none
  | d :: up =>
    match d.repls.lookup k with
    | some v => some v
    | none => lookupKey up k

/-- `replace`, Expander.inl:20-37. -/
def replace (set : Settings) (chain : List Dict) (k : Str) : Str × Bool :=
  match lookupKey chain k with
  | some v => (v, true)
  | none => (if set = .maintain then ['{', '{'] ++ k ++ ['}', '}'] else [], false)

/-- The dictionaries of a section, with the dictionaries around them, Expander.inl:43-48. -/
def lookupSect (chain : List Dict) (k : Str) : Option (List Dict × List Dict) :=
  match chain with
  | [] => none
  | d :: up =>
    match d.sects.lookup k with
    | some (e :: es) => some (e :: es, d :: up)
    | _ => lookupSect up k

inductive Kind where
  | normal | sect | separator
  deriving Repr, DecidableEq

/-- `idx > 0 && getC(idx - 1) == '\\'`, Expander.inl:92. -/
def escaped (dbg : Bool) (src : Str) (i : Nat) : Outcome Bool :=
  if 0 < i then do
    let p ← getC dbg src (i - 1)
    pure (p == '\\')
  else pure false

/-- Whether the character at `i`, which is `c`, is copied, Expander.inl:91-97. -/
def isPlain (dbg : Bool) (src : Str) (i : Nat) (c : Char) : Outcome Bool :=
  if c ≠ '{' then .ok true
  else do
    let esc ← escaped dbg src i
    if esc then pure true
    else do
      let n ← getC dbg src (i + 1)
      pure (n != '{')

/-- The symbol after `{{`, Expander.inl:109-120. -/
def symbol (dbg : Bool) (src : Str) (i : Nat) : Outcome (Kind × Nat) := do
  let c ← getC dbg src i
  pure (if c = '#' then (.sect, i + 1) else if c = '*' then (.separator, i + 1) else (.normal, i))

/-- The key and the index of the `}` after it, Expander.inl:123-124. -/
def readKey (dbg : Bool) (src : Str) : Nat → Nat → Outcome (Str × Nat)
  | 0, _ => .diverge
  | fuel + 1, i => do
    let c ← getC dbg src i
    if c = '}' then pure ([], i)
    else do
      let (k, j) ← readKey dbg src fuel (i + 1)
      pure (c :: k, j)

/-- Compares with the key of the section, Expander.inl:160-164: the index after the key, or the index of the character that differs. -/
def matchKey (dbg : Bool) (src : Str) : Str → Nat → Outcome (Bool × Nat)
  | [], i => .ok (true, i)
  | kc :: k, i => do
    let c ← getC dbg src i
    if c ≠ kc then pure (false, i) else matchKey dbg src k (i + 1)

/-- Whether a closing tag starts at `i`, Expander.inl:149-156. -/
def isClose (dbg : Bool) (src : Str) (i : Nat) : Outcome Bool := do
  let c ← getC dbg src i
  if c ≠ '{' then pure false
  else do
    let p ← getC dbg src (i - 1)
    if p = '\\' then pure false
    else do
      let a ← getC dbg src (i + 1)
      if a ≠ '{' then pure false
      else do
        let b ← getC dbg src (i + 2)
        pure (b == '/')

/-- The search for the end of the section, Expander.inl:146-186: the index of the end of the contents, and the index of the last
character of the closing tag. -/
def findEnd (dbg : Bool) (src key : Str) : Nat → Nat → Outcome (Nat × Nat)
  | 0, _ => .diverge
  | fuel + 1, i => do
    let cl ← isClose dbg src i
    if cl then do
      let (m, j) ← matchKey dbg src key (i + 3)
      if m then do
        checkC dbg (do let a ← getC dbg src j; let b ← getC dbg src (j + 1); pure (a == '}' && b == '}'))
        pure (i, j + 1)
      else findEnd dbg src key fuel (j + 1)
    else findEnd dbg src key fuel (i + 1)

/-- The characters from `i` up to `j`, Expander.inl:63-72. -/
def copy (dbg : Bool) (src : Str) (i : Nat) : Nat → Outcome Str
  | 0 => .ok []
  | n + 1 => do
    let c ← getC dbg src i
    let s ← copy dbg src (i + 1) n
    pure (c :: s)

/-- Expansions of the same contents, one after the other, Expander.inl:50-58. -/
def forDicts (expand : Dict → Bool → Outcome (Str × Bool)) : List Dict → Outcome Str
  | [] => .ok []
  | [d] => do
    let (s, _) ← expand d false
    pure s
  | d :: ds => do
    let (s, _) ← expand d true
    let t ← forDicts expand ds
    pure (s ++ t)

/-- `replaceSection`, Expander.inl:39-75. -/
def replaceSection (dbg : Bool) (set : Settings) (src : Str) (expand : List Dict → Nat → Nat → Bool → Outcome (Str × Bool))
    (chain : List Dict) (k : Str) (start cntStart cntEnd end_ : Nat) : Outcome (Str × Bool) :=
  match lookupSect chain k with
  | some (ds, up) => do
    let s ← forDicts (fun d sep => expand (d :: up) cntStart cntEnd sep) ds
    pure (s, true)
  | none =>
    match set with
    | .maintain => do
      let s ← copy dbg src start (end_ - start)
      pure (s, false)
    | .onlyCnt => do
      let s ← copy dbg src cntStart (cntEnd - cntStart)
      pure (s, false)
    | .erase => pure ([], false)

/-- `expand`, Expander.inl:77-192: what is added to the result, and whether something was replaced. -/
def expand (dbg : Bool) (set : Settings) (src : Str) : Nat → List Dict → Nat → Nat → Bool → Outcome (Str × Bool)
  | 0, _, _, _, _ => .diverge
  | fuel + 1, chain, i, idxEnd, sep =>
    if i < idxEnd then do
      let c ← getC dbg src i
      let pl ← isPlain dbg src i c
      if pl then do
        let (o, r) ← expand dbg set src fuel chain (i + 1) idxEnd sep
        pure (c :: o, r)
      else do
        let (kind, j) ← symbol dbg src (i + 2)
        let (key, j) ← readKey dbg src fuel j
        checkC dbg (do let a ← getC dbg src j; let b ← getC dbg src (j + 1); pure (a == '}' && b == '}'))
        match kind with
        | .normal => do
          let (o', r') := replace set chain key
          let (o, r) ← expand dbg set src fuel chain (j + 2) idxEnd sep
          pure (o' ++ o, r' || r)
        | .separator => do
          let (o, r) ← expand dbg set src fuel chain (j + 2) idxEnd sep
          pure ((if sep then key else []) ++ o, r)
        | .sect => do
          checkC dbg (do let a ← getC dbg src (j + 1); let b ← getC dbg src (j + 2); pure (a == '}' && b != '}'))
          let (cntEnd, last) ← findEnd dbg src key fuel (j + 2)
          let (o', r') ← replaceSection dbg set src (fun ch a b s => expand dbg set src fuel ch a b s) chain key i (j + 2) cntEnd (last + 1)
          let (o, r) ← expand dbg set src fuel chain (last + 1) idxEnd sep
          pure (o' ++ o, r' || r)
    else pure ([], false)

/-! ## Repeated expansion -/

/-- The final loop, Dictionary.hpp:191-200. -/
def deEscape : Str → Str
  | [] => []
  | [c] => [c]
  | '\\' :: '{' :: [] => ['{', '{']
  | '\\' :: '{' :: c :: s => '{' :: deEscape (c :: s)
  | c :: d :: s => c :: deEscape (d :: s)

/-- The loop of `getExpanded`, Dictionary.hpp:181-188. -/
def passes (dbg : Bool) (set : Settings) (d : Dict) : Nat → Str → Outcome Str
  | 0, _ => .diverge
  | fuel + 1, src => do
    let (out, found) ← expand dbg set src (fuel + 1) [d] 0 src.length false
    if found then passes dbg set d fuel out else pure out

/-- `getExpanded`, Dictionary.hpp:172-203. -/
def getExpanded (dbg : Bool) (set : Settings) (d : Dict) (fuel : Nat) (src : Str) : Outcome Str := do
  let s ← passes dbg set d fuel src
  pure (deEscape s)

end Verif.Tmpl
