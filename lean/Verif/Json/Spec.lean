import Verif.Json.Model

/-!
# Specification of the JSON texts

A `Doc` is a syntax tree; `render` is its compact text; `Layout k s` says that `s` is the text `k` with whitespace
and comments added outside strings; `Denotes ops d v` says which value a document stands for.
-/

namespace Verif.Json

/-- A piece of a string literal: a character standing for itself, or a backslash followed by a character. -/
inductive Item where
  | plain (c : Char)
  | esc (c : Char)
  deriving Repr, DecidableEq

/-- Syntax tree of a document. -/
inductive Doc where
  | nul
  | bln (b : Bool)
  | num (txt : List Char)
  | str (items : List Item)
  | arr (ds : List Doc)
  | obj (kvs : List (List Item × Doc))
  deriving Repr

def Item.text : Item → List Char
  | .plain c => [c]
  | .esc c => ['\\', c]

/-- Text between the quotes. -/
def bodyText (is : List Item) : List Char := (is.map Item.text).flatten

/-- Text of a literal. -/
def litText (is : List Item) : List Char := '"' :: bodyText is ++ ['"']

mutual
/-- The compact text of a document. -/
def Doc.render : Doc → List Char
  | .nul => "null".toList
  | .bln true => "true".toList
  | .bln false => "false".toList
  | .num txt => txt
  | .str is => litText is
  | .arr ds => '[' :: renderArr ds ++ [']']
  | .obj kvs => '{' :: renderObj kvs ++ ['}']

/-- Elements separated by commas. -/
def renderArr : List Doc → List Char
  | [] => []
  | [d] => d.render
  | d :: ds => d.render ++ ',' :: renderArr ds

/-- `"key":value` pairs separated by commas. -/
def renderObj : List (List Item × Doc) → List Char
  | [] => []
  | [(k, d)] => litText k ++ ':' :: d.render
  | (k, d) :: kvs => litText k ++ ':' :: (d.render ++ ',' :: renderObj kvs)
end

/-- The character an escape sequence of JSON stands for (`\uXXXX` is not covered). -/
def escMeaning (c : Char) : Option Char :=
  if c = '"' then some '"'
  else if c = '\\' then some '\\'
  else if c = '/' then some '/'
  else if c = 'b' then some (Char.ofNat 0x08)
  else if c = 'f' then some (Char.ofNat 0x0C)
  else if c = 'n' then some (Char.ofNat 0x0A)
  else if c = 'r' then some (Char.ofNat 0x0D)
  else if c = 't' then some (Char.ofNat 0x09)
  else none

/-- `is` is the inside of a string literal standing for the text `t`. -/
inductive DenotesStr : List Item → List Char → Prop
  | nil : DenotesStr [] []
  | plain {c is t} (hq : c ≠ '"') (hb : c ≠ '\\') (h : DenotesStr is t) : DenotesStr (.plain c :: is) (c :: t)
  | esc {c m is t} (hc : escMeaning c = some m) (h : DenotesStr is t) : DenotesStr (.esc c :: is) (m :: t)

/-- The literal does not end in an escaped backslash. -/
def NoBackslashEnd (is : List Item) : Prop := is.getLast? ≠ some (.esc '\\')

/-- Space, tab, carriage return and newline. -/
def blank (c : Char) : Bool := c == ' ' || c == '\t' || c == '\r' || c == '\n'

/-- What may follow a number: nothing, a separator, whitespace or a comment. -/
def Terminated (rest : List Char) : Prop :=
  ∀ c, rest.head? = some c → c ∈ [',', ']', '}', ' ', '\t', '\r', '\n', '/']

/-- `txt` is a number: it begins like one, contains no quote, slash or whitespace, and `strtod` reads it as `r`, all of
it and nothing that follows. -/
structure IsNumber {R : Type} (ops : RealOps R) (txt : List Char) (r : R) : Prop where
  start : ∃ c t, txt = c :: t ∧ (c = '-' ∨ c.isDigit = true)
  chars : ∀ c ∈ txt, c ≠ '"' ∧ c ≠ '/' ∧ blank c = false
  value : ∀ rest, Terminated rest → ops.strtod (txt ++ rest) = (r, txt.length)

/-- The number value for a real: an integer if it is one. -/
inductive NumOf {R : Type} (ops : RealOps R) (r : R) : Num R → Prop
  | int {i} (h : ops.toInt r = some i) (he : ops.eq (ops.ofInt i) r = true) : NumOf ops r (.intS i)
  | real {i} (h : ops.toInt r = some i) (he : ops.eq (ops.ofInt i) r = false) : NumOf ops r (.real r)

/-- Writing a key of a map kept in increasing key order: replaces the value of an equal key. -/
def put {V : Type} (m : List (List Char × V)) (k : List Char) (v : V) : List (List Char × V) :=
  match m with
  | [] => [(k, v)]
  | (k', v') :: m => if k = k' then (k, v) :: m else if strLt k k' then (k, v) :: (k', v') :: m else (k', v') :: put m k v

mutual
/-- The value a document stands for. -/
inductive Denotes {R : Type} (ops : RealOps R) : Doc → Val R → Prop
  | nul : Denotes ops .nul .nll
  | bln (b : Bool) : Denotes ops (.bln b) (.bln b)
  | num {txt r n} (h : IsNumber ops txt r) (hn : NumOf ops r n) : Denotes ops (.num txt) (.num n)
  | str {is t} (h : DenotesStr is t) (he : NoBackslashEnd is) : Denotes ops (.str is) (.str t)
  | arr {ds vs} (h : DenotesArr ops ds vs) : Denotes ops (.arr ds) (.arr vs)
  | obj {kvs m} (h : DenotesObj ops [] kvs m) : Denotes ops (.obj kvs) (.obj m)

inductive DenotesArr {R : Type} (ops : RealOps R) : List Doc → List (Val R) → Prop
  | nil : DenotesArr ops [] []
  | cons {d v ds vs} (h : Denotes ops d v) (hs : DenotesArr ops ds vs) : DenotesArr ops (d :: ds) (v :: vs)

/-- Starting from the map `m`, the pairs are written one after the other. -/
inductive DenotesObj {R : Type} (ops : RealOps R) :
    List (List Char × Val R) → List (List Item × Doc) → List (List Char × Val R) → Prop
  | nil {m} : DenotesObj ops m [] m
  | cons {m is k d v kvs m'} (hk : DenotesStr is k) (he : NoBackslashEnd is) (h : Denotes ops d v)
      (hs : DenotesObj ops (put m k v) kvs m') : DenotesObj ops m ((is, d) :: kvs) m'
end

/-- The inside of a string literal: a quote only after a backslash, and no backslash before the closing quote. -/
def StrBody : Char → List Char → Prop
  | prev, [] => prev ≠ '\\'
  | prev, c :: cs => (c = '"' → prev = '\\') ∧ StrBody c cs

/-- `Layout k s`: `s` is `k` with whitespace and `//` comments added outside string literals. -/
inductive Layout : List Char → List Char → Prop
  | nil : Layout [] []
  | ws {c k s} (hc : blank c = true) (h : Layout k s) : Layout k (c :: s)
  | comment {k s} (body : List Char) (hb : '\n' ∉ body) (h : Layout k s) :
      Layout k ('/' :: '/' :: body ++ '\n' :: s)
  | chr {c k s} (hq : c ≠ '"') (hs : c ≠ '/') (hw : blank c = false) (h : Layout k s) : Layout (c :: k) (c :: s)
  | lit {body k s} (hb : StrBody '"' body) (h : Layout k s) :
      Layout ('"' :: body ++ '"' :: k) ('"' :: body ++ '"' :: s)

mutual
/-- Outside string literals: every literal that begins is closed and contains valid escapes only. -/
def Balanced : List Char → Prop
  | [] => True
  | c :: cs => if c = '"' then BalancedIn cs else Balanced cs

/-- The same inside a literal. -/
def BalancedIn : List Char → Prop
  | [] => False
  | [c] => c = '"'
  | c :: d :: cs =>
    if c = '"' then Balanced (d :: cs)
    else if c = '\\' then (escMeaning d).isSome ∧ BalancedIn cs
    else BalancedIn (d :: cs)
end

/-- Every number in the text is small enough for a `long`, `strtod` does not run over a quote, and `isdigit` is defined for the
characters in the text (as it is in ASCII). -/
def NumbersOk {R : Type} (ops : RealOps R) (s : List Char) : Prop :=
  ∀ t, t <:+ s → (ops.toInt (ops.strtod t).1).isSome ∧ '"' ∉ t.take (ops.strtod t).2 ∧
    ∀ c ∈ t.head?, 128 ≤ c.toNat → (ops.isdigitHigh c).isSome

/-- The document is a single number. -/
def Doc.IsNum : Doc → Prop
  | .num _ => True
  | _ => False

end Verif.Json
