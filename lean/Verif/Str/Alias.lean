import Verif.Str.Model

/-!
# Replacing with arguments that are the text itself

Source: `include/SSVUtils/Core/String/Utils.hpp:109-128`. `replace` and `replaceAll` take all three strings by reference, so
`mFrom` and `mTo` may be the very object `mStr`; they are then read again, changed, in each iteration.
-/

namespace Verif.Str

open Verif

/-- A `const std::string&` argument beside `mStr`: another object, or `mStr` itself. -/
inductive Arg where
  | other (t : Str)
  | self
  deriving Repr, DecidableEq

/-- What reading the argument gives while `mStr` is `s`. -/
def Arg.read (s : Str) : Arg → Str
  | .other t => t
  | .self => s

/-- `replace`, Utils.hpp:109-115; `std::string::replace` behaves as if it copied its argument first. -/
def replaceRef (s : Str) (a b : Arg) : Outcome Str :=
  match find s (a.read s) 0 with
  | none => .ok s
  | some startPos => replaceAt s startPos (a.read s).length (b.read s)

/-- `replaceAll`, Utils.hpp:122-128: the loop body executed at most `fuel` times. -/
def replaceAllRef : Nat → Str → Arg → Arg → Outcome Str
  | 0, _, _, _ => .diverge
  | fuel + 1, s, a, b =>
    match find s (a.read s) 0 with
    | none => .ok s
    | some startPos => do
      let s ← replaceAt s startPos (a.read s).length (b.read s)
      replaceAllRef fuel s a b

/-- `getReplacedAll(mStr, ...)` with arguments that are the caller's `mStr`, Utils.hpp:212-217: `mStr` is copied, the references
still name the original. -/
def getReplacedAllRef (fuel : Nat) (s : Str) (a b : Arg) : Outcome Str :=
  replaceAllRef fuel s (.other (a.read s)) (.other (b.read s))

end Verif.Str
