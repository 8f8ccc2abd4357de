import Verif.Json.Model

/-!
# What a read error says

`Says title what found expected`: an exception with this title and this message names the character that was found and, in
words, the characters of which one was expected.
-/

namespace Verif.Json

/-- The six kinds of read errors. -/
inductive Says : List Char → List Char → Char → List Char → Prop
  | value (c : Char) : Says "Invalid value".toList ("No match for values beginning with `".toList ++ [c] ++ "`".toList) c
      ['{', '[', '"', 't', 'f', 'n']
  | array (c : Char) : Says "Invalid array".toList ("Expected either `,` or `]`, got `".toList ++ [c] ++ "`".toList) c [',', ']']
  | key (c : Char) : Says "Invalid object".toList ("Expected `\"` , got `".toList ++ [c] ++ "`".toList) c ['"']
  | colon (c : Char) : Says "Invalid object".toList ("Expected `:` , got `".toList ++ [c] ++ "`".toList) c [':']
  | object (c : Char) : Says "Invalid object".toList ("Expected either `,` or `}`, got `".toList ++ [c] ++ "`".toList) c [',', '}']
  | keyword (kw : String) (before after : List Char) (k c : Char) (hk : kw = "true" ∨ kw = "false" ∨ kw = "null")
      (hs : kw.toList = before ++ k :: after) (hc : c ≠ k) :
      Says "Invalid keyword".toList ("Couldn't match keyword `".toList ++ kw.toList ++ "'".toList) c [k]

/-- The character at position `i` of a text, and the terminator after its end. -/
def charAt (s : List Char) (i : Nat) : Char := s.getD i (Char.ofNat 0)

/-- `d` ends a number: whenever `strtod` stops after `a`, it stops there, with the same result, if `d` and anything else
follows. -/
def EndsNumber {R : Type} (ops : RealOps R) (d : Char) : Prop :=
  ∀ a b t, (ops.strtod (a ++ b)).2 = a.length → ops.strtod (a ++ d :: t) = ops.strtod (a ++ b)

/-- The characters of `s` from `a` up to before `b`, without line breaks. -/
def excerpt (s : List Char) (a b : Nat) : List Char := ((s.drop a).take (b - a)).filter (· ≠ '\n')

end Verif.Json
