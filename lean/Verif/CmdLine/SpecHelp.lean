import Verif.CmdLine.Help
import Verif.IntStr.Spec

/-! # What help texts should look like -/

namespace Verif.CmdLine.Spec

/-- How an element is written on the command line. -/
def usage (e : Elem) : Str :=
  match e.info with
  | .arg => "(ARG ".toList ++ e.name ++ ")".toList
  | .argOpt => "(ARGOPT ".toList ++ e.name ++ ")".toList
  | .argPack min max =>
    "(PACK ".toList ++ e.name ++ " [".toList ++ IntStr.natText min ++ "/".toList ++
      (if min = 0 ∧ max = 0 then "...".toList else IntStr.natText max) ++ "])".toList
  | .flag s l => "[-".toList ++ s ++ " || --".toList ++ l ++ "]".toList
  | .flagValue s l => "[-".toList ++ s ++ "=(...) || --".toList ++ l ++ "=(...)]".toList
  | .flagValueOpt s l => "[OPT -".toList ++ s ++ "=(...) || OPT --".toList ++ l ++ "=(...)]".toList

/-- The entry of an element: its usage, then one line for each of name, brief and long description that is not empty. -/
def entry (e : Elem) : Str :=
  "* ".toList ++ usage e ++
    (([e.name, e.brief, e.desc].filter (fun t => decide (t ≠ []))).map (fun t => "\n  --".toList ++ t)).flatten ++ "\n\n".toList

/-- The section of a kind: nothing without elements. -/
def sect (title : String) (es : List Elem) : Str :=
  if es = [] then [] else "\t".toList ++ title.toList ++ ":\n".toList ++ (es.map entry).flatten ++ "\n".toList

/-- The elements of a kind, in order of creation. -/
def ofKind (k : EType) (es : List Elem) : List Elem := es.filter (fun e =>
  match e.info, k with
  | .arg, .arg => true
  | .argOpt, .argOpt => true
  | .argPack _ _, .argPack => true
  | .flag _ _, .flag => true
  | .flagValue _ _, .flagValue => true
  | .flagValueOpt _ _, .flagValueOpt => true
  | _, _ => false)

/-- The help text of a command whose elements were created in the order `es`. -/
def help (desc : Str) (es : List Elem) : Str :=
  (if desc = [] then [] else ">>".toList ++ desc ++ "\n\n".toList) ++
    sect "Required arguments" (ofKind .arg es) ++ sect "Optional arguments" (ofKind .argOpt es) ++
    sect "Argument packs" (ofKind .argPack es) ++ sect "Flags" (ofKind .flag es) ++
    sect "Flag values" (ofKind .flagValue es) ++ sect "Optional flag values" (ofKind .flagValueOpt es)

/-- Sizes whose conversion to text works (C37). -/
def SafeSizes (e : Elem) : Prop :=
  ∀ min max, e.info = .argPack min max → min < 10 ^ 18 ∧ max < 10 ^ 18

/-- The texts with a separator between them. -/
def joined (sep : Str) : List Str → Str
  | [] => []
  | [t] => t
  | t :: ts => t ++ sep ++ joined sep ts

end Verif.CmdLine.Spec
