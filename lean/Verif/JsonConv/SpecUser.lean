import Verif.JsonConv.User
import Verif.JsonConv.Spec

/-! # Which objects belong to which user-defined type -/

namespace Verif.JsonConv

open Verif Json

variable {R : Type}

mutual
/-- `x` is an object of type `t`. -/
inductive HasU {R : Type} (lt : X R → X R → Bool) : U R → UTy → Prop
  | base {x t} (h : HasTy lt x t) : HasU lt (.leaf x) (.base t)
  | one {x m} (h : HasU lt x m) : HasU lt (.node [x]) (.one m)
  | arr {xs ms} (h : HasUs lt xs ms) : HasU lt (.node xs) (.arr ms)
  | obj {xs ks ms} (h : HasUs lt xs ms) : HasU lt (.node xs) (.obj ks ms)
  | vec {xs t} (h : ∀ x ∈ xs, HasU lt x t) : HasU lt (.node xs) (.vec t)

inductive HasUs {R : Type} (lt : X R → X R → Bool) : List (U R) → List UTy → Prop
  | nil : HasUs lt [] []
  | cons {x m xs ms} (h : HasU lt x m) (hs : HasUs lt xs ms) : HasUs lt (x :: xs) (m :: ms)
end

mutual
/-- The converters of the type compile and can be used in both directions: classes have members, as many names as members,
no name twice, C arrays only directly as members. -/
def UTy.Fine : UTy → Prop
  | .base t => t.Extractable
  | .one m => m.Fine
  | .arr ms => ms ≠ [] ∧ FineAll ms
  | .obj ks ms => ms ≠ [] ∧ ks.Nodup ∧ ks.length = ms.length ∧ FineAll ms
  | .vec (.base t) => t.NoArrays
  | .vec t => t.Fine

def FineAll : List UTy → Prop
  | [] => True
  | m :: ms => m.Fine ∧ FineAll ms
end

mutual
/-- No member of the type, or of its members, is a map. (Elements of vectors may be.) -/
def UTy.NoMaps : UTy → Prop
  | .base t => ¬t.IsMap
  | .one m => m.NoMaps
  | .arr ms => NoMapsAll ms
  | .obj _ ms => NoMapsAll ms
  | .vec _ => True

def NoMapsAll : List UTy → Prop
  | [] => True
  | m :: ms => m.NoMaps ∧ NoMapsAll ms
end

end Verif.JsonConv
