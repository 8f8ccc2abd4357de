import Verif.ToStr.Model

/-!
# Specification: every conversion has a stream of its own

The text of a value is what its stringifier writes to a new stream, where the conversions it makes itself use new streams too.
-/

namespace Verif.ToStr

variable {F V : Type}

/-- What a new stream holds after some steps. `flags`, `good` as for streams; `thrown`: the stringifier has been left by an
exception. -/
structure Ideal (F : Type) where
  text : List Char
  flags : F
  good : Bool
  thrown : Bool
  deriving DecidableEq, Repr

/-- Appending text if there is no error. -/
def Ideal.add (i : Ideal F) (t : List Char) (f : F) : Ideal F :=
  if i.good then { i with text := i.text ++ t, flags := f } else i

mutual
def ideal (L : Lib F V) : Act F V → Ideal F → Ideal F
  | .out v, i => i.add (L.put i.flags v).1 (L.put i.flags v).2
  | .manip f, i => { i with flags := f i.flags }
  | .fail, i => { i with good := false }
  | .throw, i => { i with thrown := true }
  | .fast t, i => i.add (L.putStr i.flags t).1 (L.putStr i.flags t).2
  | .part body, i =>
    let j := idealAll L body (i.add L.reset i.flags)
    if j.thrown then j else j.add L.reset j.flags
  | .toStr body, i =>
    let j := idealAll L body ⟨[], L.init, true, false⟩
    if j.thrown then { i with thrown := true } else i.add (L.putStr i.flags j.text).1 (L.putStr i.flags j.text).2
def idealAll (L : Lib F V) : List (Act F V) → Ideal F → Ideal F
  | [], i => i
  | a :: as, i => if (ideal L a i).thrown then ideal L a i else idealAll L as (ideal L a i)
end

/-- The stringifier on a new stream. -/
def fresh (L : Lib F V) (x : List (Act F V)) : Ideal F := idealAll L x ⟨[], L.init, true, false⟩

/-- The text of a value; `none` if its stringifier throws. -/
def textOf (L : Lib F V) (x : List (Act F V)) : Option (List Char) :=
  if (fresh L x).thrown then none else some (fresh L x).text

/-- The value behind a call. -/
def Call.value : Call F V → List (Act F V)
  | .toStr x => x
  | .stringify x => x

mutual
/-- No conversion inside. -/
def Flat : Act F V → Prop
  | .part body => FlatAll body
  | .toStr _ => False
  | _ => True
def FlatAll : List (Act F V) → Prop
  | [] => True
  | a :: as => Flat a ∧ FlatAll as
end

/-- The stringifier leaves a new stream as it found it: same flags, no error. -/
def Leaves (L : Lib F V) (x : List (Act F V)) : Prop := (fresh L x).flags = L.init ∧ (fresh L x).good = true

mutual
/-- All conversions made inside are of values that make none themselves and leave the stream as it was. -/
def Inner (L : Lib F V) : Act F V → Prop
  | .part body => InnerAll L body
  | .toStr body => FlatAll body ∧ Leaves L body
  | _ => True
def InnerAll (L : Lib F V) : List (Act F V) → Prop
  | [] => True
  | a :: as => Inner L a ∧ InnerAll L as
end

/-- A call with well-behaved stringifiers: `toStr` of a value without conversions inside that leaves the stream as it was, or output
to another stream, with such conversions. -/
def Tidy (L : Lib F V) : Call F V → Prop
  | .toStr x => FlatAll x ∧ Leaves L x
  | .stringify x => InnerAll L x

end Verif.ToStr
