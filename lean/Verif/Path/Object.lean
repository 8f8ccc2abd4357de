import Verif.Path.Model

/-!
# A path object that is changed and read again and again

Source: `include/SSVUtils/Core/FileSystem/Path.hpp:58-180`. The text is normalised in place by the first read after a change;
every read comes with the file system as it is at that moment.
-/

namespace Verif.Path

open Verif Str

/-- What can be done to a path object: assignment of a text (Path.hpp:114-133), `operator+=` (135-149), `clear` (108-112), and
any reading function (`getStr`, the conversions, `c_str`: 152-189). -/
inductive POp where
  | assign (s : Str)
  | append (s : Str)
  | clear
  | read (fs : FS)

/-- One operation: the object afterwards and the text shown, if it is a read. -/
def pstep (p : PathObj) : POp → Outcome (PathObj × List Str)
  | .assign s => .ok (PathObj.of s, [])
  | .append s => .ok (p.append s, [])
  | .clear => .ok (p.clear, [])
  | .read fs => do
    let p ← normalize fs p
    .ok (p, [p.str])

/-- Several operations: the object afterwards and the texts shown. -/
def prun : PathObj → List POp → Outcome (PathObj × List Str)
  | p, [] => .ok (p, [])
  | p, x :: xs => do
    let (p, out) ← pstep p x
    let (p, outs) ← prun p xs
    .ok (p, out ++ outs)

end Verif.Path
