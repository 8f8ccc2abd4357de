import Verif.Path.Model
import Verif.Json.Model
import Verif.Json.Writer
import Verif.Log.Model
import Verif.Md5.Model

/-!
# Files: creating, removing, writing and reading

Source: `Core/FileSystem/Utils.hpp:25-38`, `Core/FileSystem/Path.hpp:190-196, 286-309`, `Json/Val/Val.hpp:369-400`,
`Core/Log/Log.inl:15-24`, `Encoding/Src/MD5.cpp:50-63` (Linux).

The file system is a tree of folders and files with contents, and the calls the code makes on it (`stat`, `mkdir`, `remove`,
`open`) behave as POSIX says. Not modelled: links, permissions, other processes, a full disk, special files, names that are too
long. Folders opened as files: see `getContents`.
-/

namespace Verif.Files

open Verif Str Path

/-- What a place of the tree can hold. -/
inductive Node where
  | file (bytes : Str)
  | folder
  deriving Repr, DecidableEq

/-- A disk: what is at which place (a place is the list of names from the root), and the current folder. -/
structure Disk where
  nodes : List (List Str × Node)
  cwd : List Str
  deriving Repr, DecidableEq

/-- What is at a place; the root is a folder. -/
def Disk.get (d : Disk) (k : List Str) : Option Node :=
  if k = [] then some .folder else (d.nodes.find? (·.1 = k)).map (·.2)

/-- Takes away what is at a place. -/
def Disk.del (d : Disk) (k : List Str) : Disk := { d with nodes := d.nodes.filter (fun e => decide (e.1 ≠ k)) }

/-- Puts something at a place. -/
def Disk.put (d : Disk) (k : List Str) (n : Node) : Disk := { d with nodes := (k, n) :: (d.del k).nodes }

/-- Does a folder contain anything? -/
def Disk.hasChild (d : Disk) (k : List Str) : Bool := d.nodes.any (fun e => decide (e.1 ≠ [] ∧ e.1.dropLast = k))

/-- Walking through names from a place: every place passed must be a folder. -/
def Disk.walk (d : Disk) : List Str → List Str → Option (List Str)
  | cur, [] => some cur
  | cur, n :: ns =>
    if d.get cur = some .folder then
      if n = ['.'] then d.walk cur ns
      else if n = ['.', '.'] then d.walk cur.dropLast ns
      else d.walk (cur ++ [n]) ns
    else none

/-- The names in a text. -/
def names (s : Str) : List Str := (s.splitOn '/').filter (fun n => !n.isEmpty)

/-- Pathname resolution: the place a text stands for, and whether only a folder is accepted there (slash at the end, or a last
name `.` or `..`). The empty text stands for nothing. -/
def Disk.locate (d : Disk) (s : Str) : Option (List Str × Bool) :=
  if s = [] then none
  else (d.walk (if s.head? = some '/' then [] else d.cwd) (names s)).map fun k =>
    (k, decide (s.getLast? = some '/' ∨ (names s).getLast? = some ['.'] ∨ (names s).getLast? = some ['.', '.']))

/-- `stat`. -/
def Disk.stat (d : Disk) (s : Str) : Option Kind :=
  match d.locate s with
  | none => none
  | some (k, dirOnly) =>
    match d.get k with
    | some .folder => some .folder
    | some (.file _) => if dirOnly then none else some .file
    | none => none

/-- The file system as the path functions see it (they do not use `opendir`). -/
def Disk.toFS (d : Disk) : FS := ⟨d.stat, fun _ => none⟩

/-- `mkdir`: 0 or -1, and the disk afterwards. -/
def Disk.mkdir (d : Disk) (s : Str) : Int × Disk :=
  match d.locate s with
  | none => (-1, d)
  | some (k, _) => if d.get k = none then (0, d.put k .folder) else (-1, d)

/-- `std::remove`: `unlink` for files, `rmdir` for folders (only empty ones; not the root, not by a name ending in a dot). -/
def Disk.remove (d : Disk) (s : Str) : Int × Disk :=
  match d.locate s with
  | none => (-1, d)
  | some (k, dirOnly) =>
    match d.get k with
    | none => (-1, d)
    | some (.file _) => if dirOnly then (-1, d) else (0, d.del k)
    | some .folder =>
      if k = [] ∨ d.hasChild k ∨ (names s).getLast? = some ['.'] ∨ (names s).getLast? = some ['.', '.'] then (-1, d)
      else (0, d.del k)

/-- `open(s, O_WRONLY | O_CREAT | O_TRUNC)`: the place to write to and the disk with an empty file there; `none` if it
fails. -/
def Disk.openWrite (d : Disk) (s : Str) : Option (List Str × Disk) :=
  match d.locate s with
  | none => none
  | some (k, dirOnly) =>
    if dirOnly ∨ d.get k = some .folder then none else some (k, d.put k (.file []))

/-- `createFolder`, Utils.hpp:25-32. The answer of `mkdir` is not looked at. -/
def createFolder (d : Disk) (p : PathObj) : Outcome (Disk × PathObj) := do
  let p ← normalize d.toFS p
  pure ((d.mkdir (cstr p.str)).2, p)

/-- `removeFile`, Utils.hpp:35-38: the answer of `std::remove` converted to `bool`. -/
def removeFile (d : Disk) (p : PathObj) : Outcome (Bool × Disk × PathObj) := do
  let p ← normalize d.toFS p
  let r := d.remove (cstr p.str)
  pure (decide (r.1 ≠ 0), r.2, p)

/-- `std::ofstream o{mPath}; o << text; o.close();`, Val.hpp:370-375, Log.inl:17-23. Writing to a stream that could not be opened
does nothing. -/
def writeFile (d : Disk) (p : PathObj) (text : Str) : Outcome (Disk × PathObj) := do
  let p ← normalize d.toFS p
  match d.openWrite (cstr p.str) with
  | none => pure (d, p)
  | some (k, d) => pure (d.put k (.file text), p)

/-- The disks that can be left behind if the process ends while the text is being saved (Val.hpp:370-375, Log.inl:17-23): before the
file is opened; after `open`, which makes it empty; or when the stream has handed any part of the text to the system. Where the
stream cuts the text depends on the implementation: all cuts are considered. -/
def crashStates (d : Disk) (p : PathObj) (text : Str) : Outcome (List Disk) := do
  let p ← normalize d.toFS p
  match d.openWrite (cstr p.str) with
  | none => pure [d]
  | some (k, d1) => pure (d :: (List.range (text.length + 1)).map fun n => d1.put k (.file (text.take n)))

/-- `getContentsAsStr`, Path.hpp:288-309. Without a file `tellg` answers -1, and `resize` throws. What happens when a folder is read
in a build without assertions depends on the system and is not modelled (`ub`). (The file does not change between `tellg` and `read`.) -/
def getContents (dbg : Bool) (d : Disk) (p : PathObj) : Outcome (Str × PathObj) := do
  let p ← normalize d.toFS p
  if dbg && !isFile d.toFS p.str then .assertFail
  else
    match d.locate (cstr p.str) with
    | none => .throw
    | some (k, dirOnly) =>
      match d.get k with
      | some .folder => .ub
      | some (.file bytes) => if dirOnly then .throw else pure (bytes, p)
      | none => .throw

/-- `Val::writeToFile`, Val.hpp:370-375. (The file is opened before the text is made; this matters only if writing the value ends the
program, see C16.) -/
def jsonWrite {R : Type} (ops : Json.RealOps R) (pretty : Bool) (v : Json.Val R) (d : Disk) (p : PathObj) :
    Outcome (Disk × PathObj) := do
  let t ← Json.write ops pretty v
  writeFile d p t

/-- `Val::readFromFile`, Val.hpp:387-391: the answer is the value afterwards and the result of `tryParse`. -/
def jsonRead {R : Type} (ops : Json.RealOps R) (dbg : Bool) (old : Json.Val R) (d : Disk) (p : PathObj) :
    Outcome (Bool × Json.Val R) := do
  let (t, _) ← getContents dbg d p
  Json.readFromStr ops dbg old t

/-- `saveLogToFile`, Log.inl:17-24. -/
def saveLog (s : Log.LogSt) (d : Disk) (p : PathObj) : Outcome (Disk × PathObj) := writeFile d p s.log

/-- `int length(n)`: the low 32 bits as a signed number. -/
def toInt32 (n : Nat) : Int := Int.bmod n (2 ^ 32)

/-- `MD5::Calculate(std::ifstream&)`, MD5.cpp:50-63; `file` is what the stream reads, `none` if it is not good. A negative size makes
`new` throw; the size is passed on as `uint32_t`. -/
def md5File (file : Option (List Md5.Byte)) : Outcome (List Char) :=
  match file with
  | none => .ok []
  | some bytes =>
    let length := toInt32 bytes.length
    if length < 0 then .throw else Md5.hash (bytes.take length.toNat)

end Verif.Files
