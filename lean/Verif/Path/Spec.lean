import Verif.Path.Model
import Mathlib.Data.List.Infix

/-!
# What paths and scans should do
-/

namespace Verif.Path

open Verif Str

def isSep (c : Char) : Bool := c == '/' || c == '\\'

/-- The names a path goes through. -/
def components (s : Str) : List Str := (s.splitOnP isSep).filter (fun n => !n.isEmpty)

/-- Written with single slashes only. -/
def Canonical (s : Str) : Prop := '\\' ∉ s ∧ ¬ ['/', '/'] <:+: s

/-- A name a folder entry can have, with the exception that Linux also allows backslashes. -/
def Plain (n : Str) : Prop := n ≠ [] ∧ '/' ∉ n ∧ '\\' ∉ n ∧ '\x00' ∉ n

/-- Is the text one of the two entries every folder has? -/
def IsDots (n : Str) : Prop := n = ".".toList ∨ n = "..".toList

instance (n : Str) : Decidable (IsDots n) := by unfold IsDots; infer_instance

/-- The wanted name. -/
def Wanted (p : Pick) (n : Str) : Prop :=
  match p with
  | .any => True
  | .byExt e => e <:+ n
  | .byName x => n = x

instance (p : Pick) (n : Str) : Decidable (Wanted p n) := by
  cases p <;> (simp only [Wanted]; infer_instance)

/-- What a scan should report for the entry `n` of folder `d` (which ends with a slash). -/
def report (fs : FS) (t : EntryType) (p : Pick) (d n : Str) : List Str :=
  if IsDots n then []
  else if fs.stat (d ++ n) = some .folder then
    match t with
    | .file => []
    | _ => [d ++ n ++ ['/']]
  else
    match t with
    | .folder => []
    | _ => if Wanted p n then [d ++ n] else []

/-- A folder may be written with a slash at the end. -/
def SlashOk (fs : FS) : Prop := ∀ s, fs.stat s = some .folder → fs.stat (s ++ ['/']) = some .folder

/-- A folder that can be scanned as intended: its path is canonical and its entries have ordinary names; folders have no name
ending with a dot. -/
structure Ordinary (fs : FS) (d : Str) (names : List Str) : Prop where
  canonical : Canonical d
  nozero : '\x00' ∉ d
  slash : ['/'] <:+ d
  folder : fs.stat d = some .folder
  opened : fs.opendir d = some names
  plain : ∀ n ∈ names, Plain n
  dots : ∀ n ∈ names, IsDots n → fs.stat (d ++ n) = some .folder
  nodot : ∀ n ∈ names, ¬ IsDots n → fs.stat (d ++ n) = some .folder → n.getLast? ≠ some '.'

end Verif.Path
