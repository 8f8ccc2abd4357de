import Verif.Files.Model

/-!
# What the file functions should do
-/

namespace Verif.Files

open Verif Str Path

/-- An ordinary name: not empty, without slash, backslash and zero, and not one of the two dots. -/
def Name (n : Str) : Prop := n ≠ [] ∧ '/' ∉ n ∧ '\\' ∉ n ∧ Char.ofNat 0 ∉ n ∧ n ≠ ['.'] ∧ n ≠ ['.', '.']

instance (n : Str) : Decidable (Name n) := by unfold Name; infer_instance

/-- The text of the path through the given names, from the root or from the current folder. -/
def text (abs : Bool) (ns : List Str) : Str := (if abs then ['/'] else []) ++ List.intercalate ['/'] ns

/-- The place such a path leads to. -/
def place (d : Disk) (abs : Bool) (ns : List Str) : List Str := (if abs then [] else d.cwd) ++ ns

/-- Every folder on the way to a place is there. -/
def Reachable (d : Disk) (k : List Str) : Prop := ∀ q, q <+: k → q ≠ k → d.get q = some .folder

/-- The disk is a tree: whatever is there is in a folder. -/
def IsTree (d : Disk) : Prop := ∀ k n, d.get (k ++ [n]) ≠ none → d.get k = some .folder

/-- Nothing but the given place differs. -/
def OnlyAt (k : List Str) (d d' : Disk) : Prop := d'.cwd = d.cwd ∧ ∀ q, q ≠ k → d'.get q = d.get q

/-- Operations on other files and folders, each with a path through ordinary names from the root. -/
inductive FOp where
  | create (ns : List Str)
  | remove (ns : List Str)
  | save (ns : List Str) (text : Str)

def FOp.names : FOp → List Str
  | .create ns => ns
  | .remove ns => ns
  | .save ns _ => ns

/-- Performs the operations. -/
def runOps : Disk → List FOp → Outcome Disk
  | d, [] => .ok d
  | d, .create ns :: os => do
    let (d, _) ← createFolder d (PathObj.of (text true ns))
    runOps d os
  | d, .remove ns :: os => do
    let (_, d, _) ← removeFile d (PathObj.of (text true ns))
    runOps d os
  | d, .save ns t :: os => do
    let (d, _) ← writeFile d (PathObj.of (text true ns)) t
    runOps d os

end Verif.Files
