import Mathlib.Data.List.Infix

/-!
# Specification of the string utilities

Only list notions: prefix `<+:`, suffix `<:+`, infix `<:+:`.
-/

namespace Verif.Str.Spec

abbrev Str := List Char

/-- Some separator of the list occurs in `s` at offset `i`. -/
def OccursAt (seps : List Str) (s : Str) (i : Nat) : Prop := ∃ sep ∈ seps, sep <+: s.drop i

/-- `sep` is the separator found at the start of `s`: the first one of the list that `s` starts with. -/
def Found (seps : List Str) (s : Str) (sep : Str) : Prop :=
  ∃ l r, seps = l ++ sep :: r ∧ sep <+: s ∧ ∀ x ∈ l, ¬ x <+: s

/-- `Cuts seps s cuts last`: cutting `s` at each separator met from left to right gives the pieces and separators `cuts`, then
`last`. -/
inductive Cuts (seps : List Str) : Str → List (Str × Str) → Str → Prop
  | last {s : Str} (h : ∀ i ≤ s.length, ¬ OccursAt seps s i) : Cuts seps s [] s
  | cut {piece sep rest : Str} {cuts : List (Str × Str)} {last : Str}
      (before : ∀ i < piece.length, ¬ OccursAt seps (piece ++ sep ++ rest) i)
      (here : Found seps (sep ++ rest) sep)
      (more : Cuts seps rest cuts last) : Cuts seps (piece ++ sep ++ rest) ((piece, sep) :: cuts) last

def nonempty (l : List Str) : List Str := l.filter (fun x => !x.isEmpty)

/-- The result in the normal mode: the non-empty pieces. -/
def pieces (cuts : List (Str × Str)) (last : Str) : List Str := nonempty (cuts.map Prod.fst ++ [last])

/-- In the trailing mode each piece keeps the separator that ended it. -/
def trailing (cuts : List (Str × Str)) (last : Str) : List Str := nonempty (cuts.map (fun c => c.1 ++ c.2) ++ [last])

/-- In the tokenizing mode the separators are pieces of their own. -/
def tokens (cuts : List (Str × Str)) (last : Str) : List Str := cuts.flatMap (fun c => nonempty [c.1] ++ [c.2]) ++ nonempty [last]

/-- Replacing every occurrence met from left to right: the same pieces with `b` in the place of the separators. -/
def joined (b : Str) (cuts : List (Str × Str)) (last : Str) : Str := cuts.flatMap (fun c => c.1 ++ b) ++ last

/-! ## Edits -/

/-- One single-character edit: insertion, deletion or substitution somewhere. -/
inductive Edit : Str → Str → Prop
  | insert (l r : Str) (x : Char) : Edit (l ++ r) (l ++ x :: r)
  | delete (l r : Str) (x : Char) : Edit (l ++ x :: r) (l ++ r)
  | subst (l r : Str) (x y : Char) : Edit (l ++ x :: r) (l ++ y :: r)

/-- `n` edits in sequence. -/
inductive Edits : Nat → Str → Str → Prop
  | refl (s : Str) : Edits 0 s s
  | step {n : Nat} {a b c : Str} (h : Edit a b) (t : Edits n b c) : Edits (n + 1) a c

/-- `n` is the least number of edits turning `a` into `b`. -/
def IsDistance (a b : Str) (n : Nat) : Prop := Edits n a b ∧ ∀ m, Edits m a b → n ≤ m

end Verif.Str.Spec
