/-!
# What the operations on type lists mean

Most operations are those of Lean's own lists.  The others are described here, without
referring to the model of the code.
-/

namespace Verif.Mpl.Spec

variable {α : Type}

/-- `us` is `ts` with only the first occurrence of each type left. -/
structure FirstOccurrences (ts us : List α) : Prop where
  /-- nothing occurs twice -/
  nodup : us.Nodup
  /-- nothing is lost and nothing added -/
  mem : ∀ t, t ∈ us ↔ t ∈ ts
  /-- the order is that of the first occurrences: what stands before `t` in the result is
  what occurs in the list before the first `t` -/
  order : ∀ a t b, us = a ++ t :: b → ∃ c d, ts = c ++ t :: d ∧ t ∉ c ∧ ∀ u, u ∈ a ↔ u ∈ c

/-- The list `tm` occurs in `ts` at index `i`. -/
def OccursAt (ts tm : List α) (i : Nat) : Prop := ∃ a b, ts = a ++ tm ++ b ∧ a.length = i

/-- Two occurrences of `tm` in `ts` that share a position. -/
def Overlap (ts tm : List α) : Prop :=
  ∃ i j, i < j ∧ j < i + tm.length ∧ OccursAt ts tm i ∧ OccursAt ts tm j

/-- `out` is `ts` with every occurrence of `tm` replaced by `tn`, reading from the left. -/
inductive Replaced (tm tn : List α) : List α → List α → Prop
  | nil : Replaced tm tn [] []
  | found {ts out} (h : Replaced tm tn ts out) : Replaced tm tn (tm ++ ts) (tn ++ out)
  | keep {t ts out} (no : ¬ tm <+: t :: ts) (h : Replaced tm tn ts out) :
    Replaced tm tn (t :: ts) (t :: out)

end Verif.Mpl.Spec
