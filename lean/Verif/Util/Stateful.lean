import Verif.Util.Model

/-!
# Predicates with a state

`findIf`, `containsAnyIf`, `eraseRemoveIf` and the trimming functions of `include/SSVUtils/Core/Utils/Containers.hpp` called with a predicate
whose answers depend on the calls before. The state may lie in the predicate itself (`own`: a `mutable` lambda, a function object with
members; a copy of the predicate has a state of its own) or outside of it (captured by reference: all copies share it). All the functions
take the predicate by value and pass copies on; `std::find_if`, `std::find_if_not` and `std::remove_if` are those of libstdc++, where
`std::remove_if` calls `__find_if` with a copy and goes on with the original.
-/

namespace Verif.Util

variable {α σ : Type}

/-- A predicate: the state before the call and the element give the answer and the state after the call. -/
abbrev SPred (σ α : Type) := σ → α → Bool × σ

/-- `std::find_if`: the position found and the state afterwards. Used by `findIf`, `Containers.hpp` 80-84, `containsAnyIf`, 184-188. -/
def findIfS (p : SPred σ α) (s : σ) : List α → Nat × σ
  | [] => (0, s)
  | x :: xs =>
    let (a, s') := p s x
    if a then (0, s')
    else
      let (n, s'') := findIfS p s' xs
      (n + 1, s'')

/-- `std::find_if_not`. -/
def findIfNotS (p : SPred σ α) (s : σ) (c : List α) : Nat × σ :=
  findIfS (fun s x => let (a, s') := p s x; (!a, s')) s c

/-- The state seen by the caller's next use: a copy that was called has a state of its own. -/
def after (own : Bool) (before s : σ) : σ := if own then before else s

/-- The loop of `std::remove_if`. -/
def removeLoopS (p : SPred σ α) (moved : α → α) (s : σ) (c : List α) (result first : Nat) : List α × Nat × σ :=
  match _h : c[first]? with
  | none => (c, result, s)
  | some x =>
    if (p s x).1 then removeLoopS p moved (p s x).2 c result (first + 1)
    else removeLoopS p moved (p s x).2 ((c.set result x).set first (moved x)) (result + 1) (first + 1)
termination_by c.length - first
decreasing_by
  all_goals
    have := (List.getElem?_eq_some_iff.mp _h).1
    try simp only [List.length_set]
    omega

/-- `removeIf`, `Containers.hpp` 101-106, with `std::remove_if`. -/
def removeIfS (own : Bool) (p : SPred σ α) (moved : α → α) (s : σ) (c : List α) : List α × Nat × σ :=
  let (first, s') := findIfS p s c
  let s' := after own s s'
  if first = c.length then (c, first, s') else removeLoopS p moved s' c first (first + 1)

/-- `eraseRemoveIf`, `Containers.hpp` 251-255: what is left, and the state of the caller's predicate. -/
def eraseRemoveIfS (own : Bool) (p : SPred σ α) (moved : α → α) (s : σ) (c : List α) : List α × σ :=
  let (c, e, s') := removeIfS own p moved s c
  (c.take e, after own s s')

/-- `trimL`, `Containers.hpp` 284-290. -/
def trimLS (own : Bool) (p : SPred σ α) (s : σ) (c : List α) : List α × σ :=
  let (n, s') := findIfNotS p s c
  (c.drop n, after own s s')

/-- `trimR`, `Containers.hpp` 297-304. -/
def trimRS (own : Bool) (p : SPred σ α) (s : σ) (c : List α) : List α × σ :=
  let (n, s') := findIfNotS p s c.reverse
  (c.take (c.length - n), after own s s')

/-- `trimLR`, `Containers.hpp` 312-317. -/
def trimLRS (own : Bool) (p : SPred σ α) (s : σ) (c : List α) : List α × σ :=
  let (c, s') := trimLS own p s c
  trimRS own p s' c

end Verif.Util
