import Verif.Bench.Model

/-! # Nested benchmarks and the times of groups -/

namespace Verif.Bench

open Verif

/-- A program with properly nested benchmarks: one benchmark (its title, when it starts and when it ends, whether it is
ended by `endLo` or by `getEndData`), what runs inside of it, and what runs after it. -/
inductive Prog where
  | nil
  | node (name : Str) (s e : Int) (logged : Bool) (inner next : Prog)

/-- The calls the program makes. -/
def Prog.calls : Prog → List (Int × Call)
  | .nil => []
  | .node n s e lg inner next =>
    (s, .start n) :: (inner.calls ++ (e, if lg then .endLo else .getEnd) :: next.calls)

/-- The title of a benchmark inside of `d` others. -/
def title (d : Nat) (name : Str) : Str :=
  if d = 0 then "Benchmark #^ ".toList ++ name
  else "Benchmark #".toList ++ List.replicate (4 * d) '-' ++ "> ".toList ++ name

def Prog.isNil : Prog → Bool
  | .nil => true
  | .node .. => false

/-- What should be logged: inner benchmarks before outer ones, each with the time between its start and its end; an empty
line after an outermost benchmark that had others inside. -/
def Prog.lines (d : Nat) : Prog → List Ev
  | .nil => []
  | .node n s e lg inner next =>
    inner.lines (d + 1) ++ (if lg then [.bench (title d n) (e - s)] else []) ++
      (if d = 0 ∧ lg = true ∧ inner.isNil = false then [.blank] else []) ++ next.lines d

/-- The outermost benchmarks are ended by `endLo`. -/
def Prog.TopLogged : Prog → Prop
  | .nil => True
  | .node _ _ _ lg _ next => lg = true ∧ next.TopLogged

/-- A call on group `g`. -/
def Call.on (g : Str) : Call → Bool
  | .groupReset h => h == g
  | .groupResume h => h == g
  | .groupPause h => h == g
  | .groupEndLo h => h == g
  | _ => false

/-- A call that starts or ends a benchmark. -/
def Call.onStack : Call → Bool
  | .start _ => true
  | .getEnd => true
  | .endLo => true
  | _ => false

def Ev.notGroup : Ev → Bool
  | .group _ _ => false
  | _ => true

/-- `g` runs from `a` to `b`, for each of the intervals. -/
def intervals (g : Str) : List (Int × Int) → List (Int × Call)
  | [] => []
  | (a, b) :: l => (a, .groupResume g) :: (b, .groupPause g) :: intervals g l

/-- Total length of the intervals. -/
def lengths (l : List (Int × Int)) : Int := (l.map fun i => i.2 - i.1).sum

/-- Rounding to `double`: integers up to 2⁵³ are kept, the relative error is at most 2⁻⁵³. -/
structure ToDouble (rnd : ℚ → ℚ) : Prop where
  ints : ∀ n : ℤ, |n| ≤ 2 ^ 53 → rnd n = n
  error : ∀ x : ℚ, |rnd x - x| ≤ |x| / 2 ^ 53

end Verif.Bench
