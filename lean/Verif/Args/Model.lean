import Verif.Basic

/-!
# Argument packs and tuples

`forArgs`, `tplFor`, `tplForData`, `explode`, `getTplIdxOf`, `TplRepeat` and the
variadic `getMin`/`getMax`.

An argument pack or a tuple is a list of values (or of types).  A function that is
called for its effect is modelled by what a call does with a state, so a call may also
end the program's normal course (`Outcome`).  What the compiler rejects is `none`: these
are templates whose sizes are known when they are compiled.

Value categories are not modelled: whether an argument arrives as an lvalue or an rvalue
does not change which arguments a call gets.
-/

namespace Verif.Args

variable {α σ τ : Type}

/-- What calling a function does: the arguments, then the state before the call. -/
abbrev Fn (α σ : Type) := List α → σ → Outcome σ

/-- `std::get<i>(xs)` for all the given indices: include/SSVUtils/Core/Utils/ForArgs.hpp:25.
`none` when an index is outside of the tuple, which does not compile. -/
def getAll (xs : List α) : List Nat → Option (List α)
  | [] => some []
  | i :: is => do
    let x ← xs[i]?
    let r ← getAll xs is
    some (x :: r)

/-- `ForNArgsHlpr<…>::execN<base>`: include/SSVUtils/Core/Utils/ForArgs.hpp:25-32.  `cs` is
the index pack `Cs...`. -/
def execN (f : Fn α σ) (xs : List α) (cs : List Nat) (base : Nat) :
    Option (σ → Outcome σ) := do
  let g ← getAll xs (cs.map (base + ·))
  some (f g)

/-- `ForNArgsHlpr<…>::exec`: include/SSVUtils/Core/Utils/ForArgs.hpp:36-47.  The elements
of the braced list are evaluated from left to right. -/
def exec (f : Fn α σ) (xs : List α) (cs : List Nat) : List Nat → Option (σ → Outcome σ)
  | [] => some fun s => .ok s
  | b :: bs => do
    let c ← execN f xs cs (b * cs.length)
    let r ← exec f xs cs bs
    some fun s => (c s).bind r

/-- `forArgs<k>(f, xs...)`: include/SSVUtils/Core/Utils/ForArgs.hpp:53-65. -/
def forArgs (k : Nat) (f : Fn α σ) (xs : List α) : Option (σ → Outcome σ) :=
  if 0 < k ∧ xs.length % k = 0 then
    exec f xs (List.range k) (List.range (xs.length / k))
  else none

/-- The variadic `getMin(a, b, …)`: include/SSVUtils/Core/MPL/Impl/MinMax.hpp:12-26, on
natural numbers.  `none`: there is no `getMin()`. -/
def getMin : List Nat → Option Nat
  | [] => none
  | [a] => some a
  | [a, b] => some (if a < b then a else b)
  | a :: b :: c :: xs => do
    let m ← getMin (b :: c :: xs)
    some (if a < m then a else m)

/-- The variadic `getMax(a, b, …)`: include/SSVUtils/Core/MPL/Impl/MinMax.hpp:28-42. -/
def getMax : List Nat → Option Nat
  | [] => none
  | [a] => some a
  | [a, b] => some (if a > b then a else b)
  | a :: b :: c :: xs => do
    let m ← getMax (b :: c :: xs)
    some (if a > m then a else m)

/-- `std::get<i>(tpls)...`: include/SSVUtils/Core/Tuple/Internal/TplForHelper.hpp:46-49. -/
def column (i : Nat) : List (List α) → Option (List α)
  | [] => some []
  | t :: ts => do
    let x ← t[i]?
    let r ← column i ts
    some (x :: r)

/-- `ForHelper<n, …>::exec<i>` and `ForDataHelper<n, …>::exec<i>`:
include/SSVUtils/Core/Tuple/Internal/TplForHelper.hpp:12-30.  `f i` is the function with
the iteration data (the index) it is given; `left` is `n - i`. -/
def tplExec (f : Nat → Fn α σ) (tpls : List (List α)) : Nat → Nat → Option (σ → Outcome σ)
  | _, 0 => some fun s => .ok s
  | i, left + 1 => do
    let c ← column i tpls
    let r ← tplExec f tpls (i + 1) left
    some fun s => (f i c s).bind r

/-- `tplForData(f, tpls...)`: include/SSVUtils/Core/Tuple/TplFor.hpp:13-24, 40.  The first
call of `exec` gives no `TI`, so only the overload with a default can be called, and that
one asks for `TI < TS`: a tuple without elements does not compile. -/
def tplForData (f : Nat → Fn α σ) (tpls : List (List α)) : Option (σ → Outcome σ) := do
  let n ← getMin (tpls.map List.length)
  if 0 < n then tplExec f tpls 0 n else none

/-- `tplFor(f, tpls...)`: include/SSVUtils/Core/Tuple/TplFor.hpp:13-24, 33. -/
def tplFor (f : Fn α σ) (tpls : List (List α)) : Option (σ → Outcome σ) :=
  tplForData (fun _ => f) tpls

/-- How a call ends: it returns, it leaves by an exception, or the program is terminated. -/
inductive Ended (τ : Type) where
  | returns (x : τ)
  | throws
  | terminates
  deriving DecidableEq, Repr

/-- The border of a function declared `noexcept`: an exception ends the program. -/
def Ended.noexcept : Ended τ → Ended τ
  | .throws => .terminates
  | r => r

/-- `Exploder<n>::explode(f, t, args...)`:
include/SSVUtils/Core/Tuple/Internal/Exploder.hpp:16-36.  The general template is declared
`noexcept`, whatever `f` is; the one for `0` is only if calling `f` is. -/
def exploder (f : List α → Ended τ) (t : List α) : Nat → List α → Option (Ended τ)
  | 0, args => some (f args)
  | n + 1, args => do
    let x ← t[n]?
    let r ← exploder f t n (x :: args)
    some r.noexcept

/-- `explode(f, t)`: include/SSVUtils/Core/Tuple/Tuple.hpp:39-45. -/
def explode (f : List α → Ended τ) (t : List α) : Option (Ended τ) :=
  exploder f t t.length []

/-- `getTplIdxOf<T, TTpl>()`: include/SSVUtils/Core/Tuple/Internal/TplIdxOfHelper.hpp:15-28,
include/SSVUtils/Core/Tuple/Tuple.hpp:32-36.  `none`: `TplIdxOf<T, std::tuple<>>` is
incomplete. -/
def tplIdxOf [DecidableEq α] (t : α) : List α → Option Nat
  | [] => none
  | u :: us => if u = t then some 0 else do
    let r ← tplIdxOf t us
    some (1 + r)

/-- `TplRepeatImplHelper<T, n, std::tuple<args...>>`:
include/SSVUtils/Core/Tuple/Internal/TplRepeatHelper.hpp:15-29. -/
def tplRepeatHlpr (t : α) : Nat → List α → List α
  | 0, args => args
  | n + 1, args => tplRepeatHlpr t n (args ++ [t])

/-- `TplRepeat<T, n>`: include/SSVUtils/Core/Tuple/Internal/TplRepeatHelper.hpp:31-35,
include/SSVUtils/Core/Tuple/Tuple.hpp:27-28. -/
def tplRepeat (t : α) (n : Nat) : List α := tplRepeatHlpr t n []

end Verif.Args
