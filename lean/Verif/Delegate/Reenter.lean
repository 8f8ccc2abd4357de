import Verif.Basic

/-!
# Delegates whose handlers use the delegate that is calling them

Source: `include/SSVUtils/Delegate/Inc/Delegate.hpp`. A handler is a program that may read and change the
rest of the program's state `W`, add functions to the delegate, clear it, ask whether it is empty, call it
again, catch what such a call throws, and throw. What it does next may depend on everything it has seen.

While a handler runs, the function object it belongs to is an element of the vector `funcs`, and the loop of
`exec` (Delegate.hpp 98, 107) holds iterators into that vector. `clear` and a reallocation destroy the object
and invalidate the iterators; that is counted as undefined at once. (An exception thrown right afterwards by
a handler without captured variables would leave the loop without using either.)
-/

namespace Verif.Delegate.Reenter

/-- What a handler does. -/
inductive Prog (H Arg R W : Type) where
  /-- return a result -/
  | ret (r : R)
  /-- throw an exception; calling an empty `std::function` throws `std::bad_function_call` -/
  | throw
  /-- read the state of the rest of the program -/
  | get (k : W → Prog H Arg R W)
  /-- change it -/
  | set (w : W) (k : Prog H Arg R W)
  /-- `delegate += h` -/
  | add (h : H) (k : Prog H Arg R W)
  /-- `delegate.clear()` -/
  | clear (k : Prog H Arg R W)
  /-- `delegate.isEmpty()` -/
  | isEmpty (k : Bool → Prog H Arg R W)
  /-- `delegate(arg)`; `none` if it threw and the exception was caught -/
  | call (arg : Arg) (k : Option (List R) → Prog H Arg R W)

/-- How a piece of code ends. -/
inductive Res (S α : Type) where
  | ok (a : α) (s : S)
  | threw (s : S)
  | ub
  | diverge
  deriving Repr, DecidableEq

/-- The delegate (its functions and the capacity of their vector, Delegate.hpp 36-37) and the rest of the
program's state. -/
structure St (H W : Type) where
  funcs : List H
  cap : Nat
  w : W
  deriving Repr, DecidableEq

section
variable {H Arg R W : Type}

/-- A handler, called from the loop of `exec`; `nested` is `operator()` of the same delegate. `emplace_back`
(Delegate.hpp 51) reallocates when the vector is full. -/
def runP (nested : Arg → St H W → Res (St H W) (List R)) : Prog H Arg R W → St H W → Res (St H W) R
  | .ret r, s => .ok r s
  | .throw, s => .threw s
  | .get k, s => runP nested (k s.w) s
  | .set w k, s => runP nested k { s with w := w }
  | .add h k, s =>
    if s.funcs.length < s.cap then runP nested k { s with funcs := s.funcs ++ [h] } else .ub
  | .clear _, _ => .ub
  | .isEmpty k, s => runP nested (k s.funcs.isEmpty) s
  | .call arg k, s =>
    match nested arg s with
    | .ok rs s => runP nested (k (some rs)) s
    | .threw s => runP nested (k none) s
    | .ub => .ub
    | .diverge => .diverge

/-- The loop of `exec`, Delegate.hpp 96-99, 107: `n` functions from index `i` on are left; the end was fixed
when the loop began. The argument pack is passed on as it is. -/
def loop (body : H → Arg → Prog H Arg R W) (nested : Arg → St H W → Res (St H W) (List R)) (arg : Arg) :
    Nat → Nat → St H W → Res (St H W) (List R)
  | 0, _, s => .ok [] s
  | n + 1, i, s =>
    match s.funcs[i]? with
    | none => .ub
    | some h =>
      match runP nested (body h arg) s with
      | .ok r s =>
        match loop body nested arg n (i + 1) s with
        | .ok rs s => .ok (r :: rs) s
        | .threw s => .threw s
        | .ub => .ub
        | .diverge => .diverge
      | .threw s => .threw s
      | .ub => .ub
      | .diverge => .diverge

/-- `operator()`, Delegate.hpp 70-73, 90-109. Handlers may call the delegate without end; `depth` bounds the
depth of calls within calls. -/
def call (body : H → Arg → Prog H Arg R W) : Nat → Arg → St H W → Res (St H W) (List R)
  | 0, _, _ => .diverge
  | depth + 1, arg, s => loop body (call body depth) arg s.funcs.length 0 s

/-- `operator+=` outside of a call, Delegate.hpp 48-53; `grow` is the growth policy of the vector. -/
def add (grow : Nat → Nat) (h : H) (s : St H W) : St H W :=
  { s with funcs := s.funcs ++ [h], cap := if s.funcs.length < s.cap then s.cap else grow s.cap }

/-- `clear` outside of a call, Delegate.hpp 76-79: the capacity stays. -/
def clear (s : St H W) : St H W := { s with funcs := [] }

end

/-! ## Specification: lists of functions -/

namespace Spec

variable {H Arg R W : Type}

/-- A handler: additions are appended; clearing is not allowed. -/
def runP (nested : Arg → List H × W → Res (List H × W) (List R)) :
    Prog H Arg R W → List H × W → Res (List H × W) R
  | .ret r, s => .ok r s
  | .throw, s => .threw s
  | .get k, s => runP nested (k s.2) s
  | .set w k, s => runP nested k (s.1, w)
  | .add h k, s => runP nested k (s.1 ++ [h], s.2)
  | .clear _, _ => .ub
  | .isEmpty k, s => runP nested (k (decide (s.1 = []))) s
  | .call arg k, s =>
    match nested arg s with
    | .ok rs s => runP nested (k (some rs)) s
    | .threw s => runP nested (k none) s
    | .ub => .ub
    | .diverge => .diverge

/-- Run the given functions one after the other, each on the state its predecessor left, until one throws. -/
def each (body : H → Arg → Prog H Arg R W) (nested : Arg → List H × W → Res (List H × W) (List R))
    (arg : Arg) : List H → List H × W → Res (List H × W) (List R)
  | [], s => .ok [] s
  | h :: hs, s =>
    match runP nested (body h arg) s with
    | .ok r s =>
      match each body nested arg hs s with
      | .ok rs s => .ok (r :: rs) s
      | o => o
    | .threw s => .threw s
    | .ub => .ub
    | .diverge => .diverge

/-- A call runs the functions that are there when it begins. -/
def call (body : H → Arg → Prog H Arg R W) : Nat → Arg → List H × W → Res (List H × W) (List R)
  | 0, _, _ => .diverge
  | depth + 1, arg, s => each body (call body depth) arg s.1 s

/-- The handler never clears the delegate. -/
inductive NoClear : Prog H Arg R W → Prop
  | ret r : NoClear (.ret r)
  | throw : NoClear .throw
  | get k : (∀ w, NoClear (k w)) → NoClear (.get k)
  | set w k : NoClear k → NoClear (.set w k)
  | add h k : NoClear k → NoClear (.add h k)
  | isEmpty k : (∀ b, NoClear (k b)) → NoClear (.isEmpty k)
  | call arg k : (∀ o, NoClear (k o)) → NoClear (.call arg k)

/-- The handler neither clears the delegate nor adds to it. -/
inductive Quiet : Prog H Arg R W → Prop
  | ret r : Quiet (.ret r)
  | throw : Quiet .throw
  | get k : (∀ w, Quiet (k w)) → Quiet (.get k)
  | set w k : Quiet k → Quiet (.set w k)
  | isEmpty k : (∀ b, Quiet (k b)) → Quiet (.isEmpty k)
  | call arg k : (∀ o, Quiet (k o)) → Quiet (.call arg k)

end Spec

end Verif.Delegate.Reenter
