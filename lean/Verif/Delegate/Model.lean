import Verif.Basic

/-!
# Model of `Delegate`

Source: `include/SSVUtils/Delegate/Inc/Delegate.hpp`.

Handlers are names of type `H`; what a handler does is given by `sem`: from the argument and the state `W` of
the rest of the program it computes the new state, its result, and the changes it makes to the very
delegate that is calling it (usually none). The vector of functions carries a capacity, and a generation
that changes whenever its iterators are invalidated; `grow` is the (implementation-defined) growth policy.
-/

namespace Verif.Delegate

open Verif

/-- A change a handler makes to the delegate that is running it. -/
inductive Edit (H : Type) where
  | add (h : H)
  | clear
  deriving Repr, DecidableEq

/-- `std::vector<FuncType> funcs`, Delegate.hpp:36-37. -/
structure Dlg (H : Type) where
  funcs : List H
  cap : Nat
  gen : Nat
  deriving Repr, DecidableEq

def Dlg.new {H : Type} : Dlg H := { funcs := [], cap := 0, gen := 0 }

section
variable {H Arg W R : Type} (grow : Nat → Nat) (sem : H → Arg → W → W × R × List (Edit H))

/-- `operator+=`, Delegate.hpp:48-53: `emplace_back`; reallocation invalidates iterators. -/
def Dlg.add (d : Dlg H) (h : H) : Dlg H :=
  if d.funcs.length < d.cap then { d with funcs := d.funcs ++ [h] }
  else { funcs := d.funcs ++ [h], cap := grow d.cap, gen := d.gen + 1 }

/-- `clear`, Delegate.hpp:76-79. -/
def Dlg.clear (d : Dlg H) : Dlg H := { d with funcs := [], gen := d.gen + 1 }

/-- `isEmpty`, Delegate.hpp:82-85. -/
def Dlg.isEmpty (d : Dlg H) : Bool := d.funcs.isEmpty

def Dlg.edit (d : Dlg H) : Edit H → Dlg H
  | .add h => d.add grow h
  | .clear => d.clear

/-- The loop of `DelegateHelper::exec`, Delegate.hpp:98, 107, at index `i` with `n` elements to go: the end
iterator was fixed at the start. If the call invalidated the iterators, going on is UB. -/
def execFrom (arg : Arg) : Nat → Nat → Dlg H → W → Outcome (Dlg H × W × List R)
  | 0, _, d, w => .ok (d, w, [])
  | n + 1, i, d, w =>
    match d.funcs[i]? with
    | none => .ub
    | some h =>
      let out := sem h arg w
      let d' := out.2.2.foldl (Dlg.edit grow) d
      if d'.gen ≠ d.gen then .ub
      else do
        let (d'', w'', rs) ← execFrom arg n (i + 1) d' out.1
        return (d'', w'', out.2.1 :: rs)

/-- `operator()`, Delegate.hpp:70-73, 90-109. The `void` version drops the results. -/
def Dlg.call (d : Dlg H) (arg : Arg) (w : W) : Outcome (Dlg H × W × List R) :=
  execFrom grow sem arg d.funcs.length 0 d w

inductive Op (H Arg : Type) where
  | add (h : H)
  | clear
  | call (arg : Arg)

/-- A history; returns the results of the calls in order. -/
def run : List (Op H Arg) → Dlg H → W → Outcome (Dlg H × W × List (List R))
  | [], d, w => .ok (d, w, [])
  | .add h :: os, d, w => run os (d.add grow h) w
  | .clear :: os, d, w => run os d.clear w
  | .call arg :: os, d, w => do
    let (d, w, rs) ← d.call grow sem arg w
    let (d, w, rss) ← run os d w
    return (d, w, rs :: rss)

end

end Verif.Delegate
