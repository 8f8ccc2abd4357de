import Verif.Basic

/-!
# Model of `Union`, `Maybe` and their POD versions

Source: `include/SSVUtils/Union/Inc/{UnionBase,Union,UnionPOD,Maybe}.hpp`,
`include/SSVUtils/Core/MPL/Impl/IdxOf.hpp`.

A member type is a number, values have type `V`. The storage holds at most one object; using it at another
type, or when there is none, is UB. `dbg` says whether `SSVU_DEBUG` is defined.

Note: as written, the debug branch passes two arguments to `assert` (Union.hpp:40, 50-51), which `<cassert>`
does not accept before C++26; the model takes the intended meaning (the string is the message).
-/

namespace Verif.Union

open Verif

/-- `MPL::getIdxOf<T, Ts...>()` cast to `int`, IdxOf.hpp:18-34. -/
def idxOf (T : Nat) : List Nat → Int
  | [] => -1
  | S :: Ts => if S = T then 0 else
    let i := idxOf T Ts
    if i = -1 then -1 else i + 1

/-- A union object: the debug flag (Union.hpp:33), the live object in the storage, and the number of
objects whose storage was reused or released without their destructor being run. -/
structure Un (V : Type) where
  dirty : Int
  obj : Option (Nat × V)
  leaked : Nat
  deriving Repr, DecidableEq

def Un.new {V : Type} : Un V := { dirty := -1, obj := none, leaked := 0 }

section
variable {V : Type} (dbg : Bool) (Ts : List Nat)

/-- `assertClean`, Union.hpp:38-41, 57-59. -/
def Un.assertClean (u : Un V) : Outcome Unit := if dbg then Outcome.check (u.dirty == -1) else .ok ()

/-- `assertDirty<T>`, Union.hpp:47-52, 67-70. -/
def Un.assertDirty (u : Un V) (T : Nat) : Outcome Unit :=
  if dbg then Outcome.check (u.dirty == idxOf T Ts) else .ok ()

/-- Objects lost when the storage is overwritten. -/
def lost {V : Type} : Option (Nat × V) → Nat
  | some _ => 1
  | none => 0

/-- `init<T>(args)`, Union.hpp:84-91: check, set the flag, construct. -/
def Un.init (u : Un V) (T : Nat) (v : V) : Outcome (Un V) := do
  u.assertClean dbg
  return { dirty := if dbg then idxOf T Ts else u.dirty, obj := some (T, v), leaked := u.leaked + lost u.obj }

/-- `init<T>(args)` when the constructor throws: the flag is already set, no object was made (the caller
catches the exception and goes on). -/
def Un.initThrow (u : Un V) (T : Nat) : Outcome (Un V) := do
  u.assertClean dbg
  return { dirty := if dbg then idxOf T Ts else u.dirty, obj := none, leaked := u.leaked + lost u.obj }

/-- The object of type `T` in the storage. -/
def Un.theObj (u : Un V) (T : Nat) : Outcome V :=
  match u.obj with
  | some (S, v) => if S = T then .ok v else .ub
  | none => .ub

/-- `deinit<T>()`, Union.hpp:95-101. -/
def Un.deinit (u : Un V) (T : Nat) : Outcome (Un V) := do
  u.assertDirty dbg Ts T
  let _ ← u.theObj T
  return { u with dirty := if dbg then -1 else u.dirty, obj := none }

/-- `get<T>()`, Union.hpp:110-127. -/
def Un.get (u : Un V) (T : Nat) : Outcome V := do
  u.assertDirty dbg Ts T
  u.theObj T

/-- Assignment through the reference returned by `get<T>()`. -/
def Un.put (u : Un V) (T : Nat) (v : V) : Outcome (Un V) := do
  let _ ← u.get dbg Ts T
  return { u with obj := some (T, v) }

/-- The destructor, Union.hpp:104-107. -/
def Un.destroy (u : Un V) : Outcome Nat := do
  u.assertClean dbg
  return u.leaked + lost u.obj

inductive Op (V : Type) where
  | init (T : Nat) (v : V)
  | get (T : Nat)
  | put (T : Nat) (v : V)
  | deinit (T : Nat)
  deriving Repr, DecidableEq

/-- A call sequence followed by the destruction of the union: the values read, and the number of objects
never destroyed. -/
def run : Un V → List (Op V) → Outcome (List V × Nat)
  | u, [] => do return ([], ← u.destroy dbg)
  | u, .init T v :: os => do run (← u.init dbg Ts T v) os
  | u, .put T v :: os => do run (← u.put dbg Ts T v) os
  | u, .deinit T :: os => do run (← u.deinit dbg Ts T) os
  | u, .get T :: os => do
    let v ← u.get dbg Ts T
    let (vs, k) ← run u os
    return (v :: vs, k)

end

/-- Calls, of which some constructions throw (and the caller goes on). -/
inductive TOp (V : Type) where
  | op (o : Op V)
  | initThrow (T : Nat)
  deriving Repr, DecidableEq

/-- `run` with throwing constructors, Union.hpp:84-127. -/
def runT {V : Type} (dbg : Bool) (Ts : List Nat) : Un V → List (TOp V) → Outcome (List V × Nat)
  | u, [] => do return ([], ← u.destroy dbg)
  | u, .op (.init T v) :: os => do runT dbg Ts (← u.init dbg Ts T v) os
  | u, .op (.put T v) :: os => do runT dbg Ts (← u.put dbg Ts T v) os
  | u, .op (.deinit T) :: os => do runT dbg Ts (← u.deinit dbg Ts T) os
  | u, .op (.get T) :: os => do
    let v ← u.get dbg Ts T
    let (vs, k) ← runT dbg Ts u os
    return (v :: vs, k)
  | u, .initThrow T :: os => do runT dbg Ts (← u.initThrow dbg Ts T) os

/-! ### `Maybe<T>`, Maybe.hpp:16-70: a union of one type. -/

inductive MOp (V : Type) where
  | init (v : V)
  | get
  | put (v : V)
  | deinit

def MOp.toOp {V : Type} : MOp V → Op V
  | .init v => .init 0 v
  | .get => .get 0
  | .put v => .put 0 v
  | .deinit => .deinit 0

def runMaybe {V : Type} (dbg : Bool) (os : List (MOp V)) : Outcome (List V × Nat) :=
  run dbg [0] Un.new (os.map MOp.toOp)

/-! ### `UnionPOD`, UnionPOD.hpp:16-46: no checks, no destructors; the storage may be overwritten. -/

def runPod {V : Type} : Option (Nat × V) → List (Op V) → Outcome (List V)
  | _, [] => .ok []
  | _, .init T v :: os => runPod (some (T, v)) os
  | o, .get T :: os => do
    let v ← Un.theObj { dirty := -1, obj := o, leaked := 0 } T
    return v :: (← runPod o os)
  | o, .put T v :: os => do
    let _ ← Un.theObj { dirty := -1, obj := o, leaked := 0 } T
    runPod (some (T, v)) os
  | o, .deinit _ :: os => runPod o os

end Verif.Union
