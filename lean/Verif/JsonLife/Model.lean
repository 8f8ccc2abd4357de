import Verif.Json.Model

/-!
# Model of the storage of a JSON value under assignment

Source: `include/SSVUtils/Json/Val/Val.hpp:60-105, 144-227`, `Val.inl:22-31`, `Internal/Cnv.hpp`,
`Internal/CnvFuncs.hpp`, `Union/Inc/Union.hpp`, `UnionBase.hpp`.

The union of a `Val` holds at most one living payload; every payload constructed gets a fresh number, so that the
ledger `destroyed` tells which payloads were destroyed and how often. The contents of a payload is a JSON value of
the `Json` model. Destroying a `std::vector`, `VecMap` or `std::string` that is not alive is UB; the destructors of
`Num` and `bool` do nothing (simplification: running them twice, or reading the bytes afterwards, is counted as
harmless). The checks of `Union` in debug mode are not modelled (they are in code that does not compile: `assert` with
two arguments, Union.hpp:38-52).
-/

namespace Verif.JsonLife

open Verif Json

variable {R : Type}

/-- `Val::Type`, Val.hpp:43-51. -/
inductive Kind where
  | obj | arr | str | num | bln | nll
  deriving DecidableEq, Repr

/-- The type tag for a value. -/
def kindOf : Val R → Kind
  | .obj _ => .obj
  | .arr _ => .arr
  | .str _ => .str
  | .num _ => .num
  | .bln _ => .bln
  | .nll => .nll

/-- Members `type` and `h` of a `Val` (Val.hpp:65-69): tag, living payload with its number; and the ledger. -/
structure St (R : Type) where
  tag : Kind
  live : Option (Nat × Val R)
  next : Nat
  destroyed : List Nat

/-- `Val()`, Val.hpp:192. -/
def St.init : St R := ⟨.nll, none, 0, []⟩

/-- `h.deinit<T>()`, Union.hpp:95-102, UnionBase.hpp:37-42. -/
def deinit (k : Kind) (s : St R) : Outcome (St R) :=
  match s.live with
  | some (i, v) => if kindOf v = k then .ok { s with live := none, destroyed := s.destroyed ++ [i] } else .ub
  | none => if k = .num ∨ k = .bln then .ok s else .ub

/-- `deinitCurrent`, Val.hpp:146-158. The tag is not changed. -/
def deinitCurrent (s : St R) : Outcome (St R) :=
  match s.tag with
  | .nll => .ok s
  | k => deinit k s

/-- `setObj` ... `setNll`, Val.hpp:71-105: the tag is set and a payload constructed in the storage, whatever was
there. -/
def setter (v : Val R) (s : St R) : St R :=
  match v with
  | .nll => { s with tag := .nll }
  | v => { s with tag := kindOf v, live := some (s.next, v), next := s.next + 1 }

/-- Where the value assigned comes from. -/
inductive Src (R : Type) where
  /-- Another `Val`, or an object whose converter calls a setter of the target: numbers, strings, booleans, null, `Obj`,
  `Arr`, pairs, tuples, vectors, C arrays (Cnv.hpp:22-101, 125-222, 251-272). `v` is what it is converted to. -/
  | direct (v : Val R)
  /-- An object whose converter itself assigns to the target: enums (Cnv.hpp:109-117), map-like objects (225-239),
  bitsets (275-284), and user types converted by `archArr` or `archObj` (CnvFuncs.hpp:118-123, 142-147). -/
  | viaAssign (v : Val R)
  /-- The value itself, or its own string, array or object as `as<Str>()`, `as<Arr>()`, `as<Obj>()` return it. -/
  | self
  /-- An element of the stored array or a member of the stored object. -/
  | child (i : Nat)

/-- `v = x`, i.e. `set` (Val.hpp:219-227; Val.inl:22-31): the payload is destroyed, then the converter runs. -/
def assign (s : St R) : Src R → Outcome (St R)
  | .direct v => do
    let s ← deinitCurrent s
    return setter v s
  | .viaAssign v => do
    let s ← deinitCurrent s
    let s ← deinitCurrent s
    return setter v s
  | .self => do
    let old := s.live
    let s ← deinitCurrent s
    -- `init(mV)`, Val.hpp:162-180, where `mV` is the same object
    match s.tag, old with
    | .nll, _ => .ok (setter .nll s)
    | .num, some (_, v) => .ok (setter v s)
    | .bln, some (_, v) => .ok (setter v s)
    | _, _ => .ub
  | .child _ => do
    -- the child was destroyed with its parent
    let _ ← deinitCurrent s
    .ub

/-- `v = x` for an `x` whose converter throws before it calls a setter: the payload has been destroyed, the tag stays (Val.hpp:219-227).
The state the caller finds when the exception is caught. -/
def assignThrow (s : St R) : Outcome (St R) := deinitCurrent s

/-- A sequence of assignments. -/
def run (s : St R) : List (Src R) → Outcome (St R)
  | [] => .ok s
  | x :: xs => do
    let s ← assign s x
    run s xs

/-- `~Val()`, Val.hpp:212-215. -/
def destroy (s : St R) : Outcome (St R) := deinitCurrent s

end Verif.JsonLife
