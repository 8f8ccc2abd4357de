import Verif.Basic

/-!
# `GrowableArray`

`GrowableArray/GrowableArray.hpp` 19-68, for element types whose constructors and move assignments may throw.
-/

namespace Verif.Grow

/-- An element type: the value of an element that is value-initialised, and what a move leaves behind. -/
structure Elem (V : Type) where
  dflt : V
  moved : V → V

/-- The loop `for(auto i(0u); i < mCapacityOld; ++i) newData[i] = std::move(data[i]);` — `GrowableArray.hpp` 43. The counter is an
`unsigned int` of 32 bits, the capacity a `std::size_t`. `fails i`: the assignment of element `i` throws, leaving both elements as they are.
The results are the outcome, the old array and the new one; a null pointer is an array without elements. -/
def moveLoop {V : Type} (T : Elem V) (fails : Nat → Bool) (old : Nat) : Nat → Nat → List V → List V → Outcome Unit × List V × List V
  | 0, _, data, newData => (.diverge, data, newData)
  | fuel + 1, i, data, newData =>
    if i < old then
      match data[i]?, newData[i]? with
      | some v, some _ =>
        if fails i then (.throw, data, newData)
        else moveLoop T fails old fuel ((i + 1) % 2 ^ 32) (data.set i (T.moved v)) (newData.set i v)
      | _, _ => (.ub, data, newData)
    else (.ok (), data, newData)

/-- `grow` — `GrowableArray.hpp` 38-45. `noMem`: `make_unique` throws, because there is no memory or because of a constructor; the array it
was making is gone then. When a move assignment throws, the new array is destroyed. -/
def grow {V : Type} (dbg : Bool) (T : Elem V) (noMem : Bool) (fails : Nat → Bool) (fuel old new : Nat) (data : List V) : Outcome Unit × List V :=
  if dbg = true ∧ ¬ old ≤ new then (.assertFail, data)
  else if noMem then (.throw, data)
  else
    match moveLoop T fails old fuel 0 data (List.replicate new T.dflt) with
    | (.ok _, _, newData) => (.ok (), newData)
    | (e, data, _) => (e, data)

/-- `array[i] = v` — `GrowableArray.hpp` 60-63; undefined beyond the end. -/
def write {V : Type} (i : Nat) (v : V) (data : List V) : Outcome (List V) := if i < data.length then .ok (data.set i v) else .ub

/-- `array[i]` — `GrowableArray.hpp` 60-67. -/
def read {V : Type} (i : Nat) (data : List V) : Outcome V :=
  match data[i]? with
  | some v => .ok v
  | none => .ub

/-- What a user does with the array. -/
inductive Op (V : Type) where
  | grow (new : Nat) | write (i : Nat) (v : V)

/-- A history of calls that do not throw, where the user passes the capacity they reached. -/
def run {V : Type} (dbg : Bool) (T : Elem V) : List (Op V) → Nat × List V → Outcome (Nat × List V)
  | [], s => .ok s
  | .grow n :: ops, (cap, data) =>
    match grow dbg T false (fun _ => false) (cap + 1) cap n data with
    | (.ok _, data) => run dbg T ops (n, data)
    | (.throw, _) => .throw
    | (.assertFail, _) => .assertFail
    | (.ub, _) => .ub
    | (.diverge, _) => .diverge
  | .write i v :: ops, (cap, data) => write i v data >>= fun data => run dbg T ops (cap, data)

end Verif.Grow
