import Verif.PcgExt.Model
import Verif.Pcg.Io

/-!
# Seeding extended generators, and their text form

Model of the stream operators (`include/SSVUtils/Internal/PCG/pcg_random.hpp` 1420-1464) and of the constructors that take a table or a
seed sequence (1285-1304, 1331-1338, 1370-1376). As for the engines, the text form is modelled for numbers that the standard library
writes, of 16, 32 or 64 bits, and streams with width 0.
-/

namespace Verif.PcgExt

open Verif Verif.Pcg

variable {w x : Nat}

/-- `out << rng` (1420-1437). -/
def write (c : Cfg w x) (g : Gen w x) : List Char :=
  writeEngine c.base g.s ++ g.data.flatMap fun v => ' ' :: Nat.toDigits 10 v.toNat

/-- The loop of `in >> rng` (1455-1459): `none` after `goto bail`. -/
def readData (x : Nat) : Nat → In → Option (List (BitVec x)) × In
  | 0, i => (some [], i)
  | n + 1, i =>
    match readU x i with
    | (some v, i) =>
      if i.fail then (none, i)
      else
        match readData x n i with
        | (some vs, i) => (some (v :: vs), i)
        | (none, i) => (none, i)
    | (none, i) => (none, i)

/-- `in >> rng` (1439-1464): the parameters of the base engine, the generator and the stream afterwards. `new_rng` has the parameters
`fresh` and some state `s`; it is not of the type of `rng` without `kdd`, and the assignment does not compile then. -/
def read (canSpecify : Bool) (fresh : Par w) (s : BitVec w) (c : Cfg w x) (g : Gen w x) (i : In) :
    Option ((Par w × Gen w x) × In) :=
  if c.kdd = false then none
  else
    let ((p, t), i) := readEngine canSpecify fresh s i
    if i.fail then some ((c.base, g), i)
    else
      match readData x c.tableSize i with
      | (some vs, i) => some ((p, ⟨t, vs⟩), i)
      | (none, i) => some ((c.base, g), i)

/-- `datainit` (1370-1376) in the constructors from a table and a seed (1285-1304). Reading behind the values is undefined. -/
def ofData (c : Cfg w x) (data : List (BitVec x)) (seed : BitVec w) : Outcome (Gen w x) :=
  if data.length < c.tableSize then .ub else .ok ⟨init c.base seed, data.take c.tableSize⟩

/-- The constructor from a seed sequence (1331-1338) for base engines without selectable stream. The sequence is asked twice; the
answers are `gen` and `gen'`. -/
def ofSeq (c : Cfg w x) (gen gen' : Nat → List (BitVec 32)) : Outcome (Gen w x) := do
  let s ← seedOne c.base gen
  let data ← generateTo x c.tableSize gen'
  pure ⟨s, data⟩

end Verif.PcgExt
