import Verif.Pcg.Model
import Verif.Pcg.Output
import Verif.Pcg.Io

/-!
# The extended random-number generators

Model of `inside_out` and `extended` in `include/SSVUtils/Internal/PCG/pcg_random.hpp` (1151-1553): a generator with a table of
extra values. State and result types are unsigned integers of `w` and `x` bits; the generator of the table has `x` bits for both
(1158-1159, and `external_step` takes a reference to the result type of the base generator). Types narrower than `int` are promoted
by C++; where that matters (comparison of a negated number) it is modelled, except that the multiplication in the output function of a
16-bit table may overflow `int` (`Pcg/Promo.lean`, C100).

The loop of `distance` may not end in general, so the functions that call it take fuel. `dbg` tells whether assertions are checked.
-/

namespace Verif.PcgExt

open Verif Verif.Pcg

/-- The template arguments of `extended` (1193-1195) together with what the mixin classes of the two engines fix. -/
structure Cfg (w x : Nat) where
  /-- the base generator -/
  base : Par w
  prev : Bool
  out : BitVec w → BitVec x
  /-- `extvalclass` -/
  ext : Par x
  eout : BitVec x → BitVec x
  eunout : BitVec x → Outcome (BitVec x)
  tablePow2 : Nat
  advancePow2 : Nat
  kdd : Bool

variable {w x : Nat}

/-- `table_size` (1207). -/
def Cfg.tableSize (c : Cfg w x) : Nat := 2 ^ c.tablePow2

/-- `may_tick` (1212-1213). -/
def Cfg.mayTick (c : Cfg w x) : Bool := decide (c.advancePow2 < w) && decide (c.advancePow2 < 64)

/-- `may_tock` (1220). -/
def Cfg.mayTock (_ : Cfg w x) : Bool := decide (w < 64)

/-- `table_mask` (1209-1210). -/
def Cfg.tableMask (c : Cfg w x) : BitVec w := 1#w <<< c.tablePow2 - 1#w

/-- `tick_mask` (1215-1218). -/
def Cfg.tickMask (c : Cfg w x) : BitVec w :=
  if c.mayTick then (1#64 <<< c.advancePow2 - 1#64).setWidth w else BitVec.allOnes w

/-- An object: `state_` of the base class and `data_` (1222). The stream is part of `Cfg`. -/
structure Gen (w x : Nat) where
  s : BitVec w
  data : List (BitVec x)
  deriving Repr, DecidableEq

/-- `external_step` (1161-1171). -/
def extStep (c : Cfg w x) (i : Nat) (v : BitVec x) : Outcome (BitVec x × Bool) := do
  let state ← c.eunout v
  let state := state * c.ext.mult + c.ext.inc + BitVec.ofNat x (i * 2)
  let result := c.eout state
  let zero := if c.ext.mcg then state &&& 3#x else 0#x
  return (result, result == zero)

/-- `external_advance` (1173-1188). For types narrower than `int`, `-dist_to_zero` is not positive. -/
def extAdvance (c : Cfg w x) (dbg : Bool) (fuel i : Nat) (delta : BitVec x) (forwards : Bool) (v : BitVec x) :
    Outcome (BitVec x × Bool) := do
  let state ← c.eunout v
  let mult := c.ext.mult
  let inc := c.ext.inc + BitVec.ofNat x (i * 2)
  let zero := if c.ext.mcg then state &&& 3#x else 0#x
  let dist ← distance' dbg c.ext.mcg fuel state zero mult inc (BitVec.allOnes x)
  let crosses :=
    if forwards then decide (dist ≤ delta)
    else if x < 32 then true else decide (-dist ≤ delta)
  let delta := if forwards then delta else -delta
  let state := advance' state delta mult inc
  return (c.eout state, crosses)

/-- The loop of `advance_table()` (1473-1482), from entry number `i` on. -/
def advTableLoop (c : Cfg w x) (i : Nat) (carry : Bool) : List (BitVec x) → Outcome (List (BitVec x))
  | [] => .ok []
  | v :: vs => do
    let (v, carry) ← if carry then extStep c (i + 1) v else .ok (v, carry)
    let (v, carry2) ← extStep c (i + 1) v
    let vs ← advTableLoop c (i + 1) (carry || carry2) vs
    return v :: vs

/-- `advance_table()` (1468-1483). -/
def advTable (c : Cfg w x) (data : List (BitVec x)) : Outcome (List (BitVec x)) := advTableLoop c 0 false data

/-- The loop of `advance_table(delta, isForwards)` (1497-1512), from entry number `i` on. -/
def advTableByLoop (c : Cfg w x) (dbg : Bool) (fuel : Nat) (delta : BitVec w) (forwards : Bool) (i : Nat) (carry : BitVec w) :
    List (BitVec x) → Outcome (List (BitVec x))
  | [] => .ok []
  | v :: vs => do
    let total := carry + delta
    let trunc := total.setWidth x
    let carry := if x < w then total >>> x else 0#w
    let (v, cr) ← extAdvance c dbg fuel (i + 1) trunc forwards v
    let carry := carry + (if cr then 1#w else 0#w)
    let vs ← advTableByLoop c dbg fuel delta forwards (i + 1) carry vs
    return v :: vs

/-- `advance_table(delta, isForwards)` (1485-1513). -/
def advTableBy (c : Cfg w x) (dbg : Bool) (fuel : Nat) (delta : BitVec w) (forwards : Bool) (data : List (BitVec x)) :
    Outcome (List (BitVec x)) :=
  advTableByLoop c dbg fuel delta forwards 0 0#w data

/-- The state as `get_extended_value` uses it (1230-1235). -/
def Cfg.view (c : Cfg w x) (s : BitVec w) : BitVec w := if c.kdd && c.base.mcg then s >>> 2 else s

/-- `index` (1236). A shift by the full width is undefined. -/
def Cfg.index (c : Cfg w x) (s : BitVec w) : Outcome Nat :=
  if c.kdd then .ok (c.view s &&& c.tableMask).toNat
  else if c.tablePow2 = 0 then .ub
  else .ok (c.view s >>> (w - c.tablePow2)).toNat

/-- `tick` (1240-1241). -/
def Cfg.tick (c : Cfg w x) (s : BitVec w) : Outcome Bool :=
  if c.kdd then .ok (c.view s &&& c.tickMask == 0#w)
  else if c.advancePow2 = 0 then .ub
  else .ok (c.view s >>> (w - c.advancePow2) == 0#w)

/-- `get_extended_value()` (1228-1250): the index of the entry and the table afterwards. -/
def getExtended (c : Cfg w x) (g : Gen w x) : Outcome (Nat × List (BitVec x)) := do
  let index ← c.index g.s
  let data := g.data
  let data ←
    if c.mayTick then do
      let tick ← c.tick g.s
      if tick then advTable c data else .ok data
    else .ok data
  let data ←
    if c.mayTock then
      if c.view g.s == 0#w then advTable c data else .ok data
    else .ok data
  return (index, data)

/-- `operator()()` (1259-1264). -/
def call (c : Cfg w x) (g : Gen w x) : Outcome (BitVec x × Gen w x) := do
  let (index, data) ← getExtended c g
  let rhs ← Outcome.ofOption data[index]?
  let (lhs, s) := next c.base c.prev c.out g.s
  return (lhs ^^^ rhs, ⟨s, data⟩)

/-- `set` (1271-1276). -/
def set (c : Cfg w x) (wanted : BitVec x) (g : Gen w x) : Outcome (Gen w x) := do
  let (index, data) ← getExtended c g
  let _ ← Outcome.ofOption data[index]?
  let (lhs, s) := next c.base c.prev c.out g.s
  return ⟨s, data.set index (lhs ^^^ wanted)⟩

/-- `zero` of `advance` (1523-1524). -/
def zeroOf (c : Cfg w x) (s : BitVec w) : BitVec w := if c.base.mcg then s &&& 3#w else 0#w

/-- The first part of `advance` (1525-1539). -/
def advanceTick (c : Cfg w x) (dbg : Bool) (fuel : Nat) (d : BitVec w) (forwards : Bool) (s : BitVec w) (data : List (BitVec x)) :
    Outcome (List (BitVec x)) :=
  if c.mayTick then do
    let advMask := if c.base.mcg then c.tickMask <<< 2 else c.tickMask
    let nad ← distance dbg fuel c.base s (zeroOf c s) advMask
    let nad := if forwards then nad else -nad &&& c.tickMask
    let ticks := if nad < d &&& c.tickMask then d >>> c.advancePow2 + 1#w else d >>> c.advancePow2
    if ticks ≠ 0#w then advTableBy c dbg fuel ticks forwards data else .ok data
  else .ok data

/-- The second part of `advance` (1540-1550). For types narrower than `int` a negated number is not positive. -/
def advanceTock (c : Cfg w x) (dbg : Bool) (fuel : Nat) (d : BitVec w) (forwards : Bool) (s : BitVec w) (data : List (BitVec x)) :
    Outcome (List (BitVec x)) :=
  if c.mayTock then do
    let dz ← distance dbg fuel c.base s (zeroOf c s) (BitVec.allOnes w)
    if forwards then
      if dz ≤ d then advTable c data else .ok data
    else
      if w < 32 ∨ -dz ≤ d then advTableBy c dbg fuel 1#w false data else .ok data
  else .ok data

/-- `advance` (1515-1551); without `kdd` it does not compile. -/
def advance (c : Cfg w x) (dbg : Bool) (fuel : Nat) (d : BitVec w) (forwards : Bool) (g : Gen w x) : Outcome (Gen w x) := do
  let data ← advanceTick c dbg fuel d forwards g.s g.data
  let data ← advanceTock c dbg fuel d forwards g.s data
  return ⟨Pcg.advance c.base g.s (if forwards then d else -d), data⟩

/-- `backstep` (1280-1283). -/
def backstep (c : Cfg w x) (dbg : Bool) (fuel : Nat) (d : BitVec w) (g : Gen w x) : Outcome (Gen w x) :=
  advance c dbg fuel d false g

/-- The loop of `selfinit` (1393-1396). -/
def fill (c : Cfg w x) (xdiff : BitVec x) : Nat → BitVec w → List (BitVec x) × BitVec w
  | 0, s => ([], s)
  | n + 1, s =>
    let (v, s) := next c.base c.prev c.out s
    let (vs, s) := fill c xdiff n s
    ((v ^^^ xdiff) :: vs, s)

/-- The constructors from a seed (1306-1324) with `selfinit` (1378-1397). The order in which the operands of the subtraction are
evaluated is not specified: `leftFirst` tells it. -/
def ofSeed (c : Cfg w x) (leftFirst : Bool) (seed : BitVec w) : Gen w x :=
  let s := init c.base seed
  let (a, s) := next c.base c.prev c.out s
  let (b, s) := next c.base c.prev c.out s
  let xdiff := if leftFirst then a - b else b - a
  let (data, s) := fill c xdiff c.tableSize s
  ⟨s, data⟩

/-- `operator==` (1399-1409); the parameters of the engines are compared too. -/
def eq (c d : Cfg w x) (g h : Gen w x) : Bool := Pcg.eq c.base d.base g.s h.s && g.data == h.data

/-- `operator!=` (1411-1418) calls itself. -/
def ne (c d : Cfg w x) (g h : Gen w x) : Nat → Outcome Bool
  | 0 => .diverge
  | fuel + 1 => ne c d g h fuel

/-- `period_pow2` (1253-1257). -/
def Cfg.periodPow2 (c : Cfg w x) : Nat := Pcg.periodPow2 c.base + c.tableSize * Pcg.periodPow2 c.ext

end Verif.PcgExt
