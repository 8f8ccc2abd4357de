import Verif.Basic

/-!
# The random-number engine

Model of the generators in `include/SSVUtils/Internal/PCG/pcg_random.hpp` and
`include/SSVUtils/Internal/PCG/pcg_extras.hpp`, on which `Core/Utils/Rnd.hpp` is built
(`pcg32_fast`). State and result types are unsigned integers of `w` bits, `BitVec w`; arithmetic on
them wraps. That is so for 8 bits (promoted to `int` and converted back) and for 32 bits and more. The
arithmetic of 16-bit states may overflow `int`: see `Promo.lean`, where the functions that multiply are
modelled with that check.
-/

namespace Verif.Pcg

/-! ## The generator proper -/

/-- What the mixin classes fix: the multiplier (`pcg_random.hpp` 132-158), the increment of the stream
(199-202 for `unique_stream`, 243-246 for `no_stream`, 264-292 for
`oneseq_stream`, 300-343 for `specific_stream`) and whether it is
a multiplicative generator. -/
structure Par (w : Nat) where
  mult : BitVec w
  inc : BitVec w
  mcg : Bool

/-- The default multipliers — `pcg_random.hpp` 144-162. -/
def mult8 : BitVec 8 := 141#8
def mult16 : BitVec 16 := 12829#16
def mult32 : BitVec 32 := 747796405#32
def mult64 : BitVec 64 := 6364136223846793005#64
def mult128 : BitVec 128 := (2549297995355413924#128 <<< 64) + 4865540595714422341#128

/-- The default increments — `pcg_random.hpp` 144-162. -/
def inc8 : BitVec 8 := 77#8
def inc16 : BitVec 16 := 47989#16
def inc32 : BitVec 32 := 2891336453#32
def inc64 : BitVec 64 := 1442695040888963407#64
def inc128 : BitVec 128 := (6364136223846793005#128 <<< 64) + 1442695040888963407#128

/-- `specific_stream(itype)` and `set_stream` — `pcg_random.hpp` 322-325, 338-342. -/
def setStream (seq : BitVec w) : BitVec w := seq <<< 1 ||| 1#w

/-- `unique_stream::increment` — `pcg_random.hpp` 199-202; the address of the object is `addr`. -/
def uniqueInc (addr : BitVec w) : BitVec w := addr ||| 1#w

/-- `bump` — `pcg_random.hpp` 403-406. -/
def bump (p : Par w) (s : BitVec w) : BitVec w := s * p.mult + p.inc

/-- `engine(itype state)` — `pcg_random.hpp` 477-482. -/
def init (p : Par w) (seed : BitVec w) : BitVec w :=
  if p.mcg then seed ||| 3#w else bump p (seed + p.inc)

/-- `operator()()` — `pcg_random.hpp` 408-427: the value and the new state. -/
def next (p : Par w) (outputPrevious : Bool) (output : BitVec w → BitVec x) (s : BitVec w) :
    BitVec x × BitVec w :=
  if outputPrevious then (output s, bump p s)
  else let s := bump p s; (output s, s)

/-- The loop of the static `advance` — `pcg_random.hpp` 645-655. -/
def advanceLoop (delta accMult accPlus curMult curPlus : BitVec w) : BitVec w × BitVec w :=
  if _h : 0 < delta.toNat then
    let (accMult, accPlus) :=
      if delta &&& 1#w ≠ 0#w then (accMult * curMult, accPlus * curMult + curPlus)
      else (accMult, accPlus)
    advanceLoop (delta >>> 1) accMult accPlus (curMult * curMult) ((curMult + 1#w) * curPlus)
  else (accMult, accPlus)
termination_by delta.toNat
decreasing_by
  rw [BitVec.toNat_ushiftRight, Nat.shiftRight_eq_div_pow]
  omega

/-- The static `advance` — `pcg_random.hpp` 628-657. -/
def advance' (state delta mult plus : BitVec w) : BitVec w :=
  let (accMult, accPlus) := advanceLoop delta 1#w 0#w mult plus
  accMult * state + accPlus

/-- `advance`, `discard` — `pcg_random.hpp` 447-460. -/
def advance (p : Par w) (s delta : BitVec w) : BitVec w := advance' s delta p.mult p.inc

/-- `backstep` — `pcg_random.hpp` 452-455. -/
def backstep (p : Par w) (s delta : BitVec w) : BitVec w := advance p s (-delta)

/-- The loop of the static `distance` — `pcg_random.hpp` 669-680. The loop need not end; `fuel` bounds
the number of rounds. -/
def distanceLoop (dbg : Bool) (fuel : Nat) (cur new mask bit dist mult plus : BitVec w) :
    Outcome (BitVec w) :=
  match fuel with
  | 0 => .diverge
  | fuel + 1 =>
    if cur &&& mask = new &&& mask then .ok dist
    else
      let (cur, dist) :=
        if cur &&& bit ≠ new &&& bit then (cur * mult + plus, dist ||| bit) else (cur, dist)
      if dbg = true ∧ cur &&& bit ≠ new &&& bit then .assertFail
      else distanceLoop dbg fuel cur new mask (bit <<< 1) dist (mult * mult) ((mult + 1#w) * plus)

/-- The static `distance` — `pcg_random.hpp` 660-682. -/
def distance' (dbg mcg : Bool) (fuel : Nat) (cur new mult plus mask : BitVec w) :
    Outcome (BitVec w) := do
  let d ← distanceLoop dbg fuel cur new mask (if mcg then 4#w else 1#w) 0#w mult plus
  pure (if mcg then d >>> 2 else d)

/-- `distance(newstate, mask)` — `pcg_random.hpp` 441-444. -/
def distance (dbg : Bool) (fuel : Nat) (p : Par w) (s new mask : BitVec w) : Outcome (BitVec w) :=
  distance' dbg p.mcg fuel s new p.mult p.inc mask

/-- `operator-` — `pcg_random.hpp` 684-699: the distance from `rhs` to `lhs`, with the parameters of
`rhs`. -/
def minus (dbg : Bool) (fuel : Nat) (p : Par w) (lhs rhs : BitVec w) : Outcome (BitVec w) :=
  distance dbg fuel p rhs lhs (BitVec.allOnes w)

/-- `operator==` — `pcg_random.hpp` 701-713. -/
def eq (p q : Par w) (s t : BitVec w) : Bool := p.mult == q.mult && p.inc == q.inc && s == t

/-- `wrapped` — `pcg_random.hpp` 462-475. -/
def wrapped (p : Par w) (s : BitVec w) : Bool := if p.mcg then s == 3#w else s == 0#w

/-- `period_pow2` — `pcg_random.hpp` 384-387. -/
def periodPow2 (p : Par w) : Nat := w - 2 * (if p.mcg then 1 else 0)

/-! ## Drawing below a bound, and shuffling -/

/-- The threshold of `bounded_rand` — `pcg_extras.hpp` 528-530; division by zero is undefined. -/
def threshold (bound : BitVec x) : Outcome (BitVec x) :=
  if bound = 0#x then .ub else .ok ((BitVec.allOnes x - 0#x + 1#x - bound) % bound)

/-- The loop of `bounded_rand` — `pcg_extras.hpp` 531-535, drawing values from the source `rng`. -/
def boundedLoop (rng : S → BitVec x × S) (bound thr : BitVec x) : Nat → S → Outcome (BitVec x × S)
  | 0, _ => .diverge
  | fuel + 1, s =>
    let (r, s) := rng s
    let r := r - 0#x
    if thr.toNat ≤ r.toNat then .ok (r % bound, s) else boundedLoop rng bound thr fuel s

/-- `bounded_rand` — `pcg_extras.hpp` 523-536. -/
def boundedRand (rng : S → BitVec x × S) (fuel : Nat) (bound : BitVec x) (s : S) :
    Outcome (BitVec x × S) := do
  let thr ← threshold bound
  boundedLoop rng bound thr fuel s

/-- `swap(*(from + i), *(from + j))`; outside the range it is undefined. -/
def swapAt (l : List α) (i j : Nat) : Outcome (List α) :=
  match l[i]?, l[j]? with
  | some a, some b => .ok ((l.set i b).set j a)
  | _, _ => .ub

/-- The loop of `shuffle` — `pcg_extras.hpp` 538-552, on the elements `l` with `count` of them left.
`bounded_rand` takes its bound modulo `2 ^ x`. -/
def shuffleLoop (rng : S → BitVec x × S) (fuel : Nat) : Nat → List α → S → Outcome (List α × S)
  | 0, l, s => .ok (l, s)
  | count + 1, l, s =>
    if 1 < count + 1 then do
      let (chosen, s) ← boundedRand rng fuel (BitVec.ofNat x (count + 1)) s
      let l ← swapAt l chosen.toNat count
      shuffleLoop rng fuel count l s
    else .ok (l, s)

/-- `shuffle` — `pcg_extras.hpp` 538-552. -/
def shuffle (rng : S → BitVec x × S) (fuel : Nat) (l : List α) (s : S) : Outcome (List α × S) :=
  shuffleLoop rng fuel l.length l s

end Verif.Pcg
