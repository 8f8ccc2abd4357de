import Verif.Pcg.Output

/-!
# Engines whose state is narrower than `int`

The state of an engine may be an 8-bit or a 16-bit unsigned integer (`pcg_random.hpp` 1562-1620, 1721-1728).
Such operands are promoted to `int`, which has 32 bits, before they are multiplied and added: the
arithmetic is signed, does not wrap, and is undefined when its result is not below `2 ^ 31`. The
conversion back to the state type then reduces the result. The functions of `Model.lean` and `Output.lean`
that multiply are modelled here once more with that check. Products and sums of unsigned values are never
negative and no intermediate result is larger than the last one, so that the check of an expression is made
on its value. `BitVec.toNat` is the promotion, `BitVec.ofNat` the conversion back.
-/

namespace Verif.Pcg

/-- The value `n` of an arithmetic expression in operands of a `w`-bit type, converted back to that type:
[conv.prom], [expr.pre] of the C++ standard. Types of at least 32 bits are unsigned and wrap. -/
def arith (w n : Nat) : Outcome (BitVec w) :=
  if w < 32 ∧ 2 ^ 31 ≤ n then .ub else .ok (BitVec.ofNat w n)

/-- `bump` — `pcg_random.hpp` 403-406. -/
def bumpC (p : Par w) (s : BitVec w) : Outcome (BitVec w) :=
  arith w (s.toNat * p.mult.toNat + p.inc.toNat)

/-- `engine(itype state)` — `pcg_random.hpp` 477-482. -/
def initC (p : Par w) (seed : BitVec w) : Outcome (BitVec w) :=
  if p.mcg then .ok (seed ||| 3#w)
  else do
    let s ← arith w (seed.toNat + p.inc.toNat)
    bumpC p s

/-- `operator()()` — `pcg_random.hpp` 408-427: the state is bumped before the output is computed. -/
def nextC (p : Par w) (outputPrevious : Bool) (output : BitVec w → Outcome (BitVec x)) (s : BitVec w) :
    Outcome (BitVec x × BitVec w) := do
  let t ← bumpC p s
  let r ← output (if outputPrevious then s else t)
  pure (r, t)

/-- The loop of the static `advance` — `pcg_random.hpp` 645-655. -/
def advanceLoopC (delta accMult accPlus curMult curPlus : BitVec w) : Outcome (BitVec w × BitVec w) :=
  if _h : 0 < delta.toNat then do
    let accMult' ← if delta &&& 1#w ≠ 0#w then arith w (accMult.toNat * curMult.toNat) else .ok accMult
    let accPlus' ← if delta &&& 1#w ≠ 0#w then
        arith w (accPlus.toNat * curMult.toNat + curPlus.toNat) else .ok accPlus
    let curPlus' ← arith w ((curMult.toNat + 1) * curPlus.toNat)
    let curMult' ← arith w (curMult.toNat * curMult.toNat)
    advanceLoopC (delta >>> 1) accMult' accPlus' curMult' curPlus'
  else .ok (accMult, accPlus)
termination_by delta.toNat
decreasing_by
  rw [BitVec.toNat_ushiftRight, Nat.shiftRight_eq_div_pow]
  omega

/-- `advance`, `discard` — `pcg_random.hpp` 447-460, 628-657. -/
def advanceC (p : Par w) (s delta : BitVec w) : Outcome (BitVec w) := do
  let acc ← advanceLoopC delta 1#w 0#w p.mult p.inc
  arith w (acc.1.toNat * s.toNat + acc.2.toNat)

/-- `backstep` — `pcg_random.hpp` 452-455. -/
def backstepC (p : Par w) (s delta : BitVec w) : Outcome (BitVec w) := advanceC p s (-delta)

/-- The loop of the static `distance` — `pcg_random.hpp` 669-680, with `fuel` rounds at most. -/
def distanceLoopC (dbg : Bool) (fuel : Nat) (cur new mask bit dist mult plus : BitVec w) :
    Outcome (BitVec w) :=
  match fuel with
  | 0 => .diverge
  | fuel + 1 =>
    if cur &&& mask = new &&& mask then .ok dist
    else do
      let cur' ← if cur &&& bit ≠ new &&& bit then arith w (cur.toNat * mult.toNat + plus.toNat)
        else .ok cur
      let dist' := if cur &&& bit ≠ new &&& bit then dist ||| bit else dist
      if dbg = true ∧ cur' &&& bit ≠ new &&& bit then .assertFail
      else do
        let plus' ← arith w ((mult.toNat + 1) * plus.toNat)
        let mult' ← arith w (mult.toNat * mult.toNat)
        distanceLoopC dbg fuel cur' new mask (bit <<< 1) dist' mult' plus'

/-- `operator-` — `pcg_random.hpp` 660-699. -/
def minusC (dbg : Bool) (fuel : Nat) (p : Par w) (lhs rhs : BitVec w) : Outcome (BitVec w) := do
  let d ← distanceLoopC dbg fuel rhs lhs (BitVec.allOnes w) (if p.mcg then 4#w else 1#w) 0#w p.mult p.inc
  pure (if p.mcg then d >>> 2 else d)

/-- `rxs_m_xs_mixin::output` — `pcg_random.hpp` 923-942. -/
def rxsMXsC (x : Nat) (mult : BitVec w) (s : BitVec w) : Outcome (BitVec x) := do
  let opbits := rxsOpbits x
  let shift := w - x
  let rshift := topBits s opbits
  let s := s ^^^ s >>> (opbits + rshift)
  let s ← arith w (s.toNat * mult.toNat)
  let result := (s >>> shift).setWidth x
  pure (result ^^^ result >>> ((2 * x + 2) / 3))

/-- `rxs_m_xs_mixin::unoutput` — `pcg_random.hpp` 944-961. -/
def unRxsMXsC (unmult : BitVec w) (v : BitVec w) : Outcome (BitVec w) := do
  let opbits := rxsOpbits w
  let v ← unxorshift v w ((2 * w + 2) / 3)
  let v ← arith w (v.toNat * unmult.toNat)
  let rshift := topBits v opbits
  unxorshift v w (opbits + rshift)

end Verif.Pcg
