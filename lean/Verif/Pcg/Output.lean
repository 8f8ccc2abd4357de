import Verif.Pcg.Model

/-!
# The output functions of the random-number engines

Model of the output functions in `include/SSVUtils/Internal/PCG/pcg_random.hpp` (763-1140) and of the bit
operations in `pcg_extras.hpp` (268-321). The numbers of bits of the state and of the result are `w` and
`x`; `bitcount_t` is an 8-bit type, and no count exceeds 255 for the sizes in use. Operations on types
narrower than `int` are carried out in `int` and converted back, with the same results, except that the
multiplications of 16-bit values may overflow: see `Promo.lean`.
-/

namespace Verif.Pcg

/-- `rotr` — `pcg_extras.hpp` 311-321: `(-rot) & mask` is computed in `int`, of which the low 8 bits
matter. -/
def rotr (value : BitVec x) (rot : Nat) : BitVec x :=
  value >>> rot ||| value <<< ((256 - rot) &&& (x - 1))

/-- `rotl` — `pcg_extras.hpp` 299-309. -/
def rotl (value : BitVec x) (rot : Nat) : BitVec x :=
  value <<< rot ||| value >>> ((256 - rot) &&& (x - 1))

/-- `unxorshift` — `pcg_extras.hpp` 268-288. With a shift of 0 the function calls itself for ever (or
shifts by the full width). -/
def unxorshift (v : BitVec w) (bits shift : Nat) : Outcome (BitVec w) :=
  if 2 * shift ≥ bits then .ok (v ^^^ v >>> shift)
  else if _h : shift = 0 then .diverge
  else do
    let lowmask1 := 1#w <<< (bits - shift * 2) - 1#w
    let highmask1 := ~~~lowmask1
    let top1 := v
    let bottom1 := v &&& lowmask1
    let top1 := top1 ^^^ top1 >>> shift
    let top1 := top1 &&& highmask1
    let v := top1 ||| bottom1
    let lowmask2 := 1#w <<< (bits - shift) - 1#w
    let bottom2 := v &&& lowmask2
    let bottom2 ← unxorshift bottom2 (bits - shift) shift
    let bottom2 := bottom2 &&& lowmask1
    pure (top1 ||| bottom2)
termination_by bits
decreasing_by omega

/-- The top `op` bits of the state, as in `opbits ? bitcount_t(internal >> (bits - opbits)) & mask : 0` -/
def topBits (s : BitVec w) (op : Nat) : Nat :=
  if op ≠ 0 then (s >>> (w - op)).toNat &&& (1 <<< op - 1) else 0

/-- `opbits` of `xsh_rs_mixin` — `pcg_random.hpp` 780-788; the differences are of type `int`. -/
def rsOpbits (spare : Int) : Nat :=
  if spare - 5 ≥ 64 then 5
  else if spare - 4 ≥ 32 then 4
  else if spare - 3 ≥ 16 then 3
  else if spare - 2 ≥ 4 then 2
  else if spare - 1 ≥ 1 then 1
  else 0

/-- `xsh_rs_mixin::output` — `pcg_random.hpp` 773-799. -/
def xshRs (x : Nat) (s : BitVec w) : BitVec x :=
  let sparebits := w - x
  let opbits := rsOpbits sparebits
  let mask := 1 <<< opbits - 1
  let maxrandshift := mask
  let topspare := opbits
  let bottomspare := sparebits - topspare
  let xshift := topspare + (x + maxrandshift) / 2
  let rshift := topBits s opbits
  let s := s ^^^ s >>> xshift
  (s >>> (bottomspare - maxrandshift + rshift)).setWidth x

/-- `wantedopbits` of the rotating output functions — `pcg_random.hpp` 815-821, 1004-1010, 1069-1075. -/
def rrWanted (x : Nat) : Nat :=
  if x ≥ 128 then 7 else if x ≥ 64 then 6 else if x ≥ 32 then 5 else if x ≥ 16 then 4 else 3

/-- `xsh_rr_mixin::output` — `pcg_random.hpp` 809-837. -/
def xshRr (x : Nat) (s : BitVec w) : BitVec x :=
  let sparebits := w - x
  let wantedopbits := rrWanted x
  let opbits := if sparebits ≥ wantedopbits then wantedopbits else sparebits
  let amplifier := wantedopbits - opbits
  let mask := 1 <<< opbits - 1
  let topspare := opbits
  let bottomspare := sparebits - topspare
  let xshift := (topspare + x) / 2
  let rot := topBits s opbits
  let amprot := (rot <<< amplifier) &&& mask
  let s := s ^^^ s >>> xshift
  let result := (s >>> bottomspare).setWidth x
  rotr result amprot

/-- `xsl_rr_mixin::output` — `pcg_random.hpp` 998-1028. -/
def xslRr (x : Nat) (s : BitVec w) : BitVec x :=
  let sparebits := w - x
  let wantedopbits := rrWanted x
  let opbits := if sparebits ≥ wantedopbits then wantedopbits else sparebits
  let amplifier := wantedopbits - opbits
  let mask := 1 <<< opbits - 1
  let topspare := sparebits
  let bottomspare := sparebits - topspare
  let xshift := (topspare + x) / 2
  let rot := topBits s opbits
  let amprot := (rot <<< amplifier) &&& mask
  let s := s ^^^ s >>> xshift
  let result := (s >>> bottomspare).setWidth x
  rotr result amprot

/-- `xsl_rr_rr_mixin::output` — `pcg_random.hpp` 1063-1098; the half type has `h` bits. -/
def xslRrRr (h : Nat) (s : BitVec w) : BitVec w :=
  let sparebits := w - h
  let wantedopbits := rrWanted h
  let opbits := if sparebits ≥ wantedopbits then wantedopbits else sparebits
  let amplifier := wantedopbits - opbits
  let mask := 1 <<< opbits - 1
  let topspare := sparebits
  let xshift := (topspare + h) / 2
  let rot := topBits s opbits
  let amprot := (rot <<< amplifier) &&& mask
  let s := s ^^^ s >>> xshift
  let lowbits := s.setWidth h
  let lowbits := rotr lowbits amprot
  let highbits := (s >>> topspare).setWidth h
  let rot2 := lowbits.toNat &&& mask
  let amprot2 := (rot2 <<< amplifier) &&& mask
  let highbits := rotr highbits amprot2
  highbits.setWidth w <<< topspare ^^^ lowbits.setWidth w

/-- `opbits` of `rxs_m_xs_mixin` and `rxs_m_mixin` — `pcg_random.hpp` 929-934, 948-950, 975-980. -/
def rxsOpbits (x : Nat) : Nat :=
  if x ≥ 128 then 6 else if x ≥ 64 then 5 else if x ≥ 32 then 4 else if x ≥ 16 then 3 else 2

/-- `mcg_multiplier` — `pcg_random.hpp` 900-914. -/
def mcg8 : BitVec 8 := 217#8
def mcg16 : BitVec 16 := 62169#16
def mcg32 : BitVec 32 := 277803737#32
def mcg64 : BitVec 64 := 12605985483714917081#64
def mcg128 : BitVec 128 := (17766728186571221404#128 <<< 64) + 12605985483714917081#128

/-- `mcg_unmultiplier` — `pcg_random.hpp` 900-917. -/
def unmcg8 : BitVec 8 := 105#8
def unmcg16 : BitVec 16 := 28009#16
def unmcg32 : BitVec 32 := 2897767785#32
def unmcg64 : BitVec 64 := 15009553638781119849#64
def unmcg128 : BitVec 128 := (14422606686972528997#128 <<< 64) + 15009553638781119849#128

/-- `rxs_m_mixin::output` — `pcg_random.hpp` 969-990. -/
def rxsM (x : Nat) (mult : BitVec w) (s : BitVec w) : BitVec x :=
  let opbits := rxsOpbits x
  let shift := w - x
  let rshift := topBits s opbits
  let s := s ^^^ s >>> (opbits + rshift)
  let s := s * mult
  (s >>> shift).setWidth x

/-- `rxs_m_xs_mixin::output` — `pcg_random.hpp` 923-942. -/
def rxsMXs (x : Nat) (mult : BitVec w) (s : BitVec w) : BitVec x :=
  let opbits := rxsOpbits x
  let shift := w - x
  let rshift := topBits s opbits
  let s := s ^^^ s >>> (opbits + rshift)
  let s := s * mult
  let result := (s >>> shift).setWidth x
  result ^^^ result >>> ((2 * x + 2) / 3)

/-- `rxs_m_xs_mixin::unoutput` — `pcg_random.hpp` 944-961. -/
def unRxsMXs (unmult : BitVec w) (v : BitVec w) : Outcome (BitVec w) := do
  let opbits := rxsOpbits w
  let v ← unxorshift v w ((2 * w + 2) / 3)
  let v := v * unmult
  let rshift := topBits v opbits
  unxorshift v w (opbits + rshift)

/-- `xsh_mixin::output` — `pcg_random.hpp` 1107-1124. -/
def xsh (x : Nat) (s : BitVec w) : BitVec x :=
  let sparebits := w - x
  let topspare := 0
  let bottomspare := sparebits - topspare
  let xshift := (topspare + x) / 2
  let s := s ^^^ s >>> xshift
  (s >>> bottomspare).setWidth x

/-- `xsl_mixin::output` — `pcg_random.hpp` 1131-1147. -/
def xsl (x : Nat) (s : BitVec w) : BitVec x :=
  let sparebits := w - x
  let topspare := sparebits
  let bottomspare := sparebits - topspare
  let xshift := (topspare + x) / 2
  let s := s ^^^ s >>> xshift
  (s >>> bottomspare).setWidth x

end Verif.Pcg
