import Verif.Basic

/-!
# Emulated wide integers

Source: `include/SSVUtils/Internal/PCG/pcg_uint128.hpp`, little-endian layout, `bitcount_t` = `uint8_t`.

`uint_x4<UInt, UIntX2>`: four words of `w` bits (`w` is 32 for `pcg128_t`, and 64 for `uint_x4<uint64_t, __uint128_t>`). The words
are natural numbers below `2^w`; the union with two double words is modelled by computing one view from the other (reading the
other member of a union is what GCC and Clang allow). Conversions to machine integers and the constructor from one are
included, compound assignments are the operators.
-/

namespace Verif.U128

open Verif

/-- `w.v0` to `w.v3`, pcg_uint128.hpp:207-256. -/
structure X4 where
  v0 : Nat
  v1 : Nat
  v2 : Nat
  v3 : Nat
  deriving Repr, DecidableEq

/-- `d.v01` and `d.v23`. -/
def X4.d01 (w : Nat) (v : X4) : Nat := v.v0 + 2 ^ w * v.v1

def X4.d23 (w : Nat) (v : X4) : Nat := v.v2 + 2 ^ w * v.v3

/-- `uint_x4(v23, v01)`, pcg_uint128.hpp:258-272. -/
def mk2 (w : Nat) (d23 d01 : Nat) : X4 := ⟨d01 % 2 ^ w, d01 / 2 ^ w, d23 % 2 ^ w, d23 / 2 ^ w⟩

/-- `uint_x4(Integral v01)`, pcg_uint128.hpp:274-292: converted to the double word, the upper half is zero. -/
def ofInt (w : Nat) (x : Int) : X4 := mk2 w 0 (x % 2 ^ (2 * w)).toNat

/-- `operator uint64_t` and the like, pcg_uint128.hpp:294-326: conversion of `d.v01` to 64 bits, of `w.v0` to fewer. -/
def toU64 (w : Nat) (v : X4) : Nat := v.d01 w % 2 ^ 64
def toU32 (v : X4) : Nat := v.v0 % 2 ^ 32
def toU16 (v : X4) : Nat := v.v0 % 2 ^ 16
def toU8 (v : X4) : Nat := v.v0 % 2 ^ 8

/-- `operator bool`, pcg_uint128.hpp:328-331. -/
def toBool (w : Nat) (v : X4) : Bool := v.d01 w != 0 || v.d23 w != 0

/-- Array access `wa[i]`; outside the array it is undefined. -/
def X4.wa (v : X4) : Nat → Outcome Nat
  | 0 => .ok v.v0
  | 1 => .ok v.v1
  | 2 => .ok v.v2
  | 3 => .ok v.v3
  | _ => .ub

def X4.setWa (v : X4) (i : Nat) (x : Nat) : Outcome X4 :=
  match i with
  | 0 => .ok { v with v0 := x }
  | 1 => .ok { v with v1 := x }
  | 2 => .ok { v with v2 := x }
  | 3 => .ok { v with v3 := x }
  | _ => .ub

/-! ## Counting bits of a word -/

/-- `flog2(uint32_t)`, pcg_uint128.hpp:102-105, 112-121: `31 - __builtin_clz(v)`, undefined for zero. -/
def flog2W (v : Nat) : Outcome Nat := if v = 0 then .ub else .ok (Nat.log2 v)

/-- The loop of `__builtin_ctz`: the number of zero bits at the end. -/
def ctz (v : Nat) : Nat :=
  if v = 0 then 0 else if v % 2 = 1 then 0 else ctz (v / 2) + 1
termination_by v
decreasing_by omega

/-- `trailingzeros(uint32_t)`, pcg_uint128.hpp:107-110, 123-132: `__builtin_ctz(v)`, undefined for zero. -/
def trailingzerosW (v : Nat) : Outcome Nat := if v = 0 then .ub else .ok (ctz v)

/-- `multiplyDeBruijnBitPos`, pcg_uint128.hpp:142-144. -/
def logTable : List Nat :=
  [0, 9, 1, 10, 13, 21, 2, 29, 11, 14, 16, 18, 22, 25, 3, 30, 8, 12, 20, 28, 15, 17, 24, 7, 19, 27, 23, 6, 26, 5, 4, 31]

/-- `flog2(uint32_t)` without intrinsics, pcg_uint128.hpp:137-153. -/
def flog2Portable (v : BitVec 32) : Option Nat :=
  let v := v ||| v >>> 1
  let v := v ||| v >>> 2
  let v := v ||| v >>> 4
  let v := v ||| v >>> 8
  let v := v ||| v >>> 16
  logTable[((v * 0x07C4ACDD#32) >>> 27).toNat]?

/-- `multiplyDeBruijnBitPos`, pcg_uint128.hpp:157-159. -/
def ctzTable : List Nat :=
  [0, 1, 28, 2, 29, 14, 24, 3, 30, 22, 20, 15, 25, 17, 4, 8, 31, 27, 13, 23, 21, 19, 16, 7, 26, 12, 18, 6, 11, 5, 10, 9]

/-- `trailingzeros(uint32_t)` without intrinsics, pcg_uint128.hpp:155-162. -/
def trailingzerosPortable (v : BitVec 32) : Option Nat := ctzTable[(((v &&& -v) * 0x077CB531#32) >>> 27).toNat]?

/-- `flog2(uint64_t)`, `trailingzeros(uint64_t)` without intrinsics, pcg_uint128.hpp:164-178. -/
def flog2Portable64 (v : BitVec 64) : Option Nat :=
  let high := (v >>> 32).setWidth 32
  let low := v.setWidth 32
  if high ≠ 0 then (flog2Portable high).map (32 + ·) else flog2Portable low

def trailingzerosPortable64 (v : BitVec 64) : Option Nat :=
  let high := (v >>> 32).setWidth 32
  let low := v.setWidth 32
  if low ≠ 0 then trailingzerosPortable low else (trailingzerosPortable high).map (· + 32)

/-- `clog2(v)` for a word, pcg_uint128.hpp:182-186. -/
def clog2W {n : Nat} (v : BitVec n) : Outcome Nat := do
  let l ← flog2W v.toNat
  return l + (if (v &&& -v) != v then 1 else 0)

/-! ## Addition and subtraction -/

/-- `addwithcarry`, pcg_uint128.hpp:188-195. -/
def addwithcarry (w x y : Nat) (carryin : Bool) : Nat × Bool :=
  let half := (y + carryin.toNat) % 2 ^ w
  let result := (x + half) % 2 ^ w
  (result, decide (half < y) || decide (result < x))

/-- `subwithcarry`, pcg_uint128.hpp:197-204. -/
def subwithcarry (w x y : Nat) (carryin : Bool) : Nat × Bool :=
  let half := (y + carryin.toNat) % 2 ^ w
  let result := (x + 2 ^ w - half) % 2 ^ w
  (result, decide (half < y) || decide (result > x))

/-- `operator+`, pcg_uint128.hpp:592-609. -/
def add (w : Nat) (a b : X4) : X4 :=
  let (r0, c) := addwithcarry w a.v0 b.v0 false
  let (r1, c) := addwithcarry w a.v1 b.v1 c
  let (r2, c) := addwithcarry w a.v2 b.v2 c
  let (r3, _) := addwithcarry w a.v3 b.v3 c
  ⟨r0, r1, r2, r3⟩

/-- `operator-`, pcg_uint128.hpp:611-628. -/
def sub (w : Nat) (a b : X4) : X4 :=
  let (r0, c) := subwithcarry w a.v0 b.v0 false
  let (r1, c) := subwithcarry w a.v1 b.v1 c
  let (r2, c) := subwithcarry w a.v2 b.v2 c
  let (r3, _) := subwithcarry w a.v3 b.v3 c
  ⟨r0, r1, r2, r3⟩

/-- Unary `operator-`, pcg_uint128.hpp:658-662. -/
def neg (w : Nat) (v : X4) : X4 := sub w (mk2 w 0 0) v

/-! ## Multiplication -/

/-- `operator*`, pcg_uint128.hpp:548-589. The shifts are by 32, whatever the size of the words. -/
def mul (w : Nat) (a b : X4) : X4 :=
  let a0b0 := a.v0 * b.v0 % 2 ^ (2 * w)
  let r0 := a0b0 % 2 ^ w
  let r1 := a0b0 / 2 ^ 32 % 2 ^ w
  let a1b0 := a.v1 * b.v0 % 2 ^ (2 * w)
  let r2 := a1b0 / 2 ^ 32 % 2 ^ w
  let (r1, c) := addwithcarry w r1 (a1b0 % 2 ^ w) false
  let (r2, c) := addwithcarry w r2 0 c
  let (r3, _) := addwithcarry w 0 0 c
  let a0b1 := a.v0 * b.v1 % 2 ^ (2 * w)
  let (r2, c) := addwithcarry w r2 (a0b1 / 2 ^ 32 % 2 ^ w) false
  let (r3, _) := addwithcarry w r3 0 c
  let (r1, c) := addwithcarry w r1 (a0b1 % 2 ^ w) false
  let (r2, c) := addwithcarry w r2 0 c
  let (r3, _) := addwithcarry w r3 0 c
  let a1b1 := a.v1 * b.v1 % 2 ^ (2 * w)
  let (r2, c) := addwithcarry w r2 (a1b1 % 2 ^ w) false
  let (r3, _) := addwithcarry w r3 (a1b1 / 2 ^ 32 % 2 ^ w) c
  let d23 := (r2 + 2 ^ w * r3 + (a.d01 w * b.d23 w + a.d23 w * b.d01 w)) % 2 ^ (2 * w)
  ⟨r0, r1, d23 % 2 ^ w, d23 / 2 ^ w⟩

/-! ## Bitwise operators and comparisons -/

/-- `operator&`, `|`, `^`, `~`, pcg_uint128.hpp:631-656. -/
def and (w : Nat) (a b : X4) : X4 := mk2 w (a.d23 w &&& b.d23 w) (a.d01 w &&& b.d01 w)
def or (w : Nat) (a b : X4) : X4 := mk2 w (a.d23 w ||| b.d23 w) (a.d01 w ||| b.d01 w)
def xor (w : Nat) (a b : X4) : X4 := mk2 w (a.d23 w ^^^ b.d23 w) (a.d01 w ^^^ b.d01 w)
def not (w : Nat) (v : X4) : X4 := mk2 w (2 ^ (2 * w) - 1 - v.d23 w) (2 ^ (2 * w) - 1 - v.d01 w)

/-- `operator==`, `!=`, pcg_uint128.hpp:664-674. -/
def eq (w : Nat) (a b : X4) : Bool := a.d01 w == b.d01 w && a.d23 w == b.d23 w
def ne (w : Nat) (a b : X4) : Bool := !eq w a b

/-- `operator<`, `>`, `<=`, `>=`, pcg_uint128.hpp:677-699. -/
def lt (w : Nat) (a b : X4) : Bool :=
  decide (a.d23 w < b.d23 w) || (a.d23 w == b.d23 w && decide (a.d01 w < b.d01 w))
def gt (w : Nat) (a b : X4) : Bool := lt w b a
def le (w : Nat) (a b : X4) : Bool := !lt w b a
def ge (w : Nat) (a b : X4) : Bool := !lt w a b

/-! ## Shifts -/

def zero4 : X4 := ⟨0, 0, 0, 0⟩

/-- First loop of `operator<<`, pcg_uint128.hpp:715-726. -/
def shlLoop (w : Nat) (v : X4) (shiftmod out inn carryover : Nat) (r : X4) : Outcome X4 :=
  if out < 4 then do
    let x ← v.wa inn
    let r ← r.setWa out ((x <<< shiftmod) % 2 ^ w ||| carryover)
    shlLoop w v shiftmod (out + 1) (inn + 1) (x >>> (w - shiftmod)) r
  else .ok r
termination_by 4 - out

/-- Second loop, pcg_uint128.hpp:730-739. -/
def shlCopy (v : X4) (out inn : Nat) (r : X4) : Outcome X4 :=
  if out < 4 then do
    let x ← v.wa inn
    let r ← r.setWa out x
    shlCopy v (out + 1) (inn + 1) r
  else .ok r
termination_by 4 - out

/-- `operator<<`, pcg_uint128.hpp:703-743; `shift` is a `bitcount_t`. -/
def shl (w : Nat) (v : X4) (shift : Nat) : Outcome X4 :=
  let shiftdiv := shift / w
  let shiftmod := shift &&& (w - 1)
  if shiftmod ≠ 0 then shlLoop w v shiftmod shiftdiv 0 0 zero4 else shlCopy v shiftdiv 0 zero4

/-- First loop of `operator>>`, pcg_uint128.hpp:757-768. -/
def shrLoop (w : Nat) (v : X4) (shiftmod : Nat) : (out inn carryover : Nat) → X4 → Outcome X4
  | 0, _, _, r => .ok r
  | out + 1, inn, carryover, r => do
    let x ← v.wa (inn - 1)
    let r ← r.setWa out (x >>> shiftmod ||| carryover)
    shrLoop w v shiftmod out (inn - 1) ((x <<< (w - shiftmod)) % 2 ^ w) r

/-- Second loop, pcg_uint128.hpp:772-781. -/
def shrCopy (v : X4) : (out inn : Nat) → X4 → Outcome X4
  | 0, _, r => .ok r
  | out + 1, inn, r => do
    let x ← v.wa (inn - 1)
    let r ← r.setWa out x
    shrCopy v out (inn - 1) r

/-- `operator>>`, pcg_uint128.hpp:745-785; `4 - shiftdiv` is stored in a `uint8_t`. -/
def shr (w : Nat) (v : X4) (shift : Nat) : Outcome X4 :=
  let shiftdiv := shift / w
  let shiftmod := shift &&& (w - 1)
  let out := (4 + 256 - shiftdiv) % 256
  if shiftmod ≠ 0 then shrLoop w v shiftmod out 4 0 zero4 else shrCopy v out 4 zero4

/-! ## Counting bits, division -/

/-- The loop of `flog2`, pcg_uint128.hpp:452-467, from index `i` down; `std::abort` for zero (here `assertFail`). The sum is
converted to `bitcount_t`. -/
def flog2Loop (w : Nat) (v : X4) : Nat → Outcome Nat
  | 0 => .assertFail
  | i + 1 => do
    let x ← v.wa i
    if x = 0 then flog2Loop w v i
    else do
      let l ← flog2W x
      return (l + w * i) % 256

def flog2 (w : Nat) (v : X4) : Outcome Nat := flog2Loop w v 4

/-- The loop of `trailingzeros`, pcg_uint128.hpp:469-484, from index `i` up to 4. -/
def trailingzerosLoop (w : Nat) (v : X4) (i : Nat) : Outcome Nat :=
  if i < 4 then do
    let x ← v.wa i
    if x ≠ 0 then do
      let t ← trailingzerosW x
      return (t + w * i) % 256
    else trailingzerosLoop w v (i + 1)
  else .ok (w * 4 % 256)
termination_by 4 - i

def trailingzeros (w : Nat) (v : X4) : Outcome Nat := trailingzerosLoop w v 0

/-- `clog2(v)` for a wide integer, pcg_uint128.hpp:182-186. -/
def clog2 (w : Nat) (v : X4) : Outcome Nat := do
  let l ← flog2 w v
  return (l + (if ne w (and w v (neg w v)) v then 1 else 0)) % 256

/-- `while(dividend < factor)`, pcg_uint128.hpp:523-527. `fuel` bounds the iterations (`diverge`). -/
def divInner (w : Nat) (dividend : X4) : (fuel : Nat) → X4 → X4 → Outcome (X4 × X4)
  | 0, _, _ => .diverge
  | fuel + 1, factor, qfactor =>
    if lt w dividend factor then do
      let factor ← shr w factor 1
      let qfactor ← shr w qfactor 1
      divInner w dividend fuel factor qfactor
    else .ok (factor, qfactor)

/-- `do ... while(dividend >= divisor)`, pcg_uint128.hpp:519-528. -/
def divOuter (w : Nat) (divisor : X4) (inner : Nat) : (fuel : Nat) → X4 → X4 → X4 → X4 → Outcome (X4 × X4)
  | 0, _, _, _, _ => .diverge
  | fuel + 1, dividend, quotient, factor, qfactor => do
    let dividend := sub w dividend factor
    let quotient := add w quotient qfactor
    let (factor, qfactor) ← divInner w dividend inner factor qfactor
    if ge w dividend divisor then divOuter w divisor inner fuel dividend quotient factor qfactor
    else return (quotient, dividend)

/-- `divmod`, pcg_uint128.hpp:486-531. -/
def divmod (w fuel : Nat) (a divisor : X4) : Outcome (X4 × X4) :=
  if lt w a divisor then .ok (ofInt w 0, a)
  else do
    let l1 ← flog2 w divisor
    let l2 ← flog2 w a
    let logdiff := (l2 + 256 - l1) % 256
    if logdiff = 0 then return (ofInt w 1, sub w a divisor)
    else do
      let logdiff := logdiff - 1
      let qfactor ← shl w (ofInt w 1) logdiff
      let factor ← shl w divisor logdiff
      divOuter w divisor fuel fuel a (ofInt w 0) factor qfactor

end Verif.U128
