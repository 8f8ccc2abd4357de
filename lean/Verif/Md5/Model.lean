import Verif.Basic

/-!
# MD5 (`include/SSVUtils/Encoding/Src/MD5.cpp`, `Inc/Internal/MD5.hpp`)

`UINT4` is `BitVec 32`, `unsigned char` is `BitVec 8`. Bytes of the context buffer that were never written are `none`; reading them
is undefined behaviour, as is every access outside of a buffer. The `ifstream` version: see `Verif.Files`. The zeroing of
the context at the end is not observable.
-/

namespace Verif.Md5

open Verif

abbrev W := BitVec 32
abbrev Byte := BitVec 8

/-! ## MD5Transform -/

inductive Reg where
  | a | b | c | d
  deriving DecidableEq

/-- The local variables `a`, `b`, `c`, `d`; also the `state` array. -/
structure Regs where
  a : W
  b : W
  c : W
  d : W
  deriving DecidableEq

def Regs.get (r : Regs) : Reg → W
  | .a => r.a
  | .b => r.b
  | .c => r.c
  | .d => r.d

def Regs.set (r : Regs) (v : W) : Reg → Regs
  | .a => { r with a := v }
  | .b => { r with b := v }
  | .c => { r with c := v }
  | .d => { r with d := v }

/-- The macros `F`, `G`, `H`, `I`, MD5.cpp:114-117. -/
def F (x y z : W) : W := (x &&& y) ||| (~~~x &&& z)
def G (x y z : W) : W := (x &&& z) ||| (y &&& ~~~z)
def H (x y z : W) : W := x ^^^ y ^^^ z
def I (x y z : W) : W := y ^^^ (x ||| ~~~z)

/-- `ROTATE_LEFT`, MD5.cpp:126. -/
def rotl (x : W) (n : Nat) : W := (x <<< n) ||| (x >>> (32 - n))

/-- Which of the macros `FF`, `GG`, `HH`, `II` is used. -/
inductive Fn where
  | FF | GG | HH | II
  deriving DecidableEq

def Fn.eval : Fn → W → W → W → W
  | .FF => F
  | .GG => G
  | .HH => H
  | .II => I

/-- A macro call `FF(a, b, c, d, x[k], s, ac)`. -/
structure Instr where
  f : Fn
  a : Reg
  b : Reg
  c : Reg
  d : Reg
  k : Fin 16
  s : Nat
  ac : W

/-- The macros `FF`, `GG`, `HH`, `II`, MD5.cpp:132-155. -/
def Instr.exec (x : Fin 16 → W) (r : Regs) (i : Instr) : Regs :=
  let v := r.get i.a + (i.f.eval (r.get i.b) (r.get i.c) (r.get i.d) + x i.k + i.ac)
  let v := rotl v i.s
  let v := v + r.get i.b
  r.set v i.a

/-- MD5.cpp:85-100. -/
def S11 := 7
def S12 := 12
def S13 := 17
def S14 := 22
def S21 := 5
def S22 := 9
def S23 := 14
def S24 := 20
def S31 := 4
def S32 := 11
def S33 := 16
def S34 := 23
def S41 := 6
def S42 := 10
def S43 := 15
def S44 := 21

open Fn in
/-- MD5.cpp:247-317. -/
def program : List Instr :=
  [⟨FF, .a, .b, .c, .d, 0, S11, 0xd76aa478⟩,
   ⟨FF, .d, .a, .b, .c, 1, S12, 0xe8c7b756⟩,
   ⟨FF, .c, .d, .a, .b, 2, S13, 0x242070db⟩,
   ⟨FF, .b, .c, .d, .a, 3, S14, 0xc1bdceee⟩,
   ⟨FF, .a, .b, .c, .d, 4, S11, 0xf57c0faf⟩,
   ⟨FF, .d, .a, .b, .c, 5, S12, 0x4787c62a⟩,
   ⟨FF, .c, .d, .a, .b, 6, S13, 0xa8304613⟩,
   ⟨FF, .b, .c, .d, .a, 7, S14, 0xfd469501⟩,
   ⟨FF, .a, .b, .c, .d, 8, S11, 0x698098d8⟩,
   ⟨FF, .d, .a, .b, .c, 9, S12, 0x8b44f7af⟩,
   ⟨FF, .c, .d, .a, .b, 10, S13, 0xffff5bb1⟩,
   ⟨FF, .b, .c, .d, .a, 11, S14, 0x895cd7be⟩,
   ⟨FF, .a, .b, .c, .d, 12, S11, 0x6b901122⟩,
   ⟨FF, .d, .a, .b, .c, 13, S12, 0xfd987193⟩,
   ⟨FF, .c, .d, .a, .b, 14, S13, 0xa679438e⟩,
   ⟨FF, .b, .c, .d, .a, 15, S14, 0x49b40821⟩,
   ⟨GG, .a, .b, .c, .d, 1, S21, 0xf61e2562⟩,
   ⟨GG, .d, .a, .b, .c, 6, S22, 0xc040b340⟩,
   ⟨GG, .c, .d, .a, .b, 11, S23, 0x265e5a51⟩,
   ⟨GG, .b, .c, .d, .a, 0, S24, 0xe9b6c7aa⟩,
   ⟨GG, .a, .b, .c, .d, 5, S21, 0xd62f105d⟩,
   ⟨GG, .d, .a, .b, .c, 10, S22, 0x2441453⟩,
   ⟨GG, .c, .d, .a, .b, 15, S23, 0xd8a1e681⟩,
   ⟨GG, .b, .c, .d, .a, 4, S24, 0xe7d3fbc8⟩,
   ⟨GG, .a, .b, .c, .d, 9, S21, 0x21e1cde6⟩,
   ⟨GG, .d, .a, .b, .c, 14, S22, 0xc33707d6⟩,
   ⟨GG, .c, .d, .a, .b, 3, S23, 0xf4d50d87⟩,
   ⟨GG, .b, .c, .d, .a, 8, S24, 0x455a14ed⟩,
   ⟨GG, .a, .b, .c, .d, 13, S21, 0xa9e3e905⟩,
   ⟨GG, .d, .a, .b, .c, 2, S22, 0xfcefa3f8⟩,
   ⟨GG, .c, .d, .a, .b, 7, S23, 0x676f02d9⟩,
   ⟨GG, .b, .c, .d, .a, 12, S24, 0x8d2a4c8a⟩,
   ⟨HH, .a, .b, .c, .d, 5, S31, 0xfffa3942⟩,
   ⟨HH, .d, .a, .b, .c, 8, S32, 0x8771f681⟩,
   ⟨HH, .c, .d, .a, .b, 11, S33, 0x6d9d6122⟩,
   ⟨HH, .b, .c, .d, .a, 14, S34, 0xfde5380c⟩,
   ⟨HH, .a, .b, .c, .d, 1, S31, 0xa4beea44⟩,
   ⟨HH, .d, .a, .b, .c, 4, S32, 0x4bdecfa9⟩,
   ⟨HH, .c, .d, .a, .b, 7, S33, 0xf6bb4b60⟩,
   ⟨HH, .b, .c, .d, .a, 10, S34, 0xbebfbc70⟩,
   ⟨HH, .a, .b, .c, .d, 13, S31, 0x289b7ec6⟩,
   ⟨HH, .d, .a, .b, .c, 0, S32, 0xeaa127fa⟩,
   ⟨HH, .c, .d, .a, .b, 3, S33, 0xd4ef3085⟩,
   ⟨HH, .b, .c, .d, .a, 6, S34, 0x4881d05⟩,
   ⟨HH, .a, .b, .c, .d, 9, S31, 0xd9d4d039⟩,
   ⟨HH, .d, .a, .b, .c, 12, S32, 0xe6db99e5⟩,
   ⟨HH, .c, .d, .a, .b, 15, S33, 0x1fa27cf8⟩,
   ⟨HH, .b, .c, .d, .a, 2, S34, 0xc4ac5665⟩,
   ⟨II, .a, .b, .c, .d, 0, S41, 0xf4292244⟩,
   ⟨II, .d, .a, .b, .c, 7, S42, 0x432aff97⟩,
   ⟨II, .c, .d, .a, .b, 14, S43, 0xab9423a7⟩,
   ⟨II, .b, .c, .d, .a, 5, S44, 0xfc93a039⟩,
   ⟨II, .a, .b, .c, .d, 12, S41, 0x655b59c3⟩,
   ⟨II, .d, .a, .b, .c, 3, S42, 0x8f0ccc92⟩,
   ⟨II, .c, .d, .a, .b, 10, S43, 0xffeff47d⟩,
   ⟨II, .b, .c, .d, .a, 1, S44, 0x85845dd1⟩,
   ⟨II, .a, .b, .c, .d, 8, S41, 0x6fa87e4f⟩,
   ⟨II, .d, .a, .b, .c, 15, S42, 0xfe2ce6e0⟩,
   ⟨II, .c, .d, .a, .b, 6, S43, 0xa3014314⟩,
   ⟨II, .b, .c, .d, .a, 13, S44, 0x4e0811a1⟩,
   ⟨II, .a, .b, .c, .d, 4, S41, 0xf7537e82⟩,
   ⟨II, .d, .a, .b, .c, 11, S42, 0xbd3af235⟩,
   ⟨II, .c, .d, .a, .b, 2, S43, 0x2ad7d2bb⟩,
   ⟨II, .b, .c, .d, .a, 9, S44, 0xeb86d391⟩]

/-- `Decode`, MD5.cpp:348-356, of 64 bytes: word `i` is read from `input[4*i..4*i+3]`. -/
def decode (block : Fin 64 → Byte) (i : Fin 16) : W :=
  (block ⟨4 * i.val, by omega⟩).setWidth 32 ||| ((block ⟨4 * i.val + 1, by omega⟩).setWidth 32 <<< 8) |||
    ((block ⟨4 * i.val + 2, by omega⟩).setWidth 32 <<< 16) ||| ((block ⟨4 * i.val + 3, by omega⟩).setWidth 32 <<< 24)

/-- `MD5Transform`, MD5.cpp:241-327. -/
def transform (state : Regs) (block : Fin 64 → Byte) : Regs :=
  let r := program.foldl (Instr.exec (decode block)) state
  { a := state.a + r.a, b := state.b + r.b, c := state.c + r.c, d := state.d + r.d }

/-- The 64 bytes that `MD5Transform` reads from a pointer. -/
def blockOf (l : List (Option Byte)) : Outcome (Fin 64 → Byte) :=
  if h : l.length = 64 ∧ ∀ x ∈ l, x.isSome = true then
    .ok fun i => (l[i.val]'(by omega)).get (h.2 _ (List.getElem_mem _))
  else .ub

/-! ## The context -/

/-- `MD5_CTX`, MD5.cpp:39-44. -/
structure Ctx where
  state : Regs
  count0 : W
  count1 : W
  buffer : List (Option Byte)

/-- `MD5Init`, MD5.cpp:160-169. The buffer is not written. -/
def init : Ctx where
  state := { a := 0x67452301, b := 0xefcdab89, c := 0x98badcfe, d := 0x10325476 }
  count0 := 0
  count1 := 0
  buffer := List.replicate 64 none

/-- `MD5_memcpy(&buffer[index], input, input.length)`, MD5.cpp:361-366. -/
def memcpy (buffer : List (Option Byte)) (index : Nat) (input : List Byte) : Outcome (List (Option Byte)) :=
  if index + input.length ≤ buffer.length then
    .ok (buffer.take index ++ input.map some ++ buffer.drop (index + input.length))
  else .ub

/-- `for(i = partLen; i + 63 < inputLen; i += 64) MD5Transform(context->state, &input[i]);`, MD5.cpp:198-199. The sum
is computed in `unsigned int`. -/
def updLoop (input : List Byte) (state : Regs) (i : Nat) : Outcome (Regs × Nat) :=
  if (i + 63) % 2 ^ 32 < input.length then
    if i + 64 ≤ input.length then do
      let block ← blockOf (((input.drop i).take 64).map some)
      updLoop input (transform state block) (i + 64)
    else .ub
  else .ok (state, i)
termination_by input.length - i

/-- `MD5Update`, MD5.cpp:175-209. `inputLen` is `input.length`, which the caller keeps below 2^32. -/
def update (ctx : Ctx) (input : List Byte) : Outcome Ctx := do
  let inputLen : W := BitVec.ofNat 32 input.length
  let index := ((ctx.count0 >>> 3) &&& 0x3F).toNat
  let count0 := ctx.count0 + (inputLen <<< 3)
  let count1 := if count0 < inputLen <<< 3 then ctx.count1 + 1 else ctx.count1
  let count1 := count1 + (inputLen >>> 29)
  let partLen := 64 - index
  if partLen ≤ input.length then
    let buffer ← memcpy ctx.buffer index (input.take partLen)
    let block ← blockOf buffer
    let r ← updLoop input (transform ctx.state block) partLen
    let buffer ← memcpy buffer 0 (input.drop r.2)
    return { state := r.1, count0, count1, buffer }
  else
    let buffer ← memcpy ctx.buffer index input
    return { state := ctx.state, count0, count1, buffer }

/-- `Encode`, MD5.cpp:332-343. -/
def encode (input : List W) : List Byte :=
  input.flatMap fun w =>
    [BitVec.setWidth 8 (w &&& 0xff#32), BitVec.setWidth 8 ((w >>> 8) &&& 0xff#32), BitVec.setWidth 8 ((w >>> 16) &&& 0xff#32),
      BitVec.setWidth 8 ((w >>> 24) &&& 0xff#32)]

/-- `PADDING`, MD5.cpp:108-110. -/
def padding : List Byte := 0x80 :: List.replicate 63 0

/-- `MD5Final`, MD5.cpp:215-237. Reading past the end of `PADDING` would be undefined. -/
def final (ctx : Ctx) : Outcome (List Byte) := do
  let bits := encode [ctx.count0, ctx.count1]
  let index := ((ctx.count0 >>> 3) &&& 0x3f).toNat
  let padLen := if index < 56 then 56 - index else 120 - index
  if padding.length < padLen then .ub
  let ctx ← update ctx (padding.take padLen)
  let ctx ← update ctx bits
  return encode [ctx.state.a, ctx.state.b, ctx.state.c, ctx.state.d]

/-- `sprintf(buffer, "%02x", b)`. -/
def hex02 (b : Byte) : List Char :=
  let ds := Nat.toDigits 16 b.toNat
  List.replicate (2 - ds.length) '0' ++ ds

/-- `Calculate` and `GetHash`, MD5.hpp:49-52, 58-61, MD5.cpp:64-83; `encode<Type::MD5>`, Encoding.cpp:21-25. The length is
passed as `uint32_t`. -/
def hash (source : List Byte) : Outcome (List Char) := do
  let ctx ← update init (source.take (source.length % 2 ^ 32))
  let raw ← final ctx
  return raw.flatMap hex02

end Verif.Md5
