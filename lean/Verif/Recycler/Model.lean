import Verif.Basic

/-!
# Model of the memory recyclers (`MonoRecycler`, `PolyRecycler`, `PolyFixedRecycler`)

Source: `include/SSVUtils/MemoryManager/Internal/StorageImpl.hpp`, `RecyclerImpl.hpp`,
`LayoutImpl.hpp`, and `BaseRecVector`'s defaulted move in `ManagerImpl.hpp:92`.

Memory is a list of blocks obtained from `new char[n]`; the address of a block is its index. A block
holds an object, or a link of a free list (the link is stored *inside* the block, StorageImpl.hpp:31-35),
or has been given back with `delete[]`. Reading a link from a block that holds no link, writing to a
freed block, constructing an object in a block that is too small, freeing twice, destroying an object
that is not there, or using a destroyed chunk are undefined behaviour.

Simplifications: the allocator never reuses an address (so a stale pointer is always detected); `new`
does not fail; object constructors may throw (`State.createThrow`), destructors do not; neither calls back
into the recycler.
-/

namespace Verif.Recycler

open Verif

/-- `sizeof` and `alignof` of a C++ type (the size is a multiple of the alignment). -/
structure Ty where
  size : Nat
  align : Nat
  deriving Repr, DecidableEq

/-- Which layout is used (with the alive flag for managers, without for plain recyclers,
LayoutImpl.hpp:20-38), and the base type `TBase`. -/
structure Cfg where
  withBool : Bool
  base : Ty

/-- Offset of `storageItem` in the layout struct (LayoutImpl.hpp:20-38): after the flag, rounded up to
the item's alignment, which is the alignment itself; no flag, no offset. -/
def Cfg.itemOffset (cfg : Cfg) (t : Ty) : Nat := if cfg.withBool then t.align else 0

/-- `sizeof(Lyt<T>)`: the item follows at its offset; the total is a multiple of the alignment already,
because both summands are. -/
def Cfg.layoutSize (cfg : Cfg) (t : Ty) : Nat := cfg.itemOffset t + t.size

/-- What a block currently holds. `obj i` is the object owned by the `i`-th `unique_ptr`. -/
inductive Content where
  | raw
  | obj (i : Nat)
  | link (next : Option Nat)
  | freed
  deriving Repr, DecidableEq

structure Block where
  size : Nat
  content : Content
  deriving Repr, DecidableEq

/-- A `Chunk` object (StorageImpl.hpp:95-140), i.e. its `PtrChain::base`, and whether the chunk object
still exists (deleters keep a pointer to it, StorageImpl.hpp:144-163). -/
structure Chunk where
  alive : Bool
  base : Option Nat
  deriving Repr, DecidableEq

/-- Storage of a recycler: `MonoStorage` is one chunk held by value (StorageImpl.hpp:167-172), `PolyStorage` has a
map from `sizeof(T)` to chunks in nodes of their own (StorageImpl.hpp:176-191), `PolyFixedStorage` a tuple of chunks
held by value, one for each size among the listed types (StorageImpl.hpp:196-223; `sizes` are those of the template
arguments). Chunks are named by their address (index in `State.chunks`). -/
inductive Rec where
  | mono (c : Nat)
  | poly (m : List (Nat × Nat))
  | fixed (sizes : List Nat) (m : List (Nat × Nat))
  deriving Repr, DecidableEq

/-- All chunks of a recycler. -/
def Rec.chunkIds : Rec → List Nat
  | .mono c => [c]
  | .poly m => m.map (·.2)
  | .fixed _ m => m.map (·.2)

/-- Program state: memory, chunk objects, recyclers (`none` once destroyed) and the `unique_ptr`s
handed out so far (address and the chunk their deleter points to; `none` once destroyed). -/
structure State where
  heap : List Block
  chunks : List Chunk
  recs : List (Option Rec)
  ptrs : List (Option (Nat × Nat))
  deriving Repr, DecidableEq

def State.init : State := { heap := [], chunks := [], recs := [], ptrs := [] }

/-- Read the link stored in block `a` (`base->next`, StorageImpl.hpp:64,83). -/
def State.readLink (s : State) (a : Nat) : Outcome (Option Nat) :=
  match s.heap[a]? with
  | some ⟨_, .link nxt⟩ => .ok nxt
  | _ => .ub

/-- `LHelperType::allocate<T>()`, LayoutImpl.hpp:48-52. -/
def State.allocate (s : State) (n : Nat) : State × Nat :=
  ({ s with heap := s.heap ++ [⟨n, .raw⟩] }, s.heap.length)

/-- `LHelperType::construct<T>`, LayoutImpl.hpp:79-99: needs a block that is big enough and not freed. -/
def State.construct (s : State) (cfg : Cfg) (t : Ty) (a i : Nat) : Outcome State :=
  match s.heap[a]? with
  | some ⟨n, c⟩ =>
    if c = .freed ∨ n < cfg.layoutSize t then .ub
    else .ok { s with heap := s.heap.set a ⟨n, .obj i⟩ }
  | none => .ub

/-- The chunk object at address `c`, if it still exists. -/
def State.chunkAt (s : State) (c : Nat) : Outcome Chunk :=
  match s.chunks[c]? with
  | some ch => if ch.alive then .ok ch else .ub
  | none => .ub

/-- `Chunk::create<T>`, StorageImpl.hpp:119-130, with `PtrChain::pop` (78-85) and `isEmpty` (87-91). The
result is wrapped in a `unique_ptr` whose deleter points to the chunk (RecyclerImpl.hpp:105-106,
126-127). -/
def State.chunkCreate (s : State) (cfg : Cfg) (c : Nat) (t : Ty) : Outcome State := do
  let ch ← s.chunkAt c
  let (s, a) ← match ch.base with
    | none => .ok (s.allocate (cfg.layoutSize t))
    | some a => do
      let nxt ← s.readLink a
      .ok ({ s with chunks := s.chunks.set c { ch with base := nxt } }, a)
  let s ← s.construct cfg t a s.ptrs.length
  return { s with ptrs := s.ptrs ++ [some (a, c)] }

/-- `PolyStorage::getChunk<T>()`: `chunks[sizeof(T)]`, StorageImpl.hpp:186-190 (creating an empty chunk
on first use), or `MonoStorage::chunk`, whose use with another type than `TBase` is rejected by a
`static_assert` (RecyclerImpl.hpp:102-104), or `PolyFixedStorage::getChunk<T>()`, StorageImpl.hpp:217-222, which rejects
sizes that are not listed by a `static_assert`. -/
def State.getChunk (s : State) (cfg : Cfg) (r : Nat) (t : Ty) : Outcome (State × Nat) :=
  match s.recs[r]? with
  | some (some (.mono c)) => if t = cfg.base then .ok (s, c) else .assertFail
  | some (some (.poly m)) =>
    match m.lookup t.size with
    | some c => .ok (s, c)
    | none =>
      let c := s.chunks.length
      .ok ({ s with chunks := s.chunks ++ [⟨true, none⟩],
                    recs := s.recs.set r (some (.poly ((t.size, c) :: m))) }, c)
  | some (some (.fixed _ m)) =>
    match m.lookup t.size with
    | some c => .ok (s, c)
    | none => .assertFail
  | _ => .ub

/-- `BaseRecycler::create<T>`, RecyclerImpl.hpp:57-63, 99-107, 119-128. `t`'s item must be laid out
behind the start of the block as `TBase`'s would be, otherwise the later `getLayout(TBase*)`
(LayoutImpl.hpp:64-67) computes a wrong address; that is checked on deletion. -/
def State.create (s : State) (cfg : Cfg) (r : Nat) (t : Ty) : Outcome State := do
  let (s, c) ← s.getChunk cfg r t
  s.chunkCreate cfg c t

/-- `create<T>` when the constructor throws. By then the block has been taken from the chunk; nothing puts it back
(`Chunk::create`, StorageImpl.hpp:119-130, has no handler) and no `unique_ptr` has been made. Modelled as the creation of
the object, after which the block is left without contents and no pointer to it remains. The attempt keeps its number. -/
def State.createThrow (s : State) (cfg : Cfg) (r : Nat) (t : Ty) : Outcome State := do
  let s ← s.create cfg r t
  match s.ptrs.getLast? with
  | some (some (a, _)) =>
    match s.heap[a]? with
    | some b => .ok { s with heap := s.heap.set a ⟨b.size, .raw⟩, ptrs := s.ptrs.set (s.ptrs.length - 1) none }
    | none => .ub
  | _ => .ub

/-- Destroying the `i`-th `unique_ptr`: `ChunkDeleter::operator()` and `Chunk::recycle`,
StorageImpl.hpp:157-162 and 134-139, with `PtrChain::push` (69-76). `t` is the dynamic type of the object.
`getLayout` subtracts the offset of `TBase`'s layout; if the object was constructed at another offset
the address pushed is not the block's. Writing the link needs room for a pointer (8 bytes). -/
def State.delete (s : State) (cfg : Cfg) (i : Nat) (t : Ty) : Outcome State :=
  match s.ptrs[i]? with
  | some (some (a, c)) => do
    let ch ← s.chunkAt c
    match s.heap[a]? with
    | some ⟨n, .obj j⟩ =>
      if j ≠ i ∨ cfg.itemOffset t ≠ cfg.itemOffset cfg.base ∨ n < 8 then .ub
      else .ok { s with
        heap := s.heap.set a ⟨n, .link ch.base⟩
        chunks := s.chunks.set c { ch with base := some a }
        ptrs := s.ptrs.set i none }
    | _ => .ub
  | _ => .ub

/-- `LHelperType::deallocate`, LayoutImpl.hpp:53-57: only a block that is not freed yet. -/
def State.deallocate (s : State) (a : Nat) : Outcome State :=
  match s.heap[a]? with
  | some ⟨n, c⟩ => if c = .freed then .ub else .ok { s with heap := s.heap.set a ⟨n, .freed⟩ }
  | none => .ub

/-- `PtrChain::~PtrChain`, StorageImpl.hpp:59-67. -/
def freeChain : (fuel : Nat) → State → Option Nat → Outcome State
  | _, s, none => .ok s
  | 0, _, some _ => .diverge
  | fuel + 1, s, some a => do
    let nxt ← s.readLink a
    let s ← s.deallocate a
    freeChain fuel s nxt

/-- Destructor of the chunk at `c`. The chain can have at most as many links as there are blocks. -/
def State.destroyChunk (s : State) (c : Nat) : Outcome State := do
  let ch ← s.chunkAt c
  let s ← freeChain (s.heap.length + 1) s ch.base
  return { s with chunks := s.chunks.set c ⟨false, none⟩ }

def destroyChunks (s : State) : List Nat → Outcome State
  | [] => .ok s
  | c :: cs => do let s ← s.destroyChunk c; destroyChunks s cs

/-- Destructor of a recycler: destroys its storage, i.e. all its chunks. -/
def State.destroyRec (s : State) (r : Nat) : Outcome State :=
  match s.recs[r]? with
  | some (some rec) => do
    let s ← destroyChunks s rec.chunkIds
    return { s with recs := s.recs.set r none }
  | _ => .ub

/-- The holders of a new `PolyFixedStorage`, StorageImpl.hpp:203-213: one chunk for each different size (`Unique`); their
addresses begin at `next`. -/
def holders (next : Nat) : List Nat → List (Nat × Nat)
  | [] => []
  | k :: ks =>
    let m := holders next ks
    if k ∈ ks then m else (k, next + m.length) :: m

/-- Moving the holders of a `PolyFixedStorage` (the defaulted move constructor of the tuple): for each a new chunk object takes
over the free list (`Chunk(Chunk&&)`, StorageImpl.hpp:108-110). -/
def moveHolders (s : State) : List (Nat × Nat) → Outcome (State × List (Nat × Nat))
  | [] => .ok (s, [])
  | (k, c) :: m => do
    let (s, m') ← moveHolders s m
    let ch ← s.chunkAt c
    return ({ s with chunks := (s.chunks.set c { ch with base := none }) ++ [⟨true, ch.base⟩] },
      (k, s.chunks.length) :: m')

/-- Move assignment of the holders of a `PolyFixedStorage`, one after the other; `src` and `dst` have the same sizes. -/
def assignHolders (s : State) (src : List (Nat × Nat)) : (dst : List (Nat × Nat)) → Outcome State
  | [] => .ok s
  | (k, cd) :: dst => do
    let s ← assignHolders s src dst
    match src.lookup k with
    | some cr => do
      let chd ← s.chunkAt cd
      let chr ← s.chunkAt cr
      return { s with chunks := (s.chunks.set cd { chd with base := chr.base }).set cr { chr with base := none } }
    | none => .ub

/-- Move construction of a recycler from recycler `r`. A `MonoStorage` moves its chunk: a new chunk
object takes over the free list (`Chunk(Chunk&&)`, StorageImpl.hpp:108-110; `PtrChain(PtrChain&&)`, 45-49).
A `PolyStorage` moves its `unordered_map`, whose nodes (the chunk objects) keep their addresses. A `PolyFixedStorage`
moves its tuple of chunks. -/
def State.moveRec (s : State) (r : Nat) : Outcome State :=
  match s.recs[r]? with
  | some (some (.mono c)) => do
    let ch ← s.chunkAt c
    return { s with
      chunks := (s.chunks.set c { ch with base := none }) ++ [⟨true, ch.base⟩]
      recs := s.recs ++ [some (.mono s.chunks.length)] }
  | some (some (.poly m)) =>
    .ok { s with recs := (s.recs.set r (some (.poly []))) ++ [some (.poly m)] }
  | some (some (.fixed sizes m)) => do
    let (s, m') ← moveHolders s m
    return { s with recs := s.recs ++ [some (.fixed sizes m')] }
  | _ => .ub

/-- Move assignment `recs[d] = std::move(recs[r])`. For a `MonoStorage`: `PtrChain::operator=(PtrChain&&)`,
StorageImpl.hpp:52-57, which overwrites the target's chain. For a `PolyStorage`: the target's map (and
chunks) are destroyed and the source's nodes taken over. For a `PolyFixedStorage`: chunk by chunk. -/
def State.moveAssign (s : State) (d r : Nat) : Outcome State :=
  match s.recs[d]?, s.recs[r]? with
  | some (some (.mono cd)), some (some (.mono cr)) => do
    let chd ← s.chunkAt cd
    let chr ← s.chunkAt cr
    return { s with chunks := (s.chunks.set cd { chd with base := chr.base }).set cr { chr with base := none } }
  | some (some (.poly md)), some (some (.poly mr)) => do
    let s ← destroyChunks s (md.map (·.2))
    return { s with recs := (s.recs.set d (some (.poly mr))).set r (some (.poly [])) }
  | some (some (.fixed _ md)), some (some (.fixed _ mr)) => assignHolders s mr md
  | _, _ => .ub

/-- What a program can do with recyclers. Objects are named by the order of their creation. The type
given to `delete` is the dynamic type the object was created with. -/
inductive Op where
  | newMono
  | newPoly
  | newFixed (sizes : List Nat)
  | create (r : Nat) (t : Ty)
  | delete (i : Nat) (t : Ty)
  | move (r : Nat)
  | moveAssign (d r : Nat)
  | destroyRec (r : Nat)
  | createThrow (r : Nat) (t : Ty)
  deriving Repr, DecidableEq

def step (cfg : Cfg) (s : State) : Op → Outcome State
  | .newMono => .ok { s with chunks := s.chunks ++ [⟨true, none⟩],
                             recs := s.recs ++ [some (.mono s.chunks.length)] }
  | .newPoly => .ok { s with recs := s.recs ++ [some (.poly [])] }
  | .newFixed sizes =>
    let m := holders s.chunks.length sizes
    .ok { s with chunks := s.chunks ++ List.replicate m.length ⟨true, none⟩, recs := s.recs ++ [some (.fixed sizes m)] }
  | .create r t => s.create cfg r t
  | .delete i t => s.delete cfg i t
  | .move r => s.moveRec r
  | .moveAssign d r => s.moveAssign d r
  | .destroyRec r => s.destroyRec r
  | .createThrow r t => s.createThrow cfg r t

def run (cfg : Cfg) (s : State) : List Op → Outcome State
  | [] => .ok s
  | o :: os => do let s ← step cfg s o; run cfg s os

end Verif.Recycler
