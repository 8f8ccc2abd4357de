import Verif.Basic

/-!
# Type lists

`ssvu::MPL::List<Ts...>`.  A type list is a list of types; types are the elements of an
arbitrary type `α` on which `std::is_same` is equality.  What the compiler rejects is
`none`.

Template recursion depth and lists with 2^31 or more types are not modelled.
-/

namespace Verif.Mpl

variable {α : Type} [DecidableEq α]

/-- `getMapIns(i, from, to)`: include/SSVUtils/Core/MPL/Impl/Insert.hpp:16-20. -/
def getMapIns (i from_ to : Nat) : Nat := if i < to then i else if i = to then from_ else i - 1

/-- `std::tuple_element_t<i, std::tuple<ts...>>...` for a pack of indices. -/
def elems (ts : List α) : List Nat → Option (List α)
  | [] => some []
  | i :: is => do
    let t ← ts[i]?
    let r ← elems ts is
    some (t :: r)

/-- `List<ts...>::Insert<t, n>`: include/SSVUtils/Core/MPL/Impl/Insert.hpp:25-32,
include/SSVUtils/Core/MPL/Impl/List.hpp:167-172; for the empty list
include/SSVUtils/Core/MPL/Impl/List.hpp:44-45, which does not look at the index. -/
def insert (ts : List α) (t : α) (n : Nat) : Option (List α) :=
  if ts = [] then some [t]
  else if n ≤ ts.length then
    elems (ts ++ [t]) ((List.range (ts.length + 1)).map fun i => getMapIns i ts.length n)
  else none

/-- `getMapRem(i, idx)`: include/SSVUtils/Core/MPL/Impl/Remove.hpp:16-20. -/
def getMapRem (i idx : Nat) : Nat := if i < idx then i else i + 1

/-- `List<ts...>::Remove<n>`: include/SSVUtils/Core/MPL/Impl/Remove.hpp:25-38,
include/SSVUtils/Core/MPL/Impl/List.hpp:174-177; the empty list has no `Remove`. -/
def remove (ts : List α) (n : Nat) : Option (List α) :=
  if n < ts.length then
    elems ts ((List.range (ts.length - 1)).map fun i => getMapRem i n)
  else none

/-- `List<ts...>::PushBack<t>`: include/SSVUtils/Core/MPL/Impl/List.hpp:47-48, 179-181. -/
def pushBack (ts : List α) (t : α) : List α := ts ++ [t]

/-- `List<ts...>::PushFront<t>`: include/SSVUtils/Core/MPL/Impl/List.hpp:49-50, 183-185. -/
def pushFront (ts : List α) (t : α) : List α := t :: ts

/-- `List<ts...>::At<i>`: include/SSVUtils/Core/MPL/Impl/List.hpp:189-191.  A negative index
is not an index of the tuple. -/
def at_ (ts : List α) (i : Int) : Option α :=
  if 0 ≤ i then ts[i.toNat]? else none

/-- `List<ts...>::Head`: include/SSVUtils/Core/MPL/Impl/List.hpp:193-194. -/
def head (ts : List α) : Option α := at_ ts 0

/-- `List<ts...>::Tail`, the last type: include/SSVUtils/Core/MPL/Impl/List.hpp:196-197. -/
def tail (ts : List α) : Option α := at_ ts ((ts.length : Int) - 1)

/-- `VAHead<ts...>`: include/SSVUtils/Core/MPL/Impl/VAHead.hpp:16-25. -/
def vaHead : List α → Option α
  | [] => none
  | t :: _ => some t

/-- `VATail<ts...>`: include/SSVUtils/Core/MPL/Impl/VATail.hpp:16-30. -/
def vaTail : List α → Option α
  | [] => none
  | [t] => some t
  | _ :: t :: ts => vaTail (t :: ts)

/-- `List<ts...>::PopBack`: include/SSVUtils/Core/MPL/Impl/List.hpp:201-203. -/
def popBack (ts : List α) : Option (List α) := if ts = [] then none else remove ts (ts.length - 1)

/-- `List<ts...>::PopFront`: include/SSVUtils/Core/MPL/Impl/List.hpp:205-207. -/
def popFront (ts : List α) : Option (List α) := if ts = [] then none else remove ts 0

/-- `List<ts...>::Apply<f>`: include/SSVUtils/Core/MPL/Impl/List.hpp:59-60, 211-214. -/
def apply {β : Type} (f : α → β) : List α → List β
  | [] => []
  | t :: ts => f t :: apply f ts

/-- `FilterHlpr<p, List<ts...>, r>`: include/SSVUtils/Core/MPL/Impl/Filter.hpp:16-31. -/
def filterHlpr (p : α → Bool) : List α → List α → List α
  | [], r => r
  | t :: ts, r =>
    let current := filterHlpr p ts r
    let added := filterHlpr p ts (pushBack r t)
    if !p t then current else added

/-- `List<ts...>::Filter<p>`: include/SSVUtils/Core/MPL/Impl/Filter.hpp:33-34,
include/SSVUtils/Core/MPL/Impl/List.hpp:61-62, 216-219. -/
def filter (p : α → Bool) (ts : List α) : List α := filterHlpr p ts []

/-- `FilterIdxHlpr<p, i, List<ts...>, r>`: include/SSVUtils/Core/MPL/Impl/Filter.hpp:38-53. -/
def filterIdxHlpr (p : Nat → Bool) : Nat → List α → List α → List α
  | _, [], r => r
  | i, t :: ts, r =>
    let current := filterIdxHlpr p (i + 1) ts r
    let added := filterIdxHlpr p (i + 1) ts (pushBack r t)
    if !p i then current else added

/-- `List<ts...>::FilterIdx<p>`: include/SSVUtils/Core/MPL/Impl/Filter.hpp:55-56,
include/SSVUtils/Core/MPL/Impl/List.hpp:221-224.  That of the empty list takes another kind
of template argument (List.hpp:63-64), so it is not the same operation. -/
def filterIdx (p : Nat → Bool) (ts : List α) : Option (List α) :=
  if ts = [] then none else some (filterIdxHlpr p 0 ts [])

/-- `List<as...>::Append<List<bs...>>`: include/SSVUtils/Core/MPL/Impl/Append.hpp:16-22,
include/SSVUtils/Core/MPL/Impl/List.hpp:66-67, 228-231. -/
def append (as bs : List α) : List α := as ++ bs

/-- `List<as...>::Prepend<List<bs...>>`: include/SSVUtils/Core/MPL/Impl/List.hpp:68-69,
233-236. -/
def prepend (as bs : List α) : List α := append bs as

/-- `List<ts...>::all<p>()`: include/SSVUtils/Core/MPL/Impl/List.hpp:71-75, 240-245. -/
def all (p : α → Bool) (ts : List α) : Bool :=
  if ts = [] then false else (filter p ts).length == ts.length

/-- `List<ts...>::any<p>()`: include/SSVUtils/Core/MPL/Impl/List.hpp:76-80, 247-253. -/
def any (p : α → Bool) (ts : List α) : Bool :=
  if ts = [] then false else decide ((filter p ts).length > 0)

/-- The loop of `containsImpl`: include/SSVUtils/Core/MPL/Impl/Contains.hpp:20-34. -/
def containsLoop : List Bool → Bool
  | [] => false
  | b :: bs => if b then true else containsLoop bs

/-- `List<ts...>::has<t>()`: include/SSVUtils/Core/MPL/Impl/Contains.hpp:20-39,
include/SSVUtils/Core/MPL/Impl/List.hpp:94-98, 277-283. -/
def has (ts : List α) (t : α) : Bool := containsLoop (ts.map fun u => decide (t = u))

/-- `VACountHlpr<t, ts...>`: include/SSVUtils/Core/MPL/Impl/VACount.hpp:16-36,
include/SSVUtils/Core/MPL/Impl/List.hpp:89-93, 270-275. -/
def getCountOf (t : α) : List α → Nat
  | [] => 0
  | u :: us => (if t = u then 1 else 0) + getCountOf t us

/-- The loop of `idxOfImpl`, from index `i`: include/SSVUtils/Core/MPL/Impl/IdxOf.hpp:20-35.
`none` for the `-1` after the loop. -/
def idxOfLoop : List Bool → Nat → Option Nat
  | [], _ => none
  | b :: bs, i => if b then some i else idxOfLoop bs (i + 1)

/-- `List<ts...>::getIdxOf<t>()`: include/SSVUtils/Core/MPL/Impl/IdxOf.hpp:20-40,
include/SSVUtils/Core/MPL/Impl/List.hpp:290-297.  Without `t` in the list the
`static_assert` rejects it; the empty list has no `getIdxOf`. -/
def getIdxOf (ts : List α) (t : α) : Option Nat :=
  if has ts t then idxOfLoop (ts.map fun u => decide (t = u)) 0 else none

/-- `ReverseHlpr<List<ts...>, r>`: include/SSVUtils/Core/MPL/Impl/Reverse.hpp:16-28. -/
def reverseHlpr : List α → List α → List α
  | [], r => r
  | t :: ts, r => reverseHlpr ts (pushFront r t)

/-- `List<ts...>::Reverse`: include/SSVUtils/Core/MPL/Impl/Reverse.hpp:30-31. -/
def reverse (ts : List α) : List α := reverseHlpr ts []

/-- `UniqueHlpr<List<ts...>, r>`: include/SSVUtils/Core/MPL/Impl/Unique.hpp:16-31. -/
def uniqueHlpr : List α → List α → List α
  | [], r => r
  | t :: ts, r =>
    let current := uniqueHlpr ts r
    let added := uniqueHlpr ts (r ++ [t])
    if has r t then current else added

/-- `List<ts...>::Unique`: include/SSVUtils/Core/MPL/Impl/Unique.hpp:33-34. -/
def unique (ts : List α) : List α := uniqueHlpr ts []

/-- `List<ts...>::unique`: include/SSVUtils/Core/MPL/Impl/List.hpp:152-153. -/
def isUnique (ts : List α) : Bool := decide (ts = unique ts)

/-- `clampListIdx<TL>(x)`: include/SSVUtils/Core/MPL/Impl/SubList.hpp:25-29.  The common type
of the arguments of `getClamped` is `std::size_t`: a negative `x` becomes a huge number,
and its clamped value is the size. -/
def clampListIdx (ts : List α) (x : Int) : Nat :=
  if x < 0 then ts.length else if ts.length < x.toNat then ts.length else x.toNat

/-- `List<ts...>::Slice<s1, s2>`: include/SSVUtils/Core/MPL/Impl/SubList.hpp:17-33,
include/SSVUtils/Core/MPL/Impl/List.hpp:328-330; the empty list has no `Slice`.  A negative
number of indices does not compile. -/
def slice (ts : List α) (s1 s2 : Int) : Option (List α) :=
  if ts = [] then none
  else if clampListIdx ts s1 ≤ clampListIdx ts s2 then
    elems ts ((List.range (clampListIdx ts s2 - clampListIdx ts s1)).map
      fun i => clampListIdx ts s1 + i)
  else none

/-- `GetMatch<TS, TM, start, …>`: include/SSVUtils/Core/MPL/Impl/IdxsOfSeq.hpp:20-43.  The
list with `start` if all types from there on are those of `tm`, the empty list
otherwise. -/
def getMatch (ts tm : List α) (start : Nat) : List Nat :=
  if (List.range tm.length).all fun i => decide (ts[start + i]? = tm[i]?) then [start] else []

/-- `ConcatTest<ListInt<>, ls...>`: include/SSVUtils/Core/MPL/Impl/IdxsOfSeq.hpp:46-58. -/
def concat : List (List Nat) → List Nat
  | [] => []
  | l :: ls => append (append [] l) (concat ls)

/-- `IdxsOfSeq<List<ts...>, List<tm...>>`:
include/SSVUtils/Core/MPL/Impl/IdxsOfSeq.hpp:60-79,
include/SSVUtils/Core/MPL/Impl/List.hpp:87-88, 103-104, 265-268, 301-304.  The size of the
range is `getClampedMin(int(size(ts) - size(tm) + 1), 0)`. -/
def idxsOfSeq (ts tm : List α) : List Nat :=
  if ts = [] ∨ tm = [] then []
  else concat ((List.range ((ts.length : Int) - tm.length + 1).toNat).map (getMatch ts tm))

/-- `List<ts...>::getCountOfSeq<List<tm...>>()`:
include/SSVUtils/Core/MPL/Impl/List.hpp:105-109, 306-312. -/
def getCountOfSeq (ts tm : List α) : Nat := (idxsOfSeq ts tm).length

/-- `List<ts...>::hasSeq<List<tm...>>()`: include/SSVUtils/Core/MPL/Impl/List.hpp:110-114,
314-319. -/
def hasSeq (ts tm : List α) : Bool := decide (getCountOfSeq ts tm > 0)

/-- `ReplaceAllOfSeqHlpr<TS, TM, TN, TR, ListInt<is...>, last>`:
include/SSVUtils/Core/MPL/Impl/IdxsOfSeq.hpp:83-104. -/
def replaceHlpr (ts tm tn : List α) : List α → List Nat → Nat → Option (List α)
  | r, [], last => do
    let s ← slice ts last ts.length
    some (append r s)
  | r, i :: is, last => do
    let s ← slice ts last i
    replaceHlpr ts tm tn (append (append r s) tn) is (i + tm.length)

/-- `List<ts...>::ReplaceAllOfSeq<List<tm...>, List<tn...>>`:
include/SSVUtils/Core/MPL/Impl/IdxsOfSeq.hpp:106-108,
include/SSVUtils/Core/MPL/Impl/List.hpp:115-116, 321-324. -/
def replaceAllOfSeq (ts tm tn : List α) : Option (List α) :=
  if ts = [] then some [] else replaceHlpr ts tm tn [] (idxsOfSeq ts tm) 0

/-- `List<ts...>::ReplaceAllOf<t, List<tn...>>`:
include/SSVUtils/Core/MPL/Impl/List.hpp:99-100, 285-288. -/
def replaceAllOf (ts : List α) (t : α) (tn : List α) : Option (List α) :=
  replaceAllOfSeq ts [t] tn

/-- `List<ts...>::IdxsOf<t>`: include/SSVUtils/Core/MPL/Impl/List.hpp:265-268. -/
def idxsOf (ts : List α) (t : α) : List Nat := idxsOfSeq ts [t]

end Verif.Mpl
