import Verif.Basic

/-!
# String utilities

Source: `include/SSVUtils/Core/String/{Utils,Split,Trim}.hpp`, `Internal/SplitHelper.hpp`, and the trim functions of
`include/SSVUtils/Core/Utils/Containers.hpp`.

`std::string` is a list of characters; `size_t` does not overflow except where the code subtracts from zero, which is
modelled. The members of `std::string` and the standard algorithms that the code calls are modelled by their standard
meaning.
-/

namespace Verif.Str

open Verif

abbrev Str := List Char

/-! ## The members of `std::string` used -/

/-- Does `n` occur in `s` at the very start? -/
def matchesHere : Str → Str → Bool
  | _, [] => true
  | [], _ :: _ => false
  | c :: s, d :: n => c == d && matchesHere s n

/-- `s.find(n)` for the text `s` from some position on: offset of the first occurrence. -/
def findFrom : Str → Str → Option Nat
  | [], n => if matchesHere [] n then some 0 else none
  | c :: s, n => if matchesHere (c :: s) n then some 0 else (findFrom s n).map (· + 1)

/-- `s.find(n, pos)`; `none` is `npos`. -/
def find (s n : Str) (pos : Nat) : Option Nat :=
  if pos ≤ s.length then (findFrom (s.drop pos) n).map (pos + ·) else none

/-- `s.substr(pos, n)`, also the constructor `std::string(s, pos, n)`: throws `out_of_range` if `pos` is past the end. -/
def substr (s : Str) (pos n : Nat) : Outcome Str :=
  if s.length < pos then .throw else .ok ((s.drop pos).take n)

/-- `s.replace(pos, n, t)`. -/
def replaceAt (s : Str) (pos n : Nat) (t : Str) : Outcome Str :=
  if s.length < pos then .throw else .ok (s.take pos ++ t ++ s.drop (pos + n))

/-- Lexicographic comparison; negative, zero or positive. -/
def compareStr : Str → Str → Int
  | [], [] => 0
  | [], _ :: _ => -1
  | _ :: _, [] => 1
  | c :: s, d :: t => if c < d then -1 else if d < c then 1 else compareStr s t

/-- `s.compare(pos, n, t)`. -/
def compareAt (s : Str) (pos n : Nat) (t : Str) : Outcome Int := do
  let u ← substr s pos n
  pure (compareStr u t)

/-! ## Replacing, Utils.hpp -/

/-- `replace` / `getReplaced`, Utils.hpp:109-115, 198-203. -/
def replace (s a b : Str) : Outcome Str :=
  match find s a 0 with
  | none => .ok s
  | some startPos => replaceAt s startPos a.length b

/-- `replaceAll` / `getReplacedAll`, Utils.hpp:122-128, 212-217: the loop body executed at most `fuel` times. -/
def replaceAllFuel : Nat → Str → Str → Str → Outcome Str
  | 0, _, _, _ => .diverge
  | fuel + 1, s, a, b =>
    match find s a 0 with
    | none => .ok s
    | some startPos => do
      let s ← replaceAt s startPos a.length b
      replaceAllFuel fuel s a b

/-! ## Prefixes and suffixes, Utils.hpp -/

/-- `beginsWith(const std::string&, const std::string&)`, Utils.hpp:134-139. -/
def beginsWith (s start : Str) : Outcome Bool :=
  if start.length ≤ s.length then do
    let r ← compareAt s 0 start.length start
    pure (r == 0)
  else pure false

/-- `beginsWith(const std::string&, char)`, Utils.hpp:145-148. -/
def beginsWithChar (s : Str) (c : Char) : Bool :=
  match s with
  | [] => false
  | d :: _ => d == c

/-- `endsWith(const std::string&, const std::string&)`, Utils.hpp:154-160. -/
def endsWith (s ending : Str) : Outcome Bool :=
  if s.length ≥ ending.length then do
    let r ← compareAt s (s.length - ending.length) ending.length ending
    pure (r == 0)
  else pure false

/-- `endsWith(const std::string&, char)`, Utils.hpp:166-169. -/
def endsWithChar (s : Str) (c : Char) : Bool :=
  match s.getLast? with
  | none => false
  | some d => d == c

/-- `getCharCount`, Utils.hpp:224-227 (`std::count`). -/
def getCharCount (s : Str) (c : Char) : Nat := s.foldl (fun n d => if d == c then n + 1 else n) 0

/-- `getNewLinesCount`, Utils.hpp:232-235. -/
def getNewLinesCount (s : Str) : Nat := getCharCount s '\n'

/-! ## Levenshtein distance, Utils.hpp:245-277 -/

/-- `costs[i]`. -/
def cost (costs : List Nat) (i : Nat) : Outcome Nat := .ofOption costs[i]?

/-- `costs[i] = x`. -/
def setCost (costs : List Nat) (i x : Nat) : Outcome (List Nat) :=
  if i < costs.length then .ok (costs.set i x) else .ub

/-- The inner loop over the rest of `mB`, Utils.hpp:262-274. -/
def levInner (x : Char) : Str → Nat → Nat → List Nat → Outcome (List Nat)
  | [], _, _, costs => .ok costs
  | y :: ys, j, corner, costs => do
    let upper ← cost costs (j + 1)
    if x = y then do
      let costs ← setCost costs (j + 1) corner
      levInner x ys (j + 1) upper costs
    else do
      let t := if upper < corner then upper else corner
      let cj ← cost costs j
      let costs ← setCost costs (j + 1) ((if cj < t then cj else t) + 1)
      levInner x ys (j + 1) upper costs

/-- The outer loop over the rest of `mA`, Utils.hpp:256-275. -/
def levOuter (b : Str) : Str → Nat → List Nat → Outcome (List Nat)
  | [], _, costs => .ok costs
  | x :: xs, i, costs => do
    let costs ← setCost costs 0 (i + 1)
    let costs ← levInner x b 0 i costs
    levOuter b xs (i + 1) costs

/-- `getDistLevenshtein`, Utils.hpp:245-277. -/
def getDistLevenshtein (a b : Str) : Outcome Nat :=
  if a.length = 0 then .ok b.length
  else if b.length = 0 then .ok a.length
  else do
    let costs ← levOuter b a 0 (List.range (b.length + 1))
    cost costs b.length

/-! ## Trimming -/

section
variable {α : Type}

/-- `std::find_if_not` over a sequence: index of the first element not satisfying the predicate, or the length. -/
def findIfNot (p : α → Bool) : List α → Nat
  | [] => 0
  | x :: xs => if p x then findIfNot p xs + 1 else 0

/-- `erase` of the elements in `[i, j)`. -/
def eraseRange (l : List α) (i j : Nat) : List α := l.take i ++ l.drop j

/-- `trimL`, Containers.hpp:285-290. -/
def trimL (p : α → Bool) (l : List α) : List α := eraseRange l 0 (findIfNot p l)

/-- `trimR`, Containers.hpp:298-304: a reverse iterator at distance `k` from `rbegin` has its base at `size - k`. -/
def trimR (p : α → Bool) (l : List α) : List α := eraseRange l (l.length - findIfNot p l.reverse) l.length

/-- `trimLR`, Containers.hpp:313-317. -/
def trimLR (p : α → Bool) (l : List α) : List α := trimR p (trimL p l)

end

/-- `trimStrL` / `getTrimStrL`, Trim.hpp:17-20, 44-48. -/
def trimStrL (s : Str) (c : Char) : Str := trimL (fun d => d == c) s

/-- `trimStrR` / `getTrimStrR`, Trim.hpp:25-28, 55-59. -/
def trimStrR (s : Str) (c : Char) : Str := trimR (fun d => d == c) s

/-- `trimStrLR` / `getTrimStrLR`, Trim.hpp:34-37, 66-70. -/
def trimStrLR (s : Str) (c : Char) : Str := trimLR (fun d => d == c) s

/-! ## Splitting, SplitHelper.hpp -/

/-- `enum class Split`, Enums.hpp:11-16. -/
inductive Mode where
  | normal | trailingSeparator | tokenizeSeparator
  deriving Repr, DecidableEq

/-- `if(!token.empty()) mTarget.emplace_back(token)`. -/
def pushNonempty (target : List Str) (token : Str) : List Str := if token.isEmpty then target else target ++ [token]

/-- The part after the loop, SplitHelper.hpp:90-91, 150-151. -/
def finishSplit (target : List Str) (s : Str) (startAt : Nat) : Outcome (List Str) := do
  let remaining ← substr s startAt (s.length - startAt)
  pure (pushNonempty target remaining)

/-- Length of the token, SplitHelper.hpp:76-81, 136-141. -/
def tokenLength (m : Mode) (pos startAt sepSize : Nat) : Nat :=
  if m = .trailingSeparator then pos - startAt + sepSize else pos - startAt

/-- `SplitHelperImpl::split`, SplitHelper.hpp:67-92; `sep` is the text searched for and `sepSize` the size passed. If an
iteration does not advance `startAt`, the next one does the same again, for ever. -/
def splitImpl (m : Mode) (s sep : Str) (sepSize : Nat) (target : List Str) (startAt : Nat) : Outcome (List Str) :=
  match find s sep startAt with
  | none => finishSplit target s startAt
  | some pos => do
    let token ← substr s startAt (tokenLength m pos startAt sepSize)
    let target := pushNonempty target token
    let target ← if m = .tokenizeSeparator then
        -- `pos - 1` wraps to the largest `size_t` for `pos = 0`, which is past the end
        (if pos = 0 then .throw else do let t ← substr s (pos - 1) sepSize; pure (target ++ [t]))
      else pure target
    if h : startAt < pos + sepSize ∧ startAt ≤ s.length then splitImpl m s sep sepSize target (pos + sepSize)
    else .diverge
termination_by s.length + 1 - startAt

/-- `findFirstOf`, SplitHelper.hpp:17-31: position and length of the separator found. -/
def findFirstOf (s : Str) (startAt : Nat) : List Str → Option (Nat × Nat) → Option (Nat × Nat)
  | [], result => result
  | sep :: seps, result =>
    match find s sep startAt, result with
    | some temp, some (r, len) => findFirstOf s startAt seps (if temp < r then some (temp, sep.length) else some (r, len))
    | some temp, none => findFirstOf s startAt seps (some (temp, sep.length))
    | none, result => findFirstOf s startAt seps result

/-- `SplitHelper<std::vector<std::string>, TM>::split`, SplitHelper.hpp:128-152. -/
def splitMany (m : Mode) (s : Str) (seps : List Str) (target : List Str) (startAt : Nat) : Outcome (List Str) :=
  match findFirstOf s startAt seps none with
  | none => finishSplit target s startAt
  | some (pos, lastLength) => do
    let token ← substr s startAt (tokenLength m pos startAt lastLength)
    let target := pushNonempty target token
    let target ← if m = .tokenizeSeparator then do let t ← substr s pos lastLength; pure (target ++ [t]) else pure target
    if h : startAt < pos + lastLength ∧ startAt ≤ s.length then splitMany m s seps target (pos + lastLength)
    else .diverge
termination_by s.length + 1 - startAt

/-- The separator types of `split`. A character array is given with all its `TN` elements. -/
inductive Separator where
  | char (c : Char)
  | array (a : List Char)
  | string (s : Str)
  | strings (l : List Str)
  deriving Repr, DecidableEq

/-- `getSplit`, Split.hpp:42-47 and the specialisations of `SplitHelper`, SplitHelper.hpp:97-124. A character array is searched
for as a C string, up to the first zero; without a zero the search reads past its end. -/
def getSplit (m : Mode) (s : Str) : Separator → Outcome (List Str)
  | .char c => splitImpl m s [c] 1 [] 0
  | .array a => if '\x00' ∈ a then splitImpl m s (a.takeWhile (· ≠ '\x00')) (a.length - 1) [] 0 else .ub
  | .string sep => splitImpl m s sep sep.length [] 0
  | .strings l => splitMany m s l [] 0

end Verif.Str
