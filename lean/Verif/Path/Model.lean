import Verif.Str.Model

/-!
# Paths and directory scans

Source: `include/SSVUtils/Core/FileSystem/{Path,Scan,Utils,Enums}.hpp`, `Internal/ScanHelper.hpp` (Linux).

The file system is what `stat` and `opendir`/`readdir` answer; it does not change while a function runs. `thread_local`
buffers are part of the state. Reading file contents, creating and removing files: see `Verif.Files`.
-/

namespace Verif.Path

open Verif Str

/-- What `st_mode & S_IFMT` can be. -/
inductive Kind where
  | file | folder | other
  deriving Repr, DecidableEq

/-- The answers of the file system. `stat s`: `none` if the call fails. `opendir s`: the names that successive `readdir`
calls give, `none` if the folder cannot be opened. -/
structure FS where
  stat : Str → Option Kind
  opendir : Str → Option (List Str)

/-- A `Path` object, Path.hpp:58-62. -/
structure PathObj where
  str : Str
  mustNormalize : Bool
  deriving Repr, DecidableEq

/-- The constructors, Path.hpp:91-106, and the assignments, 114-133. -/
def PathObj.of (s : Str) : PathObj := ⟨s, true⟩

/-- `clear`, Path.hpp:108-112. -/
def PathObj.clear (_ : PathObj) : PathObj := ⟨[], true⟩

/-- `operator+=`, Path.hpp:135-149. -/
def PathObj.append (p : PathObj) (s : Str) : PathObj := ⟨p.str ++ s, true⟩

/-- `operator+`, Path.hpp:335-341. -/
def PathObj.plus (p q : Str) : PathObj := (PathObj.of p).append q

/-- `c_str()` as seen by a C function. -/
def cstr (s : Str) : Str := s.takeWhile (· ≠ '\x00')

/-- `exists<Type::Folder>()` of a path already normalised, Path.hpp:48-55, 190-196. -/
def isFolder (fs : FS) (s : Str) : Bool := fs.stat (cstr s) == some .folder

/-- `exists<Type::File>()`, Path.hpp:40-47, 190-196. -/
def isFile (fs : FS) (s : Str) : Bool := fs.stat (cstr s) == some .file

/-- `while(j < path.size() && path[j] == '/') ++j;`, Path.hpp:82. -/
def slashRun (s : Str) (j : Nat) : Nat :=
  if h : j < s.length then
    if s[j] = '/' then slashRun s (j + 1) else j
  else j
termination_by s.length - j

/-- `path.erase(pos, n)`. -/
def erase (s : Str) (pos n : Nat) : Str := s.take pos ++ s.drop (pos + n)

/-- The loop over `path`, Path.hpp:77-85, from index `i` on. (`i` is a 32-bit number; longer paths are not modelled.) -/
def collapse (s : Str) (i : Nat) : Str :=
  if h : i < s.length then
    if s[i] ≠ '/' then collapse s (i + 1)
    else
      let j := slashRun s i
      collapse (erase s i (j - i - 1)) (i + 1)
  else s
termination_by s.length - i
decreasing_by
  · omega
  · simp only [erase, List.length_append, List.length_take, List.length_drop]; omega

/-- `normalize`, Path.hpp:67-88. -/
def normalize (fs : FS) (p : PathObj) : Outcome PathObj :=
  if !p.mustNormalize then .ok p
  else do
    let s := p.str.map (fun c => if c = '\\' then '/' else c)
    let s := collapse s 0
    let slash ← endsWith s ['/']
    .ok ⟨if !slash && isFolder fs s then s ++ ['/'] else s, false⟩

/-- `getStr`, Path.hpp:152-180 (also the conversions to `std::string`). -/
def getStr (fs : FS) (p : PathObj) : Outcome Str := do
  let p ← normalize fs p
  pure p.str

/-- `toLower(char)`, String/Utils.hpp:93-96: undefined for negative `char`s ("C" locale otherwise). -/
def toLowerChar (c : Char) : Outcome Char :=
  if 128 ≤ c.toNat then .ub
  else .ok (if 'A' ≤ c ∧ c ≤ 'Z' then Char.ofNat (c.toNat + 32) else c)

/-- `toLower(std::string)`, String/Utils.hpp:175-179. -/
def toLower : Str → Outcome Str
  | [] => .ok []
  | c :: s => do
    let c ← toLowerChar c
    let s ← toLower s
    pure (c :: s)

/-- `toUpper(char)`, String/Utils.hpp:99-102. -/
def toUpperChar (c : Char) : Outcome Char :=
  if 128 ≤ c.toNat then .ub
  else .ok (if 'a' ≤ c ∧ c ≤ 'z' then Char.ofNat (c.toNat - 32) else c)

/-- `toUpper(std::string)`, String/Utils.hpp:185-189. -/
def toUpper : Str → Outcome Str
  | [] => .ok []
  | c :: s => do
    let c ← toUpperChar c
    let s ← toUpper s
    pure (c :: s)

/-- `hasExtension`, Path.hpp:200-203. -/
def hasExtension (fs : FS) (p : PathObj) (ext : Str) : Outcome Bool := do
  let s ← getStr fs p
  let s ← toLower s
  let e ← toLower ext
  endsWith s e

/-- `isRootOrParent`, Path.hpp:206-209, of a normalised path. -/
def isRootOrParent (s : Str) : Outcome Bool := do
  let a ← endsWith s "./".toList
  if a then pure true else endsWith s "../".toList

/-- The loop of `getParent`, Path.hpp:218-220. -/
def parentLoop (s : Str) : Nat → Outcome Str
  | 0 => .ok []
  | i + 1 =>
    match s[i + 1]? with
    | none => .ub
    | some c => if c = '/' then substr s 0 (i + 2) else parentLoop s i

/-- `size_t` subtraction. -/
def sizeSub (a b : Nat) : Nat := (a + 2 ^ 64 - b) % 2 ^ 64

/-- `std::string::npos`. -/
def npos : Nat := 2 ^ 64 - 1

/-- `getParent`, Path.hpp:215-221: the string of the result. -/
def getParent (fs : FS) (p : PathObj) : Outcome Str := do
  let s ← getStr fs p
  parentLoop s (sizeSub s.length 1)

/-- `s.find_last_of(c)`. -/
def findLastOf (s : Str) (c : Char) : Nat :=
  match s.reverse.findIdx? (· == c) with
  | none => npos
  | some k => s.length - 1 - k

/-- `s.find_first_of(c, pos)`. -/
def findFirstOf (s : Str) (c : Char) (pos : Nat) : Nat :=
  match (s.drop pos).findIdx? (· == c) with
  | none => npos
  | some k => pos + k

/-- `getFileName`, Path.hpp:225-230. -/
def getFileName (fs : FS) (p : PathObj) : Outcome Str := do
  let s ← getStr fs p
  let nameBegin := (findLastOf s '/' + 1) % 2 ^ 64
  substr s nameBegin (sizeSub s.length nameBegin)

/-- `getFileNameNoExtensions`, Path.hpp:235-247. -/
def getFileNameNoExtensions (fs : FS) (p : PathObj) : Outcome Str := do
  let s ← getStr fs p
  let nameBegin := (findLastOf s '/' + 1) % 2 ^ 64
  let extBegin := findLastOf s '.'
  if extBegin = nameBegin then substr s nameBegin npos
  else substr s nameBegin (sizeSub extBegin nameBegin)

/-- The loop of `getFolderName`, Path.hpp:258. -/
def folderLoop (s : Str) : Nat → Outcome Nat
  | 0 => .ok 0
  | i + 1 =>
    match s[i + 1]? with
    | none => .ub
    | some c => if c = '/' then .ok (i + 1) else folderLoop s i

/-- `getFolderName`, Path.hpp:252-260. -/
def getFolderName (fs : FS) (p : PathObj) : Outcome Str := do
  let s ← getStr fs p
  if !endsWithChar s '/' then pure []
  else do
    let i ← folderLoop s (sizeSub s.length 2)
    substr s (i + 1) (sizeSub s.length (i + 2))

/-- `getExtension`, Path.hpp:264-272. -/
def getExtension (fs : FS) (p : PathObj) : Outcome Str := do
  let s ← getFileName fs p
  let s := if beginsWithChar s '.' then s.drop 1 else s
  let extBegin := findLastOf s '.'
  if extBegin = npos then pure [] else substr s extBegin (sizeSub s.length extBegin)

/-- `getAllExtensions`, Path.hpp:277-284. -/
def getAllExtensions (fs : FS) (p : PathObj) : Outcome Str := do
  let s ← getFileName fs p
  let extBegin := findFirstOf s '.' (if beginsWithChar s '.' then 1 else 0)
  if extBegin = npos then pure [] else substr s extBegin (sizeSub s.length extBegin)

/-- `isNull`, Path.hpp:312-315. -/
def isNull (p : PathObj) : Bool := p.str.isEmpty

/-- `operator<`, Path.hpp:317-320. -/
def less (fs : FS) (p q : PathObj) : Outcome Bool := do
  let a ← getStr fs p
  let b ← getStr fs q
  pure (compareStr a b < 0)

/-- `operator==` between paths, Path.hpp:344-348: its body is the same comparison again. -/
def equal : Nat → PathObj → PathObj → Outcome Bool
  | 0, _, _ => .diverge
  | fuel + 1, p, q => equal fuel p q

/-- `operator!=` between paths, Path.hpp:349-353. -/
def notEqual : Nat → PathObj → PathObj → Outcome Bool
  | 0, _, _ => .diverge
  | fuel + 1, p, q => notEqual fuel p q

/-- `expandUserPath`, Utils.hpp:44-67, on Linux: `home` is the variable `HOME` if set. -/
def expandUserPath (fuel : Nat) (fs : FS) (home : Option Str) (p : PathObj) : Outcome PathObj := do
  let s ← getStr fs p
  let s ← replaceAllFuel fuel s ['~'] (home.getD [])
  pure (PathObj.of s)

/-! ## Scanning -/

/-- `Mode`, `Type`, `Pick` (with `mDesired`) and `Sort`, Enums.hpp. -/
inductive Mode where
  | recurse | single
  deriving Repr, DecidableEq

inductive EntryType where
  | all | file | folder
  deriving Repr, DecidableEq

inductive Pick where
  | any | byExt (e : Str) | byName (n : Str)
  deriving Repr, DecidableEq

structure Options where
  mode : Mode
  type : EntryType
  pick : Pick
  sorted : Bool
  deriving Repr, DecidableEq

/-- The parameter `mPath`: a path of the caller (already normalised), or a reference to the thread-local `bufPath`. -/
inductive Arg where
  | own (s : Str)
  | buf
  deriving Repr, DecidableEq

/-- `bufPath` and `mTarget`; an element of `mTarget` is represented by the string its `getStr` returns. -/
structure St where
  buf : PathObj
  target : List Str
  deriving Repr, DecidableEq

def argStr (a : Arg) (buf : PathObj) : Str :=
  match a with
  | .own s => s
  | .buf => buf.str

/-- Is a file picked?, ScanHelper.hpp:74-91. -/
def picked (pick : Pick) (name : Str) : Outcome Bool :=
  match pick with
  | .any => .ok true
  | .byExt e => endsWith name e
  | .byName n => .ok (name == n)

/-- The body of the loop, ScanHelper.hpp:50-93; `rescan` is the recursive call on `bufPath`. -/
def visit (fs : FS) (o : Options) (rescan : St → Outcome St) (a : Arg) (st : St) (name : Str) : Outcome St := do
  let buf := st.buf.clear
  let buf := buf.append (argStr a buf)
  let buf := buf.append name
  let buf ← normalize fs buf
  let skip ← isRootOrParent buf.str
  if skip then pure { st with buf := buf }
  else if isFolder fs buf.str then
    let target := if o.type = .all ∨ o.type = .folder then st.target ++ [buf.str] else st.target
    if o.mode = .recurse then rescan ⟨buf, target⟩ else pure ⟨buf, target⟩
  else if o.type = .all ∨ o.type = .file then do
    let ok ← picked o.pick name
    pure ⟨buf, if ok then st.target ++ [buf.str] else st.target⟩
  else pure { st with buf := buf }

/-- The loop over the entries, ScanHelper.hpp:48-94. -/
def visitAll (f : St → Str → Outcome St) : St → List Str → Outcome St
  | st, [] => .ok st
  | st, n :: ns => do
    let st ← f st n
    visitAll f st ns

/-- `std::sort` with `operator<`, ScanHelper.hpp:97-98. -/
def sortPaths (l : List Str) : List Str := l.mergeSort (fun a b => decide (compareStr a b ≤ 0))

/-- `Impl::scan`, ScanHelper.hpp:34-99; `fuel` bounds the depth of the recursion. -/
def scan (fs : FS) (o : Options) : Nat → Arg → St → Outcome St
  | 0, _, _ => .diverge
  | fuel + 1, a, st =>
    if !isFolder fs (argStr a st.buf) then .throw
    else
      match fs.opendir (cstr (argStr a st.buf)) with
      | none => .ub
      | some names => do
        let st ← visitAll (visit fs o (scan fs o fuel .buf) a) st names
        pure { st with target := if o.sorted then sortPaths st.target else st.target }

/-- `scan` / `getScan` called by a user, Scan.hpp:40-78: the new contents of `mTarget`. `left` is what an earlier call left in
the thread-local buffer. -/
def scanPaths (fs : FS) (o : Options) (fuel : Nat) (left : PathObj) (target : List Str) (p : PathObj) :
    Outcome (List Str) := do
  let s ← getStr fs p
  let st ← scan fs o fuel (.own s) ⟨left, target⟩
  pure st.target

end Verif.Path
