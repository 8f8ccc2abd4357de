# Formal model of SSVUtils in Lean 4: design

The code under study is `/repo` (SuperV1234/SSVUtils, C++). It is read as text only: nothing is
compiled or run. Everything proved here is a theorem about the Lean model in `lean/Verif`; the tie
between model and code is the citation (file and lines in `/repo`) on every model definition.

Paths below are relative to `/repo/include/SSVUtils/` unless they start with `Verif/`.

## Layout

Each area is a directory `lean/Verif/<Area>/` with

* `Model.lean`    - the code, function by function, each definition citing the lines it models;
* `Spec.lean`     - the small, independent specification the theorems refer to;
* `Lemmas*.lean`  - helper lemmas (no property is stated here);
* `Theorems.lean`, `Props*.lean` - the property theorems (`Cxx_...`), one block per property id, each
  followed by an `example` that a concrete non-trivial case meets the hypotheses.

Larger areas split the model and the specification (`Io.lean`, `Output.lean`, `SpecDraw.lean`, ...).

`MANIFEST.json` maps property ids to theorem names. `AXIOMS.md` lists the axioms of each of them.
`seeded/LOG.jsonl` records the mutation tests.

## Conventions of the model

* **Outcomes.** A C++ call can return, throw, fail an `assert`, or have undefined behaviour. These
  are distinct constructors of `Verif.Outcome` (`ok`, `throw`, `assertFail`, `ub`). Nothing is
  totalised: an out-of-range access, a read of an uninitialised slot, a double destruction or a
  call through a dangling reference is `ub`, never a default value. `assertFail` is what a debug
  build (`NDEBUG` unset) does; when release behaviour matters the model has a release version too.
* **Termination.** Loops whose termination is not evident take a fuel argument and return
  `none`/`Outcome.diverge` when it runs out; a theorem about termination says *some* fuel suffices, a
  theorem about divergence says *no* fuel does.
* **Integers.** `Nat`/`Int` where the property is not about overflow; `BitVec`/`UInt32`/explicit
  bounds where it is. Each use says which.
* **Floating point.** `FT`/`float`/`double` values are either left abstract (a type with operations and
  no laws, so the theorem holds for IEEE arithmetic as well) or idealised as integers or rationals;
  each use says which. Where rounding matters (angles, distances, interpolation) a rounding function
  that is monotone, odd and idempotent is a parameter, and the theorem holds for every such function.
* **Mutation** is state passing. Aliasing is modelled explicitly where the code depends on it
  (recursive directory scan, JSON self-assignment, recycler memory, manager slots).

## Trusted base

* Lean 4.33.0's kernel. No axioms are added; theorems depend at most on `propext`,
  `Classical.choice` and `Quot.sound`; `AXIOMS.md` has the output of `#print axioms` for every theorem
  named in the manifest. No `sorry`, `native_decide`, `bv_decide`, `implemented_by`.
* The reading of the C++ source that produced the model definitions (citations next to each).
* For C145, writing and reading floating-point numbers as in libstdc++ with glibc: `%.6g` of the exact value and `strtod` are correctly
  rounded to nearest, ties to even; `ERANGE` for inexact results below the normal numbers.
* The behaviour of the standard library as modelled: `std::vector`, `std::string`, `std::set` with
  pointee ordering, `std::map`, `std::lower_bound`, `std::sort`, `std::string::find/substr/replace`.
  Their functional contracts are assumed, not verified.

## Plan per property

| id | modelled | how it is proved |
|----|----------|------------------|
| C01 | `Impl::refreshImplLoop` as the two-index loop over an array of slots, with UB on touching an empty slot; `BaseManager` create/del/refresh/clear/reserve | loop invariant; lifted to every history by induction over the operation list, with a ghost log of creations/destructions |
| C02 | same model; slots are `empty` or hold an object id; deinit of an empty slot is UB | no history reaches `ub`; destroyed log is duplicate-free; after clear the destroyed log is a permutation of the created log |
| C03 | same model | frame theorem over create/del/reserve sequences |
| C04 | `GrowableArray::grow`, `reserve`, `create` | index-preservation lemma, capacity invariant |
| C05 | `PtrChain`, `Chunk::create/recycle` over a heap of blocks, free list as linked pointers stored inside the free blocks | invariant: live set and free list disjoint and duplicate free, for every history |
| C06 | chain destructor, move construction, move assignment | after destruction the freed log is a permutation of the allocated log; move assignment leaks: negation with witness |
| C07 | `PolyStorage` size-indexed chunks, `PolyFixedStorage` one chunk per listed size, deleter captured at creation | invariant: every block of a chunk has the chunk's size |
| C08 | `VecMap` as sorted vector with binary search (`std::lower_bound` written out) | refinement to `Key -> Option Val` |
| C09 | same, including the initializer-list constructor | invariant; duplicate keys in the initializer list: negation with witness |
| C10 | `VecSorted::insert` | sortedness and permutation invariant |
| C11 | `Bimap`: storage of pairs with ids, two ordered pointer sets | refinement to a set of pairs that is a partial bijection; initializer lists with repetitions: assertion, or the first pair wins (C11_from_list) |
| C12 | `Bimap::operator[]` | partial theorem plus negation (default partner in use) |
| C13 | `FatEnum` manager over the bimap | round-trip for every duplicate-free enumerator list (lists with repeated values do not compile) |
| C14 | `Delegate` with state-transforming handlers | induction on the handler list |
| C15 | `Union`/`Maybe` debug state machine | exact characterisation of the failing call sequences |
| C16 | writer and reader, character level | structural induction on values; quotes/backslashes: negation with witness |
| C17 | `purgeSource` in-place loop | purge = filter specification; stale tail: negation with witness |
| C18 | reader with out-of-range reads as `ub` | characterisation of inputs that go out of range: negation with witness, partial theorem |
| C19 | `readStr`, purge string scanning | partial theorem, negation for even backslash runs |
| C20 | `Val` object operations over `VecMap` | map laws, induction over members |
| C21 | `Val` as tagged union with explicit storage state | invariant over assignment sequences; self-assignment and converting types: negation with witness |
| C22 | `Num::operator==`, `Val::operator==` | negation of symmetry; equivalence on the homogeneous fragment |
| C23 | `Cnv<T>` for a universe of types | induction on the type |
| C24 | `Chk<T>` for the same universe | induction on the type; `char[N]`: negation with witness |
| C25 | `fromVal` with previous target | negation for maps, proof for the map-free universe |
| C26 | Base64 encode/decode loops over bytes | induction in steps of three bytes; table facts by `decide` over the whole 64-entry table |
| C27 | same | refinement to the RFC 4648 bit-level specification |
| C28 | MD5 unrolled transform, update, final, hex | refinement to a loop-form RFC 1321 specification |
| C29 | `MD5Update` with buffer | invariant relating context to the bytes absorbed |
| C30 | `ObfuscatedValue` over `toStr`, Base64, stream extraction of integers | composition of C26, C37 and digit parsing |
| C31 | `SplitHelper` loops with `find` | refinement to the piece specification |
| C32 | tokenize mode | negation with witness; proof for the several-separators overload, which is right |
| C33 | trim loops | characterisation as dropWhile on either end |
| C34 | `replaceAll` loop with fuel | divergence theorem; partial theorem where the replacement cannot recreate the pattern |
| C35 | loops | equivalence with prefix/suffix |
| C36 | one-row dynamic program | refinement to the recursive distance, which is proved minimal over edit scripts |
| C37 | digit-pair loop over a bounded buffer, out-of-buffer write = `ub` | exact range of correctness, negation outside |
| C38 | `normalize` loops with an abstract `exists folder` oracle | idempotence and canonical form |
| C39 | path accessors | decomposition laws; underflow cases: negation |
| C40 | `scan` with the shared thread-local buffer, over an abstract directory tree | single-level theorem; recursion: negation with witness |
| C41-C44 | integer versions of the math utilities | arithmetic; 3D inverse, index 0 and modular index: negations |
| C45-C48 | `Ctx::findCmd`, `Ctx::process` | decision logic; flag binding and atomicity: negations, partial theorems |
| C49-C53 | `Timeline`, commands, `TimelineManager` | simulation by a list specification; negations for remainder, insertion |
| C54 | `Ticker` | fold invariants with abstract time |
| C55-C57 | `Expander`, `Dictionary::getExpanded` | rendering of a template AST, evaluation semantics, divergence theorem |
| C58 | `ForArgs` recursion | induction |
| C59 | MPL templates as list recursions | equality with list functions; overlapping replacement: negation |
| C60-C61 | polynomial easings over the rationals | algebra; cubic in-out midpoint and `getMap`: negations |
| C62 | stringifier | induction |
| C63 | recycler free list | the block released last is the one handed out next, for every history |
| C64 | `VecMap::operator==` | extensional equality from strict sortedness |
| C65 | Base64 decoder on arbitrary text | refinement to a bit-level definition of decoding |
| C66 | `getReplaced` | decomposition at the first occurrence |
| C67-C68 | `getSign`, integer `getMap` | arithmetic, with overflow as undefined behaviour |
| C69-C71 | path comparison, `toLower`/`hasExtension`, `expandUserPath` | order laws; unconditional recursion of `==`: divergence theorem; negations |
| C72 | actions that stop, jump or reset their own timeline | execution equations; off-by-one: negations |
| C73-C75 | values of arguments, flags and packs over successive command lines | induction over the command lines; negations with witnesses |
| C76-C78 | `tplFor`, `explode`, variadic minimum/maximum | induction over the tuples |
| C79-C81 | easing functions over the reals | symmetry, composition and range by algebra and analysis (Mathlib) |
| C82-C83 | stringification with console formats, through a model of an ANSI terminal | induction over the value; the terminal draws what an independent specification says |
| C84-C86 | log: titles, line breaks, suppression, colours | induction over the list of log operations |
| C87-C93 | angles, distances, interpolation, unit conversion | exact over the reals, with an arbitrary monotone rounding, and error bounds for any rounding with relative error `u` (`PropsRound`) |
| C94-C96 | PCG engines: `advance`, `backstep`, `distance`, period | affine maps over `BitVec w`, 2-adic argument for the period, for every width |
| C97-C98 | `bounded_rand`, `shuffle` | counting arguments: every result has exactly the same number of sources |
| C99-C100 | output functions | equidistribution over the full period by counting; inverses |
| C101-C102 | seeding from a seed sequence, stream operators | bit-level refinement; round trip over all states and texts |
| C103-C105 | container utilities: erase-remove, find, emplace into maps | list semantics; aliasing with the erased value and used keys: negations |
| C106-C107 | ranges, adaptor iterators, `asRangeCastPtr` | simulation of iterator moves by positions; postfix operators, base class offsets: negations |
| C108, C125 | iteration over JSON values, mutable indexing | fold over the array or object; exceptions inside `noexcept`: negation |
| C109-C111 | benchmarks | every nested program of start/end calls; groups by interleaving; text by exact rational rounding |
| C112 | user-defined JSON converters (macros) | the round trip of C23 extended by classes |
| C113-C115 | number casts, `toNum`, random integers, help texts | case analysis over all values; refinement to lists of lines |
| C116-C119 | emulated wide integers (`pcg_uint128.hpp`) | words as digits of a number, for every word size; counterexamples for the wider instantiation |
| C120-C121 | layout and colours of written JSON | an independent layout function; the coloured text read by the terminal model of C82 |
| C122 | checked extraction | the type checks against the shapes of values |
| C123 | position and clearing of timelines | invariant over updates; ambiguity: negation |
| C124 | path objects | histories of appends and reads over a changing file system |
| C126 | recycling vectors | simulation: every vector operation is a list of recycler operations, to which C06 applies |
| C127 | equidistribution of extended generators | the table as a number in base 2^x to which a call adds 0 or 11…1; digits are determined one after the other |
| C128 | their period | the number of table moves per period of the base engine, and its parity |
| C129 | their jumps | the same representation; when the carries agree |
| C130 | planting, comparing, seeding, text of extended generators | by computation, induction over the table |
| C131 | files: save, read, keep, crash | a disk as a finite map from name lists to nodes; pathname resolution; induction over later operations; crash states as all prefixes |
| C132 | createFolder, removeFile | the same disk; tree invariant for arbitrary path texts |
| C133 | MD5 of a file | C28 plus the conversion of the size to `int` |
| C134 | timelines changed by their own actions | invariant over histories (done part, rest), work measure for termination, conservativity over the model of C49 |
| C135 | logging from several threads | small-step machine with a mutex, one step per character; invariant relating each moment to a sequential history (linearisation when the mutex is locked); well-founded order on programs for termination |
| C136 | distances between integer points | C++ integer arithmetic of `Verif.Num` (promotion, overflow, common types), square root in rounded reals; exact outcome for each type |
| C137 | frametime conversions | reals with rounding; conversion of integers to `float` and back |
| C138 | destructors that use their manager | the manager loops with destructors as lists of calls; simulation by the plain loops, refinement to an abstract manager with lost objects |
| C139 | looping while creating and deleting | the index loop with bodies as lists of steps and a flag for replaced storage; equals the sequence of calls |
| C140 | references into a bimap | address stability by induction over legal histories; `erase` with a key inside the erased pair, with and without assertions |
| C141 | `toStr` with its shared stream, stringifiers as arbitrary programs | refinement to conversions with a stream each, by mutual induction over programs; general negations |
| C142 | the reader's exceptions and `tryParse` with the log | the reader with exceptions as results; simulation by mutual induction: what was read can be completed, and reading any text with the same beginning fails at the same place |
| C143 | angle functions with integers | integer values with conversion to IEEE `float` and `double` and truncation back; `atan2` within a given error of the argument of a complex number |
| C144 | exceptions of command lines | the exceptions as values, their texts composed as in `Exceptions.hpp`; which exception is thrown, by cases on `process` |
| C145 | floating-point numbers as text | writing with six digits and reading as functions on real numbers and character sequences, IEEE 754 formats; the six digits of a number nearest to a six-digit decimal are that decimal or one that is read as the same number; histories of `ObfuscatedValue` by induction |
| C146 | real numbers in JSON text | the JSON reader and writer of C16 with the `double` of C145 in place of abstract operations; the assumptions of C16 and C17 about `double` are proved of it |
| C147 | tickers and waits in floating point | the models of C54 and C50, which are written for any arithmetic, with that of IEEE 754 `float`; induction over the updates with relative rounding errors, rounding at powers of two for the times at which the sums stop growing; a simulation of the exact ticker for whole numbers of a unit |
| C148 | easing with integers | the seven families made of integer arithmetic as checked integer operations, every truncation of a literal and of a division kept; case analysis on the truncated quotient |
| C149 | easing in floating point | `Linear`, `Quad`, `Cubic`, `Quart` and `Quint` with IEEE 754 operations in any format; each function is a chain of rounded products of a rounded fraction in [0, 1], monotone because rounding is; witnesses in binary32 for what rounding breaks |
| C150 | the order of a manager's objects | an order-keeping specification (places, survivors keep theirs, the rest fill gaps from the back); the refresh loop computes it, by the loop invariant |
| C151 | refreshing or clearing inside a loop | the index loop with any calls as body; a specification of what is in place `i` when the loop arrives; objects only move to the front, so none is visited twice |
| C152 | references into a vector map | programs over a vector map with references as positions that insertions, growth, reserve and clear invalidate; simulation with a map whose references are keys; `m[k] = m[j]` in both orders of evaluation |
| C153 | values of a dictionary through `asStr()` | fold over operations against a function from keys to values; expansion before and after a read; `d[k] += d` |
| C154 | timelines that drive other timelines | a system of timelines with nested updates; simulation of each timeline by the model of one timeline, induction over rank and fuel; circles diverge for every fuel |
| C155 | timelines whose actions throw | update with a flag for exceptions that keeps the state; invariant over updates with an inductive description of attempts; without exceptions equal to the model of C49-C52 |
| C156 | assignment between two parts of one JSON value | references as lists of indices, adjusted or lost at insertions; the destroyed target while the source is copied; specification by what one sees at each path |
| C157 | constructors that use their manager, and constructors that throw | statements nested in `create`; objects under construction have an identity but no place; exceptions as a flag of the outcome; refinement by mutual induction over nested programs |
| C158 | constructors that use their recycling vector | nested statements as in C157; iterators held by `createAt` calls in progress with the invalidation rules of the standard; both evaluation orders; exact refinement by mutual induction |
| C159 | engines whose state is narrower than `int` | the functions that multiply once more, with promotion to `int` and overflow as undefined behaviour; agreement with arithmetic modulo 2^w by a relation that is kept by sequencing; exact conditions for 16 bits |
| C160 | delegates whose handlers add to, clear or call the delegate that is running them, or throw | handlers as trees of interactions (free programs), calls within calls by depth; relation to a semantics on lists of functions by induction on handlers, loop and depth, with the capacity of the vector as the exact limit |
| C161 | `discard`, `operator-` and `wrapped` of the base class on extended generators | a small model beside `advance` (nothing is virtual, the base's `advance` is called); the table as one number in base `2^x`: it is as before exactly if it moved a multiple of `2^(x*size)` times, and it cannot move that often in `d` calls |
| C162 | `Sine`, `Back`, `Bounce`, `Circ`, `Elastic` and `Expo` in floating point | IEEE 754 operations in `float` and `double`, `sqrt` correctly rounded, `pow`, `sin` and `cos` any functions with the exact cases of the C standard; the constants rounded by proof, each function evaluated at its ends; monotone rounding step by step for the order of `Circ` and `Expo`; bounds of the real sine and cosine near pi/2 for `Sine` |
| C163 | Predicates with a state in `eraseRemoveIf`, `findIf`, `trimL/R/LR` | predicates as functions from state and element to answer and state; `std::remove_if` of libstdc++ with its copies of the predicate; induction over the container, compared with an inductively defined single pass |
| C164 | `Console::resetFmt`, `setStyle`, `setColorFG`, `setColorBG`, `clear` on any number of streams, with the static cache and the one static string | induction over the history, through a terminal; the attributes are those the last call that concerns them asked for |
| C165 | `Console::Info`, `hr` | a terminal that may change between calls; induction over the queries |
| C166 | `GrowableArray::grow`, `operator[]` | arrays of any element type with throwing constructors and moves, a 32-bit counter; loop invariants and induction over histories |
| C167 | `FnTraits` | types as terms, partial specialisation as matching; compared with an inductive call relation, with an exact description of the types that have traits |
| C168 | `mkArray` with arithmetic arguments | the usual arithmetic conversions and the rule against narrowing; common types as maxima of ranks, induction over the arguments |

## Where the code does not do what the property says

These are defects found while modelling. For each the negation is a theorem about the model (named in
the manifest note or beside the positive theorem), and the positive theorem is restricted to the part
that holds; properties affected have status `partial`.

* **Recyclers.** Moving a recycler that is monomorphic or has a fixed list of types (`PolyFixedRecycler`) leaks
  on move assignment and leaves the deleters of live objects dangling (C06). With the manager layout a block can be too small for over-aligned types (C07).
* **Containers.** The initializer-list constructor of `VecMap` keeps duplicate keys (C09).
  `Bimap::operator[]` with a default partner already in use corrupts the map (proved of every such state), and writing through the
  returned reference breaks the index order (C12). `VecSorted::is` is ill-formed.
* **Union.** A throwing constructor leaves the debug flag set (C15).
* **JSON.** The writer does not escape quotes and backslashes, so a string comes back exactly if it has neither; integers above 2^53 change; the most
  negative `long` cannot be written (C16). A number as the whole document after blanks picks up left-over
  digits (C17). Unclosed literals and white space at the end read out of range, and a value beginning
  outside ASCII calls `isdigit` with a negative argument (C18). A literal ending in
  an escaped backslash is not ended (C19). Self-assignment, assignment of a child and converters that
  assign to their target are undefined (C21). Equality mixes integers and reals inconsistently (C22). The
  check of `char[N]` rejects everything ever stored from one and the terminator is handled wrongly, checks of enums and maps always succeed, bitsets throw
  (C23, C24). Extraction merges maps into the target (C25).
* **Base64, MD5, toStr.** The decoder's `int` counter overflows for 2^31 characters (C26). `MD5Update` wraps
  in `i + 63` for pieces above 2^32 - 64 bytes (C29). `toStr` writes outside its buffer for large values of
  every integer type (C37), and so does `ObfuscatedValue` (C30), which also reads uninitialised memory for
  white-space characters.
* **Strings.** Tokenizing with a single separator cuts one character too few (C32); empty separators loop
  for ever (C31); a character array with a zero inside is searched for up to the zero but skipped at full length, so that text is lost or the
  function throws (C31_array_with_zero); `replaceAll` loops or replaces again when the replacement recreates the pattern (C34), and loops whenever the
  text to replace is the string itself (`replaceAll(s, s, t)`; the references are modelled in `Str/Alias.lean`).
* **Numbers.** `getByModIdx` is wrong for negative indices (C42); `get2DIdxFrom1D` asserts on index 0 and
  `get3DIdxFrom1D` returns a wrong x (C43).
* **Paths.** Decomposition is wrong for `/name`, two extensions, single-name folders, undefined for the
  empty path (C39). Recursive scans never report nested entries with their path, can be endless and skip
  folders with a trailing dot (C40). `==` and `!=` never return (C69). Case conversion is
  undefined outside ASCII (C70). `expandUserPath` does not return when `HOME` contains `~` (C71).
* **Command line.** Flag values are bound by position and their names are not checked (C47). Failing
  command lines can have effects (C48). Nothing entered is ever taken back: packs accumulate,
  flags and optional values stay between runs, and rejected lines do not undo anything (C73_never_reset). A
  malformed `int` or `float`, a `float` that is too large and most below 2^-126 end the program (C74); `12abc` is read as 12 (C75). `FlagValueOpt<T>` does not compile;
  it is modelled as calling `FlagValueImpl`.
* **Timeline, ticker.** A finished wait ends the update and its overshoot is lost (C49, C50). Insertion at or
  before the current position changes the current command (C52). Jumps and resets from inside an action
  skip one command (C72). An action that inserts at or before its own place, or appends itself, keeps the
  update from returning; one that clears its timeline destroys itself while running (C134). A paused ticker can tick when its target is lowered (C54).
* **Template.** A value that mentions its own key, directly or through others, expands for ever, and nothing else does (C56). A section defined further out does
  not see the sections around its tag (C57). A trailing escaped brace is doubled and a tag that is not closed ends in an assertion or undefined behaviour (C55).
* **Meta-programming.** `Insert` on an empty list ignores the index, `all` is false for an empty list,
  `ReplaceAllOfSeq` does not compile for overlapping matches (C59). `tplFor` with an empty tuple does not
  compile (C76). `explode` ends the program when the function throws (C77).
* **Easing.** `Cubic::inOut` ends at start + 2 and jumps; `Bounce::inOut` is wrong for negative durations;
  several functions modify a variable twice without sequencing (C60, C80, C81). `getMap` is wrong unless
  the input range starts at 0 (C61).
* **Log and threads.** The title belongs to `lo()`, not to the statement: between `lo("A")` and `<< x` another
  thread can replace it or use it up. Format manipulators are written without the mutex. A stringifier that logs
  locks the mutex twice (C135).
* **Stringification, log.** On Linux every container element is enclosed in reset sequences (C62, C84). Null
  pointers are printed as the address of a literal (C83). Line breaks and manipulators are written while
  the log is suppressed (C85).
* **Angles.** Tiny negative angles wrap to exactly the full turn in floating point (C87). `getRotatedRad`
  takes and returns degrees (C90).
* **Integer distances.** For 8- and 16-bit coordinates the result is cut to the type of the coordinates:
  different points at distance 0, negative distances, undefined Euclidean distances (C136). Frametimes
  above 2^24 in integer types go through `float` (C137).
* `getDegTowards` with integers: the direction in radians is truncated to an integer before it is converted, so that only
  the seven results 0, ±57, ±114, ±171 are possible; the direction to (1, 1) is 0 and not 45. With unsigned coordinates a
  point to the left lies in direction 0. `getWrapDeg` of a `long` beyond 2^53 can be one off (C143).
* **Exceptions of command lines.** The text of a miscount has two spaces after the kind of element. A flag that the
  main command does not have is reported as missing in the command `<>`. The text for an argument pack with a
  bound of 10^18 or more goes through the 19-byte conversion buffer and is undefined (C144).
* **Floating-point numbers as text.** `toStr` writes six significant digits, so `ObfuscatedValue<float>` and `ObfuscatedValue<double>`
  lose the rest: 1234567 comes back as 1234570, and every integer above a million that is not a multiple of ten is changed.
  Infinities and NaN come back as zero. `sToDouble(toStr(DBL_MIN))` and the same with a subnormal number end the program, because
  `std::stod` throws `std::out_of_range` inside a `noexcept` function (C145).
* **Real numbers in JSON text.** A `double` is written with six digits and read back as another number unless it is nearest to such a
  decimal. The text of a number of 2^64 or more, or of `-inf`, is undefined to read; `inf` and `nan` are read errors (C146).
* A ticker stops advancing: with frame times of at most 1 the total time never exceeds 2^24 and a ticker with a longer target never ticks; a `Wait` of
  2^24 with frame times of at most 1/2 never ends. An update with NaN makes any ticker tick, paused or not, and an infinite frame time a paused one
  (`inf * false` is NaN) (C147).
* `getEased` with integers compiles but is a step function for all families but `Linear`; `InOut` divides by zero for the duration 1, never completes an odd
  change, and ends half way or beyond the end for the duration 3; `Bounce` does not move, since `T(0.5)` is zero (C148).
* In floating point `Quad::out` overshoots its end by one unit of the last digit shortly before it and turns back, `Linear` may miss its
  end by one unit (and becomes infinite when change times time overflows), `InOut` is NaN for the least positive duration, and a mapped
  range may miss its maximum, since the rounded length is added to the minimum (C149).
* **PCG.** `shuffle` truncates its bound to the result type, so 2^32 or more elements are not shuffled (C98).
  Reading an engine from text does not check the state (C102). `operator-` does not compare the streams of the two engines.
* **Extended generators.** With 64-bit and larger states, all types of the library, the period is shorter than
  documented (2^524304 instead of 2^524352 for `pcg32_k16384`), entries at the beginning of the table return
  with every period of the base engine, and the types with `advance_pow2` 128 never change their table (C128);
  so not every 64 KB file appears 2^64 times (C127). `advance` is wrong if an entry of the table is zero, and for
  small states if it ends in state zero; `backstep` forgets the move of the table in the state it arrives
  at, and takes back one that has not been made in the state it comes from (C129). `!=` calls itself; the c
  variants and those with address-based streams cannot be read; seeding depends on the order of evaluation;
  `pcg32_k2` has 64 entries, and `pcg32_k64_oneseq` and `pcg32_k64_fast` are exchanged (C130).
* **Files.** Saving JSON or the log and creating folders say nothing when they fail; saving is not atomic, so
  that a crash can leave the empty text or another valid JSON value (C131). `removeFile` answers `true` when
  nothing was removed and `false` when it was (C132). The MD5 of a file keeps the size in an `int`: 2 GB throw,
  and from 4 GB on only a beginning counts (C133).
* **Container utilities.** `eraseRemove` with a reference into the container compares with whatever has been
  moved there meanwhile (C103). Emplacing under a used key destroys the new object and returns the old one
  as if it had the new type (C105).
* **Ranges.** `asRangeCastPtr` reinterprets the address, wrong for a base class at another offset (C106).
  Postfix operators of adapted iterators return the moved iterator (C107). Exceptions thrown during adapted
  iteration end the program (C108).
* **Benchmarks.** `getEndData` of an outermost benchmark delays the empty line; its duration runs on (C109,
  C111). Groups paused or resumed out of turn count time twice (C110).
* **Casts, random, help.** `sToSizeT` goes through `long` (C113). `getRndI` with mixed signs and `getRndSign`
  of unsigned types leave their range (C114). Help texts with huge pack bounds overrun a buffer (C115).
* **Wide integers.** Multiplication of the instantiation with 64-bit words is wrong, right shifts of 160 and
  more write outside, negative integers are not sign-extended, counts of 256 do not fit (C116, C117, C119).
* **JSON.** User converters for rvalues do not compile (C112). With right-to-left evaluation of arguments no
  colour is visible, and commas have the colour of the atom before (C121). Extraction of character arrays is
  not checked (C122). Mutable indexing does not check bounds even in checked builds (C125).
* **Throwing constructors.** A recycler loses the block (C06, C126). A union is left marked as holding a value
  (C15). A JSON value assigned to by a converter that throws is destroyed twice (C21).
* **Path objects.** A read of an existing folder changes the text that later appends extend, and the cache is
  not renewed when the file system changes (C124).
* **Timeline.** The position of a finished timeline is that of a fresh one (C123). An action that updates its own running timeline, also through others, never returns (C154).
* **Managers.** Objects created by a destructor during a refresh are lost; growing the storage from a destructor
  is undefined; deleting an object the refresh has passed fails an assertion (C138).
  The variable of a loop over a manager dangles once a creation in its round grows the storage;
  `TimelineManager::update` uses it after running actions (C139). Erasing with an immediate refresh, or clearing, inside a loop is
  undefined; a refresh inside a loop can make it skip an object (C151). The order of objects changes at a refresh (C150).
* **References into a `VecMap` are not stable (C152).** `m[a] = m[b]` with a new key is undefined if the new key is smaller or the memory is
  used up, and so is `d[a] = d[b].asStr()` of a template dictionary. A `std::map` allows both.
* **Assignments inside of one JSON value (C156).** `v["a"] = v["b"]` with a new key is undefined if `"a"` is smaller than `"b"` or the vector of
  the object is full; `v["x"] = v` and `v = v["x"]` are always undefined, and so is assigning a string, array or object to itself.
* **Constructors that use their manager (C157).** `create` determines the place of an object after its constructor has ended, which makes nested
  creation, refreshing and clearing inside of constructors safe. The memory of an object whose constructor throws is lost until the end of the
  program (it is neither returned to the chunk nor freed); this is a leak, not undefined behaviour.
* **`createAt` of recycling vectors (C158).** The position and the object are two arguments of one call. Where the position is computed first,
  an object whose constructor makes another one in the same vector is undefined at the end of the vector and in a full vector.
* **16-bit random engines (C94, C96, C100, C159).** `uint16_t` operands are promoted to `int` before they are multiplied, and the products
  overflow. `advance`/`discard` by 128 or more, `backstep` by 1 to 65408 and the difference of engines 128 or more steps apart are undefined for
  every stream and state; only jumps by up to 3 are defined for all. The output function of `pcg16_once_insecure` is undefined in 30993 of its
  65536 states, so that no 65536 successive draws are defined. Seeding and drawing one by one from the other 16-bit engines is fine.
* **Handlers that change their delegate (C160).** Adding a function from inside of a handler is undefined exactly when the vector is full:
  with a vector that doubles, a delegate with 1, 2, 4, 8 ... functions breaks and one with 3, 5, 6, 7 ... does not. Clearing is always undefined.
  Calling the delegate again from a handler is safe to any depth.
* **`discard` of extended generators (C161).** `extended` inherits `discard` from the base engine, which calls the `advance` of the base engine:
  the table stays as it is. For `pcg32_k64`, discarding 65536 or more values never gives the generator that as many draws give. The difference
  of two extended generators, also inherited, ignores their tables.
* **Curves in `double` (C162).** 1.70158 + 1 is not exact in `double`: `Back::in` ends at the change times 1 - 2^-52 and never reaches it, and
  `Back::out` does not start at the start value (in `float` both are exact). `ssvu::pi` is a `float`, so in `double` `Sine::out` stops short of
  the change and `Sine::in` passes it. `mT * (mT -= T(2))` in `Circ::inOut` is unsequenced; read from left to right, the curve is at or beyond
  its end in the middle of the duration.
* **Function traits (C167).** `noexcept` functions, pointers to them, such member functions and closures have no traits, and neither have `const`
  function pointers (references to these have).
* **Growable arrays (C166).** `grow` moves the elements one by one even if the move may throw, so that an exception loses the values of the elements
  already moved. Its counter has 32 bits while the capacity has 64: from 2^32 elements on it never ends.
* **Console formats (C164, C165).** Styles add up: after bold and underline both are on. The cache is global, so that colours sent to one stream
  appear on another, and all format functions return the same object, so that only the last of several kept strings survives. The size of the
  console is asked for once; if the standard output is not a terminal it is indeterminate although `isInfoValid()` is true. A negative width
  throws `std::length_error`.
* **Predicates with a state (C163).** `eraseRemoveIf` passes its predicate to `std::remove_if` by value, which searches with a copy: a predicate
  that carries its state starts afresh behind the first element removed. "Remove the third element" with a counter inside the lambda removes
  the sixth, too. A counter captured by reference works.
* **Reading adds (C153).** `d[k].asStr()` of a dictionary that is not `const` adds the missing key with an empty text; a tag that was kept
  before is removed afterwards.
* `Bimap::erase(key)` with a key inside the bimap (`bm.erase(bm.at(b))`) reads the freed pair in its closing assertion, unless it was the
  last pair; without assertions it is fine (C140).
* **`toStr`.** The stream it shares between calls keeps error states and formatting; `toStr` inside a stringifier run by `toStr` destroys
  the text written so far (C141).
* **JSON read errors.** `[1,-]` is reported as a missing comma or bracket; the excerpt leaves out the last character of the text,
  which may be the offending one; when the text ends too early the message is cut off by the terminator (C142).
* **Recycling vectors.** The objects of a moved vector that is monomorphic or has a fixed list of types belong
  to the old one (C126).

## Modelled, and how faithfully

* `MemoryManager/Internal/*`, `Core/.../GrowableArray`: managers, recyclers, growable arrays. Destructors
  may create and delete objects (C138), but not refresh or clear. Pointer adjustment in multiple inheritance is not
  modelled. `BaseRecVector` is (C126), except for moving its
  pointers out of it.
* `Core/Containers`: `VecMap`, `VecSorted`, `Bimap` (keys by value, and as references to a pair's own key), `FatEnum`, `Delegate`, `Union`, `Maybe`.
  `Union`'s debug branch passes two arguments to `assert`, which does not compile; it is modelled as meant. So
  is `moveIfRValue`, through which JSON parts are converted: on a part returned by value it compiles only from C++23 on.
* `Json`: reader, writer (plain and coloured), values, conversions, checks, iteration. Texts of 2^31 or more
  characters and `float` as distinct from `double` are not modelled; the destruction of a trivially
  destructible member twice counts as harmless.
* `Encoding`: Base64 with the "C" locale, MD5 from memory and from a stream over a given
  sequence of bytes (C133), `ObfuscatedValue` for integers and `char`, and for
  `float` and `double` (C145).
* `Core/String`: split, trim, replace, prefix/suffix, Levenshtein, `toStr`; stringification of numbers,
  strings, containers, pairs, tuples and pointers. Data races on the format cache are not modelled.
* `Core/FileSystem`: paths as character sequences, scanning over an abstract directory tree. Creating, removing,
  writing and reading files over a disk that behaves as POSIX says (C131-C133): no links, permissions, other
  processes or full disks. Paths of 2^32 or more characters are not modelled.
* `Core/Utils`: index arithmetic, clamping, angles, easing, `Rnd`'s engine, distances between
  integer points (C136), frametime conversions (C137). The angle, distance, interpolation and frametime
  functions are also modelled on IEEE 754 values (`Verif.Ieee`: any binary format with rounding to nearest,
  subnormal numbers, overflow, infinities and NaN, but not the sign of zero; `Verif/Angle/Ieee.lean`,
  `Verif/Frame/Ieee.lean`). So are the easing families (C149, C162; `pow`, `sin` and `cos` are any functions), but not
  the directions. The angle functions called with integers are C143; the easing families made of integer arithmetic called with integers are C148.
* `CmdLine`: contexts, commands, flags, arguments, packs. `std::stof` is that of glibc; the signs of zeros and NaNs are left out.
* `Timeline`, `Ticker`: commands, timelines, managers, actions that change their own timeline (C134), actions
  that update timelines, also their own (C154).
* `Template`: dictionaries and expansion, texts below 2^32 characters.
* `Core/Tuple`, `Core/MPL`, `ForArgs`: at the level of lists of values or types; value categories are not.
* `Core/Utils/FnTraits`: on types as terms; arrays, the kinds of reference qualifiers and overload resolution are left out.
* `Core/Common/MakeArray`: arithmetic arguments that are not constants; no `bool`, `long long`, `long double` and wide characters.
* `Core/Log`: titles, values, line breaks, suppression. Saving it: C131. Several threads and the mutex: C135
  (sequentially consistent memory; `setLogSuppressed` from several threads is a data race and left out where the
  result is compared with one thread). `hr`: C165.
* `Internal/PCG`: engines, output functions, drawing, shuffling, seeding, text, the `extended`
  generators (C127-C130; result types narrower than `int` only where said). The 128-bit emulation with both word sizes (C116-C119).
* `Range`, `Benchmark`, `Core/Common/Casts`, `Core/Utils/Rnd`: as described for C106-C114. Clocks are given as
  the sequence of times they show; random distributions are relative to a uniform one.

## Not modelled at all

Real clocks, preprocessor generator output, thread-local storage across threads, exception
unwinding inside the standard library, allocation failure, `GrowableArray`'s non-owning variant (it calls
a function that does not exist).
