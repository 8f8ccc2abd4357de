{"id": "C01", "title": "Manager refresh keeps exactly the live objects", "statement": "After `refresh()` on a memory manager (MonoManager/PolyManager), iterating the manager yields exactly the objects that had been created and not passed to `del` since, each exactly once, none of them moved in memory; every object passed to `del` has been destroyed.", "quantifier": "every history of create / del / refresh / clear / reserve calls and every placement of dead objects among live ones", "why_tests_cant": "the two-pointer compaction branches on the dead/alive pattern, of which there are 2^n for every n; tests try a handful", "anchors": ["include/SSVUtils/Internal/SharedFuncs.hpp:refreshImplLoop,refreshImpl", "include/SSVUtils/MemoryManager/Internal/ManagerImpl.hpp:BaseManager::refresh,create,del,clear"]}
{"id": "C02", "title": "Manager never touches an uninitialised slot and destroys each object exactly once", "statement": "In any history of manager calls no slot is read, swapped or destroyed unless it currently holds an object; no object is destroyed twice; and once the manager has been cleared, every object ever created through it has been destroyed exactly once (no leak).", "quantifier": "every finite history of create / del / refresh / clear / reserve from a fresh manager", "why_tests_cant": "memory-safety and leak-freedom are claims about all histories; a test observes one run and UB may be silent", "anchors": ["include/SSVUtils/MemoryManager/Internal/ManagerImpl.hpp:BaseManager", "include/SSVUtils/Internal/SharedFuncs.hpp", "include/SSVUtils/GrowableArray/GrowableArray.hpp:initAt,deinitAt,grow"]}
{"id": "C03", "title": "Deferred visibility of creation and deletion", "statement": "Between two `refresh()` calls, `size()` and the iteration range of a manager do not change: objects created since are not visited and objects passed to `del` are still visited; only `refresh()` and `clear()` change the visible range.", "quantifier": "every sequence of create / del / reserve calls between refreshes", "why_tests_cant": "it is a frame property over all interleavings of creations and deletions with iteration", "anchors": ["include/SSVUtils/MemoryManager/Internal/ManagerImpl.hpp:BaseManager::size,begin,end,create,del"]}
{"id": "C04", "title": "Growing the manager or a growable array preserves contents", "statement": "Whenever capacity grows (explicit `reserve`, or `create` on a full manager, or `GrowableArray::grow`), every previously stored element keeps its index and value, and the used size never exceeds the capacity.", "quantifier": "every element sequence, every old and new capacity with new > old, and every history of creations", "why_tests_cant": "growth points depend on history length; tests cannot cover all capacities and contents", "anchors": ["include/SSVUtils/GrowableArray/GrowableArray.hpp:grow", "include/SSVUtils/MemoryManager/Internal/ManagerImpl.hpp:BaseManager::reserve,create"]}
{"id": "C05", "title": "Recycled memory is never shared by two live objects", "statement": "A recycler never hands out memory that is still occupied by an object it created earlier and that has not been destroyed, and memory is reused only after the previous object in it has been destroyed.", "quantifier": "every interleaving of creations and destructions (and of types with different sizes for the polymorphic recycler)", "why_tests_cant": "aliasing depends on the whole allocation history", "anchors": ["include/SSVUtils/MemoryManager/Internal/StorageImpl.hpp:PtrChain,Chunk::create,Chunk::recycle,PolyStorage::getChunk", "include/SSVUtils/MemoryManager/Internal/RecyclerImpl.hpp"]}
{"id": "C06", "title": "Recycler storage is freed exactly once", "statement": "Every block of memory a recycler obtained from the allocator is, when the recycler is destroyed after all its objects, returned to the allocator exactly once; the same holds when a recycler's free list is moved.", "quantifier": "every history of creations, destructions and moves, followed by destruction", "why_tests_cant": "leaks and double frees are properties of complete histories and do not show in results", "anchors": ["include/SSVUtils/MemoryManager/Internal/StorageImpl.hpp:PtrChain::~PtrChain,PtrChain(PtrChain&&),operator=(PtrChain&&)"]}
{"id": "C07", "title": "Polymorphic recycler blocks are big enough", "statement": "The block in which the polymorphic recycler constructs an object is at least as large as the object's dynamic type, also when the block is being reused after destruction of an object of another type.", "quantifier": "every history of creations and destructions over any set of types", "why_tests_cant": "depends on which blocks were recycled by which types earlier", "anchors": ["include/SSVUtils/MemoryManager/Internal/StorageImpl.hpp:PolyStorage,PolyFixedStorage,ChunkDeleter"]}
{"id": "C08", "title": "VecMap behaves like a finite map", "statement": "Any sequence of `operator[]` writes, `at`, `atOrDefault`, `count`, `has`, `atItr` and `clear` on a VecMap returns the same results as the same operations on a mathematical finite map: a lookup returns the value of the last write to that key, or reports absence (`at` throws) if there was none.", "quantifier": "every totally ordered key type, every value type, every operation history", "why_tests_cant": "the sorted-vector binary search must be right for every size and key position", "anchors": ["include/SSVUtils/Container/Inc/VecMap.hpp", "include/SSVUtils/Container/Inc/VecMapBase.hpp"]}
{"id": "C09", "title": "VecMap iterates keys in strictly increasing order", "statement": "Iterating a VecMap visits keys in strictly increasing order, each key once, whatever the insertion order was; this includes maps built from an initializer list.", "quantifier": "every operation history and every initializer list", "why_tests_cant": "ordering must survive arbitrary insertions; duplicates in the initializer list are a corner case no test exercises", "anchors": ["include/SSVUtils/Container/Inc/VecMap.hpp:ctor,operator[]"]}
{"id": "C10", "title": "VecSorted stays sorted and keeps every inserted element", "statement": "After any number of insertions a VecSorted iterates in non-decreasing order of its comparator and contains exactly the inserted elements with multiplicity.", "quantifier": "every strict weak order and every insertion sequence", "why_tests_cant": "insertion position must be right for all sizes and ties", "anchors": ["include/SSVUtils/Container/Inc/VecSorted.hpp:insert,emplace"]}
{"id": "C11", "title": "Bimap is a bijection and both lookups agree", "statement": "At every point of a history of emplace / insert / erase / clear calls respecting the no-duplicates precondition, `bm.at(a) == b` if and only if `bm.at(b) == a`, `size()` counts the pairs, `has`/`count`/`find` agree with `at`, and `at` throws exactly for absent keys.", "quantifier": "every history, every pair of ordered key types", "why_tests_cant": "the two pointer indices and the pair storage must stay in sync under every interleaving of insertions and erasures through either side", "anchors": ["include/SSVUtils/Bimap/Inc/Bimap.hpp"]}
{"id": "C12", "title": "Bimap operator[] on an absent key inserts without corrupting the map", "statement": "`bm[k]` on an absent key adds a pair for `k` and leaves every other association unchanged.", "quantifier": "every bimap state and absent key", "why_tests_cant": "the default-constructed partner may already be in use; depends on the stored contents", "anchors": ["include/SSVUtils/Bimap/Inc/Bimap.hpp:operator[]"]}
{"id": "C13", "title": "FatEnum string conversions are mutually inverse", "statement": "For every enumerator of a FatEnum, converting it to its string and back gives the enumerator, converting each registered string to the enumerator and back gives the string, and the element list is in declaration order.", "quantifier": "every list of distinct enumerator names and values", "why_tests_cant": "must hold for all enumerations a user may declare", "anchors": ["include/SSVUtils/FatEnum/FatEnum.hpp"]}
{"id": "C14", "title": "Delegate calls every handler once in insertion order", "statement": "Invoking a delegate whose handlers do not modify that same delegate while it runs calls exactly the functions added since the last clear, once each, in the order they were added, and for non-void results returns their results in that order.", "quantifier": "every history of += / clear / calls and every number of handlers", "why_tests_cant": "quantifies over handler sequences and stateful handlers", "anchors": ["include/SSVUtils/Delegate/Inc/Delegate.hpp"]}
{"id": "C15", "title": "Union/Maybe lifecycle discipline", "statement": "A Union or Maybe used so that every init is matched by a deinit of the same type before the next init never trips the debug checks, and a `get<T>` returns the value most recently stored; every mismatched use (double init, get or deinit of the wrong type or when empty, destruction while initialised) trips a debug check.", "quantifier": "every sequence of init / get / deinit calls over any number of member types", "why_tests_cant": "state-machine conformance over all call sequences", "anchors": ["include/SSVUtils/Union/Inc/Union.hpp", "include/SSVUtils/Union/Inc/Maybe.hpp"]}
{"id": "C16", "title": "JSON written text parses back to the same value", "statement": "Writing any JSON value (compact or pretty) and reading the result back gives an equal value.", "quantifier": "every JSON value: any nesting, any keys, any strings, any integers, both writer modes", "why_tests_cant": "the value space is infinite and recursive; escaping and separators interact at any depth", "anchors": ["include/SSVUtils/Json/Io/Writer.hpp", "include/SSVUtils/Json/Io/Writer.inl", "include/SSVUtils/Json/Io/Reader.hpp", "include/SSVUtils/Json/Io/Io.hpp"]}
{"id": "C17", "title": "JSON reading ignores whitespace and // comments between tokens", "statement": "Inserting spaces, tabs, newlines or `//` comments between tokens of a JSON document does not change the value read, and whitespace inside strings is preserved.", "quantifier": "every document and every placement of whitespace and comments", "why_tests_cant": "infinitely many layouts; the purge runs in place over the buffer being read", "anchors": ["include/SSVUtils/Json/Io/Reader.hpp:purgeSource"]}
{"id": "C18", "title": "JSON reader never reads outside its source and always terminates", "statement": "Reading any text either yields a value or a read error; the reader never accesses memory outside the source string and always terminates.", "quantifier": "every input string, valid or not", "why_tests_cant": "malformed inputs are unbounded; out-of-range reads may go unnoticed in tests", "anchors": ["include/SSVUtils/Json/Io/Reader.hpp"]}
{"id": "C19", "title": "JSON strings with escapes are decoded correctly", "statement": "Reading a JSON string literal yields the text in which every escape sequence has been replaced by the character it denotes, and the literal ends at the first unescaped quote.", "quantifier": "every string literal", "why_tests_cant": "backslash runs of any length before the closing quote decide where the literal ends", "anchors": ["include/SSVUtils/Json/Io/Reader.hpp:readStr,purgeSource,getEscapeSequence"]}
{"id": "C20", "title": "JSON object access: set then get, last duplicate wins", "statement": "After `v[key] = x`, `v[key]` is `x` and every other key is unchanged; reading a document with duplicate keys keeps the last one; iteration is in key order.", "quantifier": "every object content, key and value", "why_tests_cant": "all key sets and insertion orders", "anchors": ["include/SSVUtils/Json/Val/Val.hpp:operator[]", "include/SSVUtils/Json/Io/Reader.hpp:parseObj", "include/SSVUtils/Json/Val/Val.hpp:mkObj"]}
{"id": "C21", "title": "JSON value tag and storage stay consistent under assignment", "statement": "Assigning any sequence of values of any supported types to a JSON value destroys the previous payload exactly once and leaves the type tag matching the stored payload; assigning from itself or from one of its own children is harmless.", "quantifier": "every sequence of assignments, including self-assignment and conversions from enums, maps, bitsets and user types", "why_tests_cant": "lifetime errors in a tagged union are silent and depend on the previous payload", "anchors": ["include/SSVUtils/Json/Val/Val.hpp:set,deinitCurrent,init", "include/SSVUtils/Json/Val/Internal/Cnv.hpp", "include/SSVUtils/Json/Val/Val.inl:operator="]}
{"id": "C22", "title": "JSON value equality is an equivalence relation compatible with access", "statement": "`==` on JSON values is reflexive, symmetric and transitive, and a copy of a value is equal to it.", "quantifier": "all JSON values", "why_tests_cant": "recursive over unbounded values; numeric representations mix", "anchors": ["include/SSVUtils/Json/Val/Val.hpp:operator==", "include/SSVUtils/Json/Num/Num.hpp:operator=="]}
{"id": "C23", "title": "JSON conversions round-trip", "statement": "Converting any C++ value of a supported type (bool, integers, strings, enums, pairs, tuples, vectors, fixed arrays, maps, bitsets, and their nestings) into a JSON value and back gives the original value.", "quantifier": "every supported type built from those constructors, to any nesting depth, and every value of it", "why_tests_cant": "the type universe is infinite; tests instantiate a few types", "anchors": ["include/SSVUtils/Json/Val/Internal/Cnv.hpp", "include/SSVUtils/Json/Val/Internal/CnvFuncs.hpp"]}
{"id": "C24", "title": "JSON type checks are sound for conversions", "statement": "If `v.is<T>()` is true then `v.as<T>()` succeeds; and a value just stored from type T satisfies `is<T>()`.", "quantifier": "every supported type and every JSON value", "why_tests_cant": "both types and values range over infinite recursive families", "anchors": ["include/SSVUtils/Json/Val/Internal/Chk.hpp", "include/SSVUtils/Json/Val/Internal/Cnv.hpp"]}
{"id": "C25", "title": "JSON extraction overwrites its target", "statement": "Extracting a JSON value into an existing C++ object makes the object equal to the stored value, independent of what the object held before.", "quantifier": "every target content and every JSON value of the right shape", "why_tests_cant": "depends on the previous content of the target", "anchors": ["include/SSVUtils/Json/Val/Internal/Cnv.hpp:fromVal"]}
{"id": "C26", "title": "Base64 decode inverts encode", "statement": "`decode<Base64>(encode<Base64>(s)) == s`.", "quantifier": "every byte string of length below 2^31", "why_tests_cant": "all byte strings of all lengths modulo 3", "anchors": ["include/SSVUtils/Encoding/Src/Base64.cpp"]}
{"id": "C27", "title": "Base64 encode follows RFC 4648", "statement": "`encode<Base64>(s)` has length 4*ceil(n/3), uses only the standard alphabet plus final '=' padding, and equals the RFC 4648 encoding of s.", "quantifier": "every byte string of length below 2^32", "why_tests_cant": "unbounded inputs", "anchors": ["include/SSVUtils/Encoding/Src/Base64.cpp:encode"]}
{"id": "C28", "title": "MD5 digest equals RFC 1321", "statement": "`encode<MD5>(s)` is the lowercase hexadecimal RFC 1321 digest of s, 32 characters long.", "quantifier": "every byte string of length below 2^32", "why_tests_cant": "padding boundaries and block counts range over all lengths; a single wrong constant in 64 unrolled steps is only visible on some inputs", "anchors": ["include/SSVUtils/Encoding/Src/MD5.cpp"]}
{"id": "C29", "title": "MD5 update is streaming", "statement": "Feeding a message to the digest in several pieces gives the same digest as feeding it at once.", "quantifier": "every message and every way to cut it into pieces", "why_tests_cant": "all piece boundaries relative to the 64-byte block size", "anchors": ["include/SSVUtils/Encoding/Src/MD5.cpp:MD5Update,MD5Final"]}
{"id": "C30", "title": "ObfuscatedValue returns what was stored", "statement": "An ObfuscatedValue<T> over an integer type returns the value last stored, and its compound arithmetic operators act like the underlying type's.", "quantifier": "every value of the type and every sequence of operations", "why_tests_cant": "all values including extremes", "anchors": ["include/SSVUtils/Encoding/Inc/ObfuscatedValue.hpp", "include/SSVUtils/Core/String/Internal/FastIntToStr.hpp", "include/SSVUtils/Encoding/Src/Base64.cpp"]}
{"id": "C31", "title": "Split returns the maximal separator-free pieces", "statement": "`getSplit(s, sep)` returns, in order, exactly the non-empty pieces of s between consecutive separator occurrences; no returned piece contains the separator; with the trailing-separator mode each piece keeps the separator that ended it, so concatenating the pieces reconstructs the corresponding text.", "quantifier": "every string and separator (character, string, or set of separators) and split mode", "why_tests_cant": "all strings and separators, including overlapping and adjacent occurrences", "anchors": ["include/SSVUtils/Core/String/Internal/SplitHelper.hpp", "include/SSVUtils/Core/String/Split.hpp"]}
{"id": "C32", "title": "Split with tokenized separators loses no characters", "statement": "With the tokenize-separator mode the pieces, concatenated, are the original string.", "quantifier": "every string and separator", "why_tests_cant": "depends on separator positions, including position 0", "anchors": ["include/SSVUtils/Core/String/Internal/SplitHelper.hpp"]}
{"id": "C33", "title": "Trim removes exactly the leading/trailing matching characters", "statement": "Trimming left/right/both removes the longest prefix/suffix of characters satisfying the predicate and nothing else, and is idempotent.", "quantifier": "every string and predicate", "why_tests_cant": "all strings, including all-matching and empty", "anchors": ["include/SSVUtils/Core/String/Trim.hpp", "include/SSVUtils/Core/Utils/Containers.hpp:trimL,trimR,trimLR"]}
{"id": "C34", "title": "replaceAll replaces every occurrence and terminates", "statement": "`getReplacedAll(s, from, to)` terminates and its result is s with every occurrence of `from` replaced by `to`.", "quantifier": "every s, from, to", "why_tests_cant": "termination over all replacement texts", "anchors": ["include/SSVUtils/Core/String/Utils.hpp:replace,replaceAll"]}
{"id": "C35", "title": "beginsWith/endsWith decide prefix/suffix", "statement": "`beginsWith(s, n)` is true iff n is a prefix of s, `endsWith(s, n)` iff n is a suffix of s.", "quantifier": "all strings, including needles longer than the string", "why_tests_cant": "all lengths", "anchors": ["include/SSVUtils/Core/String/Utils.hpp:beginsWith,endsWith"]}
{"id": "C36", "title": "Levenshtein distance is the minimum number of edits", "statement": "`getDistLevenshtein(a, b)` equals the least number of single-character insertions, deletions and substitutions turning a into b; hence it is a metric.", "quantifier": "all pairs of strings", "why_tests_cant": "minimality quantifies over all edit scripts", "anchors": ["include/SSVUtils/Core/String/Utils.hpp:getDistLevenshtein"]}
{"id": "C37", "title": "toStr of an integer is its decimal representation and stays in its buffer", "statement": "`toStr(n)` returns the decimal representation of n, without writing outside its conversion buffer.", "quantifier": "every value of every integer type it is defined for (short, int, long and unsigned versions)", "why_tests_cant": "2^64 values; overruns are silent", "anchors": ["include/SSVUtils/Core/String/Internal/FastIntToStr.hpp", "include/SSVUtils/Core/String/ToStr.hpp"]}
{"id": "C38", "title": "Path normalisation is canonical", "statement": "A normalised path contains no backslash and no two consecutive slashes, denotes the same sequence of components, and normalising again changes nothing.", "quantifier": "every path string and every file system content", "why_tests_cant": "all strings", "anchors": ["include/SSVUtils/Core/FileSystem/Path.hpp:normalize"]}
{"id": "C39", "title": "Path decomposition reassembles", "statement": "For every normalised file path, parent + file name is the path, and name-without-extension + all extensions is the file name.", "quantifier": "every normalised path", "why_tests_cant": "all strings, with dots and slashes anywhere", "anchors": ["include/SSVUtils/Core/FileSystem/Path.hpp:getParent,getFileName,getFileNameNoExtensions,getExtension,getAllExtensions,getFolderName"]}
{"id": "C40", "title": "Recursive scan returns exactly the entries below the folder", "statement": "A recursive scan returns, with their full paths, exactly the files/folders (as requested) below the scanned folder; a single-level scan returns exactly its direct entries; the scan terminates.", "quantifier": "every finite directory tree, current directory, pick and mode options", "why_tests_cant": "all trees and depths", "anchors": ["include/SSVUtils/Core/FileSystem/Internal/ScanHelper.hpp:scan", "include/SSVUtils/Core/FileSystem/Scan.hpp"]}
{"id": "C41", "title": "getMod is the mathematical modulus", "statement": "`getMod(v, ub)` lies in [0, ub) and is congruent to v modulo ub; `getMod(v, lb, ub)` lies in [lb, ub) and is congruent to v modulo ub-lb.", "quantifier": "all integers v and bounds with lb < ub (no intermediate overflow)", "why_tests_cant": "all integers including negatives", "anchors": ["include/SSVUtils/Core/Utils/Math.hpp:getMod"]}
{"id": "C42", "title": "getByModIdx wraps around any index", "statement": "`getByModIdx(c, i)` is the element at i modulo the container size, for negative i too.", "quantifier": "every non-empty container and every index", "why_tests_cant": "depends on size and sign", "anchors": ["include/SSVUtils/Core/Utils/Containers.hpp:getByModIdx"]}
{"id": "C43", "title": "2D/3D index conversions are mutually inverse", "statement": "Converting grid coordinates to a flat index and back gives the coordinates, and flat indices of distinct in-range cells are distinct and cover [0, cells).", "quantifier": "every grid dimension and every cell", "why_tests_cant": "all dimensions and cells", "anchors": ["include/SSVUtils/Core/Utils/Math.hpp:get1DIdxFrom2D,get2DIdxFrom1D,get1DIdxFrom3D,get3DIdxFrom1D"]}
{"id": "C44", "title": "Clamping returns the nearest value in the interval", "statement": "`getClamped(v, lo, hi)` is in [lo, hi], equals v when v is, and is the closest point of the interval otherwise; clampMin/clampMax likewise on one side.", "quantifier": "every totally ordered value and bounds lo <= hi", "why_tests_cant": "all values", "anchors": ["include/SSVUtils/Core/Utils/Math.hpp:clamp,getClamped"]}
{"id": "C45", "title": "Command lookup finds the named command or suggests the closest", "statement": "`process` runs the first registered command having the entered name; otherwise it throws an error whose suggestion minimises the Levenshtein distance over all registered names.", "quantifier": "every set of commands and entered name", "why_tests_cant": "all command sets and inputs", "anchors": ["include/SSVUtils/CmdLine/Ctx.inl:findCmd", "include/SSVUtils/CmdLine/Cmd.hpp:hasName"]}
{"id": "C46", "title": "Command-line arguments are assigned in order, and counts are enforced", "statement": "If a command runs, its required arguments, then optional arguments, then argument packs received the entered non-flag words in order, none lost and none duplicated; too few or too many words make parsing fail and the action is not run.", "quantifier": "every command declaration and every list of entered words", "why_tests_cant": "combinatorial in declarations and inputs", "anchors": ["include/SSVUtils/CmdLine/Ctx.inl:process", "include/SSVUtils/CmdLine/Elements/Bases/BaseArgPack.hpp"]}
{"id": "C47", "title": "Flag values are bound by name", "statement": "When `--name=value` is entered, the flag-value declared under that name receives that value, whatever the order in which flags are entered; unknown names are rejected.", "quantifier": "every declaration and order of entered flags", "why_tests_cant": "all permutations of flags", "anchors": ["include/SSVUtils/CmdLine/Ctx.inl:process"]}
{"id": "C48", "title": "A failing command line has no effect", "statement": "If processing an input fails, no argument, pack or flag of the command has been modified.", "quantifier": "every declaration and failing input", "why_tests_cant": "all failing inputs", "anchors": ["include/SSVUtils/CmdLine/Ctx.inl:process"]}
{"id": "C49", "title": "Timeline runs commands in order, each exactly once", "statement": "A timeline of Do/Wait/WaitWhile/WaitUntil commands (no jumps) executes its Do actions in order, each exactly once per run, and finishes after the last command; within one update it runs every Do up to the next unfinished wait.", "quantifier": "every command list and every sequence of update time steps", "why_tests_cant": "all lists and frame times", "anchors": ["include/SSVUtils/Timeline/Src/Timeline.cpp", "include/SSVUtils/Timeline/Src/Do.cpp", "include/SSVUtils/Timeline/Src/Wait.cpp"]}
{"id": "C50", "title": "Timeline waits take the requested time", "statement": "A Wait of t time units completes in the first update in which the accumulated frame time since it became current reaches t, and overshoot is carried to the next command.", "quantifier": "every t and every sequence of frame times", "why_tests_cant": "all frame-time sequences", "anchors": ["include/SSVUtils/Timeline/Src/Wait.cpp", "include/SSVUtils/Timeline/Src/Timeline.cpp:update"]}
{"id": "C51", "title": "Timeline jumps repeat the requested number of times", "statement": "A Go command with count n jumps back exactly n times and then continues; each time a timeline is reset, the count starts over.", "quantifier": "every n, every target, every surrounding command list", "why_tests_cant": "all counts and lists", "anchors": ["include/SSVUtils/Timeline/Inc/Go.hpp", "include/SSVUtils/Timeline/Src/Timeline.cpp"]}
{"id": "C52", "title": "Inserting commands into a running timeline preserves the current command", "statement": "Appending or inserting a command does not change which command is executed next, unless the timeline had nothing left, in which case the new command runs next.", "quantifier": "every timeline state and insertion position", "why_tests_cant": "all states and positions", "anchors": ["include/SSVUtils/Timeline/Inc/Timeline.hpp:append,insertImpl", "include/SSVUtils/Timeline/Src/Timeline.cpp"]}
{"id": "C53", "title": "Timeline manager drops finished timelines only", "statement": "TimelineManager::update advances every live timeline by the frame time and removes exactly the finished ones.", "quantifier": "every set of timelines and update history", "why_tests_cant": "all histories", "anchors": ["include/SSVUtils/Timeline/Src/TimelineManager.cpp", "include/SSVUtils/MemoryManager/Internal/ManagerImpl.hpp"]}
{"id": "C54", "title": "Ticker counts ticks and elapsed time", "statement": "A looping ticker reports a tick exactly in the updates where the time accumulated since the last tick reaches the target; getTicks equals the number of reported ticks and the total is the sum of frame times while running; a non-looping ticker stops after its first tick; a paused ticker never ticks.", "quantifier": "every target and every history of update / pause / resume / stop / restart / reset", "why_tests_cant": "all histories", "anchors": ["include/SSVUtils/Ticker/Src/Ticker.cpp"]}
{"id": "C55", "title": "Template expansion substitutes and repeats as the grammar says", "statement": "Expanding a well-formed template replaces each `{{key}}` by its value and each section `{{#s}}...{{/s}}` by its body expanded once per dictionary of s, in order, with the separator body between consecutive ones.", "quantifier": "every well-formed template and every dictionary", "why_tests_cant": "nesting to any depth and any number of section entries", "anchors": ["include/SSVUtils/TemplateSystem/Internal/Expander.inl", "include/SSVUtils/TemplateSystem/Internal/Dictionary.hpp:getExpanded"]}
{"id": "C56", "title": "Template expansion terminates", "statement": "getExpanded terminates for every template and dictionary.", "quantifier": "every template and dictionary", "why_tests_cant": "non-termination cannot be observed by a test", "anchors": ["include/SSVUtils/TemplateSystem/Internal/Dictionary.hpp:getExpanded"]}
{"id": "C57", "title": "Template lookup uses the innermost definition", "statement": "A key is resolved in the section's own dictionary first and then in the enclosing ones, innermost first; unknown keys are kept or erased according to the settings.", "quantifier": "every nesting of dictionaries and every settings combination", "why_tests_cant": "all nestings", "anchors": ["include/SSVUtils/TemplateSystem/Internal/Expander.inl:replace,replaceSection"]}
{"id": "C58", "title": "forArgs visits every argument once, in groups", "statement": "`forNArgs<K>(f, args...)` calls f on consecutive groups of K arguments, in order, covering every argument exactly once.", "quantifier": "every number of arguments divisible by K", "why_tests_cant": "all arities", "anchors": ["include/SSVUtils/Core/Utils/ForArgs.hpp"]}
{"id": "C59", "title": "Type-list operations obey list laws", "statement": "MPL::List operations (Append, Reverse, Insert, Remove, Slice, Unique, Filter, IdxsOf, ReplaceAllOf, getIdxOf, getCountOf, has) compute the corresponding list function for every type list.", "quantifier": "every type list and argument", "why_tests_cant": "template recursion must be right for every length; static_asserts sample a few lists", "anchors": ["include/SSVUtils/Core/MPL/Impl/"]}
{"id": "C60", "title": "Easing functions hit their end points", "statement": "Every easing function returns the start value at time 0 and start+change at time = duration, and in-out variants are continuous at the midpoint.", "quantifier": "every start, change and non-zero duration", "why_tests_cant": "all real parameters", "anchors": ["include/SSVUtils/Easing/Inc/Easing.hpp"]}
{"id": "C61", "title": "Mapped easing maps the input range end points to the output range end points", "statement": "`getMapEased` maps the input range's minimum to the output minimum and its maximum to the output maximum.", "quantifier": "every input range and output range", "why_tests_cant": "depends on where the input range starts", "anchors": ["include/SSVUtils/Easing/Inc/Easing.hpp:getMap"]}
{"id": "C62", "title": "Container stringification places separators only between elements", "statement": "Stringifying a container without formatting yields `{`, the elements separated by `, `, and `}`; an empty container yields `{ EMPTY }`.", "quantifier": "every container length, nested to any depth", "why_tests_cant": "all lengths and nestings", "anchors": ["include/SSVUtils/Core/Stringifier/Stringifier.hpp"]}
{"id": "C63", "title": "Recycling reuses the released block", "statement": "Creating an object through a recycler right after destroying one of the same size that it owns takes exactly the released block and allocates no memory.", "quantifier": "every history of recycler use ending in such a destruction and creation", "why_tests_cant": "which block is reused depends on the whole history of the free lists", "anchors": ["include/SSVUtils/MemoryManager/Internal/StorageImpl.hpp:PtrChain::push,PtrChain::pop,Chunk::create"]}
{"id": "C64", "title": "VecMap equality is extensional", "statement": "Two VecMaps compare equal with `==` exactly when they associate the same values with the same keys, however they were built.", "quantifier": "every pair of operation histories over a totally ordered key type", "why_tests_cant": "depends on both insertion histories", "anchors": ["include/SSVUtils/Container/Inc/VecMapBase.hpp:operator==", "include/SSVUtils/Container/Inc/VecMap.hpp"]}
{"id": "C65", "title": "Base64 decoding of arbitrary text", "statement": "`decode<Base64>(t)` is defined for every text: it yields six bits for each character up to the first one outside the alphabet, grouped to whole bytes, and ignores everything from that character on.", "quantifier": "every byte string shorter than 2^31", "why_tests_cant": "arbitrary, also malformed, texts of every length", "anchors": ["include/SSVUtils/Encoding/Src/Base64.cpp:Base64Decode"]}
{"id": "C66", "title": "getReplaced replaces exactly the first occurrence", "statement": "`getReplaced(s, from, to)` is s with the first occurrence of `from` replaced by `to`, and s itself if there is none.", "quantifier": "every s, from, to", "why_tests_cant": "all texts, overlaps and positions", "anchors": ["include/SSVUtils/Core/String/Utils.hpp:replace,getReplaced"]}
{"id": "C67", "title": "getSign is the sign", "statement": "`getSign(x)` is 1, 0 or -1 according to whether x is positive, zero or negative.", "quantifier": "every value of every signed and unsigned integer type", "why_tests_cant": "all values of all types", "anchors": ["include/SSVUtils/Core/Utils/Math.hpp:getSign"]}
{"id": "C68", "title": "Integer getMap maps ranges", "statement": "For ascending ranges, `getMap(i, iMin, iMax, oMin, oMax)` maps iMin to oMin and iMax to oMax, stays within [oMin, oMax] for i in [iMin, iMax], is the linear image rounded down, and keeps the order.", "quantifier": "all ranges and values of one integer type without overflow", "why_tests_cant": "all ranges and values", "anchors": ["include/SSVUtils/Core/Utils/Math.hpp:getMap"]}
{"id": "C69", "title": "Path comparison is a total order and equality terminates", "statement": "Paths compare by their normalised text: < is the lexicographic order of the texts, a strict total order; == and != return whether the texts are equal.", "quantifier": "every pair (triple) of paths and every file system", "why_tests_cant": "order laws over all paths; termination for every input", "anchors": ["include/SSVUtils/Core/FileSystem/Path.hpp:operator<", "include/SSVUtils/Core/FileSystem/Path.hpp:operator=="]}
{"id": "C70", "title": "Case conversion and case-insensitive extensions", "statement": "toLower/toUpper change exactly the letters of a text to their counterparts; hasExtension says whether the path's text ends with the extension, ignoring case.", "quantifier": "every text, every path and extension", "why_tests_cant": "all strings over all characters, including negative chars", "anchors": ["include/SSVUtils/Core/String/Utils.hpp:toLower", "include/SSVUtils/Core/String/Utils.hpp:toUpper", "include/SSVUtils/Core/FileSystem/Path.hpp:hasExtension"]}
{"id": "C71", "title": "Home folder expansion", "statement": "expandUserPath returns, and replaces every ~ of the path by the value of HOME (by nothing if it is not set).", "quantifier": "every path and every value of HOME", "why_tests_cant": "termination and result for every text of path and environment", "anchors": ["include/SSVUtils/Core/FileSystem/Utils.hpp:expandUserPath"]}
{"id": "C72", "title": "Actions can control their own timeline", "statement": "An action that stops its timeline ends the update, keeps the following command current and nothing runs until start; an action that jumps to command i continues with command i; an action that resets the timeline starts over with the first command.", "quantifier": "every timeline, position and target", "why_tests_cant": "all timelines, positions and targets", "anchors": ["include/SSVUtils/Timeline/Src/Do.cpp", "include/SSVUtils/Timeline/Src/Timeline.cpp:jumpTo,stop,reset,next"]}
{"id": "C73", "title": "Values held by a command do not depend on earlier command lines", "statement": "When a command runs, what its arguments, packs and flags hold depends only on the declaration and on the words entered now, not on command lines processed before with the same context.", "quantifier": "every declaration, every history of processed command lines", "why_tests_cant": "all histories of calls", "anchors": ["include/SSVUtils/CmdLine/Ctx.inl:process", "include/SSVUtils/CmdLine/Elements/ArgPack.hpp:set", "include/SSVUtils/CmdLine/Elements/Flag.hpp"]}
{"id": "C74", "title": "A malformed command line is reported by an exception", "statement": "Processing any list of words either runs the action or throws an exception: it never terminates the program and is never undefined.", "quantifier": "every declaration and list of words", "why_tests_cant": "all malformed inputs", "anchors": ["include/SSVUtils/CmdLine/Ctx.inl:process", "include/SSVUtils/CmdLine/Internal/Parser.hpp", "include/SSVUtils/Core/Common/Casts.hpp:sToInt"]}
{"id": "C75", "title": "Command-line values are read as written", "statement": "An argument holds the value its word stands for: a string is the word itself, every int can be entered in decimal notation, a decimal or hexadecimal numeral becomes the nearest float, a bool is entered by one of ten words in any case; words that do not stand for a value are rejected.", "quantifier": "every word and argument type", "why_tests_cant": "unbounded set of words", "anchors": ["include/SSVUtils/CmdLine/Internal/Parser.hpp:parse", "include/SSVUtils/Core/Common/Casts.hpp:sToInt, sToFloat"]}
{"id": "C76", "title": "Tuples are walked in step, up to the shortest", "statement": "`tplFor(f, tuples...)` calls f once for each index from 0 to the size of the shortest tuple, in ascending order, with the elements at that index of all the tuples in the order they were given; `tplForData` passes the index as well.", "quantifier": "every number of tuples, every size, every function and every call that throws", "why_tests_cant": "every combination of sizes is another instantiation", "anchors": ["include/SSVUtils/Core/Tuple/TplFor.hpp", "include/SSVUtils/Core/Tuple/Internal/TplForHelper.hpp"]}
{"id": "C77", "title": "Tuples as arguments, tuple types", "statement": "`explode(f, t)` calls f once with the elements of the tuple in order and returns its result; `getTplIdxOf<T, Tpl>()` is the index of the first T; `TplRepeat<T, n>` has n elements of type T.", "quantifier": "every tuple, every function, every type", "why_tests_cant": "template recursion over every length", "anchors": ["include/SSVUtils/Core/Tuple/Tuple.hpp", "include/SSVUtils/Core/Tuple/Internal/Exploder.hpp", "include/SSVUtils/Core/Tuple/Internal/TplIdxOfHelper.hpp", "include/SSVUtils/Core/Tuple/Internal/TplRepeatHelper.hpp"]}
{"id": "C78", "title": "Variadic minimum and maximum", "statement": "`MPL::getMin(a, b, ...)` and `MPL::getMax(a, b, ...)` return the least and the greatest of any number of arguments.", "quantifier": "every non-empty argument list", "why_tests_cant": "recursion over every length and every order of the arguments", "anchors": ["include/SSVUtils/Core/MPL/Impl/MinMax.hpp"]}
{"id": "C79", "title": "Out easings mirror In easings", "statement": "For every easing, what is left to go under `Out` at a time is what `In` has gone when that much time is left: Out(t) = start + change - (In(duration - t) - start).", "quantifier": "every easing, time, start, change and non-zero duration", "why_tests_cant": "all real parameters", "anchors": ["include/SSVUtils/Easing/Inc/Easing.hpp"]}
{"id": "C80", "title": "InOut easings are an In and an Out", "statement": "InOut follows In over the first half of the duration to half of the change, and Out over the second half for the rest.", "quantifier": "every easing, time, start, change and non-zero duration", "why_tests_cant": "all real parameters", "anchors": ["include/SSVUtils/Easing/Inc/Easing.hpp"]}
{"id": "C81", "title": "Easings without overshoot stay in range", "statement": "While the time runs from 0 to the duration, every easing except Back and Elastic gives values between the start value and the end value.", "quantifier": "every time in the duration, every start and change, every positive duration", "why_tests_cant": "all real parameters", "anchors": ["include/SSVUtils/Easing/Inc/Easing.hpp"]}
{"id": "C82", "title": "Formatted stringification is shown in the right styles", "statement": "A value stringified with formatting is shown by an ANSI terminal as its plain text, a type letter after the numbers that are not int, every number, string, address and punctuation mark in its own colour and style whatever it is nested in, and the formatting is reset after every element.", "quantifier": "every value, nested to any depth, and every formatting state before an element", "why_tests_cant": "all nestings and previous states", "anchors": ["include/SSVUtils/Core/Stringifier/Stringifier.hpp", "include/SSVUtils/Core/ConsoleFmt/Internal/ConsoleFmtImplUnix.hpp"]}
{"id": "C83", "title": "Pointers are stringified as addresses, null pointers by name", "statement": "Stringifying a pointer yields its address in brackets, and [nullptr] for a null pointer.", "quantifier": "every pointer and every text of addresses", "why_tests_cant": "all addresses", "anchors": ["include/SSVUtils/Core/Stringifier/Stringifier.hpp (Stringifier<T*>)"]}
{"id": "C84", "title": "The log keeps the lines in order with their titles", "statement": "The log stream holds the lines in the order they were logged, each as its title in brackets padded to 38 columns (if it has one), then the plain text of its values, then a line break.", "quantifier": "every sequence of log lines, titles and values", "why_tests_cant": "all histories", "anchors": ["include/SSVUtils/Core/Log/Internal/LogImplEnabled.hpp"]}
{"id": "C85", "title": "A suppressed log writes nothing", "statement": "While the log is suppressed nothing is written to the console or to the log stream, and afterwards it goes on as if the suppressed operations had not happened.", "quantifier": "every sequence of operations on the log", "why_tests_cant": "all histories", "anchors": ["include/SSVUtils/Core/Log/Log.hpp (setLogSuppressed)", "include/SSVUtils/Core/Log/Internal/LogImplEnabled.hpp"]}
{"id": "C86", "title": "The console shows the log with coloured titles", "statement": "On an ANSI terminal every log line is shown with its title bold in the colour of the title, then the values in their own formatting; the same title always has the same colour and the first five titles have different ones.", "quantifier": "every sequence of log lines, titles and values", "why_tests_cant": "all histories", "anchors": ["include/SSVUtils/Core/Log/Internal/LogImplEnabled.hpp (getUniqueColor, operator<<)"]}
{"id": "C87", "title": "Wrapped angles", "statement": "getWrapDeg(x) and getWrapRad(x) return the angle in [0, full turn) that differs from x by a whole number of turns; wrapping a wrapped angle changes nothing.", "quantifier": "every angle, positive or negative and of any size", "why_tests_cant": "there are unboundedly many angles, and the boundary behaviour (multiples of a turn, tiny negative values) depends on the sign conventions of fmod and on rounding", "anchors": ["include/SSVUtils/Core/Utils/Math.hpp: getWrapDeg", "include/SSVUtils/Core/Utils/Math.hpp: getWrapRad"]}
{"id": "C88", "title": "Cycled values", "statement": "getCycledValue(x, min, max) with min < max returns the value in [min, max) that differs from x by a multiple of max - min, and x itself if it is already in the range.", "quantifier": "every value and every non-empty range", "why_tests_cant": "must hold for all values on both sides of all ranges", "anchors": ["include/SSVUtils/Core/Utils/Math.hpp: getCycledValue"]}
{"id": "C89", "title": "Distance between angles", "statement": "getDistDeg(a, b) and getDistRad(a, b) return the smallest absolute difference between any two angles that are equal to a and b up to whole turns; so the result is at most half a turn, symmetric, zero only for equal angles, and satisfies the triangle inequality.", "quantifier": "all pairs (triples) of angles", "why_tests_cant": "the minimum is over infinitely many representatives of every angle", "anchors": ["include/SSVUtils/Core/Utils/Math.hpp: getDistDeg", "include/SSVUtils/Core/Utils/Math.hpp: getDistRad"]}
{"id": "C90", "title": "Rotation towards an angle", "statement": "getRotatedDeg/getRotatedRad(start, end, speed) with speed >= 0 bring the angle closer to end by exactly the speed along the shorter way and never past it: the remaining distance is max(0, distance - speed), and the result is end itself when it is within reach; calling it again and again reaches end and stays there.", "quantifier": "all angles and speeds and every number of repetitions", "why_tests_cant": "concerns all angles and unbounded repetition", "anchors": ["include/SSVUtils/Core/Utils/Math.hpp: getRotatedDeg", "include/SSVUtils/Core/Utils/Math.hpp: getRotatedRad"]}
{"id": "C91", "title": "Distances between points", "statement": "getDistEuclidean, getDistManhattan and getDistChebyshev are metrics on the plane (not negative, zero exactly for equal points, symmetric, triangle inequality), equal the coordinate difference along an axis, satisfy Chebyshev <= Euclidean <= Manhattan <= 2 Chebyshev, and getDistSquaredEuclidean is the square of the Euclidean distance.", "quantifier": "all points of the plane", "why_tests_cant": "the triangle inequality ranges over all triples of points", "anchors": ["include/SSVUtils/Core/Utils/Math.hpp: getDistEuclidean", "include/SSVUtils/Core/Utils/Math.hpp: getDistSquaredEuclidean", "include/SSVUtils/Core/Utils/Math.hpp: getDistManhattan", "include/SSVUtils/Core/Utils/Math.hpp: getDistChebyshev"]}
{"id": "C92", "title": "Interpolation and mapping of real values", "statement": "getLerp(w, a, b) with a weight in [0, 1] divides the interval from a to b in the ratio w : 1 - w and stays between a and b; getMap maps the ends of the input range to the ends of the output range, keeps proportions, maps the range into the range and is undone by the reverse mapping. A weight outside [0, 1] or an empty input range fails the assertion in debug builds.", "quantifier": "all weights, values and ranges", "why_tests_cant": "an algebraic identity over all real values", "anchors": ["include/SSVUtils/Core/Utils/Math.hpp: getLerp", "include/SSVUtils/Core/Utils/Math.hpp: getMap"]}
{"id": "C93", "title": "Units and directions", "statement": "toRad and toDeg undo each other and map 180 to pi; starting at the first point and going in the direction getRadTowards/getDegTowards for the Euclidean distance leads to the second point.", "quantifier": "all angles and all pairs of points", "why_tests_cant": "an identity over the whole plane including all quadrants and axes", "anchors": ["include/SSVUtils/Core/Utils/Math.hpp: toRad", "include/SSVUtils/Core/Utils/Math.hpp: toDeg", "include/SSVUtils/Core/Utils/Math.hpp: getRadTowards", "include/SSVUtils/Core/Utils/Math.hpp: getDegTowards"]}
{"id": "C94", "title": "Jumping ahead in a random sequence", "statement": "advance(d) and discard(d) put an engine into exactly the state it has after drawing d values one by one, so the values drawn afterwards are those of the original sequence d places later.", "quantifier": "all engines, states and distances d, including those that wrap around", "why_tests_cant": "d can be as large as 2^64; drawing the values one by one to compare is not possible", "anchors": ["include/SSVUtils/Internal/PCG/pcg_random.hpp: engine::advance", "include/SSVUtils/Internal/PCG/pcg_random.hpp: engine::discard", "include/SSVUtils/Internal/PCG/pcg_random.hpp: engine::bump"]}
{"id": "C95", "title": "Period of the random engines", "statement": "A random engine goes through all its 2^period_pow2() states, each exactly once, before it repeats: from any seed, every state is reached, and the state recurs after n draws exactly if n is a multiple of the period. wrapped() is true for exactly one state per period.", "quantifier": "all engines the library defines, all seeds and streams and every number of draws", "why_tests_cant": "a period of 2^62 or more draws cannot be run through", "anchors": ["include/SSVUtils/Internal/PCG/pcg_random.hpp: engine::period_pow2", "include/SSVUtils/Internal/PCG/pcg_random.hpp: engine::wrapped", "include/SSVUtils/Internal/PCG/pcg_random.hpp: default_multiplier", "include/SSVUtils/Internal/PCG/pcg_random.hpp: specific_stream", "include/SSVUtils/Core/Utils/Rnd.hpp: getRndEngine"]}
{"id": "C96", "title": "Stepping back and distance between engines", "statement": "backstep(d) undoes advance(d), and a - b for two engines of the same sequence is the number of draws (modulo the period) after which b is in the state of a.", "quantifier": "all pairs of states of an engine and all distances", "why_tests_cant": "ranges over all pairs of 64-bit (or 128-bit) states", "anchors": ["include/SSVUtils/Internal/PCG/pcg_random.hpp: engine::backstep", "include/SSVUtils/Internal/PCG/pcg_random.hpp: engine::distance", "include/SSVUtils/Internal/PCG/pcg_random.hpp: operator-"]}
{"id": "C97", "title": "Drawing below a bound", "statement": "rng(bound) returns a value below the bound, without bias: for every number of rejected draws each result is reached by equally many sequences of draws. Fewer than half of the values are rejected and the call always returns with the engines of the library. A bound of zero is undefined.", "quantifier": "all engines, states and bounds, and all sequences of draws", "why_tests_cant": "bias and termination are statements about all sequences of draws", "anchors": ["include/SSVUtils/Internal/PCG/pcg_extras.hpp: bounded_rand", "include/SSVUtils/Internal/PCG/pcg_random.hpp: engine::operator()(result_type)"]}
{"id": "C98", "title": "Shuffling", "statement": "shuffle rearranges a range of fewer than 2^x elements (x: the width of the engine's results) without adding, losing or duplicating any, and without bias: each order of different elements is reached by equally many sequences of draws. With the engines of the library the call always returns.", "quantifier": "all ranges and all sequences of draws", "why_tests_cant": "bias is a statement about all orders and all sequences of draws", "anchors": ["include/SSVUtils/Internal/PCG/pcg_extras.hpp: shuffle"]}
{"id": "C99", "title": "Equidistribution of the random values", "statement": "In any period of successive draws, an engine whose state is twice as wide as its results draws every result equally often; getRndEngine's engine draws each 32-bit value exactly 2^30 times in 2^62 draws.", "quantifier": "all engines of the library, all states, all results", "why_tests_cant": "a period cannot be run through", "anchors": ["include/SSVUtils/Internal/PCG/pcg_random.hpp: xsh_rs_mixin::output", "include/SSVUtils/Internal/PCG/pcg_random.hpp: xsh_rr_mixin::output", "include/SSVUtils/Internal/PCG/pcg_random.hpp: xsl_rr_mixin::output", "include/SSVUtils/Core/Utils/Rnd.hpp: getRndEngine"]}
{"id": "C100", "title": "Invertible output functions", "statement": "The output functions of the engines whose results are as wide as the state are permutations, so such an engine draws every value exactly once per period; unoutput and unxorshift are the exact inverses of output and of the xor-shift.", "quantifier": "all states of all sizes, all shifts", "why_tests_cant": "ranges over all 64-bit and 128-bit states", "anchors": ["include/SSVUtils/Internal/PCG/pcg_random.hpp: rxs_m_xs_mixin::output", "include/SSVUtils/Internal/PCG/pcg_random.hpp: rxs_m_xs_mixin::unoutput", "include/SSVUtils/Internal/PCG/pcg_random.hpp: xsl_rr_rr_mixin::output", "include/SSVUtils/Internal/PCG/pcg_extras.hpp: unxorshift"]}
{"id": "C101", "title": "Seeding from a seed sequence", "statement": "Seeding an engine from a seed sequence requests the smallest number of 32-bit words that hold the integers needed, never reads behind the words delivered, and forms the integers as consecutive groups of bits of those words in little-endian order; the engine starts in a valid state, and every valid state (and every stream) is obtained from some seed sequence.", "quantifier": "every integer size (8 to 128 bits), every number of integers, every seed sequence, every engine", "why_tests_cant": "The words come from outside the program and there are 2^64 and more of them; tests see a few seeds.", "anchors": ["include/SSVUtils/Internal/PCG/pcg_extras.hpp:uneven_copy", "include/SSVUtils/Internal/PCG/pcg_extras.hpp:generate_to", "include/SSVUtils/Internal/PCG/pcg_extras.hpp:generate_one", "include/SSVUtils/Internal/PCG/pcg_random.hpp:engine::engine"]}
{"id": "C102", "title": "Text form of the engines", "statement": "Writing an engine to a stream and reading it back restores it exactly, also behind white space and before other text; a read that fails leaves the engine unchanged and marks the stream as failed; whatever the text, the multiplier and the validity of the increment are kept and a successful read gives a valid state.", "quantifier": "every engine of 16, 32 or 64 bits, every state, every stream contents", "why_tests_cant": "Tests read back a few engines; the claim is about every state and every (also malformed) text.", "anchors": ["include/SSVUtils/Internal/PCG/pcg_random.hpp:operator<<", "include/SSVUtils/Internal/PCG/pcg_random.hpp:operator>>"]}
{"id": "C103", "title": "Erasing elements by value or predicate", "statement": "eraseRemoveIf and eraseRemove leave exactly the elements that do not satisfy the predicate, or are not equal to the value, in their order and number - also when the value passed is an element of the container.", "quantifier": "every container, predicate, equality and value, whatever moving an element leaves behind", "why_tests_cant": "Tests use small containers and values outside of them; the claim is about every container and also about references into it.", "anchors": ["include/SSVUtils/Core/Utils/Containers.hpp:eraseRemove", "include/SSVUtils/Core/Utils/Containers.hpp:eraseRemoveIf", "include/SSVUtils/Core/Utils/Containers.hpp:remove"]}
{"id": "C104", "title": "Searching containers", "statement": "idxOf is the position of the first equal element (the size if there is none); contains, containsAnyIf, containsAnyOf and containsAllOf tell whether there is such an element, one of the values, all of the values; getKeys and mkVector keep the order.", "quantifier": "every container, value, predicate and list of values", "why_tests_cant": "Quantifies over all containers and values.", "anchors": ["include/SSVUtils/Core/Utils/Containers.hpp:idxOf", "include/SSVUtils/Core/Utils/Containers.hpp:contains", "include/SSVUtils/Core/Utils/Containers.hpp:containsAnyOf", "include/SSVUtils/Core/Utils/Containers.hpp:containsAllOf", "include/SSVUtils/Core/Utils/Containers.hpp:getKeys"]}
{"id": "C105", "title": "Emplacing into maps", "statement": "getEmplaceUPtrMap returns a reference to the object it has just created, stored under the given key; mkUnorderedMap maps each key to the value that follows its first occurrence and takes an even number of arguments only.", "quantifier": "every map, key and object type; every list of arguments", "why_tests_cant": "Tests insert a few fresh keys; the claim covers keys already in use and every argument list.", "anchors": ["include/SSVUtils/Core/Utils/Containers.hpp:getEmplaceUPtrMap", "include/SSVUtils/Core/Utils/Containers.hpp:mkUnorderedMap"]}
{"id": "C106", "title": "Loops over ranges visit the elements in order", "statement": "A range-based for loop over asRange(c), makeRange(first, last), asRangeReverse(c) or asRangeCastPtr<T>(c) visits exactly the elements of the container (of the given part of it), each once, in the container's order (in the opposite order for the reverse range); the cast range refers to the objects the stored pointers point to, as objects of the requested type.", "quantifier": "every container content, every pair of positions, every loop body and state, every placement of the base class inside the derived class", "why_tests_cant": "The number of elements, the body's effects and failures and the class layout are unbounded; tests use a few containers and single inheritance.", "anchors": ["include/SSVUtils/Range/Internal/Base/Range.hpp:makeRange", "include/SSVUtils/Range/Internal/Base/Range.hpp:asRange", "include/SSVUtils/Range/Internal/Reverse/Reverse.hpp:asRangeReverse", "include/SSVUtils/Range/Internal/Cast/Cast.hpp:asRangeCastPtr"]}
{"id": "C107", "title": "Adapted iterators move and compare like the originals", "statement": "An iterator adaptor made from a container's iterator moves by exactly the requested distance under any sequence of ++, --, += and -= that stays within the container, compares by position, and its prefix and postfix operators yield what those of the original iterator yield.", "quantifier": "every container, start position and sequence of moves", "why_tests_cant": "Sequences of moves and containers are unbounded; a test of it++ whose result is dropped sees nothing wrong.", "anchors": ["include/SSVUtils/Range/Internal/Base/Adaptor.hpp:BaseAdaptorItrFwd", "include/SSVUtils/Range/Internal/Base/Adaptor.hpp:BaseAdaptorItrBdr", "include/SSVUtils/Range/Internal/Base/Adaptor.hpp:BaseAdaptorItrRnd"]}
{"id": "C108", "title": "Iteration over JSON arrays and objects", "statement": "forArrAs<T>() visits every element of a JSON array once, in order, converted to T; forObjAs<T>() visits every entry of an object once, in stored order, with its key; on a value of another type the checked loops do nothing and the unchecked ones fail an assertion in debug builds; the number of turns is the reported size; a loop over the value made from a std::vector<T> gives back the vector's elements.", "quantifier": "every JSON value, element type, loop body and state", "why_tests_cant": "Values, types and loop bodies are unbounded.", "anchors": ["include/SSVUtils/Json/Val/Val.hpp:forArrAs", "include/SSVUtils/Json/Val/Val.hpp:forObjAs", "include/SSVUtils/Json/Val/Val.hpp:forUncheckedArrAs", "include/SSVUtils/Json/Val/Internal/ItrHelper.hpp:ItrHelper", "include/SSVUtils/Json/Val/Val.hpp:mkArr", "include/SSVUtils/Json/Val/Val.hpp:getSizeArr"]}
{"id": "C109", "title": "Nested benchmarks are reported with their own times", "statement": "For every properly nested sequence of benchmark starts and ends, each benchmark ended by endLo is logged once, inner ones before outer ones, with its own title, dashes showing its depth, and the time between its start and its end; an empty line follows exactly those outermost benchmarks that had others inside; benchmark groups do not change this.", "quantifier": "every nesting structure, every title, every clock reading (also non-monotone), every interleaving with group calls", "why_tests_cant": "Nesting depth, number of benchmarks and clock readings are unbounded.", "anchors": ["include/SSVUtils/Benchmark/Inc/Benchmark.hpp:start", "include/SSVUtils/Benchmark/Inc/Benchmark.hpp:endLo", "include/SSVUtils/Benchmark/Src/ImplEnabled.cpp:endLo", "include/SSVUtils/Benchmark/Inc/Benchmark.hpp:LogScopeExit"]}
{"id": "C110", "title": "A benchmark group shows the total time it ran", "statement": "The time logged by groupEndLo is the total length of the intervals between groupResume and groupPause of this group since its last reset, whatever the calls on other groups and benchmarks in between; afterwards the group starts again from zero.", "quantifier": "every history of calls on any number of groups and every clock reading", "why_tests_cant": "Histories and interleavings are unbounded, and scopes of the same group may be nested by recursion.", "anchors": ["include/SSVUtils/Benchmark/Inc/Benchmark.hpp:groupResume", "include/SSVUtils/Benchmark/Inc/Benchmark.hpp:groupPause", "include/SSVUtils/Benchmark/Inc/Benchmark.hpp:groupEndLo", "include/SSVUtils/Benchmark/Src/DataGroup.cpp:DataGroup::pause"]}
{"id": "C111", "title": "Measured durations and their text", "statement": "The duration of the data returned by getEndData is the time between the start and the end of the benchmark, and the text of a duration shows its nanoseconds exactly, as milliseconds with six digits after the point.", "quantifier": "every start, end and query time; every duration", "why_tests_cant": "Floating point rounding over all durations and all query times cannot be covered by samples.", "anchors": ["include/SSVUtils/Benchmark/Inc/Benchmark.hpp:getEndData", "include/SSVUtils/Benchmark/Src/Data.cpp:Data::getDuration", "include/SSVUtils/Benchmark/Inc/DataBase.hpp:getString"]}
{"id": "C112", "title": "User-defined JSON converters round-trip", "statement": "For a class whose converters are written with SSVJ_CNV_VAL, SSVJ_CNV_ARR or SSVJ_CNV_OBJ_AUTO, members of which may again be such classes, vectors of them or types with a converter of the library: getArch followed by getExtr gives back an equal object, extraction into an existing object replaces every member, arrays hold the members in order, objects hold exactly the names of the members with their values, and reading succeeds exactly if each member can be read from its place.", "quantifier": "all class shapes of any nesting and number of members, all objects of them, all JSON values read, debug and release builds", "why_tests_cant": "the classes are written by the users of the library; a test has one of them", "anchors": ["include/SSVUtils/Json/Val/Internal/CnvFuncs.hpp:getExtr", "include/SSVUtils/Json/Val/Internal/CnvFuncs.hpp:getArch", "include/SSVUtils/Json/Val/Internal/CnvFuncs.hpp:extrObj", "include/SSVUtils/Json/Val/Internal/CnvFuncs.hpp:archArr", "include/SSVUtils/Json/Val/Internal/CnvMacros.hpp:SSVJ_CNV_OBJ_AUTO", "include/SSVUtils/Json/Val/Internal/CnvMacros.hpp:SSVJ_CNV_ARR"]}
{"id": "C113", "title": "Number casts and text to number", "statement": "toNum keeps every value the target type can hold and wraps otherwise; castEnum and toEnum are inverse; sToInt and sToSizeT give the number the text starts with, and the decimal text of every int and every size converts back to it.", "quantifier": "all integer types and values, all texts", "why_tests_cant": "the domain is all numbers and all strings; the boundary cases (the largest sizes, text without digits) are not in the tests", "anchors": ["include/SSVUtils/Core/Common/Casts.hpp:toNum", "include/SSVUtils/Core/Common/Casts.hpp:sToInt", "include/SSVUtils/Core/Common/Casts.hpp:sToSizeT", "include/SSVUtils/Core/Common/Casts.hpp:castEnum", "include/SSVUtils/Core/Common/Casts.hpp:toEnum"]}
{"id": "C114", "title": "Random integers stay in range", "statement": "getRndI(min, max) returns a number of [min, max), every such number can come up, and getRndSign returns -1 or 1.", "quantifier": "all integer types of the two bounds, all bounds, all engine states, debug and release builds", "why_tests_cant": "sampling shows some draws only; whether a value outside can ever come up depends on conversions at the ends of the types", "anchors": ["include/SSVUtils/Core/Utils/Rnd.hpp:getRndI", "include/SSVUtils/Core/Utils/Rnd.hpp:getRndSign"]}
{"id": "C115", "title": "Help texts list every element", "statement": "The help text of a command consists of its description and one section for each kind of element it has; each section has one entry for each element of that kind, in order of creation, with its usage, name and descriptions; getNamesStr and getStr put the separator exactly between their items.", "quantifier": "all sequences of create calls with all names, descriptions and bounds", "why_tests_cant": "the combinations of kinds, orders and empty texts are unbounded", "anchors": ["include/SSVUtils/CmdLine/Cmd.hpp:getHelpStr", "include/SSVUtils/CmdLine/Cmd.hpp:getHelpStrForET", "include/SSVUtils/CmdLine/Cmd.hpp:buildCmdStr", "include/SSVUtils/CmdLine/Elements/Bases/BaseElement.hpp:getHelpStr"]}
{"id": "C116", "title": "Emulated 128-bit integers compute like native ones", "statement": "The class standing in for a native 128-bit integer gives, for all operands, the sum, difference, negation, product, bitwise combination and comparison that an unsigned integer of 128 bits would give, and converts to and from machine integers without changing the value.", "quantifier": "All pairs of values of the class and all machine integers.", "why_tests_cant": "There are 2^256 operand pairs; carries between the words are exactly what samples miss.", "anchors": ["include/SSVUtils/Internal/PCG/pcg_uint128.hpp:uint_x4", "include/SSVUtils/Internal/PCG/pcg_uint128.hpp:addwithcarry", "include/SSVUtils/Internal/PCG/pcg_uint128.hpp:subwithcarry"]}
{"id": "C117", "title": "Shifts of emulated wide integers", "statement": "Shifting by any count multiplies or divides by the power of two, modulo the width, and never touches memory outside of the value.", "quantifier": "All values and all 256 shift counts.", "why_tests_cant": "The loops move words and carry bits between them; a count beyond the width leaves the array.", "anchors": ["include/SSVUtils/Internal/PCG/pcg_uint128.hpp:uint_x4"]}
{"id": "C118", "title": "Division of emulated wide integers", "statement": "For every divisor that is not zero, division ends and gives the quotient and the remainder of the numbers.", "quantifier": "All pairs of dividend and divisor.", "why_tests_cant": "The loop estimates quotient bits by shifted subtraction; its termination and exactness depend on all bit patterns.", "anchors": ["include/SSVUtils/Internal/PCG/pcg_uint128.hpp:divmod"]}
{"id": "C119", "title": "Bit counts of words and wide integers", "statement": "The floor and ceiling logarithm and the number of trailing zero bits are exact for every non-zero argument, and the portable versions agree with the compiler intrinsics.", "quantifier": "All words of 32 and 64 bits and all wide integers.", "why_tests_cant": "The portable versions are table lookups with a de Bruijn multiplication; agreement on all 2^64 words cannot be enumerated.", "anchors": ["include/SSVUtils/Internal/PCG/pcg_uint128.hpp:flog2", "include/SSVUtils/Internal/PCG/pcg_uint128.hpp:trailingzeros", "include/SSVUtils/Internal/PCG/pcg_uint128.hpp:clog2"]}
{"id": "C120", "title": "Layout of written JSON", "statement": "The pretty writer puts every array element and object entry on its own line, indented by its depth, and the minifying writer adds no white space; neither adds or drops any other character.", "quantifier": "All values of any depth, both writers.", "why_tests_cant": "The indentation is a running counter updated on the way in and out of every nested container; it must return to its value for every shape of tree.", "anchors": ["include/SSVUtils/Json/Io/Writer.hpp:Writer"]}
{"id": "C121", "title": "Coloured JSON output", "statement": "Writing to the console with colours shows the same text as without, and every value, key and bracket has the colour of its kind.", "quantifier": "All values, both layouts, every order in which the compiler evaluates the arguments.", "why_tests_cant": "The colours come from strings that share one static buffer, so the result depends on the order of evaluation, which is not specified and cannot be chosen by a test.", "anchors": ["include/SSVUtils/Json/Io/Writer.hpp:Writer", "include/SSVUtils/Core/ConsoleFmt/Internal/ConsoleFmtImplUnix.hpp:getFmtStr"]}
{"id": "C122", "title": "Checked builds catch JSON type mismatches", "statement": "In a checked build, extracting a type that the stored value does not have fails an assertion instead of reading another payload.", "quantifier": "All stored values, all extraction types including nested containers and user types.", "why_tests_cant": "Mismatches may lie at any depth in containers of any size.", "anchors": ["include/SSVUtils/Json/Val/Val.hpp:as", "include/SSVUtils/Json/Val/Internal/Cnv.hpp:Cnv", "include/SSVUtils/Json/Val/Internal/Chk.hpp:Chk"]}
{"id": "C123", "title": "Position of a timeline and clearing", "statement": "The reported position is that of the command to be executed next; clearing a timeline removes everything, and commands added afterwards run from the first on once it is started.", "quantifier": "All command lists, all numbers and lengths of updates, all states in which the timeline is cleared.", "why_tests_cant": "The position must agree with the execution after every history.", "anchors": ["include/SSVUtils/Timeline/Inc/Timeline.hpp:getCurrentIndex", "include/SSVUtils/Timeline/Inc/Timeline.hpp:clear"]}
{"id": "C124", "title": "Reading a path does not change it", "statement": "Reading the text of a path shows the normal form of the text put into it, whatever was read before, and does not change what later operations give.", "quantifier": "All sequences of assignments, appends, clears and reads, and all states of the file system at each read.", "why_tests_cant": "Normalisation is cached and done in place by constant functions, so the result depends on the whole history.", "anchors": ["include/SSVUtils/Core/FileSystem/Path.hpp:getStr", "include/SSVUtils/Core/FileSystem/Path.hpp:normalize"]}
{"id": "C125", "title": "JSON array elements", "statement": "Appending to a JSON array and assigning an element change only that element; the size, has, emptiness and reading with a default agree with the elements; reading outside of a constant array throws.", "quantifier": "All arrays, indices and values.", "why_tests_cant": "Sizes and indices are unbounded, and every other element has to be unchanged.", "anchors": ["include/SSVUtils/Json/Val/Val.hpp:emplace", "include/SSVUtils/Json/Val/Val.hpp:getIfHas", "include/SSVUtils/Json/Val/Val.hpp:operator[]"]}
{"id": "C126", "title": "Recycling vectors own their objects", "statement": "For every history of recycling vectors (monomorphic and polymorphic) \u2014 create, createAt, resetting or swapping elements, clear, moving the vector, destroying vectors in any order, constructors that throw \u2014 nothing undefined happens, the vectors hold exactly the created objects in order, every object is alive in a block of its own of its type's size while it is in a vector, references to it stay valid until it is removed (even across moves of the vector), and when all vectors are gone all memory has been given back exactly once.", "quantifier": "all operation histories, any number of vectors, objects and types, any destruction order", "why_tests_cant": "Lifetimes, recycled blocks and moves interact over whole histories; a test sees a few sequences and use-after-free usually goes unnoticed.", "anchors": ["include/SSVUtils/MemoryManager/Internal/ManagerImpl.hpp:BaseRecVector", "include/SSVUtils/MemoryManager/Internal/RecyclerImpl.hpp:getCreateEmplaceAt", "include/SSVUtils/MemoryManager/Internal/StorageImpl.hpp:Chunk"]}
{"id": "C127", "title": "Extended generators are equidistributed", "statement": "Calls of an extended random-number generator are always defined; for the k variants, whatever the state of the base engine, every sequence of as many results as the table has entries comes from exactly one table, and over the full period every such sequence appears equally often.", "quantifier": "All parameters, states, tables and sequences of results; all types the library defines.", "why_tests_cant": "The tables alone have up to 2^524288 values; equidistribution is a statement about all of them.", "anchors": ["include/SSVUtils/Internal/PCG/pcg_random.hpp:extended", "include/SSVUtils/Internal/PCG/pcg_random.hpp:get_extended_value", "include/SSVUtils/Internal/PCG/pcg_random.hpp:advance_table", "include/SSVUtils/Internal/PCG/pcg_random.hpp:inside_out"]}
{"id": "C128", "title": "The period of extended generators", "statement": "After n calls an extended generator is as it was exactly if n is a multiple of two to the power of period_pow2, and every combination of engine state and table is reached.", "quantifier": "All parameters, states, tables and numbers of calls.", "why_tests_cant": "Periods are between 2^126 and 2^524352.", "anchors": ["include/SSVUtils/Internal/PCG/pcg_random.hpp:period_pow2", "include/SSVUtils/Internal/PCG/pcg_random.hpp:advance_table", "include/SSVUtils/Internal/PCG/pcg_random.hpp:external_step", "include/SSVUtils/Internal/PCG/pcg_random.hpp:pcg32_k16384"]}
{"id": "C129", "title": "Jumping in extended generators", "statement": "advance(d) of an extended generator does what d calls do, and backstep(d) undoes d calls.", "quantifier": "All parameters, states, tables and distances.", "why_tests_cant": "Whether a jump is right depends on rare tables and states (zeros in the table, states where the table moves), which random tests never meet.", "anchors": ["include/SSVUtils/Internal/PCG/pcg_random.hpp:advance", "include/SSVUtils/Internal/PCG/pcg_random.hpp:backstep", "include/SSVUtils/Internal/PCG/pcg_random.hpp:external_advance"]}
{"id": "C130", "title": "Planting, comparing, seeding and storing extended generators", "statement": "set(y) leaves the generator as if a call had returned y, so that with sets and a step back any sequence can be planted; generators compare equal exactly if they are; they are proper however they are seeded; writing and reading restores them, and failed reads leave them alone.", "quantifier": "All generators, values, seeds, seed sequences and texts.", "why_tests_cant": "All values, seeds and texts are concerned.", "anchors": ["include/SSVUtils/Internal/PCG/pcg_random.hpp:set", "include/SSVUtils/Internal/PCG/pcg_random.hpp:selfinit", "include/SSVUtils/Internal/PCG/pcg_random.hpp:datainit", "include/SSVUtils/Internal/PCG/pcg_random.hpp:operator<<", "include/SSVUtils/Internal/PCG/pcg_random.hpp:operator>>", "include/SSVUtils/Internal/PCG/pcg_random.hpp:operator=="]}
{"id": "C131", "title": "Saving and reading files", "statement": "A text, a JSON value or the log saved to a file is what is read from the file afterwards, by whatever path leads there; nothing else changes, and no later operation on other files and folders changes it. If saving is not possible the caller learns about it; if the process ends while saving, the old or the new contents are there.", "quantifier": "All disks (trees of folders and files), paths, texts, values, sequences of later operations and points where the process may end.", "why_tests_cant": "Every disk layout, every sequence of later operations and every crash point is concerned.", "anchors": ["include/SSVUtils/Json/Val/Val.hpp:writeToFile", "include/SSVUtils/Json/Val/Val.hpp:readFromFile", "include/SSVUtils/Core/FileSystem/Path.hpp:getContentsAsStr", "include/SSVUtils/Core/Log/Log.inl:saveLogToFile"]}
{"id": "C132", "title": "Creating folders and removing files", "statement": "createFolder creates exactly the named folder if its parent is there and the name is free, and otherwise changes nothing and says so; removeFile removes exactly the named file or empty folder and says whether it did; the folder tree stays a tree, whatever the paths; creating and removing cancel out.", "quantifier": "All disks, all paths including those with dots, backslashes and repeated slashes.", "why_tests_cant": "Every disk layout and every path is concerned.", "anchors": ["include/SSVUtils/Core/FileSystem/Utils.hpp:createFolder", "include/SSVUtils/Core/FileSystem/Utils.hpp:removeFile"]}
{"id": "C133", "title": "MD5 of a file", "statement": "The MD5 digest computed from a file stream is the RFC 1321 digest of the contents of the file.", "quantifier": "All file contents, of any size.", "why_tests_cant": "The sizes where it goes wrong start at 2 GB.", "anchors": ["include/SSVUtils/Encoding/Src/MD5.cpp:Calculate"]}
{"id": "C134", "title": "Actions that add commands to their own timeline", "statement": "Commands added to a running timeline, from outside or by its own actions, run in the order of the sequence, each exactly once, and nothing is lost; every update returns; an action may clear its own timeline.", "quantifier": "All timelines, actions depending on the timeline and on all that happened before, interleavings of additions and updates.", "why_tests_cant": "Every history and every self-modifying action is concerned.", "anchors": ["include/SSVUtils/Timeline/Inc/Timeline.hpp:append", "include/SSVUtils/Timeline/Inc/Timeline.hpp:insert", "include/SSVUtils/Timeline/Src/Timeline.cpp:clear", "include/SSVUtils/Timeline/Src/Do.cpp:update"]}
{"id": "C135", "title": "Logging from several threads", "statement": "Threads may use lo() at the same time: every value, title and line break takes effect at once, as if the threads took turns; no text is torn, lost or doubled in the log, each thread's operations stay in their order, no thread waits for ever, and a title is printed before the value it was given for.", "quantifier": "all numbers of threads, all lists of log operations for each, all initial states, all schedules (interleavings of single characters)", "why_tests_cant": "Tests see a few schedules; a torn or lost message needs one particular interleaving among exponentially many.", "anchors": ["include/SSVUtils/Core/Log/Internal/LogImplEnabled.hpp:operator<<", "include/SSVUtils/Core/Log/Internal/LogImplEnabled.hpp:lo", "include/SSVUtils/Core/Log/Internal/LogImplEnabled.hpp:LOut", "include/SSVUtils/Core/Log/Log.hpp:setLogSuppressed"]}
{"id": "C136", "title": "Distances between integer points", "statement": "For points with integer coordinates, getDistSquaredEuclidean, getDistManhattan and getDistChebyshev return the exact distance whenever it is representable in the type of the coordinates, and getDistEuclidean the exact distance rounded down; so the results are distances (not negative, zero only for equal points, symmetric, triangle inequality).", "quantifier": "all integer types, all four coordinates, all roundings of double", "why_tests_cant": "the results depend on overflow, promotion and conversion for every combination of coordinates; a test tries a few", "anchors": ["include/SSVUtils/Core/Utils/Math.hpp:getDistSquaredEuclidean", "include/SSVUtils/Core/Utils/Math.hpp:getDistEuclidean", "include/SSVUtils/Core/Utils/Math.hpp:getDistManhattan", "include/SSVUtils/Core/Utils/Math.hpp:getDistChebyshev"]}
{"id": "C137", "title": "Frametime conversions", "statement": "getFTToSeconds and getSecondsToFT undo each other up to rounding, sixty units are a second, getFTToFPS is the inverse of the duration of a frame; for integer types the results are the exact ones rounded towards zero, and whole seconds survive the conversion to frametime and back.", "quantifier": "all floating-point values and roundings, all integer types and values", "why_tests_cant": "rounding errors depend on the argument; a test tries a few", "anchors": ["include/SSVUtils/Core/Common/Frametime.hpp:getFTToSeconds", "include/SSVUtils/Core/Common/Frametime.hpp:getSecondsToFT", "include/SSVUtils/Core/Common/Frametime.hpp:getFTToFPS"]}
{"id": "C138", "title": "Destructors that use their manager", "statement": "The destructor of an object owned by a memory manager may call `create` and `del` of that manager while `refresh()` or `clear()` destroys it: objects created that way belong to the manager like any others (visible after the next refresh, destroyed at the latest by `clear()`), objects deleted that way are gone after the next refresh, and no call is undefined.", "quantifier": "every history of create / del / refresh / clear / reserve and every choice of what the destructors create and delete", "why_tests_cant": "the compaction loop runs user code in the middle of its work; which slots it has passed, and whether the storage must grow at that moment, depends on the whole history", "anchors": ["include/SSVUtils/MemoryManager/Internal/ManagerImpl.hpp:BaseManager::refresh,clear,create,del,reserve", "include/SSVUtils/Internal/SharedFuncs.hpp:refreshImplLoop,refreshImpl", "include/SSVUtils/GrowableArray/GrowableArray.hpp:grow,initAt,deinitAt"]}
{"id": "C139", "title": "Looping over a manager while creating and deleting", "statement": "A range loop over a manager whose body creates and deletes objects in that manager visits exactly the objects that were visible when the loop started, in order and once each: objects created by the body are not visited and objects deleted by it still are. The manager ends up as if the same calls had been made one after the other. The loop variable refers into the manager's storage, so using it after a creation of the same round that made the storage grow is undefined; TimelineManager::update does exactly that when an action of a running timeline creates a timeline and the storage is full.", "quantifier": "every legal history, every body given as a list of uses, creations and deletions for each object, every capacity", "why_tests_cant": "Storage grows only at particular sizes; a test with few objects never reaches the dangling reference, and the visited set must be right for every body.", "anchors": ["include/SSVUtils/MemoryManager/Internal/ManagerImpl.hpp:begin", "include/SSVUtils/MemoryManager/Internal/ManagerImpl.hpp:create", "include/SSVUtils/MemoryManager/Internal/ManagerImpl.hpp:getDataAt", "include/SSVUtils/Timeline/Src/TimelineManager.cpp:TimelineManager::update"]}
{"id": "C140", "title": "References to a bimap's pairs stay valid, also as keys", "statement": "emplace gives a reference to the new pair, and a reference to a pair leads to that same pair after any further legal calls, as long as the pair itself has not been erased; no two pairs share an address. A pair can be erased through a reference to one of its own keys: exactly that pair goes. Violated with assertions on: the closing assertion of erase reads the key once more, from the freed pair, in every state with another pair left.", "quantifier": "every pair of key types with strict total orders, every legal history and continuation, every pair in the bimap", "why_tests_cant": "which pairs have been erased around the one referred to, and how the vector has moved, varies over all histories; the read of freed memory usually gives the right answer in a test", "anchors": ["include/SSVUtils/Bimap/Inc/Bimap.hpp: eraseImpl, emplace, erase, at"]}
{"id": "C141", "title": "Conversions to text do not influence each other", "statement": "toStr of a value with a stringifier (also a user-written one) gives the text the stringifier writes, whatever was converted before on the thread, also after exceptions, and also when a stringifier converts parts with toStr itself. Proved for stringifiers that leave the formatting and error state of the stream as they found it and, when the target is toStr's own stream, do not call toStr for other values. Otherwise violated: error states make all later conversions empty, formatting flags stay, and a conversion inside a conversion destroys what was written before.", "quantifier": "every standard library behaviour for basic values, every stringifier (as a program on the stream with nested parts, conversions, manipulators, errors and exceptions), every history of calls", "why_tests_cant": "which stringifiers have run before, and how they nest, is unbounded; a test starts with a fresh stream", "anchors": ["include/SSVUtils/Core/String/ToStr.hpp: toStr, ToStrImpl", "include/SSVUtils/Core/String/StringifierBase.hpp: getStringifyStream, callStringifyImpl, stringify"]}
{"id": "C142", "title": "JSON read errors say what is wrong and where", "statement": "When reading a text fails with a read error, the exception's title and message name the character found and the characters of which one was expected, and the excerpt shows the surroundings of the position, with up to four characters on each side marked. The position is the right one: the text before it can be completed to a readable text, also by continuing with any of the expected characters, while no readable text continues with the character found. readFromStr logs title, message and excerpt, leaves the value as it was, and logs nothing else. Violated in corners: after a minus that begins no number the expected characters are wrong; an unfinished exponent is reported although the text can go on; the last character of the text never appears in the excerpt; when the text ends early the message is cut off.", "quantifier": "every text, every strtod that respects the end of the text and stops at commas and brackets, every layout of whitespace and comments", "why_tests_cant": "the kinds of errors can occur at every position of every text; whether a prefix can be completed quantifies over all continuations", "anchors": ["include/SSVUtils/Json/Io/Reader.hpp: throwError, getErrorSrc, match, parseArr, parseObj, parseVal", "include/SSVUtils/Json/Io/ReadException.hpp: ReadException", "include/SSVUtils/Json/Io/Io.hpp: tryParse"]}
{"id": "C143", "title": "Angles and directions with integers", "statement": "Called with integers, the angle functions give the exact value where there is one: getWrapDeg gives the angle in [0, 360) that is the same modulo 360, getDistDeg the smallest angular distance; getWrapRad, getDistRad, toRad, getRadTowards and getDegTowards give the real value up to rounding to an integer. Violated: beyond 2^53 wrapping can be off by one; getDegTowards truncates the radians, so that its only results are 0, 57, 114 and 171 and their negatives; with unsigned coordinates differences wrap around.", "quantifier": "all integer types, all values of them, all accuracies of the C library's atan2", "why_tests_cant": "the results depend on conversions of every integer to float and double and back; failing values are rare (beyond 2^53) or are whole classes of types", "anchors": ["include/SSVUtils/Core/Utils/Math.hpp: getWrapDeg, getWrapRad, getDistDeg, getDistRad, getRadTowards, getDegTowards, toRad, toDeg"]}
{"id": "C144", "title": "Errors of command lines say what is wrong", "statement": "When a command line is rejected with an exception, its title and message say what is wrong with it: the name that no command has, with the nearest name that exists; which kind of element there is a wrong number of, for which command, and how many are expected; the name and bounds of the pack that gets too few words; the flag the command does not have; the value that is no truth value. What is said is true of the words entered. Violated for packs with an upper bound of 10^18 or more, such as the largest std::size_t: composing the message is undefined.", "quantifier": "all contexts, commands, words", "why_tests_cant": "every combination of declared elements and entered words leads to one of the messages; whether it applies depends on all of them", "anchors": ["include/SSVUtils/CmdLine/Internal/Exceptions.hpp: createFlagNotFound, createCmdNotFound, createSignatureMismatch, createArgPackInfinitePositionError, createArgPackSignatureMismatch, createParsingError", "include/SSVUtils/CmdLine/Ctx.inl: findCmd, process", "include/SSVUtils/CmdLine/Ctx.hpp: getForCmdPhrase", "include/SSVUtils/CmdLine/Internal/Parser.hpp: Parser<bool>"]}
{"id": "C145", "title": "Floating-point numbers as text", "statement": "toStr writes a float or double as the decimal number with six significant digits nearest to it. An ObfuscatedValue<float> or ObfuscatedValue<double> gives back what was stored in it if and only if that is the number nearest to a decimal number with six digits; otherwise it gives back the number nearest to the decimal number written, which differs by at most one part in 100000, and reading, adding, subtracting, multiplying and dividing behave as with a plain variable into which that number is stored. sToFloat and sToDouble of such a text give the same number, except that they end the program for numbers below the normal ones.", "quantifier": "every value of the two types, every history of constructions, assignments, compound assignments and reads, every decimal numeral", "why_tests_cant": "Tests store a few short decimal numbers, which come back. Which of the 2^64 doubles survive, how far the others are off, and what happens at the ends of the range cannot be enumerated.", "anchors": ["include/SSVUtils/Core/String/ToStr.hpp: toStr", "include/SSVUtils/Core/Stringifier/Stringifier.hpp: Stringifier", "include/SSVUtils/Encoding/Inc/ObfuscatedValue.hpp: ObfuscatedValue", "include/SSVUtils/Core/Common/Casts.hpp: sToFloat, sToDouble"]}
{"id": "C146", "title": "Real numbers in JSON text", "statement": "A JSON value that contains doubles is written and read back as a value of the same structure in which each double below 2^63 is the number nearest to the decimal number with six digits that was written, as a signed integer if it is whole. It compares equal to the original if and only if every double in it is nearest to a decimal number with six digits.", "quantifier": "every JSON value with strings without quotes and backslashes, integers up to 2^53 and doubles below 2^63; both writer modes; every layout of the text", "why_tests_cant": "Tests write a few numbers such as 0.5 that survive; whether all doubles do, and what reading makes of the others, depends on rounding in both directions.", "anchors": ["include/SSVUtils/Json/Io/Reader.hpp: Reader", "include/SSVUtils/Json/Io/Writer.hpp: Writer", "include/SSVUtils/Json/Num/Num.hpp: Num", "include/SSVUtils/Core/String/ToStr.hpp: toStr"]}
{"id": "C147", "title": "Tickers and waits in floating point", "statement": "With the arithmetic of float, a running ticker ticks and a wait ends when the frame times given to updates add up to the target, up to rounding; they do so for every target if the frame times are positive; frame times and targets that are whole numbers of some unit are counted exactly; a paused ticker does not tick.", "quantifier": "every target, every frame time (including infinities and NaN), every history of calls", "why_tests_cant": "The error depends on all frame times so far; a ticker that stops advancing does so after millions of updates.", "anchors": ["include/SSVUtils/Ticker/Inc/Ticker.hpp:Ticker", "include/SSVUtils/Ticker/Src/Ticker.cpp:Ticker::update", "include/SSVUtils/Timeline/Src/Wait.cpp:Wait::update", "include/SSVUtils/Core/Common/Frametime.hpp:FT"]}
{"id": "C148", "title": "Easing with integers", "statement": "getMapEased and getEased called with integers give the eased value up to rounding: the start of the output range at the start of the input range, its end at the end, and values in between elsewhere.", "quantifier": "every family and kind of easing made of integer arithmetic, every integer type from int on, every position, range and duration", "why_tests_cant": "The functions are templates; each instance truncates at several places, and the results depend on parity and divisibility of the arguments.", "anchors": ["include/SSVUtils/Easing/Inc/Easing.hpp:Linear", "include/SSVUtils/Easing/Inc/Easing.hpp:Back", "include/SSVUtils/Easing/Inc/Easing.hpp:Cubic", "include/SSVUtils/Easing/Inc/Easing.hpp:Bounce", "include/SSVUtils/Easing/Inc/Easing.hpp:Quad", "include/SSVUtils/Easing/Inc/Easing.hpp:Quart", "include/SSVUtils/Easing/Inc/Easing.hpp:Quint", "include/SSVUtils/Easing/Inc/Easing.hpp:getMapEased"]}
{"id": "C149", "title": "Easing in floating point starts, ends and stays where it says", "statement": "With float or double values and a positive duration, an easing function gives exactly the start value at time 0 and the rounded sum of start and change at the end; between these times its results follow the order of the times and never leave the range between the two. Negating start and change negates the result, and a NaN argument gives NaN.", "quantifier": "all formats with at least two digits (float, double), the families Linear, Quad, Cubic, Quart and Quint, the kinds In, Out and InOut, all starts, changes, durations and times of the format", "why_tests_cant": "The claim is about every rounded product along the way, for each of about 2^128 argument combinations; whether rounding can make an animation step back or overshoot depends on single bits that a test with a tolerance hides.", "anchors": ["include/SSVUtils/Easing/Inc/Easing.hpp:Linear", "include/SSVUtils/Easing/Inc/Easing.hpp:Quad", "include/SSVUtils/Easing/Inc/Easing.hpp:Cubic", "include/SSVUtils/Easing/Inc/Easing.hpp:Quart", "include/SSVUtils/Easing/Inc/Easing.hpp:Quint", "include/SSVUtils/Easing/Inc/Easing.hpp:getMapEased"]}
{"id": "C150", "title": "The order of a manager's objects", "statement": "After any allowed history of creating, deleting, refreshing, reserving and clearing, iterating over a memory manager gives its visible objects in one fully determined order. New objects become visible behind the others in the order of their creation. At a refresh every surviving object whose place is below the number of survivors keeps its place; every other survivor moves to the front into the place of a deleted object, the last one first, so the relative order of survivors is not kept in general.", "quantifier": "every allowed history of calls, every refresh", "why_tests_cant": "the order depends on which objects were deleted at every earlier refresh; tests look at a few patterns", "anchors": ["include/SSVUtils/MemoryManager/Internal/ManagerImpl.hpp:refresh", "include/SSVUtils/Internal/SharedFuncs.hpp:refreshImpl", "include/SSVUtils/Internal/SharedFuncs.hpp:refreshImplLoop"]}
{"id": "C151", "title": "Refreshing or clearing a manager inside a loop over it", "statement": "A range loop over a manager goes through as many places as there were visible objects at its start and visits the object that is in each place when it arrives there, whatever the body does. It is undefined exactly if it comes to a place without an object: erasing the visited object with an immediate refresh in every round, or clearing in any round but the last, is undefined. Otherwise no object is visited twice; if nothing is deleted, creating and refreshing inside the loop is harmless; if objects are deleted and the manager refreshed, an object can be skipped although it was visible all the time and an object can be visited that is not visible yet.", "quantifier": "every allowed history, every body making any calls on the manager", "why_tests_cant": "whether a place still has an object depends on the whole history of the loop", "anchors": ["include/SSVUtils/MemoryManager/Internal/ManagerImpl.hpp:begin", "include/SSVUtils/MemoryManager/Internal/ManagerImpl.hpp:end", "include/SSVUtils/MemoryManager/Internal/ManagerImpl.hpp:refresh", "include/SSVUtils/Internal/SharedFuncs.hpp:refreshImpl"]}
{"id": "C152", "title": "References into a vector map", "statement": "A reference obtained from a vector map (the result of operator[], at or a dictionary's asStr()) stays good until a new key is inserted before it, a new key is inserted when the capacity is used up, reserve enlarges the memory, or the map is cleared; while it is good it denotes the value of its key. So m[a] = m[b] copies the value of b to a, as for a std::map, unless the key evaluated second is new and moves the value of the first; in that case it is undefined.", "quantifier": "all orders of keys, growth policies, programs of insertions, look-ups, reads and writes through references, reserves and clears; all pairs of keys", "why_tests_cant": "Whether an assignment m[a] = m[b] is safe depends on the order of the keys, on the capacity at that moment and on the order of evaluation; a test sees one history and usually reads the freed memory without noticing.", "anchors": ["include/SSVUtils/Container/Inc/VecMap.hpp:operator[]", "include/SSVUtils/Container/Inc/VecMap.hpp:at", "include/SSVUtils/Container/Inc/VecMapBase.hpp:reserve", "include/SSVUtils/TemplateSystem/Internal/Dictionary.hpp:asStr"]}
{"id": "C153", "title": "Values of a template dictionary through asStr()", "statement": "The values of a dictionary behave as a map under d[k] = v, d[k].asStr() read, assigned and appended to; reading a missing key of a dictionary that is not const adds it with an empty text, which changes what an expansion keeping unknown tags gives; reading a missing key of a const dictionary ends the program; d[k] += d adds a copy of the dictionary that has the section k already.", "quantifier": "all dictionaries, all sequences of operations, all keys and all templates with one tag", "why_tests_cant": "The effect of a read on later expansions shows only for particular combinations of missing keys and expansion modes.", "anchors": ["include/SSVUtils/TemplateSystem/Internal/Dictionary.hpp:asStr", "include/SSVUtils/TemplateSystem/Internal/Dictionary.hpp:operator=", "include/SSVUtils/TemplateSystem/Internal/Dictionary.hpp:operator+="]}
{"id": "C154", "title": "Timelines that drive other timelines", "statement": "If the actions of timelines only call (stop, start, jumpTo, reset, update) timelines below them in some order of rank, every timeline behaves as if it were alone and got the same calls in the same order: same state, same effects; each effect of an action makes its calls at once, in order, nested updates included; and if no timeline has a Go and no action moves its own timeline, every update returns. If timelines that are all running are at actions that update each other in a circle (or one updates itself), the update never returns; updating a stopped timeline does nothing.", "quantifier": "all systems of timelines, all reactions of actions, all programs of calls, all times", "why_tests_cant": "Interleavings of nested updates multiply with the number of timelines and with the places they are at; non-termination cannot be observed by a test.", "anchors": ["include/SSVUtils/Timeline/Inc/Timeline.hpp:update", "include/SSVUtils/Timeline/Src/Timeline.cpp:update", "include/SSVUtils/Timeline/Src/Do.cpp:update"]}
{"id": "C155", "title": "Timelines whose actions throw", "statement": "If an action or the predicate of a wait throws, the exception leaves update and the timeline stays at that command, running: the next update begins with it anew. So, however often that happens, the commands are completed in their order, none is skipped, completed commands are not repeated, an action left by an exception is repeated from its first effect, and the timeline finishes exactly when all are completed; without exceptions nothing differs.", "quantifier": "all timelines without jumps, all sequences of updates, every pattern of exceptions thrown by actions and predicates", "why_tests_cant": "The points at which user code may throw multiply with the updates; a test exercises a few of them.", "anchors": ["include/SSVUtils/Timeline/Src/Timeline.cpp:update", "include/SSVUtils/Timeline/Src/Do.cpp:update", "include/SSVUtils/Timeline/Inc/Wait.hpp:update"]}
{"id": "C156", "title": "Assigning one part of a JSON value to another", "statement": "A statement such as v[\"a\"][\"b\"] = v[\"c\"] copies the second part to the first and changes nothing else (a key that did not exist appears; as source it counts as null), provided that forming the second reference does not make the first invalid and that neither part contains the other. Forming a reference to a new key invalidates the references to all larger keys of that object, and if the vector of the object is full also those to everything in it. Assigning to a new key from a larger key of the same object, from any part of an object that must grow, a value to a part of itself, a part to the whole, or a string, array or object to itself is undefined behaviour.", "quantifier": "all JSON values, all pairs of paths of keys and indices, both orders of forming the references, both directions of the copy, any of the vectors full or not, with and without assertions", "why_tests_cant": "Whether the copy reads freed memory depends on the order of the keys, the capacity of every vector on the way and the order of evaluation; a test sees one combination, and reading freed memory usually still gives the right value.", "anchors": ["include/SSVUtils/Json/Val/Val.hpp:operator[]", "include/SSVUtils/Json/Val/Val.hpp:set", "include/SSVUtils/Json/Val/Val.hpp:init", "include/SSVUtils/Container/Inc/VecMap.hpp:operator[]", "include/SSVUtils/Json/Val/Internal/Cnv.hpp:Cnv"]}
{"id": "C157", "title": "Constructors that use their own manager, and constructors that throw", "statement": "The constructor of an object made by create may itself call create, del, refresh, clear and reserve on the same manager, to any depth, may delete the object it is constructing, and may throw. No such program, provided that it deletes only objects that exist or are under construction and reserves only more than the capacity, has undefined behaviour; an object takes its place when its constructor ends, so that its parts stand before it in the iteration; an object whose constructor throws is gone and leaves no trace but what its constructor did; an object deleted by its own constructor is never visited.", "quantifier": "All programs built from create (with any body, throwing or not, caught or not), del, refresh, clear and reserve, nested to any depth, on a new manager.", "why_tests_cant": "The interleavings of running constructors with growth, refresh and exceptions are unbounded in depth and length.", "anchors": ["include/SSVUtils/MemoryManager/Internal/ManagerImpl.hpp:create", "include/SSVUtils/MemoryManager/Internal/StorageImpl.hpp:create", "include/SSVUtils/MemoryManager/Internal/LayoutImpl.hpp:construct"]}
{"id": "C158", "title": "Constructors that use their recycling vector", "statement": "The constructor of an object made with create or createAt of a recycling vector may use the same vector: make further objects there at any place and depth, reset pointers, clear it, reserve memory, throw. An object gets its place when its constructor has ended: create at the end of the vector as it is then, createAt at the index asked for. No object is in the vector twice, and none whose constructor ended normally is lost. This holds always if createAt computes the position after making the object. If it computes the position first, which C++ leaves open, it holds exactly if the position survives the constructor: nothing was inserted, cleared or reserved beyond the capacity, or only insertions behind the position took place and the capacity was enough for them; otherwise the behaviour is undefined.", "quantifier": "every program of nested create, createAt, reset, clear and reserve calls with and without exceptions, both evaluation orders, every growth policy of the vector", "why_tests_cant": "the bug needs a constructor that touches its own vector, at the end or when it is full, and depends on the order in which a compiler evaluates arguments", "anchors": ["include/SSVUtils/MemoryManager/Internal/ManagerImpl.hpp:BaseRecVector", "include/SSVUtils/MemoryManager/Internal/RecyclerImpl.hpp:getCreateEmplaceAt"]}
{"id": "C159", "title": "Random engines with small states", "statement": "Engines whose state is narrower than int compute modulo 2^w although C++ promotes their operands to int: with 8-bit states every operation is defined; with 16-bit states seeding and drawing with the xor-shift output functions are defined; whatever is defined has the value of arithmetic modulo 2^w.", "quantifier": "all multipliers, increments, states, distances and pairs of engines, every width", "why_tests_cant": "Overflow depends on the value of the state and of the distance; a test sees neither the undefined behaviour (the compiler usually produces the wrapped value) nor all states.", "anchors": ["include/SSVUtils/Internal/PCG/pcg_random.hpp:engine::bump", "include/SSVUtils/Internal/PCG/pcg_random.hpp:engine::advance", "include/SSVUtils/Internal/PCG/pcg_random.hpp:rxs_m_xs_mixin"]}
{"id": "C160", "title": "Handlers that use their delegate", "statement": "A handler may call the delegate that is running it again, to any depth, and throw: each call runs exactly the functions that were there when it began, in order, until one throws, and the delegate stays usable. Functions added by a handler are kept for later calls and not run by the calls in progress, as long as they fit into the memory the vector has; otherwise, and whenever a handler clears the delegate, the behaviour is undefined.", "quantifier": "all handlers (programs that depend on everything they have seen), all numbers of functions, all depths of nesting, all capacities", "why_tests_cant": "Whether adding works depends on the number of functions already there; undefined behaviour usually goes unnoticed in a test; nesting and handlers are unbounded.", "anchors": ["include/SSVUtils/Delegate/Inc/Delegate.hpp:operator+=", "include/SSVUtils/Delegate/Inc/Delegate.hpp:operator()", "include/SSVUtils/Delegate/Inc/Delegate.hpp:clear", "include/SSVUtils/Delegate/Inc/Delegate.hpp:DelegateHelper::exec"]}
{"id": "C161", "title": "Inherited functions of extended generators", "statement": "discard(d) of an extended generator does what d calls do, exactly if none of these calls changes the table; wherever the table moves every 2^a calls, discarding 2^a or more is always wrong. The difference of two extended generators is the distance of their base engines alone: n calls apart it is n modulo the period of the base engine, and it is zero for generators with different tables. wrapped() is true once in every period of the base engine.", "quantifier": "All parameters, states, tables, distances and numbers of calls.", "why_tests_cant": "A test that discards few values or compares few draws meets no call that moves the table; the states and tables are far too many to try.", "anchors": ["include/SSVUtils/Internal/PCG/pcg_random.hpp:discard", "include/SSVUtils/Internal/PCG/pcg_random.hpp:operator-", "include/SSVUtils/Internal/PCG/pcg_random.hpp:wrapped", "include/SSVUtils/Internal/PCG/pcg_random.hpp:extended"]}
{"id": "C162", "title": "Floating-point curves start, pass the middle and end where they should", "statement": "For float and double: at time 0 every easing function of Sine, Back, Bounce, Circ, Elastic and Expo returns exactly the start value; at the end of the duration Back, Bounce, Circ, Elastic and Expo return the start value plus the change, rounded once; in the middle InOut of Back, Bounce, Expo and Circ return the start value plus half of the change, rounded once. Bounce::out never falls below 0, and after the first, second and third contact not below 3/4, 15/16 and 63/64 of the change. Circ (with the time modified first in InOut) and Expo (with a pow that does not fall) never turn back: a later time never gives a value further from the end.", "quantifier": "all start values, changes and positive durations of the format, all kinds, any pow, sin and cos with the exact cases of the C standard", "why_tests_cant": "every start, change and duration has its own rounding errors; a test with a tolerance cannot see that a curve misses its end by one unit", "anchors": ["include/SSVUtils/Easing/Inc/Easing.hpp:Back", "include/SSVUtils/Easing/Inc/Easing.hpp:Bounce", "include/SSVUtils/Easing/Inc/Easing.hpp:Circ", "include/SSVUtils/Easing/Inc/Easing.hpp:Elastic", "include/SSVUtils/Easing/Inc/Easing.hpp:Expo", "include/SSVUtils/Easing/Inc/Easing.hpp:Sine", "include/SSVUtils/Core/Utils/Math.hpp:pi"]}
{"id": "C163", "title": "Predicates with a state", "statement": "With a predicate whose answers depend on the calls before, findIf asks each element once in order up to the first one accepted, and eraseRemoveIf with a state outside of the predicate makes exactly one pass in order and removes what is accepted. If the predicate carries its state, eraseRemoveIf asks the elements behind the first one removed as if no call had been made before: a predicate true in its n-th call removes the elements n and 2n. trimLR asks the right side afresh if the predicate carries its state, and otherwise goes on in the state the left side has left; the caller's predicate is not changed in the first case.", "quantifier": "all predicates with any state, all states, all containers, all n", "why_tests_cant": "the number and the order of calls depend on the container; a test with a container shorter than 2n sees nothing", "anchors": ["include/SSVUtils/Core/Utils/Containers.hpp:eraseRemoveIf", "include/SSVUtils/Core/Utils/Containers.hpp:removeIf", "include/SSVUtils/Core/Utils/Containers.hpp:findIf", "include/SSVUtils/Core/Utils/Containers.hpp:trimLR"]}
{"id": "C164", "title": "Console formats apply to what is written next", "statement": "Text written to a console stream appears in the style and colours most recently requested for it: setColorFG, setColorBG and setStyle set the current colour or style, resetFmt returns to the defaults, and clear() changes none of them. Formats sent to one stream do not affect another, and a format string that is kept can be written later.", "quantifier": "every sequence of format calls, kept format strings, clears and texts on any number of streams", "why_tests_cant": "The result depends on the whole history of calls through a hidden global state; tests try a few sequences.", "anchors": ["include/SSVUtils/Core/ConsoleFmt/ConsoleFmt.hpp:resetFmt", "include/SSVUtils/Core/ConsoleFmt/ConsoleFmt.hpp:setStyle", "include/SSVUtils/Core/ConsoleFmt/ConsoleFmt.hpp:setColorFG", "include/SSVUtils/Core/ConsoleFmt/ConsoleFmt.hpp:setColorBG", "include/SSVUtils/Core/ConsoleFmt/ConsoleFmt.hpp:clear", "include/SSVUtils/Core/ConsoleFmt/Internal/ConsoleFmtImplUnix.hpp:getFmtStr"]}
{"id": "C165", "title": "Size of the console and rulers", "statement": "When isInfoValid() says so, getColumnCount() and getRowCount() give the current size of the console; hr() is a line as wide as the console and hr(offset, c) one that is longer or shorter by the offset.", "quantifier": "every sequence of queries, with every history of the terminal between them, every offset", "why_tests_cant": "It depends on the terminal, on what happens to it between calls and on extreme offsets.", "anchors": ["include/SSVUtils/Core/ConsoleFmt/ConsoleFmt.hpp:isInfoValid", "include/SSVUtils/Core/ConsoleFmt/ConsoleFmt.hpp:getColumnCount", "include/SSVUtils/Core/ConsoleFmt/ConsoleFmt.hpp:getRowCount", "include/SSVUtils/Core/Log/Log.hpp:hr"]}
{"id": "C166", "title": "Growing an array keeps its elements", "statement": "GrowableArray::grow keeps every element below the old capacity and adds value-initialised elements up to the new one, so that after any history of growing and writing each element has the value written last, or that of a new element. If memory runs out or a constructor throws, nothing changes. If the move assignment of element k throws, the capacity stays but elements 0 to k-1 have lost their values. A wrong old capacity is undefined behaviour, noticed in debug builds only if it exceeds the new one; with an old capacity of 2^32 or more growing never ends.", "quantifier": "every element type, capacity, content, failing constructor or assignment and history of grow and operator[]", "why_tests_cant": "Exceptions can strike at any element and the history is unbounded; arrays of 2^32 elements are out of reach of unit tests.", "anchors": ["include/SSVUtils/GrowableArray/GrowableArray.hpp: GrowableArray::grow, operator[]"]}
{"id": "C167", "title": "Function traits describe the one signature a callable has", "statement": "For every callable type it accepts (functions, function pointers, member functions, closures and other classes with one call operator, std::function, the result of std::mem_fn, and references to these with any const or volatile), FnTraits gives the return type, the number of arguments and the type of each argument of the only signature with which the object can be called. The types it accepts are exactly described: noexcept, ref-qualified and variadic callables are rejected, and so are const function pointers, but not references to them. From the traits of a member function, MemFnType<Owner> is the type of that member function again, and MemFnType gives the same type for a class, references to it and pointers to it.", "quantifier": "all types, argument lists of any length and qualifiers, and all call operators of classes", "why_tests_cant": "There are infinitely many types; the tests instantiate a few of them", "anchors": ["include/SSVUtils/Core/Utils/FnTraits.hpp:FnTraits", "include/SSVUtils/Core/Utils/FnTraits.hpp:FnTraits::MemFnType", "include/SSVUtils/Core/Utils/FnTraits.hpp:FnTraits::Arg"]}
{"id": "C168", "title": "mkArray keeps the values of its arguments", "statement": "If mkArray(args...) with arithmetic arguments compiles, the array contains the values of the arguments in order: nothing wraps around, nothing is rounded. Arguments of one type make an array of that type, others one of the largest type that occurs, at least int, whatever their order. It compiles exactly if there is an argument and all are of one type, or all are real, or all are integers and these are all unsigned, or none is larger than int, or there is a long and no unsigned long.", "quantifier": "all argument lists of any length, all types of the arguments and all their values", "why_tests_cant": "Lists of any length with any mix of types; a test shows a few mixes", "anchors": ["include/SSVUtils/Core/Common/MakeArray.hpp:mkArray"]}
