import Verif.Json.LemmasEq
import Verif.Json.Demo

/-! # Property theorems about reading, writing, accessing and comparing JSON values (C16 - C20, C22) -/

namespace Verif.Json

open Verif

variable {R : Type} {ops : RealOps R}

/-! ## C16 -/

/-- **C16 (partial: strings and keys without `"` and `\`, integers up to 2^53, reals whose text is read back
exactly).** Whatever the nesting and in both writer modes, a written value is read back as a value with the same
structure, strings, booleans and numbers (`Back`), which `==` finds equal to the original. Missing: the other strings,
integers and reals, for which the claim is false or not decided here, see below. -/
theorem C16_write_then_read_partial (laws : IntLaws ops) (pretty dbg : Bool) (v v' : Val R) (h : Back ops v v') :
    ∃ t, write ops pretty v = .ok t ∧ read ops dbg t = .ok v' ∧ valEq ops v v' = .ok true := by
  obtain ⟨t, h1, h2⟩ := write_read laws pretty dbg h
  exact ⟨t, h1, h2, back_eq laws h⟩

mutual
/-- Values that come back unchanged: signed integers up to 2^53, strings and keys without `"` and `\`, booleans,
null, arrays, and objects whose keys are in increasing order. -/
inductive Plain {R : Type} : Val R → Prop
  | nll : Plain .nll
  | bln (b : Bool) : Plain (.bln b)
  | int (n : Int) (h : n.natAbs ≤ 2 ^ 53) : Plain (.num (.intS n))
  | str (s : List Char) (h : NoSpecial s) : Plain (.str s)
  | arr (vs : List (Val R)) (h : PlainArr vs) : Plain (.arr vs)
  | obj (kvs : List (List Char × Val R)) (h : PlainObj kvs)
      (hk : kvs.Pairwise (fun x y => strLt x.1 y.1 = true)) : Plain (.obj kvs)

inductive PlainArr {R : Type} : List (Val R) → Prop
  | nil : PlainArr []
  | cons {v vs} (h : Plain v) (hs : PlainArr vs) : PlainArr (v :: vs)

inductive PlainObj {R : Type} : List (List Char × Val R) → Prop
  | nil : PlainObj []
  | cons {k v vs} (hk : NoSpecial k) (h : Plain v) (hs : PlainObj vs) : PlainObj ((k, v) :: vs)
end

mutual
theorem plain_back {v : Val R} (h : Plain v) : Back ops v v := by
  match v, h with
  | _, .nll => exact .nll
  | _, .bln b => exact .bln b
  | _, .int n h => exact .num (.intS n h)
  | _, .str s h => exact .str h
  | _, .arr vs h => exact .arr (plain_backArr h)
  | _, .obj kvs h hk => exact .obj (plain_backObj h) hk

theorem plain_backArr {v : List (Val R)} (h : PlainArr v) : BackArr ops v v := by
  match v, h with
  | _, .nil => exact .nil
  | _, .cons h hs => exact .cons (plain_back h) (plain_backArr hs)

theorem plain_backObj {v : List (List Char × Val R)} (h : PlainObj v) : BackObj ops v v := by
  match v, h with
  | _, .nil => exact .nil
  | _, .cons hk h hs => exact .cons hk (plain_back h) (plain_backObj hs)
end

/-- **C16 (partial, exact form).** Plain values come back identical. -/
theorem C16_plain_values_identical_partial (laws : IntLaws ops) (pretty dbg : Bool) (v : Val R) (h : Plain v) :
    ∃ t, write ops pretty v = .ok t ∧ read ops dbg t = .ok v := write_read laws pretty dbg (plain_back h)

/-- A nested value meeting the hypotheses, with an unsigned integer that comes back as a signed one. -/
def demoVal : Val Rat :=
  .obj [("a b".toList, .arr [.num (.intU 12), .nll, .arr [], .str "x // y".toList]), ("c".toList, .bln true),
    ("d".toList, .obj [([], .num (.intS (-4096)))])]

def demoVal' : Val Rat :=
  .obj [("a b".toList, .arr [.num (.intS 12), .nll, .arr [], .str "x // y".toList]), ("c".toList, .bln true),
    ("d".toList, .obj [([], .num (.intS (-4096)))])]

theorem demoVal_back : Back demoOps demoVal demoVal' := by
  refine .obj (.cons (by simp [NoSpecial]) (.arr (.cons (.num (.intU 12 (by omega))) (.cons .nll (.cons (.arr .nil) (.cons
    (.str (by simp [NoSpecial])) .nil))))) (.cons (by simp [NoSpecial]) (.bln true) (.cons (by simp [NoSpecial]) (.obj (.cons (by simp [NoSpecial])
    (.num (.intS _ (by decide))) .nil) (by simp)) .nil))) ?_
  simp [strLt]

example : ∃ t, write demoOps true demoVal = .ok t ∧ read demoOps true t = .ok demoVal' ∧
    valEq demoOps demoVal demoVal' = .ok true := C16_write_then_read_partial demo_laws _ _ _ _ demoVal_back

example : write demoOps false demoVal
    = .ok "{\"a b\":[12,null,[],\"x // y\"],\"c\":true,\"d\":{\"\":-4096}}".toList := by decide +kernel

/-- **C16 fails** for a string containing a quote: the writer does not escape it, and the text cannot be read. -/
theorem C16_quote_not_escaped :
    (write demoOps false (.str "a\"b".toList) = .ok "\"a\"b\"".toList) ∧
    read demoOps true "\"a\"b\"".toList = .assertFail ∧ read demoOps false "\"a\"b\"".toList = .ub := by
  decide +kernel

/-- **C16 fails** for a string containing a backslash: it comes back as another string. -/
theorem C16_backslash_not_escaped :
    (write demoOps false (.str "C:\\new".toList) = .ok "\"C:\\new\"".toList) ∧
    read demoOps true "\"C:\\new\"".toList = .ok (.str "C:\new".toList) ∧
    valEq demoOps (.str "C:\\new".toList) (.str "C:\new".toList) = .ok false := by
  decide +kernel

/-- **C16 fails** for integers beyond 2^53: all numbers are read as `double` (here rounded to 53 bits). -/
theorem C16_large_integer_changes :
    (write demoOps false (.num (.intS 9007199254740993)) = .ok "9007199254740993".toList) ∧
    read demoOps true "9007199254740993".toList = .ok (.num (.intS 9007199254740992)) := by
  decide +kernel

/-- **C16 fails** for the largest `long` values: the number cannot be written (see C37). -/
theorem C16_longest_integer_not_written : write ops false (.num (.intS (-9223372036854775808))) = .ub := by
  simp only [write, writeVal, numText]
  have : IntStr.toStr .long (List.replicate 18 ' ') (-9223372036854775808) = .ub := by decide +kernel
  rw [this]; rfl

/-! ## C17 -/

/-- **C17 (partial: strings not ending in an escaped backslash; a bare number is followed by nothing).** If a document
`d` stands for the value `v`, every text obtained from its compact text by adding whitespace and `//` comments
between tokens is read as `v`; the text inside string literals is taken as it is. Missing: literals ending in an
escaped backslash and a number as whole document with something around it, for which the claim is false, see below. -/
theorem C17_layout_does_not_matter_partial (d : Doc) (v : Val R) (h : Denotes ops d v) (s : List Char)
    (hl : Layout d.render s) (hn : d.IsNum → s = d.render) (dbg : Bool) : read ops dbg s = .ok v := by
  refine read_denotes h hl ?_ dbg
  intro hd
  rw [hn hd, List.drop_length]
  intro c hc
  simp at hc

/-- Two layouts of one document are read alike. -/
theorem C17_layouts_agree_partial (d : Doc) (v : Val R) (h : Denotes ops d v) (hn : ¬ d.IsNum) (s t : List Char)
    (hs : Layout d.render s) (ht : Layout d.render t) (dbg : Bool) : read ops dbg s = read ops dbg t := by
  rw [C17_layout_does_not_matter_partial d v h s hs (fun h => absurd h hn),
    C17_layout_does_not_matter_partial d v h t ht (fun h => absurd h hn)]

def demoDoc : Doc :=
  .obj [([.plain 'k', .plain ' '], .arr [.nul, .str [.plain ' ', .esc 'n', .plain '/', .plain '/']]), ([], .bln false)]

theorem demoDoc_denotes : Denotes ops demoDoc
    (.obj [([], .bln false), ("k ".toList, .arr [.nll, .str " \n//".toList])]) := by
  refine .obj (.cons (.plain (by decide) (by decide) (.plain (by decide) (by decide) .nil)) (by simp [NoBackslashEnd])
    (.arr (.cons .nul (.cons (.str (.plain (by decide) (by decide) (.esc (m := '\n') (by decide) (.plain (by decide)
    (by decide) (.plain (by decide) (by decide) .nil)))) (by simp [NoBackslashEnd])) .nil))) ?_)
  have : put (put [] "k ".toList (.arr [.nll, .str " \n//".toList])) [] (.bln false)
      = [([], .bln false), ("k ".toList, (.arr [.nll, .str " \n//".toList] : Val R))] := by simp [put, strLt]
  exact this ▸ .cons .nil (by simp [NoBackslashEnd]) (.bln false) .nil

example : demoDoc.render = "{\"k \":[null,\" \\n//\"],\"\":false}".toList := by decide +kernel

theorem demoDoc_layout : Layout demoDoc.render " {// \"c\n\"k \" :[null,\" \\n//\"],\n\"\":false}".toList := by
  have e : demoDoc.render = '{' :: '"' :: "k ".toList ++ '"' :: ':' :: '[' :: 'n' :: 'u' :: 'l' :: 'l' :: ',' ::
      '"' :: " \\n//".toList ++ '"' :: ']' :: ',' :: '"' :: [] ++ '"' :: ':' :: 'f' :: 'a' :: 'l' :: 's' :: 'e' :: '}'
      :: [] := by decide +kernel
  rw [e]
  refine .ws (by decide) (.chr (by decide) (by decide) (by decide) (.comment " \"c".toList (by decide)
    (.lit (body := "k ".toList) (by simp [StrBody]) (.ws (by decide) ?_))))
  iterate 7 refine .chr (by decide) (by decide) (by decide) ?_
  refine .lit (body := " \\n//".toList) (by simp [StrBody]) ?_
  iterate 2 refine .chr (by decide) (by decide) (by decide) ?_
  refine .ws (by decide) (.lit (body := []) (by simp [StrBody]) ?_)
  iterate 7 refine .chr (by decide) (by decide) (by decide) ?_
  exact .nil

example : read demoOps true " {// \"c\n\"k \" :[null,\" \\n//\"],\n\"\":false}".toList
    = .ok (.obj [([], .bln false), ("k ".toList, .arr [.nll, .str " \n//".toList])]) :=
  C17_layout_does_not_matter_partial _ _ demoDoc_denotes _ demoDoc_layout (by intro h; cases h) _

example : read demoOps true "{\"b\": [1, -2.5e1 , true], // comment\n \"a\":\"x\\ny z\", \"b\":null}".toList
    = .ok (.obj [("a".toList, .str "x\ny z".toList), ("b".toList, .nll)]) := by decide +kernel

/-- **C17 fails** for a number as whole document: the purged text is not shortened, so the digits left over from the
original text are read too. -/
theorem C17_leading_space_changes_number :
    read demoOps true "12".toList = .ok (.num (.intS 12)) ∧
    read demoOps true " 12".toList = .ok (.num (.intS 122)) := by decide +kernel

/-! ## C18 -/

/-- **C18 (termination).** Reading any text terminates, in both build modes. -/
theorem C18_always_terminates (dbg : Bool) (s : List Char) : read ops dbg s ≠ .diverge := by
  have := read_terminates (ops := ops) dbg s
  intro h; rw [h] at this; exact this

/-- **C18 (partial: texts without whitespace and comments outside strings (`purge` leaves them alone), not empty, numbers
within `long`, and, in a build without assertions, every string literal closed and with known escapes only).** Reading
such a text, well formed or not, gives a value, a read error or (only in a build with assertions) a failed assertion;
it never reads outside the source. Missing: the other texts, for which the claim is false, see below. -/
theorem C18_no_out_of_range_access_partial (dbg : Bool) (s : List Char) (hne : s ≠ []) (hp : purge dbg s = .ok s)
    (hb : dbg = true ∨ Balanced s) (hc : NumbersOk ops s) :
    (∃ v, read ops dbg s = .ok v) ∨ read ops dbg s = .throw ∨ (dbg = true ∧ read ops dbg s = .assertFail) := by
  have := read_safe (ops := ops) dbg s hne hp hb hc
  cases hr : read ops dbg s with
  | ok v => exact .inl ⟨v, rfl⟩
  | throw => exact .inr (.inl rfl)
  | assertFail => rw [hr] at this; exact .inr (.inr ⟨this trivial, rfl⟩)
  | ub => rw [hr] at this; exact absurd this (by simp [Meets])
  | diverge => rw [hr] at this; exact absurd this (by simp [Meets])

/-- Decides `NumbersOk` for a concrete text. -/
theorem numbersOk_of_drops {s : List Char} (h : ∀ i, i < s.length + 1 →
    (ops.toInt (ops.strtod (s.drop i)).1).isSome ∧ '"' ∉ (s.drop i).take (ops.strtod (s.drop i)).2 ∧
    ∀ c ∈ (s.drop i).head?, 128 ≤ c.toNat → (ops.isdigitHigh c).isSome) : NumbersOk ops s := by
  intro t ht
  have := h (s.length - t.length) (by omega)
  rwa [← List.suffix_iff_eq_drop.1 ht] at this

/-- A malformed text meeting the hypotheses: the object is not closed by the right bracket. -/
example : (∃ v, read demoOps false "{\"a\\n\":[1,-2.5],\"b\":{}]".toList = .ok v) ∨
    read demoOps false "{\"a\\n\":[1,-2.5],\"b\":{}]".toList = .throw ∨
    (false = true ∧ read demoOps false "{\"a\\n\":[1,-2.5],\"b\":{}]".toList = .assertFail) := by
  refine C18_no_out_of_range_access_partial false _ (by decide) (by decide +kernel) (.inr ?_)
    (numbersOk_of_drops (by decide +kernel))
  simp [Balanced, BalancedIn, escMeaning]

example : read demoOps false "{\"a\\n\":[1,-2.5],\"b\":{}]".toList = .throw := by decide +kernel

/-- **C18 fails** for an unterminated string or comment: the purge runs past the end of the text. -/
theorem C18_unterminated_string_or_comment :
    read demoOps false "\"a".toList = .ub ∧ read demoOps false "1 // a".toList = .ub ∧
    read demoOps true "\"a".toList = .assertFail := by decide +kernel

/-- **C18 fails** for an empty or blank text: the read error is raised with an inverted range. -/
theorem C18_empty_text : read demoOps false [] = .ub ∧ read demoOps false " \n ".toList = .ub := by decide +kernel

/-- **C18 fails** after leading whitespace: the parser goes on into what the purge left over, and building the error
message uses an inverted range. -/
theorem C18_left_over_text : read demoOps true "      [[[[[[ ".toList = .ub := by decide +kernel

/-- **C18 fails** for large numbers: the conversion of the `double` to `long` is undefined. -/
theorem C18_large_number : read demoOps true "1e30".toList = .ub := by decide +kernel

/-- **C18 fails** for a character outside ASCII where a value should begin, unless the C library defines `isdigit` for negative
`char`s: 'é' in UTF-8. -/
theorem C18_not_ascii (h : ops.isdigitHigh (Char.ofNat 195) = none) (dbg : Bool) :
    read ops dbg [Char.ofNat 195, Char.ofNat 169] = .ub := by
  have h1 : purge dbg [Char.ofNat 195, Char.ofNat 169] = .ok [Char.ofNat 195, Char.ofNat 169] := by cases dbg <;> rfl
  have h2 : isNumStart ops (Char.ofNat 195) = .ub := by simp [isNumStart, h]
  have h3 : ∀ x, parseVal ops x (6 + 1) (Char.ofNat 195 :: [Char.ofNat 169]) = .ub := by
    intro x
    rw [parseVal_cons, if_neg (by decide), if_neg (by decide), if_neg (by decide), if_neg (by decide), if_neg (by decide),
      if_neg (by decide), h2]
    rfl
  rw [read, h1]
  exact congrArg (fun o => o >>= fun p => .ok p.1) (h3 _)

/-- **C18 fails** for unknown escapes in a build without assertions. -/
theorem C18_unknown_escape : read demoOps false "\"\\u0041\"".toList = .ub := by decide +kernel

/-- The reader accepts texts that are no JSON documents: a lone minus sign and anything after the value. -/
theorem C18_accepts_garbage :
    read demoOps true "-".toList = .ok (.num (.intS 0)) ∧ read demoOps true "null]]x".toList = .ok .nll := by
  decide +kernel

/-- Reading into an existing value: on a read error the value keeps its old content. -/
theorem C18_error_keeps_value (dbg : Bool) (old v : Val R) (b : Bool) (s : List Char)
    (h : readFromStr ops dbg old s = .ok (b, v)) :
    (b = true ∧ read ops dbg s = .ok v) ∨ (b = false ∧ read ops dbg s = .throw ∧ v = old) := by
  unfold readFromStr at h
  cases hr : read ops dbg s with
  | ok w => rw [hr] at h; cases h; exact .inl ⟨rfl, rfl⟩
  | throw => rw [hr] at h; cases h; exact .inr ⟨rfl, rfl, rfl⟩
  | assertFail => rw [hr] at h; cases h
  | ub => rw [hr] at h; cases h
  | diverge => rw [hr] at h; cases h

example : readFromStr demoOps true (.bln true) "[1}".toList = .ok (false, .bln true) := by decide +kernel

/-! ## C19 -/

/-- **C19 (partial: literals not ending in an escaped backslash).** A string literal is read as the text in which every
escape sequence is replaced by the character it denotes. Missing: literals ending in an escaped backslash and `\u`
escapes, for which the claim is false, see below. -/
theorem C19_literal_is_decoded_partial (is : List Item) (t : List Char) (h : DenotesStr is t)
    (he : NoBackslashEnd is) (dbg : Bool) : read ops dbg (litText is) = .ok (.str t) :=
  read_denotes (d := .str is) (.str h he) (layout_lit h he) (by intro h; cases h) dbg

/-- **C19 (partial, end of the literal).** The literal ends at its first unescaped quote: in an array of literals each one
is decoded by itself, whatever characters, escaped quotes and commas it contains. -/
theorem C19_literals_are_separated_partial (lits : List (List Item × List Char))
    (h : ∀ p ∈ lits, DenotesStr p.1 p.2 ∧ NoBackslashEnd p.1) (dbg : Bool) :
    read ops dbg (Doc.arr (lits.map fun p => .str p.1)).render = .ok (.arr (lits.map fun p => .str p.2)) := by
  have hd : Denotes ops (Doc.arr (lits.map fun p => .str p.1)) (.arr (lits.map fun p => .str p.2)) := by
    refine .arr ?_
    induction lits with
    | nil => exact .nil
    | cons p lits ih =>
      have hp := h p List.mem_cons_self
      exact .cons (.str hp.1 hp.2) (ih fun q hq => h q (List.mem_cons_of_mem _ hq))
  exact read_denotes hd (layout_self hd) (by intro h; cases h) dbg

/-- The scanner proper (after the purge) ends every literal at the first unescaped quote, whatever follows. -/
theorem C19_scanner_stops_at_quote (x : Ctx) (is : List Item) (t rest : List Char) (h : DenotesStr is t) :
    readStr x (litText is ++ rest) = .ok (t, rest) := readStr_lit x h rest

example : read demoOps true "\"a\\\"b\\\\c\\n, \\/\"".toList = .ok (.str "a\"b\\c\n, /".toList) :=
  C19_literal_is_decoded_partial [.plain 'a', .esc '"', .plain 'b', .esc '\\', .plain 'c', .esc 'n', .plain ',',
    .plain ' ', .esc '/'] _
    (.plain (by decide) (by decide) (.esc (m := '"') (by decide) (.plain (by decide) (by decide) (.esc (m := '\\')
      (by decide) (.plain (by decide) (by decide) (.esc (m := '\n') (by decide) (.plain (by decide) (by decide)
      (.plain (by decide) (by decide) (.esc (m := '/') (by decide) .nil))))))))) (by simp [NoBackslashEnd]) _

/-- **C19 fails** for a literal ending in an escaped backslash: the purge takes the closing quote for an escaped one. -/
theorem C19_trailing_backslash :
    DenotesStr [.plain 'a', .esc '\\'] "a\\".toList ∧ read demoOps true (litText [.plain 'a', .esc '\\']) = .assertFail ∧
    read demoOps false (litText [.plain 'a', .esc '\\']) = .ub :=
  ⟨.plain (by decide) (by decide) (.esc (m := '\\') (by decide) .nil), by decide +kernel, by decide +kernel⟩

/-- **C19 fails** for `\uXXXX` escapes: they are rejected by an assertion. -/
theorem C19_unicode_escape : read demoOps true "\"\\u0041\"".toList = .assertFail := by decide +kernel

/-! ## C20 -/

/-- The value of the last pair with the given key. -/
def lastOf (k : List Char) (kvs : List (List Char × Val R)) : Option (Val R) :=
  (kvs.reverse.find? (fun p => p.1 == k)).map (·.2)

/-- The order of keys is the lexicographic order of their characters. -/
theorem C20_key_order (a b : List Char) : strLt a b = true ↔ List.Lex (fun c d => c.toNat < d.toNat) a b :=
  strLt_lex a b

/-- The keys of the object `v` are strictly increasing in iteration order. -/
def KeysIncreasing (v : Val R) : Prop := ∃ kvs, v = .obj kvs ∧ kvs.Pairwise (fun x y => strLt x.1 y.1 = true)

/-- **C20 (set then get).** On an object (with increasing keys, as all objects are, see below) `v[key] = x` succeeds;
afterwards `v[key]` is `x`, every other key gives what it gave before, `has` agrees, and iteration is in key order. -/
theorem C20_set_then_get (dbg : Bool) (v : Val R) (hv : KeysIncreasing v) (k : List Char) (x : Val R) :
    ∃ v', setKey dbg v k x = .ok v' ∧ KeysIncreasing v' ∧ getKey dbg v' k = .ok x ∧ hasKey dbg v' k = .ok true ∧
      ∀ k', k' ≠ k → getKey dbg v' k' = getKey dbg v k' ∧ hasKey dbg v' k' = hasKey dbg v k' := by
  obtain ⟨kvs, rfl, hk⟩ := hv
  refine ⟨.obj (put kvs k x), ?_, ⟨_, rfl, put_increasing hk k x⟩, ?_, ?_, ?_⟩
  · simp [setKey, getObj, setIndex_eq_put _ hk]
  · rw [getKey_map dbg (put_increasing hk k x), put_toMap hk, if_pos rfl]; rfl
  · rw [hasKey_map dbg (put_increasing hk k x), put_toMap hk, if_pos rfl]; rfl
  · intro k' hk'
    rw [getKey_map dbg (put_increasing hk k x), hasKey_map dbg (put_increasing hk k x), put_toMap hk, if_neg hk',
      getKey_map dbg hk, hasKey_map dbg hk]
    exact ⟨rfl, rfl⟩

/-- **C20 (histories).** Building an object by any sequence of writes (`mkObj`, or `Obj{}` and then `v[k] = x` one after
the other): each key has the value last written, an unwritten one gives null, and iteration is in strictly
increasing key order over exactly the keys written. -/
theorem C20_sequence_of_writes (dbg : Bool) (kvs : List (List Char × Val R)) :
    ∃ v, mkObj kvs = .ok v ∧ KeysIncreasing v ∧
      ∀ k, getKey dbg v k = .ok ((lastOf k kvs).getD .nll) ∧ hasKey dbg v k = .ok (lastOf k kvs).isSome ∧
        ∀ x, (k, x) ∈ forObj v ↔ lastOf k kvs = some x := by
  refine ⟨_, mkObj_puts kvs, ⟨_, rfl, puts_increasing List.Pairwise.nil kvs⟩, ?_⟩
  intro k
  have hm : Container.toMap (puts [] kvs) k = lastOf k kvs := by
    rw [puts_toMap List.Pairwise.nil]; simp [lastOf, Container.toMap]
  refine ⟨?_, ?_, ?_⟩
  · rw [getKey_map dbg (puts_increasing List.Pairwise.nil kvs), hm]
  · rw [hasKey_map dbg (puts_increasing List.Pairwise.nil kvs), hm]
  · intro x
    rw [← hm, Container.mem_toMap strLt_strictTotal (puts_increasing List.Pairwise.nil kvs)]
    rfl

/-- Reading a key of a non-const object gives its value, or null after having inserted it; other keys are unchanged. -/
theorem C20_mutable_read (dbg : Bool) (v : Val R) (hv : KeysIncreasing v) (k : List Char) :
    ∃ v' x, getKeyMut dbg v k = .ok (v', x) ∧ getKey dbg v k = .ok x ∧ KeysIncreasing v' ∧
      hasKey dbg v' k = .ok true ∧ (∀ k', getKey dbg v' k' = getKey dbg v k') := by
  obtain ⟨kvs, rfl, hk⟩ := hv
  obtain ⟨d', h1, h2, h3⟩ := Container.getIndex_spec strLt_strictTotal (Val.nll (R := R)) hk k
  refine ⟨.obj d', (Container.toMap kvs k).getD .nll, ?_, getKey_map dbg hk k, ⟨_, rfl, h2⟩, ?_, ?_⟩
  · simp [getKeyMut, getObj, h1]
  · rw [hasKey_map dbg h2, h3, if_pos rfl]; rfl
  · intro k'
    rw [getKey_map dbg h2, getKey_map dbg hk, h3]
    by_cases e : k' = k
    · subst e; rw [if_pos rfl]; rfl
    · rw [if_neg e]

/-- **C20 (objects read from any text have increasing keys).** Whatever the text, every object anywhere inside the value
read iterates in strictly increasing key order; in particular no key occurs twice. -/
theorem C20_read_objects_sorted (dbg : Bool) (s : List Char) (v : Val R) (h : read ops dbg s = .ok v) : Sorted v :=
  read_sorted h

/-- **C20 (duplicate keys, partial: string literals as in C19).** Reading any layout of an object gives for each key the
value of the last member with that key. Missing: literals ending in an escaped backslash, see C19. -/
theorem C20_last_duplicate_wins_partial (ps : List ((List Item × Doc) × (List Char × Val R)))
    (h : ∀ p ∈ ps, DenotesStr p.1.1 p.2.1 ∧ NoBackslashEnd p.1.1 ∧ Denotes ops p.1.2 p.2.2) (s : List Char)
    (hl : Layout (Doc.obj (ps.map (·.1))).render s) (dbg : Bool) :
    ∃ v, read ops dbg s = .ok v ∧ KeysIncreasing v ∧
      ∀ k, getKey dbg v k = .ok ((lastOf k (ps.map (·.2))).getD .nll) ∧
        hasKey dbg v k = .ok (lastOf k (ps.map (·.2))).isSome := by
  obtain ⟨v, h1, h2, h3⟩ := C20_sequence_of_writes dbg (ps.map (·.2))
  refine ⟨v, ?_, h2, fun k => ⟨(h3 k).1, (h3 k).2.1⟩⟩
  rw [mkObj_puts] at h1
  cases h1
  refine read_denotes (d := .obj (ps.map (·.1))) (.obj ?_) hl (by intro h; cases h) dbg
  clear h2 h3 hl
  generalize ([] : List (List Char × Val R)) = m
  induction ps generalizing m with
  | nil => exact .nil
  | cons p ps ih =>
    have hp := h p List.mem_cons_self
    exact .cons hp.1 hp.2.1 hp.2.2 (ih (fun q hq => h q (List.mem_cons_of_mem _ hq)) _)

example : ∃ v, mkObj (R := Rat) [("b".toList, .bln true), ("a".toList, .nll), ("b".toList, .str [])] = .ok v ∧
    v = .obj [("a".toList, .nll), ("b".toList, .str [])] ∧ getKey true v "b".toList = .ok (.str []) ∧
    getKey true v "z".toList = .ok .nll :=
  ⟨.obj [("a".toList, .nll), ("b".toList, .str [])], by decide +kernel⟩

example : Sorted (R := Rat) (.arr [.obj [("a".toList, .nll), ("b".toList, .obj [("".toList, .nll)])]]) :=
  C20_read_objects_sorted (ops := demoOps) true "[{\"b\":{\"\":null},\"a\":null}]".toList _ (by decide +kernel)

/-! ## C22 -/

/-- The integer numbers (signed or unsigned). -/
def IsInt : Num R → Prop
  | .intS n => -(2 ^ 63) ≤ n ∧ n < 2 ^ 63
  | .intU n => n < 2 ^ 64
  | .real _ => False

/-- The integer of a number, modulo 2^64. -/
def intOf : Num R → Int
  | .intS n => n % 2 ^ 64
  | .intU n => (n : Int) % 2 ^ 64
  | .real _ => 0

theorem numEq_int (n m : Num R) (hn : IsInt n) (hm : IsInt m) :
    ∃ b, numEq ops n m = .ok b ∧ (b = true ↔ intOf n = intOf m) := by
  cases n with
  | real r => exact absurd hn (by simp [IsInt])
  | intS n =>
    cases m with
    | real r => exact absurd hm (by simp [IsInt])
    | intS m =>
      refine ⟨n == m, by simp [numEq, getIntS], ?_⟩
      simp only [IsInt] at hn hm
      simp only [intOf, beq_iff_eq]; omega
    | intU m =>
      refine ⟨n == toS m, by simp [numEq, getIntS], ?_⟩
      simp only [IsInt] at hn hm
      simp only [intOf, beq_iff_eq, toS]
      split <;> omega
  | intU n =>
    cases m with
    | real r => exact absurd hm (by simp [IsInt])
    | intS m =>
      refine ⟨n == toU m, by simp [numEq, getIntU], ?_⟩
      simp only [IsInt] at hn hm
      simp only [intOf, beq_iff_eq, toU]; omega
    | intU m =>
      refine ⟨n == m, by simp [numEq, getIntU], ?_⟩
      simp only [IsInt] at hn hm
      simp only [intOf, beq_iff_eq]; omega

/-- **C22 (partial: values whose numbers are integers).** On such values `==` is defined, reflexive (so a copy is equal),
symmetric and transitive; it holds exactly if structure, keys, strings and booleans agree and the integers agree modulo
2^64. Missing: values mixing integers and reals, for which the claim is false, and NaN, see below. -/
theorem C22_equivalence_integers_partial :
    (∀ v : Val R, AllNums IsInt v → valEq ops v v = .ok true) ∧
    (∀ v w : Val R, AllNums IsInt v → AllNums IsInt w →
      valEq ops v w = valEq ops w v ∧
      ∃ b, valEq ops v w = .ok b ∧ (b = true ↔ Same (fun n m => intOf n = intOf m) v w)) ∧
    (∀ u v w : Val R, AllNums IsInt u → AllNums IsInt v → AllNums IsInt w →
      valEq ops u v = .ok true → valEq ops v w = .ok true → valEq ops u w = .ok true) := by
  exact equivalence_of_num (ops := ops) (p := IsInt) (e := fun n m => intOf n = intOf m)
    (fun n m => numEq_int n m) (fun _ _ => rfl) (fun _ _ h => h.symm) (fun _ _ _ h h' => h.trans h')

/-- A real number for which `==` is reflexive (not a NaN). -/
def IsReal (ops : RealOps R) : Num R → Prop
  | .real r => ops.eq r r = true
  | _ => False

/-- **C22 (partial: values whose numbers are reals, no NaN).** If `==` of `double` is symmetric and transitive, `==` is an
equivalence on values whose numbers are all reals. -/
theorem C22_equivalence_reals_partial (hs : ∀ a b, ops.eq a b = ops.eq b a)
    (ht : ∀ a b c, ops.eq a b = true → ops.eq b c = true → ops.eq a c = true) :
    (∀ v : Val R, AllNums (IsReal ops) v → valEq ops v v = .ok true) ∧
    (∀ v w : Val R, AllNums (IsReal ops) v → AllNums (IsReal ops) w →
      valEq ops v w = valEq ops w v ∧
      ∃ b, valEq ops v w = .ok b ∧ (b = true ↔ Same (fun n m => ops.eq (getReal ops n) (getReal ops m) = true) v w)) ∧
    (∀ u v w : Val R, AllNums (IsReal ops) u → AllNums (IsReal ops) v → AllNums (IsReal ops) w →
      valEq ops u v = .ok true → valEq ops v w = .ok true → valEq ops u w = .ok true) := by
  refine equivalence_of_num (ops := ops) (p := IsReal ops)
    (e := fun n m => ops.eq (getReal ops n) (getReal ops m) = true) ?_ ?_ ?_ ?_
  · intro n m hn hm
    cases n with
    | real r => exact ⟨_, rfl, Iff.rfl⟩
    | intS _ => exact absurd hn (by simp [IsReal])
    | intU _ => exact absurd hn (by simp [IsReal])
  · intro n hn
    cases n with
    | real r => exact hn
    | intS _ => exact absurd hn (by simp [IsReal])
    | intU _ => exact absurd hn (by simp [IsReal])
  · intro n m h; rw [hs]; exact h
  · intro a b c h h'; exact ht _ _ _ h h'

/-- Values without numbers: `==` is equality. -/
theorem C22_no_numbers (v w : Val R) (hv : AllNums (fun _ => False) v) (hw : AllNums (fun _ => False) w) :
    ∃ b, valEq ops v w = .ok b ∧ (b = true ↔ v = w) := by
  obtain ⟨b, h1, h2⟩ := valEq_iff (ops := ops) (p := fun _ => False) (e := fun _ _ => False)
    (fun _ _ h => h.elim) hv hw
  refine ⟨b, h1, h2.trans ⟨same_eq, ?_⟩⟩
  rintro rfl
  exact Same.refl (p := fun _ => False) (fun _ h => h.elim) hv

example : AllNums (R := Rat) IsInt (.obj [("a".toList, .arr [.num (.intS (-1)), .num (.intU 5), .nll])]) :=
  .obj (.cons (.arr (.cons (.num (by simp [IsInt])) (.cons (.num (by simp [IsInt])) (.cons .nll .nil)))) .nil)

example : valEq demoOps (.arr [.num (.intS (-1)), .str []]) (.arr [.num (.intU 18446744073709551615), .str []])
    = .ok true := by decide +kernel

/-- **C22 fails** (symmetry): the right-hand side is converted to the representation of the left-hand side. -/
theorem C22_not_symmetric :
    valEq demoOps (.num (.intS 1)) (.num (.real (3 / 2))) = .ok true ∧
    valEq demoOps (.num (.real (3 / 2))) (.num (.intS 1)) = .ok false := by decide +kernel

/-- **C22 fails** (transitivity): two different integers equal to the same real. -/
theorem C22_not_transitive :
    valEq demoOps (.num (.intS 9007199254740992)) (.num (.real 9007199254740992)) = .ok true ∧
    valEq demoOps (.num (.real 9007199254740992)) (.num (.intS 9007199254740993)) = .ok true ∧
    valEq demoOps (.num (.intS 9007199254740992)) (.num (.intS 9007199254740993)) = .ok false := by decide +kernel

/-- **C22 fails** (definedness): comparing an integer with a real beyond the range of `long` is undefined. -/
theorem C22_undefined : valEq demoOps (.num (.intS 1)) (.num (.real (10 ^ 30))) = .ub := by decide +kernel

/-- **C22 fails** (reflexivity) if the number is a NaN. -/
theorem C22_not_reflexive (r : R) (hr : ops.eq r r = false) : valEq ops (.num (.real r)) (.num (.real r)) = .ok false := by
  simp [valEq, numEq, getReal, hr]

end Verif.Json
