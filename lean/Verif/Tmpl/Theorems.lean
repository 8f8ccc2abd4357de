import Verif.Tmpl.LemmasFuel

/-!
# Templates: C55, C56, C57

`getExpanded dbg set d fuel src` is the result of `d.getExpanded(src, set)`; `diverge` means that it has not returned within `fuel`
steps. `C56_fuel` shows that a result does not depend on `fuel`.
-/

namespace Verif.Tmpl

open Verif Spec

/-- A result with some fuel is the result with more. -/
theorem C56_fuel (dbg : Bool) (set : Settings) (d : Dict) (src : Str) (f g : Nat) (h : f ≤ g) (hr : getExpanded dbg set d f src ≠ .diverge) :
    getExpanded dbg set d g src = getExpanded dbg set d f src := getExpanded_mono dbg set d src h hr

/-! ## C55 -/

/-- The text of a well-formed template expands to the meaning of the template.

Partial: the result must not end in `{` (`C55_trailing_brace_witness`); the keys of sections must not have the keys of sections around
them as prefixes (`C55_prefix_witness`); sections that are not in the dictionary have no meaning under `onlyCnt`
(`C55_only_contents_witness`). -/
theorem C55_expansion_partial (dbg : Bool) (set : Settings) (val : Str → Tmpl) (d : Dict) (t : Tmpl) (out : Str) (hw : Wf t) (hv : ValuesAre val d)
    (hm : Means set d val [d] false t out) (hl : out.getLast? ≠ some '{') :
    ∃ n, ∀ fuel, n ≤ fuel → getExpanded dbg set d fuel (source t) = .ok out := getExpanded_means hw hv hm hl

/-- If the values are texts without tags, every well-formed template has a meaning. -/
theorem C55_meaning_exists (set : Settings) (hs : set ≠ .onlyCnt) (d : Dict) (t : Tmpl) : ∃ out, Means set d plainText [d] false t out :=
  means_total hs t [d] false

/-- ... and no more than one. -/
theorem C55_meaning_unique (set : Settings) (val : Str → Tmpl) (d : Dict) (t : Tmpl) (o p : Str) (ho : Means set d val [d] false t o)
    (hp : Means set d val [d] false t p) : o = p := means_unique ho hp

/-- With values that are texts without tags the expansion of a well-formed template always succeeds, if it does not end in `{`. -/
theorem C55_plain_partial (dbg : Bool) (set : Settings) (hs : set ≠ .onlyCnt) (d : Dict) (t : Tmpl) (hw : Wf t) (hv : AllValues (fun _ v => TextOk v) d) :
    ∃ out, Means set d plainText [d] false t out ∧ (out.getLast? ≠ some '{' → ∃ n, ∀ fuel, n ≤ fuel → getExpanded dbg set d fuel (source t) = .ok out) := by
  obtain ⟨o, ho⟩ := C55_meaning_exists set hs d t
  exact ⟨o, ho, fun hl => C55_expansion_partial dbg set plainText d t o hw (plain_valWf hv) ho hl⟩

/-- One tag. -/
theorem C55_key_partial (dbg : Bool) (set : Settings) (d : Dict) (a k v b : Str) (ha : TextOk a) (hb : TextOk b) (hk : '{' ∉ k ∧ '}' ∉ k)
    (hk' : k.head? ≠ some '#' ∧ k.head? ≠ some '*' ∧ k.head? ≠ some '/') (hd : AllValues (fun _ v => TextOk v) d) (hv : d.repls.lookup k = some v) :
    ∃ n, ∀ fuel, n ≤ fuel → getExpanded dbg set d fuel (a ++ ['{', '{'] ++ k ++ ['}', '}'] ++ b) = .ok (a ++ v ++ b) := by
  have hm : Means set d plainText [d] false (.text a (.key k (.text b .nil))) (a ++ ((v ++ []) ++ (b ++ []))) :=
    .text (.key (.here hv) (.text .nil) (.text .nil))
  have hvk : TextOk v := hd d (.refl d) k v hv
  have hl : (a ++ ((v ++ []) ++ (b ++ []))).getLast? ≠ some '{' := by
    have last : ∀ (p s : Str), p.getLast? ≠ some '{' → TextOk s → (p ++ s).getLast? ≠ some '{' := by
      intro p s hp hs
      rw [List.getLast?_append]
      cases hsl : s.getLast? with
      | none => simpa using hp
      | some c => have := hs.2.2.1; rw [hsl] at this; simpa using this
    simp only [List.append_nil, ← List.append_assoc]
    exact last _ _ (last _ _ ha.2.2.1 hvk) hb
  have h := C55_expansion_partial dbg set plainText d (.text a (.key k (.text b .nil))) _ ⟨ha, hk, hk', hb, trivial⟩ (plain_valWf hd) hm hl
  simpa [source] using h

/-- A section: its contents once for each of its dictionaries, in order, each in its dictionary, with the separator text after each but
the last. Here the contents are a tag between texts. -/
theorem C55_section_partial (dbg : Bool) (set : Settings) (d : Dict) (s k a b sp : Str) (es : List Dict) (vs : List Str)
    (hs : '{' ∉ s ∧ '}' ∉ s) (ha : TextOk a) (ha' : a.head? ≠ some '}') (hb : TextOk b) (hsp : TextOk sp) (hsp' : '}' ∉ sp) (hk : '{' ∉ k ∧ '}' ∉ k)
    (hk' : k.head? ≠ some '#' ∧ k.head? ≠ some '*' ∧ k.head? ≠ some '/') (hd : AllValues (fun _ v => TextOk v) d) (hne : es ≠ [])
    (hes : d.sects.lookup s = some es) (hvs : es.map (fun e => e.repls.lookup k) = vs.map some) :
    ∃ n, ∀ fuel, n ≤ fuel → getExpanded dbg set d fuel
      (['{', '{', '#'] ++ s ++ ['}', '}'] ++ a ++ ['{', '{'] ++ k ++ ['}', '}'] ++ b ++ ['{', '{', '*'] ++ sp ++ ['}', '}'] ++ ['{', '{', '/'] ++ s ++ ['}', '}'])
      = .ok (List.intercalate sp (vs.map (fun v => a ++ v ++ b))) := by
  have last : ∀ (p s : Str), p.getLast? ≠ some '{' → TextOk s → (p ++ s).getLast? ≠ some '{' := by
    intro p s hp hs
    rw [List.getLast?_append]
    cases hsl : s.getLast? with
    | none => simpa using hp
    | some c => have := hs.2.2.1; rw [hsl] at this; simpa using this
  -- the meaning of the contents
  have key : ∀ (es : List Dict) (vs : List Str), es ≠ [] → es.map (fun e => e.repls.lookup k) = vs.map some →
      MeansAll set d plainText [d] (.text a (.key k (.text b (.sep sp .nil)))) es (List.intercalate sp (vs.map (fun v => a ++ v ++ b))) := by
    intro es
    induction es with
    | nil => intro vs h; exact absurd rfl h
    | cons e es ih =>
      intro vs _ h
      cases vs with
      | nil => cases h
      | cons v vs =>
        simp only [List.map_cons, List.cons.injEq] at h
        cases es with
        | nil =>
          cases vs with
          | cons w ws => cases h.2
          | nil =>
            have : Means set d plainText [e, d] false (.text a (.key k (.text b (.sep sp .nil)))) (a ++ ((v ++ []) ++ (b ++ []))) :=
              .text (.key (.here h.1) (.text .nil) (.text (.noSep .nil)))
            simpa [List.intercalate] using MeansAll.last this
        | cons e' es =>
          cases vs with
          | nil => cases h.2
          | cons w ws =>
            have h1 : Means set d plainText [e, d] true (.text a (.key k (.text b (.sep sp .nil)))) (a ++ ((v ++ []) ++ (b ++ (sp ++ [])))) :=
              .text (.key (.here h.1) (.text .nil) (.text (.sep .nil)))
            have h2 := ih (w :: ws) (by simp) h.2
            have h3 := MeansAll.cons h1 h2
            simpa [List.intercalate, List.append_assoc] using h3
  have hm : Means set d plainText [d] false (.sect s (.text a (.key k (.text b (.sep sp .nil)))) .nil) (List.intercalate sp (vs.map (fun v => a ++ v ++ b)) ++ []) :=
    .sect (.here hes hne) (key es vs hne hvs) .nil
  -- the values
  have hval : ∀ v ∈ vs, TextOk v := by
    intro v hv
    have : some v ∈ es.map (fun e => e.repls.lookup k) := by rw [hvs]; exact List.mem_map_of_mem hv
    obtain ⟨e, he, hl⟩ := List.mem_map.1 this
    exact hd e (.step hes he (.refl e)) k v hl
  have hl : ∀ vs : List Str, (∀ v ∈ vs, TextOk v) → (List.intercalate sp (vs.map (fun v => a ++ v ++ b))).getLast? ≠ some '{' := by
    intro vs
    induction vs with
    | nil => intro _; simp [List.intercalate]
    | cons v vs ih =>
      intro h
      cases vs with
      | nil => simpa [List.intercalate] using last _ _ (last _ _ ha.2.2.1 (h v (by simp))) hb
      | cons w ws =>
        have h1 := ih (fun x hx => h x (by simp [hx]))
        have h2 : List.intercalate sp ((v :: w :: ws).map (fun v => a ++ v ++ b)) = (a ++ v ++ b ++ sp) ++ List.intercalate sp ((w :: ws).map (fun v => a ++ v ++ b)) := by
          simp [List.intercalate]
        rw [h2, List.getLast?_append]
        cases hx : (List.intercalate sp ((w :: ws).map (fun v => a ++ v ++ b))).getLast? with
        | some c => rw [hx] at h1; simpa using h1
        | none => simpa using last _ _ (last _ _ (last _ _ ha.2.2.1 (h v (by simp))) hb) hsp
  have hhead : (source (.text a (.key k (.text b (.sep sp .nil))))).head? ≠ some '}' := by
    cases a with
    | nil => simp [source]
    | cons c a => simpa [source] using ha'
  have h := C55_expansion_partial dbg set plainText d _ _ (show Wf (.sect s (.text a (.key k (.text b (.sep sp .nil)))) .nil) from
    ⟨hs, by simp [sectKeys], hhead, ⟨ha, hk, hk', hb, hsp, hsp', trivial⟩, trivial⟩) (plain_valWf hd) hm (by simpa using hl vs hval)
  simpa [source] using h

/-- Escaped braces are text. -/
theorem C55_escape_partial (dbg : Bool) (set : Settings) (d : Dict) (a b : Str) (ha : TextOk a) (hb : TextOk b) (hbn : b ≠ [])
    (hd : AllValues (fun _ v => TextOk v) d) : ∃ n, ∀ fuel, n ≤ fuel →
    getExpanded dbg set d fuel (a ++ ['\\', '{', '\\', '{'] ++ b) = .ok (a ++ ['{', '{'] ++ b) := by
  have hm : Means set d plainText [d] false (.text a (.brace (.brace (.text b .nil)))) (a ++ ('{' :: '{' :: (b ++ []))) := .text (.brace (.brace (.text .nil)))
  have hl : (a ++ ('{' :: '{' :: (b ++ []))).getLast? ≠ some '{' := by
    have e : a ++ ('{' :: '{' :: (b ++ [])) = (a ++ ['{', '{']) ++ b := by simp
    rw [e, List.getLast?_append, List.getLast?_eq_some_getLast hbn]
    have := hb.2.2.1
    rw [List.getLast?_eq_some_getLast hbn] at this
    simpa using this
  have h := C55_expansion_partial dbg set plainText d _ _ (show Wf (.text a (.brace (.brace (.text b .nil)))) from ⟨ha, hb, trivial⟩) (plain_valWf hd) hm hl
  simpa [source] using h

/-- Not so at the end of the template: the brace is written twice. -/
theorem C55_trailing_brace_witness (dbg : Bool) (set : Settings) (d : Dict) (a : Str) (ha : TextOk a) (hd : AllValues (fun _ v => TextOk v) d) :
    ∃ n, ∀ fuel, n ≤ fuel → getExpanded dbg set d fuel (a ++ ['\\', '{']) = .ok (a ++ ['{', '{']) := by
  have h := passes_of_done (dbg := dbg) (set := set) (val := plainText) (t := .text a (.brace .nil)) (d := d) ⟨ha, trivial⟩ (plain_valWf hd) trivial
  obtain ⟨n, hn⟩ := h
  refine ⟨n, fun fuel hf => ?_⟩
  have h := hn fuel hf
  simp only [source, residual, List.append_nil] at h
  rw [getExpanded, h, Outcome.bind_ok, deEscape_text _ _ ha]
  simp [deEscape]

/-- A section inside of one whose key is a prefix of its key: its closing tag is taken for that of the outer section. -/
theorem C55_prefix_witness :
    let d := (Dict.empty.addSect "a".toList .empty).addSect "ab".toList .empty
    getExpanded true .erase d 100 "{{#a}}x{{#ab}}y{{/ab}}z{{/a}}".toList = .assertFail
    ∧ getExpanded false .erase d 100 "{{#a}}x{{#ab}}y{{/ab}}z{{/a}}".toList = .ok "xy}z".toList := by decide +kernel

/-- Under `onlyCnt` the contents of a section that is not in the dictionary are expanded only if something else is replaced. -/
theorem C55_only_contents_witness (dbg : Bool) :
    let d := Dict.empty.setRepl "a".toList "x".toList
    getExpanded dbg .onlyCnt d 100 "{{#s}}{{a}}{{/s}}".toList = .ok "{{a}}".toList
    ∧ getExpanded dbg .onlyCnt d 100 "{{a}}{{#s}}{{a}}{{/s}}".toList = .ok "xx".toList := by cases dbg <;> decide +kernel

/-- A tag that is not closed is read beyond the end of the template. -/
theorem C55_unclosed_witness :
    getExpanded true .erase .empty 100 "x{{a".toList = .assertFail ∧ getExpanded false .erase .empty 100 "x{{a".toList = .ub
    ∧ getExpanded false .erase .empty 100 "x{{#a}}b".toList = .ub := by decide +kernel

/-- A template that ends in `{` fails an assertion in debug builds. -/
theorem C55_last_brace_witness :
    getExpanded true .erase .empty 100 "x{".toList = .assertFail ∧ getExpanded false .erase .empty 100 "x{".toList = .ok "x{".toList := by decide +kernel

/-- The tags in the value of a key that is in a section are not looked up in the section. -/
theorem C55_value_root_witness (dbg : Bool) :
    let d := Dict.empty.addSect "s".toList ((Dict.empty.setRepl "k".toList "{{j}}".toList).setRepl "j".toList "J".toList)
    getExpanded dbg .maintain d 100 "{{#s}}{{k}}{{j}}{{/s}}".toList = .ok "{{j}}J".toList := by cases dbg <;> decide +kernel

/-- The theorems apply: a section with three dictionaries. -/
example : ∃ n, ∀ fuel, n ≤ fuel → getExpanded true .maintain
    (((Dict.empty.addSect "s".toList (Dict.empty.setRepl "k".toList "1".toList)).addSect "s".toList (Dict.empty.setRepl "k".toList "2".toList)).addSect
      "s".toList (Dict.empty.setRepl "k".toList "3".toList)) fuel "{{#s}}<{{k}}>{{*, }}{{/s}}".toList = .ok "<1>, <2>, <3>".toList := by
  refine ⟨100, fun fuel hf => ?_⟩
  have h : getExpanded true .maintain
    (((Dict.empty.addSect "s".toList (Dict.empty.setRepl "k".toList "1".toList)).addSect "s".toList (Dict.empty.setRepl "k".toList "2".toList)).addSect
      "s".toList (Dict.empty.setRepl "k".toList "3".toList)) 100 "{{#s}}<{{k}}>{{*, }}{{/s}}".toList = .ok "<1>, <2>, <3>".toList := by decide +kernel
  rw [C56_fuel _ _ _ _ 100 fuel hf (by rw [h]; simp), h]

/-! ## C56 -/

/-- The expansion does not terminate for every dictionary: a value that mentions its own key. -/
theorem C56_diverges (dbg : Bool) (set : Settings) (fuel : Nat) :
    getExpanded dbg set (Dict.empty.setRepl ['k'] ['{', '{', 'k', '}', '}']) fuel ['{', '{', 'k', '}', '}'] = .diverge := by
  have h : ∀ f, passes dbg set (Dict.empty.setRepl ['k'] ['{', '{', 'k', '}', '}']) f ['{', '{', 'k', '}', '}'] = .diverge := by
    intro f
    induction f with
    | zero => rfl
    | succ f ih =>
      rw [passes]
      by_cases hf : f < 3
      · have : f = 0 ∨ f = 1 ∨ f = 2 := by omega
        rcases this with rfl | rfl | rfl <;> cases dbg <;> cases set <;> decide +kernel
      · obtain ⟨g, rfl⟩ : ∃ g, f = g + 3 := ⟨f - 3, by omega⟩
        have he : expand dbg set ['{', '{', 'k', '}', '}'] (g + 3 + 1) [Dict.empty.setRepl ['k'] ['{', '{', 'k', '}', '}']] 0 5 false
            = .ok (['{', '{', 'k', '}', '}'], true) := by
          cases dbg <;> cases set <;> rfl
        have he' : expand dbg set ['{', '{', 'k', '}', '}'] (g + 3 + 1) [Dict.empty.setRepl ['k'] ['{', '{', 'k', '}', '}']] 0
            (['{', '{', 'k', '}', '}'] : Str).length false = .ok (['{', '{', 'k', '}', '}'], true) := he
        rw [he', Outcome.bind_ok]
        exact ih
  rw [getExpanded, h]; rfl

/-- It terminates with a result if values mention other keys only in a well-founded way: there is a rank such that the keys in the value
of a key have smaller ranks.

Partial: values may not mention their own keys, also not indirectly (`C56_diverges`); templates and values are well-formed. -/
theorem C56_terminates_partial (dbg : Bool) (set : Settings) (val : Str → Tmpl) (rank : Str → Nat) (d : Dict) (t : Tmpl) (hw : Wf t)
    (hv : ValuesAre val d) (hr : AllValues (fun k v => ∀ k' ∈ plainKeys (val v), rank k' < rank k) d) :
    ∃ n out, ∀ fuel, n ≤ fuel → getExpanded dbg set d fuel (source t) = .ok out := by
  obtain ⟨o, n, h⟩ := getExpanded_terminates (dbg := dbg) (set := set) hv hr hw
  exact ⟨n, o, h⟩

/-- With values without tags it always terminates. -/
theorem C56_plain_partial (dbg : Bool) (set : Settings) (d : Dict) (t : Tmpl) (hw : Wf t) (hv : AllValues (fun _ v => TextOk v) d) :
    ∃ n out, ∀ fuel, n ≤ fuel → getExpanded dbg set d fuel (source t) = .ok out :=
  C56_terminates_partial dbg set plainText (fun _ => 0) d t hw (plain_valWf hv) (by intro e he k v _ k' hk'; simp [plainText, plainKeys] at hk')

/-- A single pass terminates for every text, well-formed or not, and every dictionary. -/
theorem C56_pass_terminates (dbg : Bool) (set : Settings) (d : Dict) (src : Str) :
    expand dbg set src (src.length + 3) [d] 0 src.length false ≠ .diverge := expand_ne _ _ _ _ _ _ _ _ (by omega) (by omega)

/-- So a text without tags that are in the dictionary is expanded, whatever it contains. -/
theorem C56_nothing_found (dbg : Bool) (set : Settings) (d : Dict) (src : Str)
    (h : ∀ o f, expand dbg set src f [d] 0 src.length false ≠ .ok (o, true)) : getExpanded dbg set d (src.length + 3) src ≠ .diverge := by
  rw [getExpanded]
  refine bind_ne_diverge ?_ (fun _ _ => by simp)
  rw [passes]
  refine bind_ne_diverge (C56_pass_terminates dbg set d src) (fun a ha => ?_)
  obtain ⟨o, b⟩ := a
  cases b with
  | true => exact absurd ha (h o _)
  | false => simp

/-- The hypotheses of `C56_terminates_partial` are met: `a` mentions `b`, which mentions `c`. -/
example : let d := ((Dict.empty.setRepl ['a'] "{{b}}".toList).setRepl ['b'] "{{c}}".toList).setRepl ['c'] "x".toList
    ∃ (val : Str → Tmpl) (rank : Str → Nat), ValuesAre val d ∧ AllValues (fun k v => ∀ k' ∈ plainKeys (val v), rank k' < rank k) d := by
  intro d
  refine ⟨fun v => if v = "{{b}}".toList then .key ['b'] .nil else if v = "{{c}}".toList then .key ['c'] .nil else .text v .nil,
    fun k => if k = ['a'] then 2 else if k = ['b'] then 1 else 0, ?_⟩
  have hin : ∀ e, Within e d → e = d := by
    intro e he
    cases he with
    | refl => rfl
    | step h _ _ => cases h
  have hval : ∀ k v, d.repls.lookup k = some v → (k = ['a'] ∧ v = "{{b}}".toList) ∨ (k = ['b'] ∧ v = "{{c}}".toList) ∨ (k = ['c'] ∧ v = "x".toList) := by
    intro k v h
    have hd : d.repls = [(['a'], "{{b}}".toList), (['b'], "{{c}}".toList), (['c'], "x".toList)] := by decide +kernel
    rw [hd] at h
    simp only [List.lookup] at h
    split at h
    · next h' => simp only [Option.some.injEq] at h; exact .inl ⟨by simpa using h', h.symm⟩
    · split at h
      · next h' => simp only [Option.some.injEq] at h; exact .inr (.inl ⟨by simpa using h', h.symm⟩)
      · split at h
        · next h' => simp only [Option.some.injEq] at h; exact .inr (.inr ⟨by simpa using h', h.symm⟩)
        · cases h
  constructor
  · intro e he k v h
    rw [hin e he] at h
    rcases hval k v h with ⟨_, rfl⟩ | ⟨_, rfl⟩ | ⟨_, rfl⟩
    · exact ⟨by decide +kernel, by simp [Wf]⟩
    · exact ⟨by decide +kernel, by simp [Wf]⟩
    · exact ⟨by decide +kernel, by simp [Wf, TextOk]; decide +kernel⟩
  · intro e he k v h
    rw [hin e he] at h
    rcases hval k v h with ⟨rfl, rfl⟩ | ⟨rfl, rfl⟩ | ⟨rfl, rfl⟩ <;> simp [plainKeys]

/-! ## C57 -/

/-- Setting a key of a dictionary. -/
theorem C57_set_key (d : Dict) (k k' v : Str) : (d.setRepl k v).repls.lookup k' = if k' = k then some v else d.repls.lookup k' :=
  lookup_assign k k' v d.repls

/-- Adding a dictionary to a section. -/
theorem C57_add_section (d e : Dict) (k k' : Str) :
    (d.addSect k e).sects.lookup k' = if k' = k then some ((d.sects.lookup k).getD [] ++ [e]) else d.sects.lookup k' :=
  lookup_assign k k' _ d.sects

theorem last_tag (p : Str) : (p ++ ['}', '}']).getLast? ≠ some '{' := by
  rw [List.getLast?_append]
  simp

theorem value_findSome {ch : List Dict} {k v : Str} : Value ch k v ↔ ch.findSome? (fun d => d.repls.lookup k) = some v := by
  rw [value_iff]
  induction ch with
  | nil => simp [lookupKey]
  | cons d up ih =>
    rw [lookupKey, List.findSome?_cons]
    cases d.repls.lookup k with
    | some w => simp
    | none => simpa using ih

theorem nested_means {set : Settings} {root : Dict} {ch ch' : List Dict} {ss : List Str} {k : Str} (h : Nested ch ss ch') (o : Str) (hroot : root ∈ ch)
    (hm : Means set root plainText ch' false (.key k .nil) o) : Means set root plainText ch false (nestOf ss k) o := by
  induction h with
  | nil => exact hm
  | cons h t ih =>
    have := ih (List.mem_cons_of_mem _ hroot) hm
    have h2 := Means.sect (set := set) (root := root) (val := plainText) (sep := false) (rest := .nil) (.here h (by simp)) (.last this) .nil
    rw [nestOf]; simpa using h2

theorem nested_values {P : Str → Str → Prop} {ch ch' : List Dict} {ss : List Str} (h : Nested ch ss ch') (hv : ∀ d ∈ ch, AllValues P d) : ∀ d ∈ ch', AllValues P d := by
  induction h with
  | nil => exact hv
  | @cons d up s ss e ch h _ ih =>
    refine ih (fun f hf => ?_)
    rcases List.mem_cons.1 hf with rfl | hf
    · exact fun g hg => hv d (by simp) g (.step h (by simp) hg)
    · exact hv f hf

/-- A tag inside of any number of nested sections has the value of the innermost dictionary that has its key: `ch` lists the dictionaries
from the innermost to the root.

Partial: values are texts without tags; the sections lead into one dictionary each, and each is found in the dictionary of the section
around it (`C57_parent_witness`). -/
theorem C57_innermost_partial (dbg : Bool) (set : Settings) (d : Dict) (ss : List Str) (ch : List Dict) (k v : Str) (hn : Nested [d] ss ch)
    (hw : Wf (nestOf ss k)) (hd : AllValues (fun _ v => TextOk v) d) (hv : ch.findSome? (fun d => d.repls.lookup k) = some v) :
    ∃ n, ∀ fuel, n ≤ fuel → getExpanded dbg set d fuel (source (nestOf ss k)) = .ok v := by
  have hm : Means set d plainText ch false (.key k .nil) ((v ++ []) ++ []) := .key (value_findSome.2 hv) (.text .nil) .nil
  have hvt : TextOk v := by
    obtain ⟨e, he, hl⟩ := lookupKey_mem (value_iff.1 (value_findSome.2 hv))
    exact nested_values hn (by simpa using hd) e he e (.refl e) k v hl
  simp only [List.append_nil] at hm
  exact C55_expansion_partial dbg set plainText d _ v hw (plain_valWf hd) (nested_means hn v (by simp) hm) hvt.2.2.1

/-- If none of the dictionaries has the key, the tag is kept or erased, as the settings say. -/
theorem C57_unknown_key_partial (dbg : Bool) (set : Settings) (d : Dict) (ss : List Str) (ch : List Dict) (k : Str) (hn : Nested [d] ss ch)
    (hw : Wf (nestOf ss k)) (hd : AllValues (fun _ v => TextOk v) d) (hv : ch.findSome? (fun d => d.repls.lookup k) = none) :
    ∃ n, ∀ fuel, n ≤ fuel → getExpanded dbg set d fuel (source (nestOf ss k)) = .ok (if set = .maintain then ['{', '{'] ++ k ++ ['}', '}'] else []) := by
  have hno : ∀ v, ¬ Value ch k v := by intro v h; rw [value_findSome, hv] at h; cases h
  by_cases hs : set = .maintain
  · have hm : Means set d plainText ch false (.key k .nil) (shown (.key k .nil) ++ []) := .keyKeep hs hno .nil
    simp only [shown, List.append_nil] at hm
    rw [if_pos hs]
    refine C55_expansion_partial dbg set plainText d _ _ hw (plain_valWf hd) (nested_means hn _ (by simp) hm) ?_
    exact last_tag _
  · have hm : Means set d plainText ch false (.key k .nil) [] := .keyErase hs hno .nil
    rw [if_neg hs]
    exact C55_expansion_partial dbg set plainText d _ _ hw (plain_valWf hd) (nested_means hn _ (by simp) hm) (by simp)

/-- A section that is not in the dictionary is erased, kept, or replaced by its contents, as the settings say. The contents are a text. -/
theorem C57_unknown_section_partial (dbg : Bool) (set : Settings) (d : Dict) (s a : Str) (hs : '{' ∉ s ∧ '}' ∉ s) (ha : TextOk a) (ha' : a.head? ≠ some '}')
    (hd : AllValues (fun _ v => TextOk v) d) (hn : d.sects.lookup s = none ∨ d.sects.lookup s = some []) :
    ∃ n, ∀ fuel, n ≤ fuel → getExpanded dbg set d fuel (['{', '{', '#'] ++ s ++ ['}', '}'] ++ a ++ ['{', '{', '/'] ++ s ++ ['}', '}'])
      = .ok (match set with
        | .erase => []
        | .maintain => ['{', '{', '#'] ++ s ++ ['}', '}'] ++ a ++ ['{', '{', '/'] ++ s ++ ['}', '}']
        | .onlyCnt => a) := by
  have hw : Wf (.sect s (.text a .nil) .nil) := ⟨hs, by simp [sectKeys], by simpa [source] using ha', ⟨ha, trivial⟩, trivial⟩
  have hno : ∀ ds up, ¬ Entries [d] s ds up := by
    intro ds up h
    cases h with
    | here h hne => rcases hn with hn | hn <;> rw [hn] at h <;> cases h; exact hne rfl
    | outer _ t => cases t
  have e : (source (.sect s (.text a .nil) .nil)) = ['{', '{', '#'] ++ s ++ ['}', '}'] ++ a ++ ['{', '{', '/'] ++ s ++ ['}', '}'] := by simp [source]
  rw [← e]
  cases set with
  | erase => exact C55_expansion_partial dbg .erase plainText d _ _ hw (plain_valWf hd) (.sectErase rfl hno .nil) (by simp)
  | maintain =>
    have h := C55_expansion_partial dbg .maintain plainText d _ _ hw (plain_valWf hd) (.sectKeep rfl hno .nil) (by simp only [shown, List.append_nil]; exact last_tag _)
    simpa [shown, source] using h
  | onlyCnt =>
    have hl := no_entries_iff.1 hno
    have hr : residual .onlyCnt plainText (.sect s (.text a .nil) .nil) [d] false = .text a .nil := by simp only [residual, hl]; rfl
    have h := getExpanded_of_done (dbg := dbg) (set := .onlyCnt) (val := plainText) hw (plain_valWf hd) (by rw [hr]; trivial) (by
      rw [hr]; simpa [shown] using ha.2.2.1)
    rw [hr] at h
    simpa [shown, Ev] using h

/-- The dictionaries around a section are those around its dictionary, not the sections around its tag: here `t` is in the root, so it does
not see the value that the section `s` gives to `k`. -/
theorem C57_parent_witness (dbg : Bool) :
    let d := (Dict.empty.addSect "s".toList (Dict.empty.setRepl "k".toList "inner".toList)).addSect "t".toList .empty
    getExpanded dbg .maintain d 100 "{{#s}}{{k}}, {{#t}}{{k}}{{/t}}{{/s}}".toList = .ok "inner, {{k}}".toList := by cases dbg <;> decide +kernel

/-- The hypotheses of the theorems are met: a key defined in the root and in the second of two nested sections. -/
example : ∃ (d : Dict) (ch : List Dict), Nested [d] ["s".toList, "t".toList] ch ∧ Wf (nestOf ["s".toList, "t".toList] "k".toList)
    ∧ AllValues (fun _ v => TextOk v) d ∧ ch.findSome? (fun d => d.repls.lookup "k".toList) = some "in".toList := by
  refine ⟨.mk [(['k'], ['o'])] [(['s'], [.mk [(['k'], "in".toList)] [(['t'], [.mk [] []])]])], _, .cons rfl (.cons rfl .nil), ?_, ?_, ?_⟩
  · simp [nestOf, Wf, sectKeys, source]
  · intro e he k v h
    have ht : ∀ v : Str, v = ['o'] ∨ v = "in".toList → TextOk v := by rintro v (rfl | rfl) <;> (unfold TextOk; decide +kernel)
    have l1 : ∀ (e' : Dict) (k v : Str), e' = .mk [(['k'], ['o'])] [(['s'], [.mk [(['k'], "in".toList)] [(['t'], [.mk [] []])]])] ∨ e' = .mk [(['k'], "in".toList)] [(['t'], [.mk [] []])]
        ∨ e' = .mk [] [] → e'.repls.lookup k = some v → v = ['o'] ∨ v = "in".toList := by
      rintro e' k v (rfl | rfl | rfl) h <;> simp only [Dict.repls, List.lookup] at h
      · split at h <;> simp_all
      · split at h <;> simp_all
      · cases h
    have one : ∀ (a b : Str) (x y : List Dict), [(a, x)].lookup b = some y → y = x := by
      intro a b x y h
      simp only [List.lookup] at h
      split at h <;> simp_all
    refine ht v (l1 e k v ?_ h)
    cases he with
    | refl => exact .inl rfl
    | step h1 m1 t1 =>
      have := one _ _ _ _ h1; subst this
      simp only [List.mem_singleton] at m1; subst m1
      cases t1 with
      | refl => exact .inr (.inl rfl)
      | step h2 m2 t2 =>
        have := one _ _ _ _ h2; subst this
        simp only [List.mem_singleton] at m2; subst m2
        cases t2 with
        | refl => exact .inr (.inr rfl)
        | step h3 _ _ => cases h3
  · decide +kernel

end Verif.Tmpl
