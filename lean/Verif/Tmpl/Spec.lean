import Verif.Tmpl.Model

/-!
# What templates mean

A template as a tree, its text, and its meaning in a dictionary. Only the data types of the model are used.
-/

namespace Verif.Tmpl.Spec

/-- A template: a sequence of texts, escaped braces `\{`, tags `{{key}}`, separators `{{*text}}` and sections
`{{#key}}...{{/key}}`. -/
inductive Tmpl where
  | nil
  | text (s : Str) (rest : Tmpl)
  | brace (rest : Tmpl)
  | key (k : Str) (rest : Tmpl)
  | sep (s : Str) (rest : Tmpl)
  | sect (k : Str) (body rest : Tmpl)
  deriving Repr, DecidableEq

/-- The text one writes. -/
def source : Tmpl → Str
  | .nil => []
  | .text s rest => s ++ source rest
  | .brace rest => ['\\', '{'] ++ source rest
  | .key k rest => ['{', '{'] ++ k ++ ['}', '}'] ++ source rest
  | .sep s rest => ['{', '{', '*'] ++ s ++ ['}', '}'] ++ source rest
  | .sect k body rest => ['{', '{', '#'] ++ k ++ ['}', '}'] ++ source body ++ ['{', '{', '/'] ++ k ++ ['}', '}'] ++ source rest

/-- The same with braces that are not escaped: how the template looks when it is written to the result unchanged. -/
def shown : Tmpl → Str
  | .nil => []
  | .text s rest => s ++ shown rest
  | .brace rest => '{' :: shown rest
  | .key k rest => ['{', '{'] ++ k ++ ['}', '}'] ++ shown rest
  | .sep s rest => ['{', '{', '*'] ++ s ++ ['}', '}'] ++ shown rest
  | .sect k body rest => ['{', '{', '#'] ++ k ++ ['}', '}'] ++ shown body ++ ['{', '{', '/'] ++ k ++ ['}', '}'] ++ shown rest

/-- Text without tags and without escapes: no `{{`, no `\{`, and it does not end in `{` or `\`. -/
def TextOk (s : Str) : Prop := ¬ ['{', '{'] <:+: s ∧ ¬ ['\\', '{'] <:+: s ∧ s.getLast? ≠ some '{' ∧ s.getLast? ≠ some '\\'

/-- The keys of all sections in a template, nested ones too. -/
def sectKeys : Tmpl → List Str
  | .nil => []
  | .text _ rest => sectKeys rest
  | .brace rest => sectKeys rest
  | .key _ rest => sectKeys rest
  | .sep _ rest => sectKeys rest
  | .sect k body rest => k :: (sectKeys body ++ sectKeys rest)

/-- The keys of all plain tags, nested ones too. -/
def plainKeys : Tmpl → List Str
  | .nil => []
  | .text _ rest => plainKeys rest
  | .brace rest => plainKeys rest
  | .key k rest => k :: plainKeys rest
  | .sep _ rest => plainKeys rest
  | .sect _ body rest => plainKeys body ++ plainKeys rest

/-- Keys do not contain braces, and the key of a plain tag does not start with `#`, `*` or `/`; the text of a separator does not contain `}`;
within a section `k` there is no section whose key starts with `k`; the contents of a section do not start with `}`. -/
def Wf : Tmpl → Prop
  | .nil => True
  | .text s rest => TextOk s ∧ Wf rest
  | .brace rest => Wf rest
  | .key k rest => ('{' ∉ k ∧ '}' ∉ k) ∧ (k.head? ≠ some '#' ∧ k.head? ≠ some '*' ∧ k.head? ≠ some '/') ∧ Wf rest
  | .sep s rest => TextOk s ∧ '}' ∉ s ∧ Wf rest
  | .sect k body rest =>
    ('{' ∉ k ∧ '}' ∉ k) ∧ (∀ t ∈ sectKeys body, ¬ k <+: t) ∧ (source body).head? ≠ some '}' ∧ Wf body ∧ Wf rest

/-- The innermost value of a key; the dictionaries are listed from the innermost. -/
inductive Value : List Dict → Str → Str → Prop where
  | here {d up k v} (h : d.repls.lookup k = some v) : Value (d :: up) k v
  | outer {d up k v} (h : d.repls.lookup k = none) (t : Value up k v) : Value (d :: up) k v

/-- The innermost non-empty list of dictionaries of a section, together with the dictionaries around it. -/
inductive Entries : List Dict → Str → List Dict → List Dict → Prop where
  | here {d up k ds} (h : d.sects.lookup k = some ds) (hn : ds ≠ []) : Entries (d :: up) k ds (d :: up)
  | outer {d up k ds up'} (h : d.sects.lookup k = none ∨ d.sects.lookup k = some []) (t : Entries up k ds up') : Entries (d :: up) k ds up'

mutual
/-- `Means set root val chain sep t out`: the template `t`, in the dictionaries `chain`, means the text `out`; `sep` tells whether
separators are written. The value `v` of a key is the text of the template `val v`, which is expanded with the dictionary `root`. -/
inductive Means (set : Settings) (root : Dict) (val : Str → Tmpl) : List Dict → Bool → Tmpl → Str → Prop where
  | nil {ch sep} : Means set root val ch sep .nil []
  | text {ch sep s rest o} (t : Means set root val ch sep rest o) : Means set root val ch sep (.text s rest) (s ++ o)
  | brace {ch sep rest o} (t : Means set root val ch sep rest o) : Means set root val ch sep (.brace rest) ('{' :: o)
  | key {ch sep k v rest p o} (h : Value ch k v) (m : Means set root val [root] false (val v) p) (t : Means set root val ch sep rest o) :
      Means set root val ch sep (.key k rest) (p ++ o)
  | keyErase {ch sep k rest o} (hs : set ≠ .maintain) (h : ∀ v, ¬ Value ch k v) (t : Means set root val ch sep rest o) :
      Means set root val ch sep (.key k rest) o
  | keyKeep {ch sep k rest o} (hs : set = .maintain) (h : ∀ v, ¬ Value ch k v) (t : Means set root val ch sep rest o) :
      Means set root val ch sep (.key k rest) (shown (.key k .nil) ++ o)
  | sep {ch s rest o} (t : Means set root val ch true rest o) : Means set root val ch true (.sep s rest) (s ++ o)
  | noSep {ch s rest o} (t : Means set root val ch false rest o) : Means set root val ch false (.sep s rest) o
  | sect {ch sep k ds up body rest p o} (h : Entries ch k ds up) (m : MeansAll set root val up body ds p) (t : Means set root val ch sep rest o) :
      Means set root val ch sep (.sect k body rest) (p ++ o)
  | sectErase {ch sep k body rest o} (hs : set = .erase) (h : ∀ ds up, ¬ Entries ch k ds up) (t : Means set root val ch sep rest o) :
      Means set root val ch sep (.sect k body rest) o
  | sectKeep {ch sep k body rest o} (hs : set = .maintain) (h : ∀ ds up, ¬ Entries ch k ds up) (t : Means set root val ch sep rest o) :
      Means set root val ch sep (.sect k body rest) (shown (.sect k body .nil) ++ o)

/-- The contents of a section once for each of its dictionaries, with separators except in the last. -/
inductive MeansAll (set : Settings) (root : Dict) (val : Str → Tmpl) : List Dict → Tmpl → List Dict → Str → Prop where
  | last {up body d o} (h : Means set root val (d :: up) false body o) : MeansAll set root val up body [d] o
  | cons {up body d e ds o p} (h : Means set root val (d :: up) true body o) (t : MeansAll set root val up body (e :: ds) p) :
      MeansAll set root val up body (d :: e :: ds) (o ++ p)
end

/-- The dictionaries reachable from `d`: itself and those in its sections. -/
inductive Within : Dict → Dict → Prop where
  | refl (d : Dict) : Within d d
  | step {d e f : Dict} {k : Str} {ds : List Dict} (h : d.sects.lookup k = some ds) (he : e ∈ ds) (t : Within f e) : Within f d

/-- All values, also in nested dictionaries, satisfy `P`. -/
def AllValues (P : Str → Str → Prop) (d : Dict) : Prop := ∀ e, Within e d → ∀ k v, e.repls.lookup k = some v → P k v

/-- Every value is the text of a well-formed template, which `val` gives. -/
def ValuesAre (val : Str → Tmpl) (d : Dict) : Prop := AllValues (fun _ v => source (val v) = v ∧ Wf (val v)) d

/-- A text without tags, as a template. -/
def plainText (v : Str) : Tmpl := .text v .nil

/-- `{{#s1}}{{#s2}}...{{key}}...{{/s2}}{{/s1}}`. -/
def nestOf : List Str → Str → Tmpl
  | [], k => .key k .nil
  | s :: ss, k => .sect s (nestOf ss k) .nil

/-- From the dictionaries `chain`, the innermost first, each section of the list leads into one dictionary; at the end the dictionaries
are `chain'`. -/
inductive Nested : List Dict → List Str → List Dict → Prop where
  | nil {ch} : Nested ch [] ch
  | cons {d up s ss e ch} (h : d.sects.lookup s = some [e]) (t : Nested (e :: d :: up) ss ch) : Nested (d :: up) (s :: ss) ch

end Verif.Tmpl.Spec
