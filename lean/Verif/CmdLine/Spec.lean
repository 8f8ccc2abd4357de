import Verif.CmdLine.SpecFloat
import Verif.CmdLine.Model
import Verif.Str.Spec

/-!
# What command lines should do

Written with lists only; none of the functions of the model is used, only its data types.
-/

namespace Verif.CmdLine.Spec

/-- Words that begin with `-` are flags. -/
def isFlagWord : Str → Bool
  | '-' :: _ => true
  | _ => false

/-- The words that are not flags, in order. -/
def plain (ws : List Str) : List Str := ws.filter (fun w => !isFlagWord w)

/-- The flags without a value, in order. -/
def bareFlags (ws : List Str) : List Str := ws.filter (fun w => isFlagWord w && !w.contains '=')

/-- The flags with a value, in order. -/
def valuedFlags (ws : List Str) : List Str := ws.filter (fun w => isFlagWord w && w.contains '=')

/-- `w` is `name=value`; the name ends at the first `=`. -/
def Assigns (w name value : Str) : Prop := w = name ++ '=' :: value ∧ '=' ∉ name

/-- A list of three columns. -/
inductive Zip3 {α β γ : Type} (R : α → β → γ → Prop) : List α → List β → List γ → Prop where
  | nil : Zip3 R [] [] []
  | cons {a b c as bs cs} (h : R a b c) (t : Zip3 R as bs cs) : Zip3 R (a :: as) (b :: bs) (c :: cs)

/-- The decimal digits of a number, most significant first; leading zeros are allowed. -/
inductive Digits : Str → Nat → Prop where
  | one (d : Nat) (h : d < 10) : Digits [Char.ofNat (48 + d)] d
  | snoc {s n} (t : Digits s n) (d : Nat) (h : d < 10) : Digits (s ++ [Char.ofNat (48 + d)]) (10 * n + d)

/-- The white space of the "C" locale. -/
def White (c : Char) : Prop := c = ' ' ∨ c = '\t' ∨ c = '\n' ∨ c = '\x0b' ∨ c = '\x0c' ∨ c = '\r'

/-- Lower case of ASCII letters. -/
def lower (c : Char) : Char := if 'A' ≤ c ∧ c ≤ 'Z' then Char.ofNat (c.toNat + 32) else c

/-- A sign that may be left out; `neg` says that it is a minus. -/
def Sign (neg : Bool) (sg : Str) : Prop := if neg then sg = ['-'] else sg = [] ∨ sg = ['+']

/-- The text begins with a word, in any mixture of cases. -/
def Begins (word t : Str) : Prop := ∃ a rest, t = a ++ rest ∧ a.map lower = word

open FloatSpec in
/-- The text `w` stands for the value `v`. A number may be preceded by white space and followed by anything that does not belong to it. -/
inductive Reads : Kind → Str → Val → Prop where
  | str (w : Str) : Reads .str w (.str w)
  | pos {sp ds rest : Str} {n : Nat} (plus : Bool) (hs : ∀ c ∈ sp, White c) (hd : Digits ds n) (hr : ∀ c, rest.head? = some c → ¬ ('0' ≤ c ∧ c ≤ '9'))
      (hn : n < 2 ^ 31) : Reads .int (sp ++ (if plus then ['+'] else []) ++ ds ++ rest) (.int n)
  | neg {sp ds rest : Str} {n : Nat} (hs : ∀ c ∈ sp, White c) (hd : Digits ds n) (hr : ∀ c, rest.head? = some c → ¬ ('0' ≤ c ∧ c ≤ '9'))
      (hn : n ≤ 2 ^ 31) : Reads .int (sp ++ ['-'] ++ ds ++ rest) (.int (-n))
  | float {sp sg t : Str} {q v : ℚ} {neg : Bool} (hs : ∀ c ∈ sp, White c) (hg : Sign neg sg) (hm : Magnitude t q)
      (hv : Becomes (if neg then -q else q) v) : Reads .float (sp ++ sg ++ t) (.float (.fin v))
  | inf {sp sg t : Str} {neg : Bool} (hs : ∀ c ∈ sp, White c) (hg : Sign neg sg) (hm : Begins ['i', 'n', 'f'] t) :
      Reads .float (sp ++ sg ++ t) (.float (.inf neg))
  | nan {sp sg t : Str} {neg : Bool} (hs : ∀ c ∈ sp, White c) (hg : Sign neg sg) (hm : Begins ['n', 'a', 'n'] t) :
      Reads .float (sp ++ sg ++ t) (.float .nan)
  | yes {w : Str} (h : w.map lower ∈ ["y".toList, "yes".toList, "on".toList, "true".toList, "1".toList]) : Reads .bool w (.bool true)
  | no {w : Str} (h : w.map lower ∈ ["n".toList, "no".toList, "off".toList, "false".toList, "0".toList]) : Reads .bool w (.bool false)

/-- An argument after it received the word `w`. -/
def ArgGot (a : Arg) (w : Str) (a' : Arg) : Prop := ∃ v, Reads a.kind w v ∧ a' = { a with value := some v }

/-- An optional argument after it received the word `w`. -/
def ArgOptGot (a : ArgOpt) (w : Str) (a' : ArgOpt) : Prop := ∃ v, Reads a.kind w v ∧ a' = { a with value := some v, active := true }

/-- A pack after it received the words `ws`: their values are added at its end. -/
def PackGot (p : Pack) (ws : List Str) (p' : Pack) : Prop :=
  ∃ vs, List.Forall₂ (Reads p.kind) ws vs ∧ p' = { p with values := p.values ++ vs }

/-- A pack without bounds is written with both bounds zero. -/
def Unbounded (p : Pack) : Prop := p.min = 0 ∧ p.max = 0

/-- A flag value after it received the value of the word `w`. -/
def FlagValueGot (f : FlagValue) (w : Str) (f' : FlagValue) : Prop :=
  ∃ name value v, Assigns w name value ∧ Reads f.kind value v ∧ f' = { f with value := some v }

def FlagValueOptGot (f : FlagValueOpt) (w : Str) (f' : FlagValueOpt) : Prop :=
  ∃ name value v, Assigns w name value ∧ Reads f.kind value v ∧ f' = { f with value := some v, active := true }

/-- A flag answers to its short name after `-` and to its long name after `--`; both are kept with the prefix. -/
def Named (short long w : Str) : Prop := w = short ∨ w = long

/-- A word `name=value` whose name is that of an optional flag value of the command. -/
def namesOptional (c : Cmd) (w : Str) : Bool :=
  c.flagValuesOpt.any (fun f => w.takeWhile (· != '=') == f.short || w.takeWhile (· != '=') == f.long)

/-- The flag at `i` is the first that answers to `w`. -/
def FirstNamed (fs : List Flag) (i : Nat) (w : Str) : Prop :=
  (∃ f, fs[i]? = some f ∧ Named f.short f.long w) ∧ ∀ j f, j < i → fs[j]? = some f → ¬ Named f.short f.long w

/-- The flags after the words `ns` were entered: the first flag that answers to one of them is on, the others are as before. -/
def FlagsGot (fs : List Flag) (ns : List Str) (fs' : List Flag) : Prop :=
  fs'.length = fs.length ∧ ∀ i f, fs[i]? = some f →
    ∃ b, fs'[i]? = some { f with active := b } ∧ (b = true ↔ f.active = true ∨ ∃ n ∈ ns, FirstNamed fs i n)

/-- The number of words a pack received is allowed. -/
def CountOk (p : Pack) (n : Nat) : Prop := Unbounded p ∨ (n ≤ p.max ∧ (p.min ≤ p.max → p.min ≤ n))

/-- `n` words can be handed out to the packs: each takes as many as it may, from the left. -/
inductive Fits : List Pack → Nat → Prop where
  | none : Fits [] 0
  | all {p : Pack} (h : Unbounded p) (n : Nat) : Fits [p] n
  | some {p : Pack} {ps : List Pack} {n : Nat} (h : ¬ Unbounded p) (hmin : p.min ≤ n) (t : Fits ps (n - min n p.max)) : Fits (p :: ps) n

/-- The commands other than `r` are the same. -/
def OthersSame (x x' : Ctx) (r : CmdRef) : Prop :=
  x'.cmds.length = x.cmds.length ∧ (r ≠ .main → x'.main = x.main) ∧ ∀ j, r ≠ .cmd j → x'.cmds[j]? = x.cmds[j]?

/-- What was declared is the same: names, types, defaults and bounds. -/
def SameDeclaration (c c' : Cmd) : Prop :=
  c'.names = c.names ∧ c'.args.map (·.kind) = c.args.map (·.kind) ∧
  c'.argsOpt.map (fun a => (a.kind, a.dflt)) = c.argsOpt.map (fun a => (a.kind, a.dflt)) ∧
  c'.packs.map (fun p => (p.kind, p.min, p.max)) = c.packs.map (fun p => (p.kind, p.min, p.max)) ∧
  c'.flags.map (fun f => (f.short, f.long)) = c.flags.map (fun f => (f.short, f.long)) ∧
  c'.flagValues.map (fun f => (f.short, f.long, f.kind)) = c.flagValues.map (fun f => (f.short, f.long, f.kind)) ∧
  c'.flagValuesOpt.map (fun f => (f.short, f.long, f.kind, f.dflt)) = c.flagValuesOpt.map (fun f => (f.short, f.long, f.kind, f.dflt))

/-- Every value that a word can be read as, whatever element it is meant for. -/
def AllReadable (c : Cmd) (ws : List Str) : Prop :=
  (∀ a ∈ c.args, ∀ w ∈ plain ws, ∃ v, Reads a.kind w v) ∧ (∀ a ∈ c.argsOpt, ∀ w ∈ plain ws, ∃ v, Reads a.kind w v) ∧
  (∀ p ∈ c.packs, ∀ w ∈ plain ws, ∃ v, Reads p.kind w v) ∧
  (∀ f ∈ c.flagValues, ∀ w ∈ valuedFlags ws, ∀ n t, Assigns w n t → ∃ v, Reads f.kind t v) ∧
  (∀ f ∈ c.flagValuesOpt, ∀ w ∈ valuedFlags ws, ∀ n t, Assigns w n t → ∃ v, Reads f.kind t v)

/-- The words that belong to the command: for the main command all, otherwise all after the name. -/
inductive Selects (x : Ctx) : List Str → CmdRef → List Str → Prop where
  | nothing : Selects x [] .main []
  | flag {w ws} (h : isFlagWord w = true) : Selects x (w :: ws) .main (w :: ws)
  | named {w ws i c} (h : isFlagWord w = false) (hc : x.cmds[i]? = some c) (hn : w ∈ c.names)
      (hf : ∀ j d, j < i → x.cmds[j]? = some d → w ∉ d.names) : Selects x (w :: ws) (.cmd i) ws

end Verif.CmdLine.Spec
