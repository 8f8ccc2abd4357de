import Verif.CmdLine.Errors
import Verif.CmdLine.SpecHelp
import Verif.CmdLine.Spec

/-! # What the exceptions of command lines should say -/

namespace Verif.CmdLine.Spec

/-- The names of a command as in the help text. -/
def allNames (c : Cmd) : Str := "<".toList ++ joined " || ".toList c.names ++ ">".toList

/-- Which command is meant: nothing is said for the main command. -/
def whose (main : Bool) (c : Cmd) : Str := if main then [] else " for command ".toList ++ allNames c

/-- A number is wrong; there are two spaces before "for" and before the dash of the main command. -/
def miscounted (what : String) (main : Bool) (c : Cmd) (expected : Nat) : Str :=
  "Incorrect number of ".toList ++ what.toList ++ " ".toList ++ whose main c ++ " - expected: ".toList ++ IntStr.natText expected

/-- The words left for the packs. -/
def forPacks (c : Cmd) (ws : List Str) : Nat := (plain ws).length - c.args.length - c.argsOpt.length

/-- The word is given to an element with truth values. -/
inductive ForBool (c : Cmd) (ws : List Str) (w : Str) : Prop where
  | arg {a} (h : a ∈ c.args) (hk : a.kind = .bool) (hw : w ∈ plain ws)
  | argOpt {a} (h : a ∈ c.argsOpt) (hk : a.kind = .bool) (hw : w ∈ plain ws)
  | pack {p} (h : p ∈ c.packs) (hk : p.kind = .bool) (hw : w ∈ plain ws)
  | value {f u n} (h : f ∈ c.flagValues) (hk : f.kind = .bool) (hu : u ∈ valuedFlags ws) (hw : Assigns u n w)
  | valueOpt {f u n} (h : f ∈ c.flagValuesOpt) (hk : f.kind = .bool) (hu : u ∈ valuedFlags ws) (hw : Assigns u n w)

/-- What is wrong with the words `ws` entered for the command `c`, and how it is said. The packs are called `packNames`. -/
inductive Tells (main : Bool) (c : Cmd) (packNames : List Str) (ws : List Str) : Exc → Prop where
  | flags (h : c.flags.length < (bareFlags ws).length) :
      Tells main c packNames ws ⟨some "Signature mismatch".toList, miscounted "flags" main c c.flags.length⟩
  | optionalFlagValues (h : c.flagValuesOpt.length < ((valuedFlags ws).filter (namesOptional c)).length) :
      Tells main c packNames ws ⟨some "Signature mismatch".toList, miscounted "optional flag values" main c c.flagValuesOpt.length⟩
  | requiredFlagValues (h : ((valuedFlags ws).filter (fun w => !namesOptional c w)).length ≠ c.flagValues.length) :
      Tells main c packNames ws ⟨some "Signature mismatch".toList, miscounted "required flag values" main c c.flagValues.length⟩
  | args (h : (plain ws).length < c.args.length) :
      Tells main c packNames ws ⟨some "Signature mismatch".toList, miscounted "args" main c c.args.length⟩
  | packPosition {p} (h : p ∈ c.packs.dropLast) (hu : Unbounded p) :
      Tells main c packNames ws
        ⟨some "Infinite ArgPack position error".toList, "Infinite ArgPacks must be specified last in the command".toList⟩
  | packCount {l p r name} (h : c.packs = l ++ p :: r) (hn : packNames[l.length]? = some name) (hl : ∀ q ∈ l, ¬ Unbounded q)
      (hu : ¬ Unbounded p) (hlt : forPacks c ws - (l.map (·.max)).sum < p.min) :
      Tells main c packNames ws
        ⟨some "ArgPack signature mismatch".toList, "Incorrect number of parameters for ArgPack `".toList ++ name ++
          "` - expected (".toList ++ IntStr.natText p.min ++ " .. ".toList ++ IntStr.natText p.max ++ ")".toList⟩
  | tooMany (hb : ∀ p ∈ c.packs, ¬ Unbounded p) (h : c.args.length + c.argsOpt.length + (c.packs.map (·.max)).sum < (plain ws).length) :
      Tells main c packNames ws ⟨some "Parsing error".toList, "Too many arguments used in command line".toList⟩
  | flag {n} (h : n ∈ bareFlags ws) (hn : ∀ f ∈ c.flags, ¬ Named f.short f.long n) :
      Tells main c packNames ws
        ⟨some "Flag not found".toList, "Flag `".toList ++ n ++ "` not found in command ".toList ++ allNames c⟩
  | value {w} (h : ForBool c ws w) (hw : ∀ v, ¬ Reads .bool w v) :
      Tells main c packNames ws ⟨none, "Cannot parse '".toList ++ w ++ "' to bool".toList⟩

/-- All sizes can be converted to text (C37). -/
def SafeCounts (c : Cmd) : Prop :=
  c.args.length < 10 ^ 18 ∧ c.flags.length < 10 ^ 18 ∧ c.flagValues.length < 10 ^ 18 ∧ c.flagValuesOpt.length < 10 ^ 18 ∧
  ∀ p ∈ c.packs, p.min < 10 ^ 18 ∧ p.max < 10 ^ 18

end Verif.CmdLine.Spec
