import Verif.CmdLine.Theorems

/-! # Malformed numbers on the command line (C74) -/

namespace Verif.CmdLine

open Spec

/-- A value was entered for a number of the command that cannot be read as one. -/
def BadNumber (c : Cmd) (ws : List Str) : Prop :=
  ∃ k w, (k = .int ∨ k = .float) ∧ (∀ v, ¬ Reads k w v) ∧
    ((w ∈ plain ws ∧ ((∃ a ∈ c.args, a.kind = k) ∨ (∃ a ∈ c.argsOpt, a.kind = k) ∨ ∃ p ∈ c.packs, p.kind = k)) ∨
      ((∃ u ∈ valuedFlags ws, ∃ name, Assigns u name w) ∧ ((∃ f ∈ c.flagValues, f.kind = k) ∨ ∃ f ∈ c.flagValuesOpt, f.kind = k)))

theorem unreadable {k : Kind} {w : Str} {s : Stop} (h : parse k w = .error s) : ∀ v, ¬ Reads k w v := by
  intro v hv
  rw [(parse_iff k w v).2 hv] at h
  cases h

theorem assigns_valueOf {u : Str} {ws : List Str} (h : u ∈ valuedFlags ws) : ∃ name, Assigns u name (valueOf u) := by
  have h2 := (List.mem_filter.1 h).2
  simp only [Bool.and_eq_true] at h2
  exact ⟨_, assigns_of u h2.2⟩

/-- **C74 (how it ends).** A command line of ASCII words, for commands with elements of any types, ends with the action, with an exception, or by
terminating the program; the last only if a value that is not a number, or one that does not fit, was entered where a number could be expected. -/
theorem C74_ends (x : Ctx) (words : List Str) (ha : ∀ w ∈ words, ∀ ch ∈ w, ch.toNat < 128) :
    (∃ r, (process x words).2 = .ran r) ∨ (∃ e, (process x words).2 = .stopped (.threw e)) ∨
      ((process x words).2 = .stopped .died ∧ ∃ r c entered, Selects x words r entered ∧ x.get r = some c ∧ BadNumber c entered) := by
  rcases selects_or x words with ⟨r, entered, c, hs, hc⟩ | ⟨w, ws, rfl, h1, h2⟩
  · have hsub : ∀ w ∈ entered, w ∈ words := by
      cases hs with
      | nothing => simp
      | flag => intro w hw; exact hw
      | named => intro w hw; exact List.mem_cons_of_mem _ hw
    rw [process_selects hs]
    rcases runCmd_cases x r c entered hc with ⟨_, n, e⟩ | ⟨hcount, e⟩
    · rw [e]; exact .inr (.inl ⟨_, rfl⟩)
    · rw [e]
      generalize hsv : setValues c _ _ _ _ = sv
      obtain ⟨c', o⟩ := sv
      cases o with
      | none => exact .inl ⟨_, rfl⟩
      | some s =>
        right
        have hval : ∀ w ∈ valuedFlags entered, ∀ ch ∈ valueOf w, ch.toNat < 128 := by
          intro w hw ch hch
          exact ha w (hsub w (List.mem_filter.1 hw).1) ch ((List.dropWhile_sublist _).subset ((List.drop_sublist _ _).subset hch))
        have hpl : ∀ w ∈ plain entered, ∀ ch ∈ w, ch.toNat < 128 := fun w hw => ha w (hsub w (List.mem_filter.1 hw).1)
        have key : ∀ {k w s}, parse k w = .error s → (∀ ch ∈ w, ch.toNat < 128) → (∃ e, s = .threw e) ∨ (s = .died ∧ (k = .int ∨ k = .float)) := by
          intro k w s h hw
          rcases parse_err h with ⟨h, h'⟩ | ⟨_, h⟩ | ⟨_, _, ch, hch, hb⟩
          · exact .inr ⟨h', h⟩
          · exact .inl ⟨_, h.1⟩
          · have := hw ch hch; omega
        have : (∃ e, s = .threw e) ∨ (s = .died ∧ BadNumber c entered) := by
          cases setValues_err c entered hcount s (by rw [hsv]) with
          | position => exact .inl ⟨_, rfl⟩
          | packCount => exact .inl ⟨_, rfl⟩
          | left => exact .inl ⟨_, rfl⟩
          | flag => exact .inl ⟨_, rfl⟩
          | pack hp hw h =>
            exact (key h (hpl _ hw)).imp id fun ⟨h1, h2⟩ => ⟨h1, _, _, h2, unreadable h, .inl ⟨hw, .inr (.inr ⟨_, hp, rfl⟩)⟩⟩
          | arg hp hw h => exact (key h (hpl _ hw)).imp id fun ⟨h1, h2⟩ => ⟨h1, _, _, h2, unreadable h, .inl ⟨hw, .inl ⟨_, hp, rfl⟩⟩⟩
          | argOpt hp hw h =>
            exact (key h (hpl _ hw)).imp id fun ⟨h1, h2⟩ => ⟨h1, _, _, h2, unreadable h, .inl ⟨hw, .inr (.inl ⟨_, hp, rfl⟩)⟩⟩
          | value hp hw h =>
            exact (key h (hval _ hw)).imp id fun ⟨h1, h2⟩ => ⟨h1, _, _, h2, unreadable h, .inr ⟨⟨_, hw, assigns_valueOf hw⟩, .inl ⟨_, hp, rfl⟩⟩⟩
          | valueOpt hp hw h =>
            exact (key h (hval _ hw)).imp id fun ⟨h1, h2⟩ => ⟨h1, _, _, h2, unreadable h, .inr ⟨⟨_, hw, assigns_valueOf hw⟩, .inr ⟨_, hp, rfl⟩⟩⟩
        rcases this with ⟨e, rfl⟩ | ⟨rfl, hb⟩
        · exact .inl ⟨e, rfl⟩
        · exact .inr ⟨rfl, r, c, entered, hs, hc, hb⟩
  · obtain ⟨_, _, e⟩ := process_unknown (ws := ws) h1 h2
    rw [e]; exact .inr (.inl ⟨_, rfl⟩)

theorem setArgs_dies (as : List Arg) : ∀ (ws : List Str) (i : Nat) (a : Arg) (w : Str), as[i]? = some a → ws[i]? = some w →
    (a.kind = .int ∨ a.kind = .float) → (∀ v, ¬ Reads a.kind w v) →
    (∀ j, j < i → ∀ b u, as[j]? = some b → ws[j]? = some u → ∃ v, Reads b.kind u v) → (setArgs as ws).2 = some .died := by
  induction as with
  | nil => intro ws i a w ha; simp at ha
  | cons b as ih =>
    intro ws i a w ha hw hk hun hprev
    cases ws with
    | nil => simp at hw
    | cons u ws =>
      rw [setArgs]
      cases i with
      | zero =>
        simp only [List.getElem?_cons_zero, Option.some.injEq] at ha hw
        subst ha; subst hw
        cases hp : parse b.kind u with
        | ok v => exact absurd ((parse_iff _ _ _).1 hp) (hun v)
        | error e =>
          rcases parse_err hp with ⟨_, h⟩ | ⟨h, _⟩ | ⟨h, _⟩
          · rw [h]
          · rw [h] at hk; simp at hk
          · rw [h] at hk; simp at hk
      | succ i =>
        obtain ⟨v, hv⟩ := hprev 0 (by omega) b u rfl rfl
        rw [(parse_iff _ _ _).2 hv]
        exact ih ws i a w ha hw hk hun (fun j hj b' u' hb' hu' => hprev (j + 1) (by omega) b' u' hb' hu')

/-- **C74 refuted, always.** For every command without packs: when the numbers of flags and words are right and the first required argument whose word
cannot be read is a number, the program is terminated. (The conversion throws in a function declared `noexcept`.) -/
theorem C74_dies (x : Ctx) (words entered : List Str) (r : CmdRef) (c : Cmd) (hs : Selects x words r entered) (hc : x.get r = some c)
    (hp : c.packs = []) (hf : (bareFlags entered).length ≤ c.flags.length)
    (ho : ((valuedFlags entered).filter (namesOptional c)).length ≤ c.flagValuesOpt.length)
    (hv : ((valuedFlags entered).filter (fun w => !namesOptional c w)).length = c.flagValues.length)
    (hn : c.args.length ≤ (plain entered).length) (hn' : (plain entered).length ≤ c.args.length + c.argsOpt.length)
    (i : Nat) (a : Arg) (w : Str) (ha : c.args[i]? = some a) (hw : (plain entered)[i]? = some w) (hk : a.kind = .int ∨ a.kind = .float)
    (hun : ∀ v, ¬ Reads a.kind w v)
    (hprev : ∀ j, j < i → ∀ b u, c.args[j]? = some b → (plain entered)[j]? = some u → ∃ v, Reads b.kind u v) :
    (process x words).2 = .stopped .died := by
  rw [process_selects hs]
  have hi : i < c.args.length := (List.getElem?_eq_some_iff.1 ha).1
  rcases runCmd_cases x r c entered hc with ⟨_, hm, _⟩ | ⟨_, e⟩
  · exact absurd ⟨hf, ho, hv, hn⟩ hm.not_ok
  · rw [e]
    have hpw : packWords c entered = [] := by
      apply List.eq_nil_of_length_eq_zero
      simp only [packWords, List.length_drop]; omega
    have hd := setArgs_dies c.args (argWords c entered) i a w ha (by rw [argWords, List.getElem?_take_of_lt hi]; exact hw) hk hun (by
      intro j hj b u hb hu
      rw [argWords, List.getElem?_take_of_lt (by omega)] at hu
      exact hprev j hj b u hb hu)
    rw [setValues, hp, hpw, setPacks]
    simp only [ne_eq, not_true_eq_false, if_false]
    generalize setArgs c.args (argWords c entered) = q at hd
    obtain ⟨as', o⟩ := q
    simp only at hd
    subst hd
    rfl

/-- A word that begins with a letter is no number. -/
example : ∃ c : Cmd, c.args = [⟨.str, none⟩, ⟨.int, none⟩] ∧
    (process ⟨[c], emptyCmd⟩ ["c".toList, "a".toList, "b".toList]).2 = .stopped .died ∧
    (process ⟨[c], emptyCmd⟩ ["c".toList, "a".toList, "2147483648".toList]).2 = .stopped .died ∧
    (process ⟨[c], emptyCmd⟩ ["c".toList, "a".toList, "7".toList]).2 = .ran (.cmd 0) :=
  ⟨{ emptyCmd with names := ["c".toList], args := [⟨.str, none⟩, ⟨.int, none⟩] }, rfl, by decide +kernel, by decide +kernel, by decide +kernel⟩

end Verif.CmdLine
