import Verif.CmdLine.Theorems

/-! # What a failing command line leaves behind -/

namespace Verif.CmdLine

open Spec

theorem activateFlags_stop (b1 : List Str) (n : Str) (b2 : List Str) : ∀ (fs : List Flag), (∀ m ∈ b1, ∃ f ∈ fs, Named f.short f.long m) →
    (∀ f ∈ fs, ¬ Named f.short f.long n) →
    ∃ fs', activateFlags fs (b1 ++ n :: b2) = (fs', some (.threw (.flagNotFound n))) ∧ activateFlags fs b1 = (fs', none) := by
  induction b1 with
  | nil =>
    intro fs _ hn
    rcases activateFlag_cases fs n with ⟨i, f, hf, hfirst, _⟩ | ⟨_, e⟩
    · obtain ⟨⟨f', h1, h2⟩, _⟩ := hfirst
      exact absurd h2 (hn f' (List.mem_of_getElem? h1))
    · refine ⟨fs, ?_, by cases fs <;> rfl⟩
      rw [List.nil_append, activateFlags, e]
  | cons m b1 ih =>
    intro fs hb hn
    rcases activateFlag_cases fs m with ⟨i, f, hf, hfirst, e⟩ | ⟨hno, _⟩
    · have same := activateFlag_same fs m
      rw [e] at same
      have tr : ∀ (fs fs' : List Flag) (k : Str), fs'.map (fun f => (f.short, f.long)) = fs.map (fun f => (f.short, f.long)) →
          (∃ f ∈ fs, Named f.short f.long k) → ∃ f ∈ fs', Named f.short f.long k := by
        intro fs fs' k h ⟨f, h1, h2⟩
        have : (f.short, f.long) ∈ fs'.map (fun f => (f.short, f.long)) := by rw [h]; exact List.mem_map.2 ⟨f, h1, rfl⟩
        obtain ⟨g, hg, e⟩ := List.mem_map.1 this
        simp only [Prod.mk.injEq] at e
        exact ⟨g, hg, by rw [e.1, e.2]; exact h2⟩
      obtain ⟨fs', g1, g2⟩ := ih (fs.set i { f with active := true }) (fun k hk => tr _ _ k same (hb k (by simp [hk])))
        (fun f hf hc => by
          obtain ⟨g, hg, hgn⟩ := tr _ _ n same.symm ⟨f, hf, hc⟩
          exact hn g hg hgn)
      refine ⟨fs', ?_, ?_⟩
      · rw [List.cons_append, activateFlags, e]; exact g1
      · rw [activateFlags, e]; exact g2
    · obtain ⟨f, h1, h2⟩ := hb m (by simp)
      exact absurd h2 (hno f h1)

theorem no_err {k : Kind} {w : Str} {s : Stop} (he : parse k w = .error s) (h : ∃ v, Reads k w v) : False := by
  obtain ⟨v, hv⟩ := h
  rw [(parse_iff _ _ _).2 hv] at he; cases he

/-- **C48 refuted, in general.** An unknown flag is noticed after everything else but the values of flags was set: if the rest of the input is
right, the arguments, the optional arguments and the packs have received their words, and the flags before the unknown one are on,
although an exception is thrown. -/
theorem C48_unknown_flag (x : Ctx) (words entered : List Str) (r : CmdRef) (c : Cmd) (hs : Selects x words r entered) (hc : x.get r = some c)
    (ha : c.args.length ≤ (plain entered).length) (hp : Fits c.packs ((plain entered).length - c.args.length - c.argsOpt.length))
    (hfn : (bareFlags entered).length ≤ c.flags.length) (b1 : List Str) (n : Str) (b2 : List Str) (hfl : bareFlags entered = b1 ++ n :: b2)
    (hb1 : ∀ m ∈ b1, ∃ f ∈ c.flags, Named f.short f.long m) (hn : ∀ f ∈ c.flags, ¬ Named f.short f.long n)
    (hfo : ((valuedFlags entered).filter (namesOptional c)).length ≤ c.flagValuesOpt.length)
    (hfv : ((valuedFlags entered).filter (fun w => !namesOptional c w)).length = c.flagValues.length)
    (hr : AllReadable c entered) :
    ∃ x' c', process x words = (x', .stopped (.threw (.flagNotFound n))) ∧ x'.get r = some c' ∧
      FlagsGot c.flags b1 c'.flags ∧ c'.flagValues = c.flagValues ∧ c'.flagValuesOpt = c.flagValuesOpt ∧
      ∃ as os pss o1 o2 o1', plain entered = as ++ os ++ pss.flatten ∧
        Zip3 ArgGot c.args as c'.args ∧
        c.argsOpt = o1 ++ o2 ∧ Zip3 ArgOptGot o1 os o1' ∧ c'.argsOpt = o1' ++ o2 ∧
        Zip3 (fun p ws p' => PackGot p ws p' ∧ CountOk p ws.length) c.packs pss c'.packs := by
  obtain ⟨r1, r2, r3, r4, r5⟩ := hr
  rw [process_selects hs]
  have ho : isOpt c = namesOptional c := by funext w; rfl
  have hk : CountsOk c entered := ⟨hfn, by simpa [optFlags, ho] using hfo, by simpa [reqFlags, ho] using hfv, ha⟩
  rcases runCmd_cases x r c entered hc with ⟨_, hn, _⟩ | ⟨_, e⟩
  · exact absurd hk hn.not_ok
  · rw [e]
    have hpk : ∀ w ∈ packWords c entered, w ∈ plain entered := fun w hw => List.mem_of_mem_drop (List.mem_of_mem_drop hw)
    obtain ⟨ps, hps⟩ := setPacks_complete c.packs (packWords c entered) (by simpa only [packWords, List.length_drop] using hp)
      (fun p hp w hw => r3 p hp w (hpk w hw))
    obtain ⟨fl, hfl1, hfl2⟩ := activateFlags_stop b1 n b2 c.flags hb1 hn
    rw [← hfl] at hfl1
    cases h2 : setArgs c.args (argWords c entered) with
    | mk as' o2 =>
    cases o2 with
    | some t =>
      obtain ⟨a, ha, w, hw, he⟩ := setArgs_err c.args (argWords c entered) t (by simp only [argWords, List.length_take]; omega) (by rw [h2])
      exact absurd (r1 a ha w (List.mem_of_mem_take hw)) (no_err he)
    | none =>
    cases h3 : setArgsOpt c.argsOpt (optWords c entered) with
    | mk os' o3 =>
    cases o3 with
    | some t =>
      obtain ⟨a, ha, w, hw, he⟩ := setArgsOpt_err c.argsOpt (optWords c entered) t (by simp only [optWords, List.length_take]; omega) (by rw [h3])
      exact absurd (r2 a ha w (List.mem_of_mem_drop (List.mem_of_mem_take hw))) (no_err he)
    | none =>
      have h4 : activateFlags c.flags (sorted c entered).flags = (fl, some (.threw (.flagNotFound n))) := hfl1
      have hsv : setValues c (sorted c entered) (argWords c entered) (optWords c entered) (packWords c entered) =
          ({ c with packs := ps, args := as', argsOpt := os', flags := fl }, some (.threw (.flagNotFound n))) := by
        unfold setValues
        rw [hps]
        simp only [ne_eq, not_true_eq_false, if_false, h2, h3, h4]
      rw [hsv]
      obtain ⟨_, pss, hpp, z⟩ := setPacks_sound _ _ _ hps
      have hol : (optWords c entered).length ≤ c.argsOpt.length := by simp only [optWords, List.length_take]; omega
      obtain ⟨o1, o2, o1', g1, g2, g3⟩ := (setArgsOpt_iff _ _ _ hol).1 h3
      refine ⟨_, _, rfl, get_set hc, (activateFlags_sound _ _ _ hfl2).1, rfl, rfl, argWords c entered, optWords c entered, pss, o1, o2, o1', ?_, ?_,
        g1, g2, g3, z⟩
      · rw [← hpp]; exact words_split c entered
      · exact (setArgs_iff _ _ _ (by simp only [argWords, List.length_take]; omega)).1 h2

/-- A command with an argument, a pack and two flags. -/
def effCmd : Cmd :=
  { emptyCmd with names := ["c".toList], args := [⟨.str, none⟩], packs := [⟨.str, 1, 2, []⟩],
                  flags := [mkFlag "v".toList "verbose".toList, mkFlag "f".toList "force".toList] }

example : ∃ x' c', process ⟨[effCmd], emptyCmd⟩ ["c".toList, "-v".toList, "new".toList, "-q".toList, "x".toList] =
      (x', .stopped (.threw (.flagNotFound "-q".toList))) ∧ x'.get (.cmd 0) = some c' ∧ FlagsGot effCmd.flags ["-v".toList] c'.flags := by
  have hs : Selects ⟨[effCmd], emptyCmd⟩ ["c".toList, "-v".toList, "new".toList, "-q".toList, "x".toList] (.cmd 0)
      ["-v".toList, "new".toList, "-q".toList, "x".toList] := .named (by decide) rfl (by decide) (fun j _ h => absurd h (by omega))
  have rd : ∀ w, ∃ v, Reads .str w v := fun w => ⟨.str w, (parse_iff _ _ _).1 rfl⟩
  obtain ⟨x', c', h1, h2, h3, _⟩ := C48_unknown_flag _ _ _ _ effCmd hs rfl (by decide)
    (.some (by simp [Unbounded]) (by decide) (by show Fits [] 0; exact .none)) (by decide) ["-v".toList] "-q".toList [] (by decide)
    (fun m hm => ⟨_, by simp [effCmd]; left; rfl, by simp at hm; subst hm; exact .inl (by decide)⟩)
    (by unfold Named; decide) (by decide) (by decide)
    ⟨by simp [effCmd, rd], by simp [effCmd, emptyCmd], by simp [effCmd, rd], by simp [effCmd, emptyCmd], by simp [effCmd, emptyCmd]⟩
  exact ⟨x', c', h1, h2, h3⟩

theorem pack_set_ok (p : Pack) (ws : List Str) (h : ∀ w ∈ ws, ∃ v, Reads p.kind w v) : ∃ p', p.set ws = (p', none) := by
  cases hp : p.set ws with
  | mk p' o =>
    cases o with
    | none => exact ⟨p', rfl⟩
    | some s =>
      obtain ⟨w, hw, he⟩ := Pack.set_err ws p s (by rw [hp])
      exact absurd (h w hw) (no_err he)

theorem setPacks_full (ps : List Pack) : ∀ (ws : List Str), (∀ p ∈ ps, ¬ Unbounded p ∧ p.min ≤ p.max) → (ps.map (·.max)).sum ≤ ws.length →
    (∀ p ∈ ps, ∀ w ∈ ws, ∃ v, Reads p.kind w v) →
    ∃ ps' pss rest, setPacks ps ws = (ps', rest, none) ∧ ws = pss.flatten ++ rest ∧
      Zip3 (fun p ws p' => PackGot p ws p' ∧ ws.length = p.max) ps pss ps' := by
  induction ps with
  | nil => intro ws _ _ _; exact ⟨[], [], ws, rfl, by simp, .nil⟩
  | cons p ps ih =>
    intro ws hb hl hr
    simp only [List.map_cons, List.sum_cons] at hl
    have hp := hb p (by simp)
    obtain ⟨p', hp'⟩ := pack_set_ok p (ws.take p.max) (fun w hw => hr p (by simp) w (List.mem_of_mem_take hw))
    obtain ⟨ps', pss, rest, g1, g2, g3⟩ := ih (ws.drop p.max) (fun q hq => hb q (by simp [hq])) (by rw [List.length_drop]; omega)
      (fun q hq w hw => hr q (by simp [hq]) w (List.mem_of_mem_drop hw))
    have hcount : (if ws.length > p.max then p.max else ws.length) = p.max := by split <;> omega
    refine ⟨p' :: ps', ws.take p.max :: pss, rest, ?_, ?_, .cons ⟨(Pack.set_iff _ _ _).1 hp', by rw [List.length_take]; omega⟩ g3⟩
    · rw [setPacks, if_neg (by rw [isInfinite_iff]; exact hp.1), if_neg (by omega)]
      simp only [hcount, hp', g1]
    · rw [List.flatten_cons, List.append_assoc, ← g2, List.take_append_drop]

/-- **C48 refuted, in general.** Too many words are noticed after the packs were filled: each pack has received as many words as it may, although
an exception is thrown; the arguments are as before. -/
theorem C48_too_many (x : Ctx) (words entered : List Str) (r : CmdRef) (c : Cmd) (hs : Selects x words r entered) (hc : x.get r = some c)
    (hb : ∀ p ∈ c.packs, ¬ Unbounded p ∧ p.min ≤ p.max)
    (hm : c.args.length + c.argsOpt.length + (c.packs.map (·.max)).sum < (plain entered).length)
    (hfn : (bareFlags entered).length ≤ c.flags.length)
    (hfo : ((valuedFlags entered).filter (namesOptional c)).length ≤ c.flagValuesOpt.length)
    (hfv : ((valuedFlags entered).filter (fun w => !namesOptional c w)).length = c.flagValues.length)
    (hr : ∀ p ∈ c.packs, ∀ w ∈ plain entered, ∃ v, Reads p.kind w v) :
    ∃ x' c' pss rest, process x words = (x', .stopped (.threw .tooMany)) ∧ x'.get r = some c' ∧
      (plain entered).drop (c.args.length + c.argsOpt.length) = pss.flatten ++ rest ∧
      Zip3 (fun p ws p' => PackGot p ws p' ∧ ws.length = p.max) c.packs pss c'.packs ∧ c' = { c with packs := c'.packs } := by
  rw [process_selects hs]
  have ho : isOpt c = namesOptional c := by funext w; rfl
  have hk : CountsOk c entered := ⟨hfn, by simpa [optFlags, ho] using hfo, by simpa [reqFlags, ho] using hfv, by omega⟩
  rcases runCmd_cases x r c entered hc with ⟨_, hn, _⟩ | ⟨_, e⟩
  · exact absurd hk hn.not_ok
  · rw [e]
    have hpk : ∀ w ∈ packWords c entered, w ∈ plain entered := fun w hw => List.mem_of_mem_drop (List.mem_of_mem_drop hw)
    have hlen : (packWords c entered).length = (plain entered).length - c.args.length - c.argsOpt.length := by
      simp only [packWords, List.length_drop]
    obtain ⟨ps, pss, rest, h1, h2, h3⟩ := setPacks_full c.packs (packWords c entered) hb (by rw [hlen]; omega)
      (fun p hp w hw => hr p hp w (hpk w hw))
    have hrest : rest ≠ [] := by
      intro hr0
      have hz : ∀ {ps : List Pack} {pss : List (List Str)} {ps' : List Pack},
          Zip3 (fun p ws p' => PackGot p ws p' ∧ ws.length = p.max) ps pss ps' → pss.flatten.length = (ps.map (·.max)).sum := by
        intro ps pss ps' z
        induction z with
        | nil => rfl
        | cons h _ ih => simp [h.2, ih]
      have := congrArg List.length h2
      rw [hlen, hr0, List.append_nil, hz h3] at this
      omega
    have hsv : setValues c (sorted c entered) (argWords c entered) (optWords c entered) (packWords c entered) =
        ({ c with packs := ps }, some (.threw .tooMany)) := by
      unfold setValues
      rw [h1]
      simp only [ne_eq, hrest, not_false_eq_true, if_true]
    rw [hsv]
    refine ⟨_, _, pss, rest, rfl, get_set hc, ?_, h3, rfl⟩
    rw [← h2, packWords, List.drop_drop]

example : ∃ x' c' pss rest, process ⟨[effCmd], emptyCmd⟩ ["c".toList, "a".toList, "x".toList, "y".toList, "z".toList] =
      (x', .stopped (.threw .tooMany)) ∧ x'.get (.cmd 0) = some c' ∧ ["x".toList, "y".toList, "z".toList] = pss.flatten ++ rest ∧
      Zip3 (fun p ws p' => PackGot p ws p' ∧ ws.length = p.max) effCmd.packs pss c'.packs := by
  have hs : Selects ⟨[effCmd], emptyCmd⟩ ["c".toList, "a".toList, "x".toList, "y".toList, "z".toList] (.cmd 0)
      ["a".toList, "x".toList, "y".toList, "z".toList] := .named (by decide) rfl (by decide) (fun j _ h => absurd h (by omega))
  obtain ⟨x', c', pss, rest, h1, h2, h3, h4, _⟩ := C48_too_many _ _ _ _ effCmd hs rfl (by simp [effCmd, Unbounded]) (by decide) (by decide)
    (by decide) (by decide) (fun p hp w _ => by simp [effCmd] at hp; subst hp; exact ⟨.str w, (parse_iff _ _ _).1 rfl⟩)
  exact ⟨x', c', pss, rest, h1, h2, h3, h4⟩

end Verif.CmdLine
