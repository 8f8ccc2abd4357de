import Verif.CmdLine.SpecErrors
import Verif.CmdLine.PropsHelp
import Verif.CmdLine.Theorems

/-!
# C144: the exceptions of command lines

The exception thrown for a rejected command line says what is wrong with it.
-/

namespace Verif.CmdLine

open Verif Spec

/-! ## Lemmas -/

theorem selected_eq {x : Ctx} {words entered : List Str} {r : CmdRef} (h : Selects x words r entered) : selected x words = r := by
  cases h with
  | nothing => rfl
  | flag h => simp only [selected, beginsAsFlag_eq, h]
  | named h hc hn hf => simp only [selected, beginsAsFlag_eq, h, findByName_unique hc hn hf]

theorem names_eq (c : Cmd) : namesStr c.names = .ok (allNames c) := C115_names c.names

theorem phrase_eq (main : Bool) (c : Cmd) : forCmdPhrase main c.names = .ok (whose main c) := by
  unfold forCmdPhrase whose
  cases main
  · rw [names_eq]; rfl
  · rfl

theorem mismatch_eq (buf : Str) (hb : buf.length = 19) (main : Bool) (c : Cmd) (pn : List Str) (w : What) (n : Nat) (hn : n < 10 ^ 18) (what : String)
    (hw : w.name = what.toList) :
    excOf buf main c pn (.mismatch w n) = .ok ⟨some "Signature mismatch".toList, miscounted what main c n⟩ := by
  have h1 : xSig = "Signature mismatch".toList := rfl
  have h2 : xNo = "Incorrect number of ".toList := rfl
  have h3 : xExp = " - expected: ".toList := rfl
  have h4 : [' '] = " ".toList := rfl
  have e : excOf buf main c pn (.mismatch w n) = (forCmdPhrase main c.names).bind (fun p => (IntStr.toStr .ulong buf n).bind
      (fun t => .ok ⟨some xSig, xNo ++ w.name ++ [' '] ++ p ++ xExp ++ t⟩)) := rfl
  rw [e, phrase_eq, toStr_size buf hb n hn, hw, h1, h2, h3, h4]
  unfold miscounted
  rfl

/-- What stops a run, in the words of the specification. -/
theorem miscount_tells (buf : Str) (hb : buf.length = 19) (main : Bool) (c : Cmd) (pn ws : List Str) (e : Err) (hsafe : SafeCounts c)
    (h : Miscount c ws e) : ∃ t, excOf buf main c pn e = .ok t ∧ Tells main c pn ws t := by
  obtain ⟨s1, s2, s3, s4, -⟩ := hsafe
  have ho : isOpt c = namesOptional c := by funext w; rfl
  cases h with
  | flags h => exact ⟨_, mismatch_eq buf hb main c pn _ _ s2 "flags" rfl, .flags h⟩
  | opts h =>
    refine ⟨_, mismatch_eq buf hb main c pn _ _ s4 "optional flag values" rfl, .optionalFlagValues ?_⟩
    simpa only [optFlags, ho] using h
  | reqs h =>
    refine ⟨_, mismatch_eq buf hb main c pn _ _ s3 "required flag values" rfl, .requiredFlagValues ?_⟩
    simpa only [reqFlags, ho] using h
  | args h => exact ⟨_, mismatch_eq buf hb main c pn _ _ s1 "args" rfl, .args h⟩

theorem late_tells (buf : Str) (hb : buf.length = 19) (main : Bool) (c : Cmd) (pn ws : List Str) (e : Err) (hsafe : SafeCounts c)
    (hpn : pn.length = c.packs.length) (h : LateStop c ws (.threw e)) : ∃ t, excOf buf main c pn e = .ok t ∧ Tells main c pn ws t := by
  have hval : ∀ w ∈ valuedFlags ws, Assigns w (nameOf w) (valueOf w) := by
    intro w hw
    have := (List.mem_filter.1 hw).2
    simp only [Bool.and_eq_true] at this
    exact assigns_of w this.2
  have key : ∀ {k w}, parse k w = .error (.threw e) → k = .bool ∧ e = .badValue w ∧ ∀ v, ¬ Reads .bool w v := by
    intro k w h
    rcases parse_err h with ⟨_, h⟩ | ⟨h1, h2, h3⟩ | ⟨_, h, _⟩
    · cases h
    · cases h2; exact ⟨h1, rfl, h3⟩
    · cases h
  have bad : ∀ w, ForBool c ws w → (∀ v, ¬ Reads .bool w v) → ∃ t, excOf buf main c pn (.badValue w) = .ok t ∧ Tells main c pn ws t :=
    fun w h1 h2 => ⟨_, rfl, .value h1 h2⟩
  cases h with
  | position h hu => exact ⟨_, rfl, .packPosition h hu⟩
  | @packCount l p r h hl hu hlt =>
    have hlen : c.packs.length - 1 - r.length = l.length := by rw [h]; simp
    have hp : c.packs[l.length]? = some p := by rw [h]; simp
    have hlt' : l.length < pn.length := by rw [hpn, h]; simp
    have hname : pn[l.length]? = some pn[l.length] := List.getElem?_eq_getElem hlt'
    obtain ⟨m1, m2⟩ := hsafe.2.2.2.2 p (by rw [h]; simp)
    refine ⟨_, ?_, .packCount h hname hl hu hlt⟩
    rw [excOf, hlen, hp, hname]
    simp only [toStr_size buf hb _ m1, toStr_size buf hb _ m2, Outcome.bind_ok]
    rfl
  | left hb h => exact ⟨_, rfl, .tooMany hb h⟩
  | flag h hn =>
    refine ⟨_, ?_, .flag h hn⟩
    rw [excOf, names_eq]
    rfl
  | pack hp hw h =>
    obtain ⟨k, rfl, hr⟩ := key h
    exact bad _ (.pack hp k hw) hr
  | arg hp hw h =>
    obtain ⟨k, rfl, hr⟩ := key h
    exact bad _ (.arg hp k hw) hr
  | argOpt hp hw h =>
    obtain ⟨k, rfl, hr⟩ := key h
    exact bad _ (.argOpt hp k hw) hr
  | value hf hw h =>
    obtain ⟨k, rfl, hr⟩ := key h
    exact bad _ (.value hf k hw (hval _ hw)) hr
  | valueOpt hf hw h =>
    obtain ⟨k, rfl, hr⟩ := key h
    exact bad _ (.valueOpt hf k hw (hval _ hw)) hr

theorem fits_last {ps : List Pack} {n : Nat} (h : Fits ps n) : ∀ p ∈ ps.dropLast, ¬ Unbounded p := by
  induction h with
  | none => simp
  | all h n => simp
  | @some p ps n h hmin t ih =>
    intro q hq
    cases ps with
    | nil => simp at hq
    | cons a ps =>
      rw [List.dropLast_cons_cons] at hq
      rcases List.mem_cons.1 hq with rfl | hq
      · exact h
      · exact ih q hq

theorem fits_min {l : List Pack} : ∀ {p : Pack} {r : List Pack} {n : Nat}, Fits (l ++ p :: r) n → (∀ q ∈ l, ¬ Unbounded q) →
    ¬ Unbounded p → ¬ n - (l.map (·.max)).sum < p.min := by
  induction l with
  | nil =>
    intro p r n h _ hu
    cases h with
    | all h => exact absurd h hu
    | some _ hmin _ => simpa using hmin
  | cons q l ih =>
    intro p r n h hl hu
    rw [List.cons_append] at h
    generalize he : l ++ p :: r = t at h
    cases h with
    | all h => exact absurd h (hl q (by simp))
    | some _ hmin ht =>
      subst he
      have := ih ht (fun a ha => hl a (by simp [ha])) hu
      simp only [List.map_cons, List.sum_cons]
      omega

/-! ## Theorems -/

/-- **C144 (partial).** If something is thrown for the words of an existing command, then its title and its text say what is wrong: for a wrong number
of flags, flag values or arguments which of them and how many are expected, for a pack with too few words its name and bounds, for a flag that
the command does not have the flag, for a value that is no truth value the value. Missing: sizes from 10^18 (see `C144_large_pack_fails`). -/
theorem C144_tells_partial (buf : Str) (hb : buf.length = 19) (x : Ctx) (pn : CmdRef → List Str) (words entered : List Str) (r : CmdRef) (c : Cmd)
    (hs : Selects x words r entered) (hc : x.get r = some c) (hpn : (pn r).length = c.packs.length) (hsafe : SafeCounts c) (o : Outcome Exc)
    (h : caught buf x pn words = some o) : ∃ t, o = .ok t ∧ Tells (r == .main) c (pn r) entered t := by
  unfold caught at h
  rw [selected_eq hs, hc, process_selects hs] at h
  rcases runCmd_cases x r c entered hc with ⟨e, hm, e'⟩ | ⟨hk, e'⟩
  · rw [e'] at h
    simp only [Option.some.injEq, Option.getD_some] at h
    obtain ⟨t, h1, h2⟩ := miscount_tells buf hb (r == .main) c (pn r) entered e hsafe hm
    exact ⟨t, by rw [← h]; exact h1, h2⟩
  · rw [e'] at h
    generalize hsv : setValues c _ _ _ _ = sv at h
    obtain ⟨c', o'⟩ := sv
    cases o' with
    | none => cases h
    | some s =>
      have hl := setValues_err c entered hk s (by rw [hsv])
      cases s with
      | died => cases h
      | ub => cases h
      | threw e =>
        simp only [Option.some.injEq, Option.getD_some] at h
        obtain ⟨t, h1, h2⟩ := late_tells buf hb (r == .main) c (pn r) entered e hsafe hpn hl
        exact ⟨t, by rw [← h]; exact h1, h2⟩

/-- **C144.** What the exception says would be reason enough: a command does not run if there is anything to tell about the number of words or about
the flags (for values see C46). -/
theorem C144_reason (x : Ctx) (pn words entered : List Str) (r : CmdRef) (c : Cmd) (hs : Selects x words r entered) (hc : x.get r = some c)
    (t : Exc) (ht : Tells (r == .main) c pn entered t) (hv : t.title ≠ none) : ∃ s, (process x words).2 = .stopped s := by
  cases hp : process x words with
  | mk x' res =>
    cases res with
    | stopped s => exact ⟨s, rfl⟩
    | ran r' =>
      exfalso
      obtain ⟨entered', c1, c', hs', hc1, _, _, _, ⟨k1, k2, k3, k4⟩, hsv⟩ := ran_cases hp
      obtain ⟨rfl, rfl⟩ := selects_unique hs hs'
      have : c1 = c := by rw [hc] at hc1; cases hc1; rfl
      subst this
      have ho : isOpt c1 = namesOptional c1 := by funext w; rfl
      obtain ⟨ps, as', os', fl, fv, fo, e1, e2, e3, e4, e5, e6, rfl⟩ := (setValues_iff _ _ _ _ _ _).1 hsv
      have hf := (setPacks_sound _ _ _ e1).1
      cases ht with
      | flags h => omega
      | optionalFlagValues h => simp only [optFlags, ho] at k2; omega
      | requiredFlagValues h => simp only [reqFlags, ho] at k3; exact h k3
      | args h => omega
      | packPosition h hu => exact fits_last hf _ h hu
      | packCount h hn hl hu hlt =>
        rw [h] at hf
        simp only [packWords, List.length_drop] at hf
        exact fits_min hf hl hu hlt
      | tooMany hb h =>
        have := fits_sum hf hb
        simp only [packWords, List.length_drop] at this
        omega
      | flag h hn =>
        obtain ⟨f, hf, hfn⟩ := (activateFlags_sound _ _ _ e4).2 _ h
        exact hn f hf hfn
      | value => exact hv rfl

/-- **C144.** For a name that no command has the exception repeats the name and suggests the nearest name there is. -/
theorem C144_unknown (buf : Str) (x : Ctx) (pn : CmdRef → List Str) (w : Str) (ws : List Str) (h : isFlagWord w = false)
    (hn : ∀ c ∈ x.cmds, w ∉ c.names) (hlen : ∀ c ∈ x.cmds, ∀ n ∈ c.names, n.length + w.length < 2 ^ 64 - 1) :
    ∃ s, caught buf x pn (w :: ws) = some (.ok ⟨some "Command not found".toList,
        "Command with name <".toList ++ w ++ "> not found - did you mean <".toList ++ s ++ ">?".toList⟩) ∧
      ((∀ c ∈ x.cmds, c.names = []) ∧ s = [] ∨
       (∃ c ∈ x.cmds, s ∈ c.names) ∧ ∃ d, Verif.Str.Spec.IsDistance s w d ∧
         ∀ c ∈ x.cmds, ∀ n ∈ c.names, ∀ e, Verif.Str.Spec.IsDistance n w e → d ≤ e) := by
  obtain ⟨s, hp, hs⟩ := C45_unknown x w ws h hn hlen
  refine ⟨s, ?_, ?_⟩
  · unfold caught
    rw [hp]
    rfl
  · rcases hs with ⟨h1, h2⟩ | ⟨d, l1, l2, hd, hl, h1, h2⟩
    · left
      exact ⟨List.flatMap_eq_nil_iff.1 h1, h2⟩
    · right
      refine ⟨?_, d, hd, ?_⟩
      · have : s ∈ x.cmds.flatMap (·.names) := by rw [hl]; simp
        exact List.mem_flatMap.1 this
      · intro c hc n hnc e he
        have hm : n ∈ x.cmds.flatMap (·.names) := List.mem_flatMap.2 ⟨c, hc, hnc⟩
        rw [hl, List.mem_append, List.mem_cons] at hm
        rcases hm with hm | rfl | hm
        · exact Nat.le_of_lt (h1 n hm e he)
        · exact hd.2 e he.1
        · exact h2 n hm e he

/-- **C144 fails for large bounds.** A pack of at least `min` and practically any number of words (`max` from 10^18, such as the largest
`std::size_t`): to say that there are too few words is undefined. -/
theorem C144_large_pack_fails (buf : Str) (hb : buf.length = 19) (x : Ctx) (pn : CmdRef → List Str) (words entered : List Str) (r : CmdRef) (c : Cmd)
    (hs : Selects x words r entered) (hc : x.get r = some c) (hk : (pn r).length = 1) (p : Pack) (hp : c.packs = [p]) (hmin : p.min < 10 ^ 18)
    (hmax : 10 ^ 18 ≤ p.max) (hmax' : p.max < 2 ^ 64) (hf : bareFlags entered = []) (hv : valuedFlags entered = []) (hfv : c.flagValues = [])
    (ha : c.args.length ≤ (plain entered).length) (hlt : (plain entered).length - c.args.length - c.argsOpt.length < p.min) :
    caught buf x pn words = some .ub := by
  unfold caught
  rw [selected_eq hs, hc, process_selects hs]
  rcases runCmd_cases x r c entered hc with ⟨e, hm, -⟩ | ⟨hk', e'⟩
  · exfalso
    refine hm.not_ok ⟨?_, ?_, ?_, ha⟩
    · rw [hf]; simp
    · simp [optFlags, hv]
    · simp [reqFlags, hv, hfv]
  · have hu : p.isInfinite = false := by
      unfold Pack.isInfinite
      have : p.max ≠ 0 := by omega
      simp [this]
    rw [e', setValues, hp, setPacks, hu]
    have hl : (packWords c entered).length < p.min := by simpa only [packWords, List.length_drop] using hlt
    simp only [Bool.false_eq_true, if_false, if_pos hl, Option.getD_some]
    obtain ⟨name, hname⟩ := List.length_eq_one_iff.1 hk
    rw [excOf, hp, hname]
    simp only [List.length_cons, List.length_nil, Nat.zero_add, Nat.sub_self, List.getElem?_cons_zero]
    rw [toStr_size buf hb _ hmin, Outcome.bind_ok,
      IntStr.C37_toStr_partial .ulong buf hb p.max (by simp [IntStr.IntType.InRange, IntStr.IntType.signed, IntStr.IntType.bits]; omega),
      if_neg (by simp [IntStr.safeLo, IntStr.safeHi]; omega)]
    rfl

/-- The hypotheses are met by `cp -m=1 a 1 y`, which lacks a file. -/
theorem C144_example (buf : Str) (hb : buf.length = 19) :
    Selects demo ["cp".toList, "-m=1".toList, "a".toList, "1".toList, "y".toList] (.cmd 1)
      ["-m=1".toList, "a".toList, "1".toList, "y".toList] ∧ SafeCounts copyCmd ∧
    caught buf demo (fun _ => ["files".toList]) ["cp".toList, "-m=1".toList, "a".toList, "1".toList, "y".toList] =
      some (.ok ⟨some "ArgPack signature mismatch".toList,
        "Incorrect number of parameters for ArgPack `files` - expected (1 .. 2)".toList⟩) := by
  refine ⟨.named (by decide) rfl (by decide) ?_, ?_, ?_⟩
  · intro j d hj hd
    have : j = 0 := by omega
    subst this
    simp only [demo, List.getElem?_cons_zero, Option.some.injEq] at hd
    subst hd
    decide
  · simp [SafeCounts, copyCmd]
  · have h1 : (process demo ["cp".toList, "-m=1".toList, "a".toList, "1".toList, "y".toList]).2 = .stopped (.threw (.packMismatch 0)) := by
      decide +kernel
    have h2 : selected demo ["cp".toList, "-m=1".toList, "a".toList, "1".toList, "y".toList] = .cmd 1 := by decide +kernel
    unfold caught
    rw [h1, h2]
    simp only [Ctx.get, demo, List.getElem?_cons_succ, List.getElem?_cons_zero, Option.getD_some, excOf, copyCmd, List.length_cons,
      List.length_nil, Nat.zero_add, Nat.sub_self, toStr_size buf hb 1 (by norm_num), toStr_size buf hb 2 (by norm_num), Outcome.bind_ok]
    decide +kernel

end Verif.CmdLine
