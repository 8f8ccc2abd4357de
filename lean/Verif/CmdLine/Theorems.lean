import Verif.CmdLine.LemmasErr
import Verif.IntStr.Lemmas

/-!
# Command lines: theorems

C45 (lookup), C46 (arguments), C47 (flags), C48 (failures) and C73 (processing again).
-/

namespace Verif.CmdLine

open Verif Spec

/-! ## Examples used below -/

/-- A command `copy` with two arguments, one optional, a pack of one to two, a flag and a flag value. -/
def copyCmd : Cmd :=
  { names := ["copy".toList, "cp".toList], args := [⟨.str, none⟩, ⟨.int, none⟩], argsOpt := [⟨.bool, .bool false, none, false⟩],
    packs := [⟨.str, 1, 2, []⟩], flags := [mkFlag "v".toList "verbose".toList], flagValues := [mkFlagValue "m".toList "mode".toList .str],
    flagValuesOpt := [] }

def emptyCmd : Cmd := ⟨[], [], [], [], [], [], []⟩

def listCmd : Cmd := { emptyCmd with names := ["list".toList], packs := [⟨.str, 0, 0, []⟩] }

def demo : Ctx := ⟨[listCmd, copyCmd], emptyCmd⟩

def copyWords : List Str := ["cp".toList, "--verbose".toList, "a".toList, "12".toList, "Yes".toList, "-m=x=y".toList, "f".toList, "g".toList]

example : (process demo copyWords).2 = .ran (.cmd 1) := by decide +kernel

/-! ## Lookup -/

theorem findByName_spec (cmds : List Cmd) (w : Str) :
    (∃ i c, findByName cmds w = some i ∧ cmds[i]? = some c ∧ w ∈ c.names ∧ ∀ j d, j < i → cmds[j]? = some d → w ∉ d.names) ∨
    (findByName cmds w = none ∧ ∀ c ∈ cmds, w ∉ c.names) := by
  induction cmds with
  | nil => right; exact ⟨rfl, by simp⟩
  | cons c cmds ih =>
    rw [findByName]
    by_cases h : c.names.contains w = true
    · rw [if_pos h]
      exact .inl ⟨0, c, rfl, rfl, by simpa using h, by intro j d hj; omega⟩
    · rw [if_neg h]
      have h' : w ∉ c.names := by simpa using h
      rcases ih with ⟨i, d, e, h1, h2, h3⟩ | ⟨e, h1⟩
      · left
        refine ⟨i + 1, d, by rw [e]; rfl, by simpa using h1, h2, ?_⟩
        intro j k hj hk
        cases j with
        | zero => simp at hk; subst hk; exact h'
        | succ j => exact h3 j k (by omega) (by simpa using hk)
      · right
        refine ⟨by rw [e]; rfl, ?_⟩
        intro d hd
        rcases List.mem_cons.1 hd with rfl | hd
        · exact h'
        · exact h1 d hd

theorem findByName_unique {cmds : List Cmd} {w : Str} {i : Nat} {c : Cmd} (hc : cmds[i]? = some c) (hn : w ∈ c.names)
    (hf : ∀ j d, j < i → cmds[j]? = some d → w ∉ d.names) : findByName cmds w = some i := by
  rcases findByName_spec cmds w with ⟨k, d, e, h1, h2, h3⟩ | ⟨_, h1⟩
  · rcases Nat.lt_trichotomy k i with h | h | h
    · exact absurd h2 (hf k d h h1)
    · rw [e, h]
    · exact absurd hn (h3 i c h hc)
  · exact absurd hn (h1 c (List.mem_of_getElem? hc))

theorem closestIn_append (w : Str) (a b : List Str) : ∀ best, closestIn w (a ++ b) best = (closestIn w a best).bind (closestIn w b) := by
  induction a with
  | nil => intro best; rfl
  | cons n a ih =>
    intro best
    obtain ⟨d, hd, _⟩ := Verif.Str.C36_least_edits n w
    simp only [List.cons_append, closestIn, hd, Outcome.bind_ok]
    exact ih _

theorem closestIn_ok (w : Str) (a : List Str) : ∀ best, ∃ r, closestIn w a best = .ok r := by
  induction a with
  | nil => intro best; exact ⟨_, rfl⟩
  | cons n a ih =>
    intro best
    obtain ⟨d, hd, _⟩ := Verif.Str.C36_least_edits n w
    simp only [closestIn, hd, Outcome.bind_ok]
    exact ih _

theorem closest_flat (w : Str) (cmds : List Cmd) : ∀ best, closest w cmds best = closestIn w (cmds.flatMap (·.names)) best := by
  induction cmds with
  | nil => intro best; rfl
  | cons c cmds ih =>
    intro best
    rw [List.flatMap_cons, closestIn_append, closest]
    obtain ⟨r, hr⟩ := closestIn_ok w c.names best
    rw [hr, Outcome.bind_ok, ih]
    rfl

theorem edits_erase (a : Str) : Verif.Str.Spec.Edits a.length a [] := by
  induction a with
  | nil => exact .refl _
  | cons c a ih => exact .step (.delete [] a c) ih

theorem edits_le {a b : Str} {n : Nat} (h : Verif.Str.Spec.IsDistance a b n) : n ≤ a.length + b.length :=
  h.2 _ (Verif.Str.edits_trans (edits_erase a) (Verif.Str.edits_symm (edits_erase b)))

theorem isDistance_unique {a b : Str} {n m : Nat} (h : Verif.Str.Spec.IsDistance a b n) (h' : Verif.Str.Spec.IsDistance a b m) : n = m :=
  Nat.le_antisymm (h.2 _ h'.1) (h'.2 _ h.1)

/-- What the search leaves: the best so far, or the first name strictly better than it and than all before. -/
theorem closestIn_spec (w : Str) (a : List Str) : ∀ best : Nat × Str, ∃ r, closestIn w a best = .ok r ∧
    ((r = best ∧ ∀ n ∈ a, ∀ e, Verif.Str.Spec.IsDistance n w e → best.1 ≤ e) ∨
     (Verif.Str.Spec.IsDistance r.2 w r.1 ∧ r.1 < best.1 ∧ ∃ l1 l2, a = l1 ++ r.2 :: l2 ∧
        (∀ n ∈ l1, ∀ e, Verif.Str.Spec.IsDistance n w e → r.1 < e) ∧ ∀ n ∈ l2, ∀ e, Verif.Str.Spec.IsDistance n w e → r.1 ≤ e)) := by
  induction a with
  | nil => intro best; exact ⟨best, rfl, .inl ⟨rfl, by simp⟩⟩
  | cons n a ih =>
    intro best
    obtain ⟨d, hd, hdist⟩ := Verif.Str.C36_least_edits n w
    by_cases hlt : d < best.1
    · obtain ⟨r, hr, h⟩ := ih (d, n)
      refine ⟨r, by simp only [closestIn, hd, Outcome.bind_ok, if_pos hlt]; exact hr, .inr ?_⟩
      rcases h with ⟨rfl, h⟩ | ⟨h1, h2, l1, l2, e, h3, h4⟩
      · exact ⟨hdist, hlt, [], a, rfl, by simp, h⟩
      · refine ⟨h1, by simp only at h2; omega, n :: l1, l2, by rw [e]; rfl, ?_, h4⟩
        intro m hm k hk
        rcases List.mem_cons.1 hm with rfl | hm
        · rw [isDistance_unique hk hdist]; exact h2
        · exact h3 m hm k hk
    · obtain ⟨r, hr, h⟩ := ih best
      refine ⟨r, by simp only [closestIn, hd, Outcome.bind_ok, if_neg hlt]; exact hr, ?_⟩
      rcases h with ⟨rfl, h⟩ | ⟨h1, h2, l1, l2, e, h3, h4⟩
      · left
        refine ⟨rfl, ?_⟩
        intro m hm k hk
        rcases List.mem_cons.1 hm with rfl | hm
        · rw [isDistance_unique hk hdist]; omega
        · exact h m hm k hk
      · right
        refine ⟨h1, h2, n :: l1, l2, by rw [e]; rfl, ?_, h4⟩
        intro m hm k hk
        rcases List.mem_cons.1 hm with rfl | hm
        · rw [isDistance_unique hk hdist]; omega
        · exact h3 m hm k hk

/-- `process` hands the words of the command to `runCmd`. -/
theorem process_selects {x : Ctx} {words entered : List Str} {r : CmdRef} (h : Selects x words r entered) :
    process x words = runCmd x r entered := by
  cases h with
  | nothing => rfl
  | flag h => rw [process, beginsAsFlag_eq, h]
  | named h hc hn hf =>
    rw [process, beginsAsFlag_eq, h]
    simp only [findCmd, findByName_unique hc hn hf]

/-- Each input is for one command, or its first word is not a flag and not the name of a command. -/
theorem selects_or (x : Ctx) (words : List Str) : (∃ r entered c, Selects x words r entered ∧ x.get r = some c) ∨
    ∃ w ws, words = w :: ws ∧ isFlagWord w = false ∧ ∀ c ∈ x.cmds, w ∉ c.names := by
  cases words with
  | nil => exact .inl ⟨_, _, _, .nothing, rfl⟩
  | cons w ws =>
    cases h : isFlagWord w with
    | true => exact .inl ⟨_, _, _, .flag h, rfl⟩
    | false =>
      rcases findByName_spec x.cmds w with ⟨i, c, _, h1, h2, h3⟩ | ⟨_, h1⟩
      · exact .inl ⟨_, _, c, .named h h1 h2 h3, h1⟩
      · exact .inr ⟨w, ws, rfl, h, h1⟩

theorem process_unknown {x : Ctx} {w : Str} {ws : List Str} (h : isFlagWord w = false) (hn : ∀ c ∈ x.cmds, w ∉ c.names) :
    ∃ r, closestIn w (x.cmds.flatMap (·.names)) (2 ^ 64 - 1, []) = .ok r ∧
      process x (w :: ws) = (x, .stopped (.threw (.cmdNotFound w r.2))) := by
  obtain ⟨r, hr⟩ := closestIn_ok w (x.cmds.flatMap (·.names)) (2 ^ 64 - 1, [])
  refine ⟨r, hr, ?_⟩
  rw [process, beginsAsFlag_eq, h]
  have : findByName x.cmds w = none := by
    rcases findByName_spec x.cmds w with ⟨i, c, _, h1, h2, _⟩ | ⟨h1, _⟩
    · exact absurd h2 (hn c (List.mem_of_getElem? h1))
    · exact h1
  simp only [findCmd, this, closest_flat, hr]

theorem othersSame_set (x : Ctx) (c : Cmd) (r : CmdRef) : OthersSame x (x.set c r) r := by
  cases r with
  | main => exact ⟨rfl, fun h => absurd rfl h, fun _ _ => rfl⟩
  | cmd i =>
    refine ⟨by simp [Ctx.set], by simp [Ctx.set], ?_⟩
    intro j hj
    have : i ≠ j := fun e => hj (by rw [e])
    simp only [Ctx.set, List.getElem?_set_ne this]

theorem get_set {x : Ctx} {c c' : Cmd} {r : CmdRef} (h : x.get r = some c) : (x.set c' r).get r = some c' := by
  cases r with
  | main => rfl
  | cmd i =>
    have : i < x.cmds.length := (List.getElem?_eq_some_iff.1 h).1
    simp [Ctx.get, Ctx.set, this]

theorem set_get {x : Ctx} {c : Cmd} {r : CmdRef} (h : x.get r = some c) : x.set c r = x := by
  cases r with
  | main => cases h; rfl
  | cmd i =>
    obtain ⟨hi, e⟩ := List.getElem?_eq_some_iff.1 h
    simp only [Ctx.set, ← e, List.set_getElem_self]

theorem Zip3.imp_mem {α β γ : Type} {R S : α → β → γ → Prop} {as : List α} {bs : List β} {cs : List γ}
    (h : ∀ a b c, b ∈ bs → R a b c → S a b c) (t : Zip3 R as bs cs) : Zip3 S as bs cs := by
  induction t with
  | nil => exact .nil
  | cons h' _ ih => exact .cons (h _ _ _ (by simp) h') (ih (fun a b c hb => h a b c (by simp [hb])))

theorem selects_unique {x : Ctx} {words e e' : List Str} {r r' : CmdRef} (h : Selects x words r e) (h' : Selects x words r' e') : r = r' ∧ e = e' := by
  cases h with
  | nothing => cases h'; exact ⟨rfl, rfl⟩
  | flag h =>
    cases h' with
    | flag => exact ⟨rfl, rfl⟩
    | named h2 => rw [h] at h2; cases h2
  | named h hc hn hf =>
    cases h' with
    | flag h2 => rw [h] at h2; cases h2
    | named h2 hc2 hn2 hf2 =>
      have e1 := findByName_unique hc hn hf
      rw [findByName_unique hc2 hn2 hf2] at e1
      cases e1
      exact ⟨rfl, rfl⟩

theorem ran_cases {x x' : Ctx} {words : List Str} {r : CmdRef} (h : process x words = (x', .ran r)) :
    ∃ entered c c', Selects x words r entered ∧ x.get r = some c ∧ x'.get r = some c' ∧ OthersSame x x' r ∧ SameDeclaration c c' ∧
      CountsOk c entered ∧ setValues c (sorted c entered) (argWords c entered) (optWords c entered) (packWords c entered) = (c', none) := by
  rcases selects_or x words with ⟨r', entered, c, hs, hc⟩ | ⟨w, ws, rfl, h1, h2⟩
  · rw [process_selects hs] at h
    rcases runCmd_cases x r' c entered hc with ⟨_, n, e⟩ | ⟨hk, e⟩
    · rw [e] at h; cases h
    · rw [e] at h
      have hsame := setValues_same c (sorted c entered) (argWords c entered) (optWords c entered) (packWords c entered)
      generalize hsv : setValues c (sorted c entered) (argWords c entered) (optWords c entered) (packWords c entered) = sv at h hsame
      obtain ⟨c', o⟩ := sv
      cases o with
      | some s => cases h
      | none =>
        simp only [Prod.mk.injEq, Result.ran.injEq] at h
        obtain ⟨rfl, rfl⟩ := h
        exact ⟨entered, c, c', hs, hc, get_set hc, othersSame_set x c' _, hsame, hk, hsv⟩
  · obtain ⟨_, _, e⟩ := process_unknown (ws := ws) h1 h2
    rw [e] at h; cases h

theorem selects_same {x x' : Ctx} {words entered : List Str} {r : CmdRef} {c c' : Cmd} (hs : Selects x words r entered) (hc : x.get r = some c)
    (hc' : x'.get r = some c') (ho : OthersSame x x' r) (hn : c'.names = c.names) : Selects x' words r entered := by
  cases hs with
  | nothing => exact .nothing
  | flag h => exact .flag h
  | @named w ws i d h hd hnm hf =>
    have : d = c := by rw [Ctx.get, hd] at hc; cases hc; rfl
    subst this
    refine .named h hc' (by rw [hn]; exact hnm) ?_
    intro j e hj he
    rw [ho.2.2 j (by intro h; cases h; omega)] at he
    exact hf j e hj he

theorem isOpt_same {c c' : Cmd} (h : SameDeclaration c c') : isOpt c' = isOpt c := by
  funext w
  have e := h.2.2.2.2.2.2
  unfold isOpt
  have : ∀ l : List FlagValueOpt, l.any (fun f => hasName f.short f.long (nameOf w)) =
      (l.map (fun f => (f.short, f.long, f.kind, f.dflt))).any (fun f => hasName f.1 f.2.1 (nameOf w)) := by
    intro l; rw [List.any_map]; rfl
  rw [this, this, e]

theorem lengths_same {c c' : Cmd} (h : SameDeclaration c c') : c'.args.length = c.args.length ∧ c'.argsOpt.length = c.argsOpt.length ∧
    c'.flags.length = c.flags.length ∧ c'.flagValues.length = c.flagValues.length ∧ c'.flagValuesOpt.length = c.flagValuesOpt.length := by
  obtain ⟨_, h1, h2, _, h3, h4, h5⟩ := h
  refine ⟨?_, ?_, ?_, ?_, ?_⟩
  · simpa using congrArg List.length h1
  · simpa using congrArg List.length h2
  · simpa using congrArg List.length h3
  · simpa using congrArg List.length h4
  · simpa using congrArg List.length h5

theorem countsOk_same {c c' : Cmd} {ws : List Str} (h : SameDeclaration c c') (hk : CountsOk c ws) : CountsOk c' ws := by
  obtain ⟨l1, l2, l3, l4, l5⟩ := lengths_same h
  obtain ⟨k1, k2, k3, k4⟩ := hk
  refine ⟨by omega, ?_, ?_, by omega⟩
  · rw [l5]; simpa [optFlags, isOpt_same h] using k2
  · rw [l4]; simpa [reqFlags, isOpt_same h] using k3

theorem sorted_same {c c' : Cmd} {ws : List Str} (h : SameDeclaration c c') : sorted c' ws = sorted c ws ∧ argWords c' ws = argWords c ws ∧
    optWords c' ws = optWords c ws ∧ packWords c' ws = packWords c ws := by
  obtain ⟨l1, l2, l3, l4, l5⟩ := lengths_same h
  refine ⟨?_, ?_, ?_, ?_⟩
  · simp [sorted, optFlags, reqFlags, isOpt_same h]
  · simp [argWords, l1]
  · simp [optWords, l1, l2]
  · simp [packWords, l1, l2]

/-- **C45.** The command that runs is the main command if nothing or a flag was entered first, and otherwise the first registered command
with the entered name. -/
theorem C45_runs_the_named (x x' : Ctx) (words : List Str) (r : CmdRef) (h : process x words = (x', .ran r)) :
    ∃ entered, Selects x words r entered := by
  rcases selects_or x words with ⟨r', entered, c, hs, hc⟩ | ⟨w, ws, rfl, h1, h2⟩
  · have : r' = r := by
      rw [process_selects hs, runCmd, hc] at h
      simp only at h
      split at h
      · cases h
      · split at h
        · cases h
        · cases h; rfl
    subst this
    exact ⟨entered, hs⟩
  · obtain ⟨_, _, e⟩ := process_unknown (ws := ws) h1 h2
    rw [e] at h; cases h

example : Selects demo copyWords (.cmd 1) copyWords.tail :=
  .named (by decide) rfl (by decide) (by
    intro j d hj hd
    have : j = 0 := by omega
    subst this
    simp only [demo, List.getElem?_cons_zero, Option.some.injEq] at hd
    subst hd
    decide)

/-- **C45.** If a command has the entered name, the input is not rejected for its name, and no other command can run or change. -/
theorem C45_found (x : Ctx) (w : Str) (ws : List Str) (i : Nat) (c : Cmd) (h : isFlagWord w = false) (hc : x.cmds[i]? = some c)
    (hn : w ∈ c.names) (hf : ∀ j d, j < i → x.cmds[j]? = some d → w ∉ d.names) :
    OthersSame x (process x (w :: ws)).1 (.cmd i) ∧
      ((process x (w :: ws)).2 = .ran (.cmd i) ∨ ∃ s, (process x (w :: ws)).2 = .stopped s ∧ ∀ a b, s ≠ .threw (.cmdNotFound a b)) := by
  have hs : Selects x (w :: ws) (.cmd i) ws := .named h hc hn hf
  rw [process_selects hs]
  rcases runCmd_cases x (.cmd i) c ws hc with ⟨_, n, e⟩ | ⟨hk, e⟩
  · rw [e]
    exact ⟨⟨rfl, fun _ => rfl, fun _ _ => rfl⟩, .inr ⟨_, rfl, by intro a b hab; obtain ⟨_, _, h⟩ := n.mismatch; rw [h] at hab; cases hab⟩⟩
  · rw [e]
    generalize hsv : setValues c _ _ _ _ = sv
    obtain ⟨c', o⟩ := sv
    cases o with
    | none => exact ⟨othersSame_set x c' _, .inl rfl⟩
    | some s =>
      refine ⟨othersSame_set x c' _, .inr ⟨s, rfl, ?_⟩⟩
      exact (setValues_err c ws hk s (by rw [hsv])).not_early.1

example : (process demo copyWords).2 = .ran (.cmd 1) ∧ (process demo ["cp".toList]).2 = .stopped (.threw (.mismatch .requiredFlagValues 1)) := by
  decide +kernel

/-- **C45.** A name that no command has is rejected, nothing is changed, and the suggestion is the first among the registered names with
the least Levenshtein distance to what was entered (empty if no name is registered). -/
theorem C45_unknown (x : Ctx) (w : Str) (ws : List Str) (h : isFlagWord w = false) (hn : ∀ c ∈ x.cmds, w ∉ c.names)
    (hlen : ∀ c ∈ x.cmds, ∀ n ∈ c.names, n.length + w.length < 2 ^ 64 - 1) :
    ∃ s, process x (w :: ws) = (x, .stopped (.threw (.cmdNotFound w s))) ∧
      ((x.cmds.flatMap (·.names) = [] ∧ s = []) ∨
       ∃ d l1 l2, Verif.Str.Spec.IsDistance s w d ∧ x.cmds.flatMap (·.names) = l1 ++ s :: l2 ∧
        (∀ n ∈ l1, ∀ e, Verif.Str.Spec.IsDistance n w e → d < e) ∧ ∀ n ∈ l2, ∀ e, Verif.Str.Spec.IsDistance n w e → d ≤ e) := by
  obtain ⟨r, hr, e⟩ := process_unknown (ws := ws) h hn
  refine ⟨r.2, e, ?_⟩
  obtain ⟨r', hr', hspec⟩ := closestIn_spec w (x.cmds.flatMap (·.names)) (2 ^ 64 - 1, [])
  have : r' = r := by rw [hr] at hr'; cases hr'; rfl
  subst this
  rcases hspec with ⟨rfl, hs⟩ | ⟨h1, _, l1, l2, h3, h4, h5⟩
  · left
    refine ⟨?_, rfl⟩
    by_contra hne
    obtain ⟨n, hmem⟩ := List.exists_mem_of_ne_nil _ hne
    obtain ⟨c, hc, hnc⟩ := List.mem_flatMap.1 hmem
    obtain ⟨d, _, hd⟩ := Verif.Str.C36_least_edits n w
    have h1 := hs n hmem d hd
    have h2 := edits_le hd
    have h3 := hlen c hc n hnc
    simp only at h1
    omega
  · exact .inr ⟨r'.1, l1, l2, h1, h3, h4, h5⟩

example : (process demo ["lisp".toList]).2 = .stopped (.threw (.cmdNotFound "lisp".toList "list".toList)) := by decide +kernel

/-! ## Arguments -/

/-- **C46.** If a command runs, the words that are not flags went in order to the required arguments, the optional arguments and the packs:
each required argument got one, the first optional arguments one each, the packs the rest, no word is lost and none is used twice, and each
pack got a number within its bounds. No other command changed. -/
theorem C46_runs (x x' : Ctx) (words : List Str) (r : CmdRef) (h : process x words = (x', .ran r)) :
    ∃ entered c c', Selects x words r entered ∧ x.get r = some c ∧ x'.get r = some c' ∧ OthersSame x x' r ∧ SameDeclaration c c' ∧
      ∃ as os pss o1 o2 o1', plain entered = as ++ os ++ pss.flatten ∧
        Zip3 ArgGot c.args as c'.args ∧
        c.argsOpt = o1 ++ o2 ∧ Zip3 ArgOptGot o1 os o1' ∧ c'.argsOpt = o1' ++ o2 ∧ (o2 ≠ [] → pss.flatten = []) ∧
        Zip3 (fun p ws p' => PackGot p ws p' ∧ CountOk p ws.length) c.packs pss c'.packs := by
  obtain ⟨entered, c, c', hs, hc, hc', ho, hd, hk, hsv⟩ := ran_cases h
  refine ⟨entered, c, c', hs, hc, hc', ho, hd, ?_⟩
  obtain ⟨ps, as', os', fl, fv, fo, e1, e2, e3, e4, e5, e6, rfl⟩ := (setValues_iff _ _ _ _ _ _).1 hsv
  obtain ⟨_, _, _, k4⟩ := hk
  obtain ⟨_, pss, hp, z⟩ := setPacks_sound _ _ _ e1
  have hol : (optWords c entered).length ≤ c.argsOpt.length := by simp only [optWords, List.length_take]; omega
  obtain ⟨o1, o2, o1', h1, h2, h3⟩ := (setArgsOpt_iff _ _ _ hol).1 e3
  refine ⟨argWords c entered, optWords c entered, pss, o1, o2, o1', ?_, ?_, h1, h2, h3, ?_, z⟩
  · rw [← hp]; exact words_split c entered
  · exact (setArgs_iff _ _ _ (by simp only [argWords, List.length_take]; omega)).1 e2
  · intro hne
    have hl := (Zip3.length h2).1
    have hlt : o1.length < c.argsOpt.length := by
      rw [h1, List.length_append]
      have := List.length_pos_iff.2 hne
      omega
    rw [← hp]
    simp only [optWords, List.length_take, packWords] at hl ⊢
    apply List.length_eq_zero_iff.1
    rw [List.length_drop]
    omega

example : (process demo copyWords).1.cmds = [listCmd, { copyCmd with
    args := [⟨.str, some (.str "a".toList)⟩, ⟨.int, some (.int 12)⟩], argsOpt := [⟨.bool, .bool false, some (.bool true), true⟩],
    packs := [⟨.str, 1, 2, [.str "f".toList, .str "g".toList]⟩], flags := [⟨"-v".toList, "--verbose".toList, true⟩],
    flagValues := [⟨"-m".toList, "--mode".toList, .str, some (.str "x=y".toList)⟩] }] := by decide +kernel

/-- **C46.** With too few words for the required arguments nothing runs and nothing is changed; an exception is thrown. -/
theorem C46_too_few (x : Ctx) (words entered : List Str) (r : CmdRef) (c : Cmd) (hs : Selects x words r entered) (hc : x.get r = some c)
    (h : (plain entered).length < c.args.length) : ∃ w n, process x words = (x, .stopped (.threw (.mismatch w n))) := by
  rw [process_selects hs]
  rcases runCmd_cases x r c entered hc with ⟨_, n, e⟩ | ⟨⟨_, _, _, k⟩, _⟩
  · obtain ⟨w, m, rfl⟩ := n.mismatch
    exact ⟨w, m, e⟩
  · omega

example : (plain ["-v".toList, "a".toList]).length < copyCmd.args.length := by decide

theorem fits_sum {ps : List Pack} {n : Nat} (h : Fits ps n) (hb : ∀ p ∈ ps, ¬ Unbounded p) : n ≤ (ps.map (·.max)).sum := by
  induction h with
  | none => simp
  | all h n => exact absurd h (hb _ (by simp))
  | some h hmin t ih =>
    have := ih (fun p hp => hb p (by simp [hp]))
    simp only [List.map_cons, List.sum_cons]
    omega

/-- **C46.** With more words than all arguments and bounded packs can take nothing runs. -/
theorem C46_too_many (x : Ctx) (words entered : List Str) (r : CmdRef) (c : Cmd) (hs : Selects x words r entered) (hc : x.get r = some c)
    (hb : ∀ p ∈ c.packs, ¬ Unbounded p)
    (h : c.args.length + c.argsOpt.length + (c.packs.map (·.max)).sum < (plain entered).length) :
    ∃ s, (process x words).2 = .stopped s := by
  cases hp : process x words with
  | mk x' res =>
    cases res with
    | stopped s => exact ⟨s, rfl⟩
    | ran r' =>
      exfalso
      obtain ⟨entered', c1, c', hs', hc1, _, _, _, hk, hsv⟩ := ran_cases hp
      obtain ⟨rfl, rfl⟩ := selects_unique hs hs'
      have : c1 = c := by rw [hc] at hc1; cases hc1; rfl
      subst this
      obtain ⟨ps, as', os', fl, fv, fo, e1, _⟩ := (setValues_iff _ _ _ _ _ _).1 hsv
      have hf := fits_sum (setPacks_sound _ _ _ e1).1 hb
      simp only [packWords, List.length_drop] at hf
      omega

/-- **C46.** If the packs hold strings, the failure is an exception. -/
theorem C46_too_many_throws (x : Ctx) (words entered : List Str) (r : CmdRef) (c : Cmd) (hs : Selects x words r entered) (hc : x.get r = some c)
    (hb : ∀ p ∈ c.packs, ¬ Unbounded p ∧ p.kind = .str)
    (h : c.args.length + c.argsOpt.length + (c.packs.map (·.max)).sum < (plain entered).length) :
    ∃ e, (process x words).2 = .stopped (.threw e) := by
  rw [process_selects hs]
  rcases runCmd_cases x r c entered hc with ⟨_, n, e⟩ | ⟨_, e⟩
  · rw [e]; exact ⟨_, rfl⟩
  · rw [e, setValues]
    cases hp : setPacks c.packs (packWords c entered) with
    | mk ps re =>
      obtain ⟨rest, o⟩ := re
      cases o with
      | some s =>
        simp only
        rcases setPacks_err c.packs _ s (by rw [hp]) with ⟨rfl, _⟩ | ⟨_, _, _, _, rfl, _⟩ | ⟨p, hpm, w, _, hpe⟩
        · exact ⟨_, rfl⟩
        · exact ⟨_, rfl⟩
        · rw [(hb p hpm).2] at hpe; cases hpe
      | none =>
        simp only
        by_cases hr : rest = []
        · subst hr
          have hf := fits_sum (setPacks_sound _ _ _ hp).1 (fun p hp => (hb p hp).1)
          simp only [packWords, List.length_drop] at hf
          omega
        · rw [if_pos hr]
          exact ⟨_, rfl⟩

example : Selects demo ["cp".toList, "-m=1".toList, "a".toList, "1".toList, "n".toList, "f".toList, "g".toList, "h".toList] (.cmd 1)
    ["-m=1".toList, "a".toList, "1".toList, "n".toList, "f".toList, "g".toList, "h".toList] ∧
    (process demo ["cp".toList, "-m=1".toList, "a".toList, "1".toList, "n".toList, "f".toList, "g".toList, "h".toList]).2 =
      .stopped (.threw .tooMany) := by
  refine ⟨.named (by decide) rfl (by decide) ?_, by decide +kernel⟩
  intro j d hj hd
  have : j = 0 := by omega
  subst this
  simp only [demo, List.getElem?_cons_zero, Option.some.injEq] at hd
  subst hd
  decide

/-- **C46.** The command does run if every word can be read by every element, the number of words is enough for the required arguments, what the
optional arguments leave fits the packs, the required flag values are as many as declared, and the flags exist. -/
theorem C46_accepts (x : Ctx) (words entered : List Str) (r : CmdRef) (c : Cmd) (hs : Selects x words r entered) (hc : x.get r = some c)
    (ha : c.args.length ≤ (plain entered).length) (hp : Fits c.packs ((plain entered).length - c.args.length - c.argsOpt.length))
    (hfn : (bareFlags entered).length ≤ c.flags.length) (hfl : ∀ n ∈ bareFlags entered, ∃ f ∈ c.flags, Named f.short f.long n)
    (hfo : ((valuedFlags entered).filter (namesOptional c)).length ≤ c.flagValuesOpt.length)
    (hfv : ((valuedFlags entered).filter (fun w => !namesOptional c w)).length = c.flagValues.length)
    (hr : AllReadable c entered) : ∃ x', process x words = (x', .ran r) := by
  obtain ⟨r1, r2, r3, r4, r5⟩ := hr
  rw [process_selects hs]
  have ho : isOpt c = namesOptional c := by funext w; rfl
  have hk : CountsOk c entered := ⟨hfn, by simpa [optFlags, ho] using hfo, by simpa [reqFlags, ho] using hfv, ha⟩
  rcases runCmd_cases x r c entered hc with ⟨_, hn, _⟩ | ⟨_, e⟩
  · exact absurd hk hn.not_ok
  · rw [e]
    cases hsv : setValues c (sorted c entered) (argWords c entered) (optWords c entered) (packWords c entered) with
    | mk c' o =>
      cases o with
      | none => exact ⟨_, rfl⟩
      | some s =>
        exfalso
        have hpk : ∀ w ∈ packWords c entered, w ∈ plain entered := fun w hw => List.mem_of_mem_drop (List.mem_of_mem_drop hw)
        obtain ⟨ps, hps⟩ := setPacks_complete c.packs (packWords c entered) (by simpa only [packWords, List.length_drop] using hp)
          (fun p hp w hw => r3 p hp w (hpk w hw))
        obtain ⟨fl, hfl⟩ := activateFlags_complete (bareFlags entered) c.flags hfl
        have hval : ∀ w ∈ valuedFlags entered, Assigns w (nameOf w) (valueOf w) := by
          intro w hw
          have := (List.mem_filter.1 hw).2
          simp only [Bool.and_eq_true] at this
          exact assigns_of w this.2
        have no : ∀ {k w s}, parse k w = .error s → (∃ v, Reads k w v) → False := by
          intro k w s he ⟨v, hv⟩
          rw [(parse_iff _ _ _).2 hv] at he; cases he
        unfold setValues at hsv
        rw [hps] at hsv
        simp only [ne_eq, not_true_eq_false, if_false] at hsv
        cases h2 : setArgs c.args (argWords c entered) with
        | mk as' o2 =>
        cases o2 with
        | some t =>
          obtain ⟨a, ha, w, hw, he⟩ := setArgs_err c.args (argWords c entered) t (by simp only [argWords, List.length_take]; omega) (by rw [h2])
          exact no he (r1 a ha w (List.mem_of_mem_take hw))
        | none =>
        cases h3 : setArgsOpt c.argsOpt (optWords c entered) with
        | mk os' o3 =>
        cases o3 with
        | some t =>
          obtain ⟨a, ha, w, hw, he⟩ := setArgsOpt_err c.argsOpt (optWords c entered) t (by simp only [optWords, List.length_take]; omega) (by rw [h3])
          exact no he (r2 a ha w (List.mem_of_mem_drop (List.mem_of_mem_take hw)))
        | none =>
        cases h5 : setFlagValues c.flagValues (sorted c entered).fvValues with
        | mk fv o5 =>
        cases o5 with
        | some t =>
          obtain ⟨f, hf, w, hw, he⟩ := setFlagValues_err c.flagValues (sorted c entered).fvValues t
            (by simp only [sorted, List.length_map]; exact Nat.le_of_eq hk.2.2.1) (by rw [h5])
          obtain ⟨u, hu, rfl⟩ := List.mem_map.1 hw
          exact no he (r4 f hf u (List.mem_filter.1 hu).1 _ _ (hval u (List.mem_filter.1 hu).1))
        | none =>
        cases h6 : setFlagValuesOpt c.flagValuesOpt (sorted c entered).fvoValues with
        | mk fo o6 =>
        cases o6 with
        | some t =>
          obtain ⟨f, hf, w, hw, he⟩ := setFlagValuesOpt_err c.flagValuesOpt (sorted c entered).fvoValues t
            (by simp only [sorted, List.length_map]; exact hk.2.1) (by rw [h6])
          obtain ⟨u, hu, rfl⟩ := List.mem_map.1 hw
          exact no he (r5 f hf u (List.mem_filter.1 hu).1 _ _ (hval u (List.mem_filter.1 hu).1))
        | none =>
          have h4 : activateFlags c.flags (sorted c entered).flags = (fl, none) := hfl
          simp only [h2, h3, h4, h5, h6] at hsv
          cases hsv

/-- **C46.** The packs take as many words as they may from the left, so that words that could be handed out within the bounds (two to the first
pack, one to the second) are rejected. -/
theorem C46_greedy_witness : ∃ c : Cmd, c.packs = [⟨.str, 1, 3, []⟩, ⟨.str, 1, 1, []⟩] ∧
    (process ⟨[c], emptyCmd⟩ ["c".toList, "x".toList, "y".toList, "z".toList]).2 = .stopped (.threw (.packMismatch 0)) :=
  ⟨{ emptyCmd with names := ["c".toList], packs := [⟨.str, 1, 3, []⟩, ⟨.str, 1, 1, []⟩] }, rfl, by decide +kernel⟩

/-- **C46.** A negative number is taken for a flag, so that it cannot be entered as an argument. -/
theorem C46_negative_witness : ∃ c : Cmd, c.args = [⟨.int, none⟩] ∧ Reads .int "-5".toList (.int (-5)) ∧
    ∃ n, (process ⟨[c], emptyCmd⟩ ["c".toList, "-5".toList]).2 = .stopped (.threw (.mismatch .flags n)) :=
  ⟨{ emptyCmd with names := ["c".toList], args := [⟨.int, none⟩] }, rfl, (stoi_iff _ _).1 (by decide +kernel), 0, by decide +kernel⟩

/-! ## Flags -/

/-- **C47.** If a command runs, exactly the flags that were entered by name are on, besides those that were on before, and every flag that was
entered is declared. (With a name declared twice the first flag is meant.) -/
theorem C47_flags (x x' : Ctx) (words : List Str) (r : CmdRef) (h : process x words = (x', .ran r)) :
    ∃ entered c c', Selects x words r entered ∧ x.get r = some c ∧ x'.get r = some c' ∧ FlagsGot c.flags (bareFlags entered) c'.flags ∧
      ∀ n ∈ bareFlags entered, ∃ f ∈ c.flags, Named f.short f.long n := by
  obtain ⟨entered, c, c', hs, hc, hc', _, _, _, hsv⟩ := ran_cases h
  obtain ⟨ps, as', os', fl, fv, fo, e1, e2, e3, e4, e5, e6, rfl⟩ := (setValues_iff _ _ _ _ _ _).1 hsv
  exact ⟨entered, c, _, hs, hc, hc', activateFlags_sound _ _ _ e4⟩

/-- **C47.** Flag values are bound by position: the entered words `name=value` go to the declared flag values in the order in which they were
entered, whatever their names; those with the name of an optional flag value go to the optional ones, again in order. -/
theorem C47_positional (x x' : Ctx) (words : List Str) (r : CmdRef) (h : process x words = (x', .ran r)) :
    ∃ entered c c', Selects x words r entered ∧ x.get r = some c ∧ x'.get r = some c' ∧
      Zip3 FlagValueGot c.flagValues ((valuedFlags entered).filter (fun w => !namesOptional c w)) c'.flagValues ∧
      ∃ o1 o2 o1', c.flagValuesOpt = o1 ++ o2 ∧ Zip3 FlagValueOptGot o1 ((valuedFlags entered).filter (namesOptional c)) o1' ∧
        c'.flagValuesOpt = o1' ++ o2 := by
  obtain ⟨entered, c, c', hs, hc, hc', _, _, hk, hsv⟩ := ran_cases h
  obtain ⟨ps, as', os', fl, fv, fo, e1, e2, e3, e4, e5, e6, rfl⟩ := (setValues_iff _ _ _ _ _ _).1 hsv
  obtain ⟨_, k2, k3, _⟩ := hk
  have hval : ∀ w ∈ valuedFlags entered, Assigns w (nameOf w) (valueOf w) := by
    intro w hw
    have := (List.mem_filter.1 hw).2
    simp only [Bool.and_eq_true] at this
    exact assigns_of w this.2
  refine ⟨entered, c, _, hs, hc, hc', ?_, ?_⟩
  · have := Zip3.map.1 ((setFlagValues_iff _ _ _ (by simp only [sorted, List.length_map]; exact k3)).1 e5)
    refine Zip3.imp_mem ?_ this
    rintro f w f' hw ⟨v, hv, rfl⟩
    exact ⟨_, _, v, hval w (List.mem_filter.1 hw).1, hv, rfl⟩
  · obtain ⟨o1, o2, o1', h1, h2, h3⟩ := (setFlagValuesOpt_iff _ _ _ (by simp only [sorted, List.length_map]; exact k2)).1 e6
    refine ⟨o1, o2, o1', h1, Zip3.imp_mem ?_ (Zip3.map.1 h2), h3⟩
    rintro f w f' hw ⟨v, hv, rfl⟩
    exact ⟨_, _, v, hval w (List.mem_filter.1 hw).1, hv, rfl⟩

/-- A command with two flag values. -/
def twoValues : Cmd :=
  { emptyCmd with names := ["c".toList], flagValues := [mkFlagValue "a".toList "alpha".toList .str, mkFlagValue "b".toList "beta".toList .str] }

/-- **C47 refuted.** The flag value declared under the entered name does not always receive the value: entered in the other order, the two values
are exchanged. -/
theorem C47_swapped_witness : process ⟨[twoValues], emptyCmd⟩ ["c".toList, "--beta=2".toList, "--alpha=1".toList] =
    (⟨[{ twoValues with flagValues := [⟨"-a".toList, "--alpha".toList, .str, some (.str "2".toList)⟩,
        ⟨"-b".toList, "--beta".toList, .str, some (.str "1".toList)⟩] }], emptyCmd⟩, .ran (.cmd 0)) := by decide +kernel

/-- **C47 refuted.** Unknown names are accepted if they come with a value. -/
theorem C47_unknown_witness : (process ⟨[twoValues], emptyCmd⟩ ["c".toList, "--gamma=2".toList, "--alpha=1".toList]).2 = .ran (.cmd 0) := by
  decide +kernel

/-- **C47 (partial).** If the required flag values are entered in the order of their declaration, each receives the value entered with its name.
Missing: any other order, and the rejection of unknown names. -/
theorem C47_in_order_partial (x x' : Ctx) (words entered : List Str) (r : CmdRef) (c : Cmd) (h : process x words = (x', .ran r))
    (hs : Selects x words r entered) (hc : x.get r = some c)
    (hord : List.Forall₂ (fun f w => ∃ name value, Assigns w name value ∧ Named f.short f.long name) c.flagValues
      ((valuedFlags entered).filter (fun w => !namesOptional c w))) :
    ∃ c', x'.get r = some c' ∧ Zip3 (fun f w f' => ∃ name value v, Assigns w name value ∧ Named f.short f.long name ∧ Reads f.kind value v ∧
      f' = { f with value := some v }) c.flagValues ((valuedFlags entered).filter (fun w => !namesOptional c w)) c'.flagValues := by
  obtain ⟨entered', c1, c', hs', hc1, hc', hz, _⟩ := C47_positional x x' words r h
  obtain ⟨_, rfl⟩ := selects_unique hs hs'
  have : c1 = c := by rw [hc] at hc1; cases hc1; rfl
  subst this
  refine ⟨c', hc', ?_⟩
  generalize (valuedFlags entered).filter (fun w => !namesOptional c1 w) = ws at hz hord
  clear hc hc1 hc' h hs
  generalize c1.flagValues = fs at hz hord
  generalize c'.flagValues = fs' at hz
  induction hz with
  | nil => exact .nil
  | cons hg t ih =>
    cases hord with
    | cons h1 h2 =>
      obtain ⟨n, v, ha, hn⟩ := h1
      obtain ⟨n', v', u, ha', hr, rfl⟩ := hg
      obtain ⟨e1, e2⟩ := assigns_unique ha
      obtain ⟨e3, e4⟩ := assigns_unique ha'
      exact .cons ⟨n, v, u, ha, hn, by rw [← e2, e4]; exact hr, rfl⟩ (ih h2)

example : (process ⟨[twoValues], emptyCmd⟩ ["c".toList, "-a=1".toList, "--beta=2".toList]) =
    (⟨[{ twoValues with flagValues := [⟨"-a".toList, "--alpha".toList, .str, some (.str "1".toList)⟩,
        ⟨"-b".toList, "--beta".toList, .str, some (.str "2".toList)⟩] }], emptyCmd⟩, .ran (.cmd 0)) := by decide +kernel

/-! ## Failures -/

/-- **C48 refuted.** An unknown flag is noticed after the arguments were set. -/
theorem C48_flag_witness : ∃ c : Cmd, c.args = [⟨.str, none⟩] ∧
    process ⟨[c], emptyCmd⟩ ["c".toList, "new".toList, "--quiet".toList] =
      (⟨[{ c with args := [⟨.str, some (.str "new".toList)⟩] }], emptyCmd⟩, .stopped (.threw (.flagNotFound "--quiet".toList))) :=
  ⟨{ emptyCmd with names := ["c".toList], args := [⟨.str, none⟩], flags := [mkFlag "v".toList "verbose".toList] }, rfl, by decide +kernel⟩

/-- **C48 refuted.** Too many words are noticed after the packs were filled. -/
theorem C48_pack_witness : ∃ c : Cmd, c.packs = [⟨.str, 1, 1, []⟩] ∧
    process ⟨[c], emptyCmd⟩ ["c".toList, "x".toList, "y".toList] =
      (⟨[{ c with packs := [⟨.str, 1, 1, [.str "x".toList]⟩] }], emptyCmd⟩, .stopped (.threw .tooMany)) :=
  ⟨{ emptyCmd with names := ["c".toList], packs := [⟨.str, 1, 1, []⟩] }, rfl, by decide +kernel⟩

/-- **C48 refuted.** A value that cannot be read is noticed after those before it were set. -/
theorem C48_value_witness : ∃ c : Cmd, c.args = [⟨.str, none⟩, ⟨.bool, none⟩] ∧
    process ⟨[c], emptyCmd⟩ ["c".toList, "x".toList, "maybe".toList] =
      (⟨[{ c with args := [⟨.str, some (.str "x".toList)⟩, ⟨.bool, none⟩] }], emptyCmd⟩, .stopped (.threw (.badValue "maybe".toList))) :=
  ⟨{ emptyCmd with names := ["c".toList], args := [⟨.str, none⟩, ⟨.bool, none⟩] }, rfl, by decide +kernel⟩

/-- **C48 (partial).** Nothing at all is changed if the input is rejected because of the name of the command or the number of flags, flag values or
required arguments. Missing: the other failures. -/
theorem C48_early_partial (x x' : Ctx) (words : List Str) (e : Err) (h : process x words = (x', .stopped (.threw e)))
    (he : (∃ a b, e = .cmdNotFound a b) ∨ ∃ w n, e = .mismatch w n) : x' = x := by
  rcases selects_or x words with ⟨r, entered, c, hs, hc⟩ | ⟨w, ws, rfl, h1, h2⟩
  · rw [process_selects hs] at h
    rcases runCmd_cases x r c entered hc with ⟨_, n, e'⟩ | ⟨hk, e'⟩
    · rw [e'] at h; cases h; rfl
    · exfalso
      rw [e'] at h
      generalize hsv : setValues c _ _ _ _ = sv at h
      obtain ⟨c', o⟩ := sv
      cases o with
      | none => cases h
      | some s =>
        simp only [Prod.mk.injEq, Result.stopped.injEq] at h
        have := (setValues_err c entered hk s (by rw [hsv])).not_early
        rw [h.2] at this
        rcases he with ⟨a, b, rfl⟩ | ⟨w, n, rfl⟩
        · exact this.1 a b rfl
        · exact this.2 w n rfl
  · obtain ⟨_, _, e'⟩ := process_unknown (ws := ws) h1 h2
    rw [e'] at h; cases h; rfl

example : process demo ["cp".toList, "-v".toList, "-x".toList] = (demo, .stopped (.threw (.mismatch .flags 1))) := by decide +kernel

/-- **C48 (partial).** Whatever happens, only the selected command is touched, and its declaration (names, types, bounds, defaults) is not. -/
theorem C48_frame_partial (x : Ctx) (words : List Str) : (process x words).1 = x ∨
    ∃ r entered c c', Selects x words r entered ∧ x.get r = some c ∧ (process x words).1.get r = some c' ∧ OthersSame x (process x words).1 r ∧
      SameDeclaration c c' := by
  rcases selects_or x words with ⟨r, entered, c, hs, hc⟩ | ⟨w, ws, rfl, h1, h2⟩
  · rw [process_selects hs]
    rcases runCmd_cases x r c entered hc with ⟨_, n, e'⟩ | ⟨hk, e'⟩
    · rw [e']; exact .inl rfl
    · right
      have hsame := setValues_same c (sorted c entered) (argWords c entered) (optWords c entered) (packWords c entered)
      rw [e']
      generalize setValues c _ _ _ _ = sv at hsame
      obtain ⟨c', o⟩ := sv
      cases o with
      | none => exact ⟨r, entered, c, c', hs, hc, get_set hc, othersSame_set x c' r, hsame⟩
      | some s => exact ⟨r, entered, c, c', hs, hc, get_set hc, othersSame_set x c' r, hsame⟩
  · obtain ⟨_, _, e'⟩ := process_unknown (ws := ws) h1 h2
    rw [e']; exact .inl rfl

/-- **C48 (partial).** A command without packs is not changed either when too many words are entered. -/
theorem C48_no_packs_partial (x : Ctx) (words entered : List Str) (r : CmdRef) (c : Cmd) (hs : Selects x words r entered) (hc : x.get r = some c)
    (hp : c.packs = []) (h : c.args.length + c.argsOpt.length < (plain entered).length) :
    ∃ e, process x words = (x, .stopped (.threw e)) := by
  rw [process_selects hs]
  rcases runCmd_cases x r c entered hc with ⟨_, n, e⟩ | ⟨_, e⟩
  · exact ⟨_, e⟩
  · refine ⟨.tooMany, ?_⟩
    have hne : packWords c entered ≠ [] := by
      intro h0
      have := congrArg List.length h0
      simp only [packWords, List.length_drop, List.length_nil] at this
      omega
    rw [e, setValues, hp, setPacks]
    simp only [hne, ne_eq, not_false_eq_true, if_true]
    have : ({ c with packs := [] } : Cmd) = c := by rw [← hp]
    rw [this, set_get hc]

/-! ## Processing again -/

/-- **C73 (partial).** For a command without packs, entering the same words once more changes nothing and runs the command again. Missing: packs. -/
theorem C73_again_partial (x x' : Ctx) (words entered : List Str) (r : CmdRef) (c : Cmd) (h : process x words = (x', .ran r))
    (hs : Selects x words r entered) (hc : x.get r = some c) (hp : c.packs = []) : process x' words = (x', .ran r) := by
  obtain ⟨entered', c1, c', hs', hc1, hc', ho, hd, hk, hsv⟩ := ran_cases h
  obtain ⟨_, rfl⟩ := selects_unique hs hs'
  have : c1 = c := by rw [hc] at hc1; cases hc1; rfl
  subst this
  have hs2 := selects_same hs hc hc' ho hd.1
  obtain ⟨s1, s2, s3, s4⟩ := sorted_same (ws := entered) hd
  rw [process_selects hs2]
  rcases runCmd_cases x' r c' entered hc' with ⟨_, hn, _⟩ | ⟨_, e⟩
  · exact absurd (countsOk_same hd hk) hn.not_ok
  · rw [e, s1, s2, s3, s4]
    obtain ⟨ps, as', os', fl, fv, fo, e1, e2, e3, e4, e5, e6, rfl⟩ := (setValues_iff _ _ _ _ _ _).1 hsv
    rw [hp] at e1
    simp only [setPacks, Prod.mk.injEq] at e1
    obtain ⟨rfl, e1, _⟩ := e1
    have : setValues ⟨c1.names, as', os', [], fl, fv, fo⟩ (sorted c1 entered) (argWords c1 entered) (optWords c1 entered) (packWords c1 entered) =
        (⟨c1.names, as', os', [], fl, fv, fo⟩, none) :=
      (setValues_iff _ _ _ _ _ _).2 ⟨[], as', os', fl, fv, fo, by rw [e1]; rfl, setArgs_again _ _ _ e2, setArgsOpt_again _ _ _ e3,
        activateFlags_again _ _ _ e4, setFlagValues_again _ _ _ e5, setFlagValuesOpt_again _ _ _ e6, rfl⟩
    rw [this]
    simp only
    rw [set_get hc']

/-- **C73 (partial).** What the required arguments and the required flag values hold when the command runs does not depend on earlier command lines:
it is the same for any two states of the same declaration. Missing: the other elements. -/
theorem C73_required_partial (x y x' y' : Ctx) (words entered : List Str) (r : CmdRef) (c d : Cmd) (hx : process x words = (x', .ran r))
    (hy : process y words = (y', .ran r)) (hsx : Selects x words r entered) (hsy : Selects y words r entered)
    (hc : x.get r = some c) (hd : y.get r = some d) (hsame : SameDeclaration c d) :
    ∃ c' d', x'.get r = some c' ∧ y'.get r = some d' ∧ c'.args = d'.args ∧ c'.flagValues = d'.flagValues := by
  obtain ⟨e1, c1, c', hs1, hc1, hc', _, _, hk1, hsv1⟩ := ran_cases hx
  obtain ⟨e2, d1, d', hs2, hd1, hd', _, _, hk2, hsv2⟩ := ran_cases hy
  obtain ⟨_, rfl⟩ := selects_unique hsx hs1
  obtain ⟨_, rfl⟩ := selects_unique hsy hs2
  have : c1 = c := by rw [hc] at hc1; cases hc1; rfl
  subst this
  have : d1 = d := by rw [hd] at hd1; cases hd1; rfl
  subst this
  obtain ⟨s1, s2, _, _⟩ := sorted_same (ws := entered) hsame
  obtain ⟨_, as1, _, _, fv1, _, _, a1, _, _, v1, _, rfl⟩ := (setValues_iff _ _ _ _ _ _).1 hsv1
  obtain ⟨_, as2, _, _, fv2, _, _, a2, _, _, v2, _, rfl⟩ := (setValues_iff _ _ _ _ _ _).1 hsv2
  rw [s2] at a2
  rw [s1] at v2
  refine ⟨_, _, hc', hd', ?_, ?_⟩
  · exact setArgs_decl _ _ _ _ _ hsame.2.1 (by simp only [argWords, List.length_take]; have := hk1.2.2.2; omega) a1 a2
  · exact setFlagValues_decl _ _ _ _ _ hsame.2.2.2.2.2.1 (by simp only [sorted, List.length_map]; exact hk1.2.2.1) v1 v2

example : SameDeclaration copyCmd { copyCmd with args := [⟨.str, some (.str "a".toList)⟩, ⟨.int, some (.int 12)⟩], packs := [⟨.str, 1, 2, [.str "x".toList]⟩] } :=
  ⟨rfl, rfl, rfl, rfl, rfl, rfl, rfl⟩

/-- Packs keep the values of earlier command lines: `C73_never_reset`. -/
example : (process (process demo ["list".toList, "a".toList]).1 ["list".toList, "b".toList]) =
    (⟨[{ listCmd with packs := [⟨.str, 0, 0, [.str "a".toList, .str "b".toList]⟩] }, copyCmd], emptyCmd⟩, .ran (.cmd 0)) := by decide +kernel

/-- **C73 refuted.** Flags stay on, and optional arguments keep the value of an earlier command line, when they are not entered again. -/
theorem C73_stays_witness : ∃ c : Cmd, c.argsOpt = [⟨.str, .str "d".toList, none, false⟩] ∧
    (process (process ⟨[c], emptyCmd⟩ ["c".toList, "-v".toList, "x".toList]).1 ["c".toList]) =
      (⟨[{ c with argsOpt := [⟨.str, .str "d".toList, some (.str "x".toList), true⟩], flags := [⟨"-v".toList, "--verbose".toList, true⟩] }], emptyCmd⟩,
        .ran (.cmd 0)) :=
  ⟨{ emptyCmd with names := ["c".toList], argsOpt := [⟨.str, .str "d".toList, none, false⟩], flags := [mkFlag "v".toList "verbose".toList] }, rfl,
    by decide +kernel⟩

/-! ## Malformed values -/

/-- **C74 (partial).** If no element of the command is a number, a command line of ASCII words ends with the action or with an exception: the program is not
terminated and nothing is undefined. Missing: numbers, other words. -/
theorem C74_throws_partial (x : Ctx) (words : List Str)
    (hk : ∀ r c, x.get r = some c → (∀ a ∈ c.args, a.kind ≠ .int ∧ a.kind ≠ .float) ∧ (∀ a ∈ c.argsOpt, a.kind ≠ .int ∧ a.kind ≠ .float) ∧ (∀ p ∈ c.packs, p.kind ≠ .int ∧ p.kind ≠ .float) ∧
      (∀ f ∈ c.flagValues, f.kind ≠ .int ∧ f.kind ≠ .float) ∧ ∀ f ∈ c.flagValuesOpt, f.kind ≠ .int ∧ f.kind ≠ .float)
    (ha : ∀ w ∈ words, ∀ ch ∈ w, ch.toNat < 128) : (∃ r, (process x words).2 = .ran r) ∨ ∃ e, (process x words).2 = .stopped (.threw e) := by
  rcases selects_or x words with ⟨r, entered, c, hs, hc⟩ | ⟨w, ws, rfl, h1, h2⟩
  · have hsub : ∀ w ∈ entered, w ∈ words := by
      cases hs with
      | nothing => simp
      | flag => intro w hw; exact hw
      | named => intro w hw; exact List.mem_cons_of_mem _ hw
    rw [process_selects hs]
    rcases runCmd_cases x r c entered hc with ⟨_, n, e⟩ | ⟨hcount, e⟩
    · rw [e]; exact .inr ⟨_, rfl⟩
    · rw [e]
      generalize hsv : setValues c _ _ _ _ = sv
      obtain ⟨c', o⟩ := sv
      cases o with
      | none => exact .inl ⟨_, rfl⟩
      | some s =>
        right
        obtain ⟨k1, k2, k3, k4, k5⟩ := hk r c hc
        have hval : ∀ w ∈ valuedFlags entered, ∀ ch ∈ valueOf w, ch.toNat < 128 := by
          intro w hw ch hch
          exact ha w (hsub w (List.mem_filter.1 hw).1) ch ((List.dropWhile_sublist _).subset ((List.drop_sublist _ _).subset hch))
        have hpl : ∀ w ∈ plain entered, ∀ ch ∈ w, ch.toNat < 128 := fun w hw => ha w (hsub w (List.mem_filter.1 hw).1)
        have key : ∀ {k w s}, parse k w = .error s → k ≠ .int ∧ k ≠ .float → (∀ ch ∈ w, ch.toNat < 128) → ∃ e, s = .threw e := by
          intro k w s h hn hw
          rcases parse_err h with ⟨h, _⟩ | ⟨_, h⟩ | ⟨_, _, ch, hch, hb⟩
          · exact absurd h (by tauto)
          · exact ⟨_, h.1⟩
          · have := hw ch hch; omega
        have : ∃ e, s = .threw e := by
          cases setValues_err c entered hcount s (by rw [hsv]) with
          | position => exact ⟨_, rfl⟩
          | packCount => exact ⟨_, rfl⟩
          | left => exact ⟨_, rfl⟩
          | flag => exact ⟨_, rfl⟩
          | pack hp hw h => exact key h (k3 _ hp) (hpl _ hw)
          | arg hp hw h => exact key h (k1 _ hp) (hpl _ hw)
          | argOpt hp hw h => exact key h (k2 _ hp) (hpl _ hw)
          | value hp hw h => exact key h (k4 _ hp) (hval _ hw)
          | valueOpt hp hw h => exact key h (k5 _ hp) (hval _ hw)
        obtain ⟨e, rfl⟩ := this
        exact ⟨e, rfl⟩
  · obtain ⟨_, _, e⟩ := process_unknown (ws := ws) h1 h2
    rw [e]; exact .inr ⟨_, rfl⟩

example : (process ⟨[{ emptyCmd with names := ["c".toList], args := [⟨.bool, none⟩] }], emptyCmd⟩ ["c".toList, "maybe".toList]).2 =
    .stopped (.threw (.badValue "maybe".toList)) := by decide +kernel

/-- A word that is not a number ends the program where a number is expected: `C74_dies`. -/
example : (process demo ["cp".toList, "-m=1".toList, "a".toList, "b".toList, "n".toList, "f".toList]).2 = .stopped .died := by
  decide +kernel

/-- So does a number that does not fit. -/
example : (process demo ["cp".toList, "-m=1".toList, "a".toList, "2147483648".toList, "n".toList, "f".toList]).2 =
    .stopped .died := by decide +kernel

/-- **C74 refuted.** So does a `float` that is too large, or one that is very small. -/
theorem C74_float_witness : ∃ c : Cmd, c.args = [⟨.float, none⟩] ∧
    (process ⟨[c], emptyCmd⟩ ["c".toList, "1e39".toList]).2 = .stopped .died ∧
    (process ⟨[c], emptyCmd⟩ ["c".toList, "1e-40".toList]).2 = .stopped .died :=
  ⟨{ emptyCmd with names := ["c".toList], args := [⟨.float, none⟩] }, rfl, by decide +kernel, by decide +kernel⟩

/-! ## Values -/

/-- **C75.** A word is read in at most one way. -/
theorem C75_one_value (k : Kind) (w : Str) (v u : Val) (h : Reads k w v) (h' : Reads k w u) : v = u := by
  have e := (parse_iff k w v).2 h
  rw [(parse_iff k w u).2 h'] at e
  cases e; rfl

theorem digits_natText (n : Nat) : Digits (Verif.IntStr.natText n) n := by
  induction n using Nat.strongRecOn with
  | _ n ih =>
    by_cases h : n < 10
    · rw [Verif.IntStr.natText_small h]
      have : n.digitChar = Char.ofNat (48 + n) := by
        have : n = 0 ∨ n = 1 ∨ n = 2 ∨ n = 3 ∨ n = 4 ∨ n = 5 ∨ n = 6 ∨ n = 7 ∨ n = 8 ∨ n = 9 := by omega
        rcases this with h | h | h | h | h | h | h | h | h | h <;> subst h <;> decide
      rw [this]
      exact .one n h
    · rw [Verif.IntStr.natText_step (by omega)]
      have hd : (n % 10).digitChar = Char.ofNat (48 + n % 10) := by
        have : n % 10 = 0 ∨ n % 10 = 1 ∨ n % 10 = 2 ∨ n % 10 = 3 ∨ n % 10 = 4 ∨ n % 10 = 5 ∨ n % 10 = 6 ∨ n % 10 = 7 ∨ n % 10 = 8 ∨ n % 10 = 9 := by
          omega
        rcases this with h | h | h | h | h | h | h | h | h | h <;> rw [h] <;> decide
      have := Digits.snoc (ih (n / 10) (by omega)) (n % 10) (by omega)
      rw [hd]
      have e : 10 * (n / 10) + n % 10 = n := by omega
      rwa [e] at this

/-- **C75.** The decimal notation of every number of type `int` is read as that number. -/
theorem C75_decimal (v : Int) (h : -2 ^ 31 ≤ v ∧ v < 2 ^ 31) : Reads .int (Verif.IntStr.intText v) (.int v) := by
  unfold Verif.IntStr.intText
  split
  · have := Reads.neg (sp := []) (rest := []) (by simp) (digits_natText v.natAbs) (by simp) (by omega)
    have e : (-(v.natAbs : Int)) = v := by omega
    rw [e] at this
    simpa using this
  · have := Reads.pos (sp := []) (rest := []) false (by simp) (digits_natText v.natAbs) (by simp) (by omega)
    have e : (v.natAbs : Int) = v := by omega
    rw [e] at this
    simpa using this

/-- **C75 refuted.** Words that are not numbers are accepted as numbers if they begin with one. -/
theorem C75_garbage_witness : Reads .int "12abc".toList (.int 12) := (stoi_iff _ _).1 (by decide +kernel)

/-- **C75.** An argument of type `bool` is read as `true` or `false` for the ten listed words in any mixture of cases, and as nothing else. -/
theorem C75_bool (w : Str) (v : Val) : Reads .bool w v ↔
    (v = .bool true ∧ w.map lower ∈ ["y".toList, "yes".toList, "on".toList, "true".toList, "1".toList]) ∨
    (v = .bool false ∧ w.map lower ∈ ["n".toList, "no".toList, "off".toList, "false".toList, "0".toList]) := by
  constructor
  · intro h
    generalize hk : Kind.bool = k at h
    cases h with
    | str => cases hk
    | pos => cases hk
    | neg => cases hk
    | float => cases hk
    | inf => cases hk
    | nan => cases hk
    | yes h => exact .inl ⟨rfl, h⟩
    | no h => exact .inr ⟨rfl, h⟩
  · rintro (⟨rfl, h⟩ | ⟨rfl, h⟩)
    · exact .yes h
    · exact .no h

open FloatSpec in
/-- **C75.** An argument of type `float` is read as the nearest value of that type, for every decimal or hexadecimal numeral of a size
between the smallest normal number and the largest one, with or without sign, and for all values of `float` exactly. -/
theorem C75_float (sp sg t : Str) (neg : Bool) (q : ℚ) (hs : ∀ c ∈ sp, White c) (hg : Sign neg sg) (hm : Magnitude t q)
    (hq : (2 ^ (-126 : ℤ) ≤ |q| ∧ |q| ≤ (2 ^ 24 - 1) * 2 ^ 104) ∨ FloatNum q) :
    ∃ v, Nearest (if neg then -q else q) v ∧ Reads .float (sp ++ sg ++ t) (.float (.fin v)) := by
  have habs : |if neg then -q else q| = |q| := by split <;> simp
  have hn : FloatNum q → FloatNum (if neg then -q else q) := by
    rintro ⟨m, e, h1, h2, h3, rfl⟩
    cases neg
    · exact ⟨m, e, h1, h2, h3, rfl⟩
    · exact ⟨-m, e, by rwa [abs_neg], h2, h3, by push_cast; simp⟩
  have hle : |q| ≤ (2 ^ 24 - 1) * 2 ^ 104 := by
    rcases hq with h | ⟨m, e, h1, h2, h3, rfl⟩
    · exact h.2
    · rw [abs_mul, abs_of_pos (by positivity : (0 : ℚ) < 2 ^ e)]
      have a1 : |(m : ℚ)| ≤ 2 ^ 24 - 1 := by
        have : |m| ≤ 2 ^ 24 - 1 := by omega
        exact_mod_cast this
      have a2 : (2 : ℚ) ^ e ≤ 2 ^ 104 := by
        rw [← zpow_natCast]
        exact zpow_le_zpow_right₀ (by norm_num) h3
      exact mul_le_mul a1 a2 (by positivity) (by norm_num)
  have hlt : |if neg then -q else q| < 2 ^ 128 - 2 ^ 103 := by
    rw [habs]
    refine lt_of_le_of_lt hle ?_
    norm_num
  refine ⟨FloatText.round (if neg then -q else q), ?_, ?_⟩
  · exact (FloatText.nearest_round hlt).2 rfl
  · refine .float hs hg hm ⟨(FloatText.nearest_round hlt).2 rfl, hlt, ?_⟩
    rcases hq with h | h
    · right
      rw [habs]
      refine le_trans ?_ h.1
      have : (0 : ℚ) < 2 ^ (-151 : ℤ) := by positivity
      linarith
    · left
      have hr := (FloatText.nearest_round hlt).2 rfl
      have := hr.2.1 _ (hn h)
      rw [sub_self, abs_zero] at this
      exact sub_eq_zero.1 (abs_nonpos_iff.1 this)

/-- **C75.** For instance `0.1` is read as the nearest `float`, 13421773 / 2^27, and `-0x1.8p3` as -12. -/
theorem C75_float_example : Reads .float "0.1".toList (.float (.fin (13421773 / 134217728))) ∧
    Reads .float " -0x1.8p3 units".toList (.float (.fin (-12))) ∧ Reads .float "Infinity".toList (.float (.inf false)) :=
  ⟨(stof_iff _ _).1 (by decide +kernel), (stof_iff _ _).1 (by decide +kernel), (stof_iff _ _).1 (by decide +kernel)⟩

open FloatSpec in
/-- **C75.** No number beyond half a unit above the largest `float` is read, nor any number below the normal ones that is not a
`float`. -/
theorem C75_float_refused (sp sg t : Str) (neg : Bool) (q : ℚ) (hs : ∀ c ∈ sp, White c) (hg : Sign neg sg) (hm : Magnitude t q)
    (hq : 2 ^ 128 - 2 ^ 103 ≤ |q| ∨ (|q| < 2 ^ (-126 : ℤ) - 2 ^ (-151 : ℤ) ∧ ¬ FloatNum q)) (v : Val) :
    ¬ Reads .float (sp ++ sg ++ t) v := by
  intro h
  have e := (parse_iff _ _ _).2 h
  have hmag := (FloatText.magnitude_iff _ _).2 hm
  have hst := stof_numeral hs hg hm
  have hr : FloatText.erange (if neg then -q else q) = true := by
    by_contra hc
    obtain ⟨h1, h2, h3⟩ := (FloatText.becomes_iff (if neg then -q else q) _).2 ⟨by simpa using hc, rfl⟩
    have habs : |if neg then -q else q| = |q| := by split <;> simp
    rw [habs] at h2 h3
    rcases hq with h | ⟨ha, hb⟩
    · exact absurd h2 (not_lt.2 h)
    · rcases h3 with h3 | h3
      · rw [h3] at h1
        apply hb
        obtain ⟨m, e, g1, g2, g3, g4⟩ := h1.1
        cases neg
        · exact ⟨m, e, g1, g2, g3, g4⟩
        · refine ⟨-m, e, by rwa [abs_neg], g2, g3, ?_⟩
          simp only [if_true] at g4
          push_cast
          rw [neg_mul, ← g4, neg_neg]
      · exact absurd ha (not_lt.2 h3)
  rw [hr] at hst
  simp only [parse, hst, if_true] at e
  cases e

/-- **C75.** Which values a running command holds: for one argument of each type, the word entered for it, read as above. -/
theorem C75_held (names : List Str) (k : Kind) (n w : Str) (v : Val) (hn : n ∈ names) (hnf : isFlagWord n = false) (hw : isFlagWord w = false)
    (h : Reads k w v) : process ⟨[{ emptyCmd with names := names, args := [⟨k, none⟩] }], emptyCmd⟩ [n, w] =
      (⟨[{ emptyCmd with names := names, args := [⟨k, some v⟩] }], emptyCmd⟩, .ran (.cmd 0)) := by
  have hs : Selects ⟨[{ emptyCmd with names := names, args := [⟨k, none⟩] }], emptyCmd⟩ [n, w] (.cmd 0) [w] :=
    .named hnf rfl hn (by intro j d hj; omega)
  rw [process_selects hs]
  simp [runCmd, Ctx.get, sortWords, scan, scanWord_eq, hw, emptyCmd, bind, Except.bind, takeArgs, takeOpt, pure, Except.pure, setValues, setPacks,
    setArgs, (parse_iff k w v).2 h, setArgsOpt, activateFlags, setFlagValues, setFlagValuesOpt, Ctx.set]

example : (process ⟨[{ emptyCmd with names := ["c".toList], args := [⟨.int, none⟩] }], emptyCmd⟩ ["c".toList, " +7x".toList]).1.cmds =
    [{ emptyCmd with names := ["c".toList], args := [⟨.int, some (.int 7)⟩] }] := by decide +kernel

end Verif.CmdLine
