import Verif.CmdLine.Theorems

/-! # What command lines never undo (C73) -/

namespace Verif.CmdLine

open Spec

/-- Nothing that was entered in `c` is gone in `c'`: flags that are on stay on, packs keep their values, in order and before new ones, elements with a
value keep having one, and optional elements do not go back to their defaults. -/
structure Kept (c c' : Cmd) : Prop where
  args : List.Forall₂ (fun a a' : Arg => a.value.isSome = true → a'.value.isSome = true) c.args c'.args
  argsOpt : List.Forall₂ (fun a a' : ArgOpt => a.active = true → a'.active = true) c.argsOpt c'.argsOpt
  packs : List.Forall₂ (fun p p' : Pack => p.values <+: p'.values) c.packs c'.packs
  flags : List.Forall₂ (fun f f' : Flag => f.active = true → f'.active = true) c.flags c'.flags
  flagValues : List.Forall₂ (fun f f' : FlagValue => f.value.isSome = true → f'.value.isSome = true) c.flagValues c'.flagValues
  flagValuesOpt : List.Forall₂ (fun f f' : FlagValueOpt => f.active = true → f'.active = true) c.flagValuesOpt c'.flagValuesOpt

theorem forall₂_self {α : Type} {R : α → α → Prop} (h : ∀ a, R a a) (l : List α) : List.Forall₂ R l l := by
  induction l with
  | nil => exact .nil
  | cons a l ih => exact .cons (h a) ih

theorem forall₂_comp {α : Type} {R : α → α → Prop} (h : ∀ a b c, R a b → R b c → R a c) {l m n : List α} (h1 : List.Forall₂ R l m)
    (h2 : List.Forall₂ R m n) : List.Forall₂ R l n := by
  induction h1 generalizing n with
  | nil => exact h2
  | cons h3 _ ih =>
    cases h2 with
    | cons h4 h5 => exact .cons (h _ _ _ h3 h4) (ih h5)

theorem Kept.refl (c : Cmd) : Kept c c :=
  ⟨forall₂_self (fun _ h => h) _, forall₂_self (fun _ h => h) _, forall₂_self (R := fun p p' : Pack => p.values <+: p'.values) (fun _ => List.prefix_rfl) _,
    forall₂_self (fun _ h => h) _,
    forall₂_self (fun _ h => h) _, forall₂_self (fun _ h => h) _⟩

theorem Kept.trans {c d e : Cmd} (h : Kept c d) (h' : Kept d e) : Kept c e :=
  ⟨forall₂_comp (fun _ _ _ f g h => g (f h)) h.args h'.args, forall₂_comp (fun _ _ _ f g h => g (f h)) h.argsOpt h'.argsOpt,
    forall₂_comp (fun _ _ _ f g => f.trans g) h.packs h'.packs, forall₂_comp (fun _ _ _ f g h => g (f h)) h.flags h'.flags,
    forall₂_comp (fun _ _ _ f g h => g (f h)) h.flagValues h'.flagValues, forall₂_comp (fun _ _ _ f g h => g (f h)) h.flagValuesOpt h'.flagValuesOpt⟩

theorem packSet_kept (ws : List Str) : ∀ p : Pack, p.values <+: (p.set ws).1.values := by
  induction ws with
  | nil => intro p; exact List.prefix_rfl
  | cons w ws ih =>
    intro p
    rw [Pack.set]
    split
    · exact List.prefix_rfl
    · rename_i v _
      exact (List.prefix_append p.values [v]).trans (ih { p with values := p.values ++ [v] })

theorem setPacks_kept (ps : List Pack) : ∀ en, List.Forall₂ (fun p p' : Pack => p.values <+: p'.values) ps (setPacks ps en).1 := by
  induction ps with
  | nil => intro en; exact .nil
  | cons p ps ih =>
    intro en
    have hr := forall₂_self (R := fun p p' : Pack => p.values <+: p'.values) (fun _ => List.prefix_rfl)
    rw [setPacks]
    split
    · split
      · exact hr _
      · have := packSet_kept en p
        split
        · rename_i h; rw [h] at this; exact .cons this (hr _)
        · rename_i h; rw [h] at this; exact .cons this (ih _)
    · split
      · exact hr _
      · generalize (if en.length > p.max then p.max else en.length) = k
        have := packSet_kept (en.take k) p
        simp only
        split
        · rename_i h; rw [h] at this; exact .cons this (hr _)
        · rename_i h; rw [h] at this; exact .cons this (ih _)

theorem setArgs_kept (as : List Arg) : ∀ ws, List.Forall₂ (fun a a' : Arg => a.value.isSome = true → a'.value.isSome = true) as (setArgs as ws).1 := by
  induction as with
  | nil => intro ws; cases ws <;> exact .nil
  | cons a as ih =>
    intro ws
    cases ws with
    | nil => exact forall₂_self (fun _ h => h) _
    | cons w ws =>
      rw [setArgs]
      split
      · exact forall₂_self (fun _ h => h) _
      · exact .cons (fun _ => rfl) (ih ws)

theorem setArgsOpt_kept (as : List ArgOpt) : ∀ ws, List.Forall₂ (fun a a' : ArgOpt => a.active = true → a'.active = true) as (setArgsOpt as ws).1 := by
  induction as with
  | nil => intro ws; cases ws <;> exact .nil
  | cons a as ih =>
    intro ws
    cases ws with
    | nil => exact forall₂_self (fun _ h => h) _
    | cons w ws =>
      rw [setArgsOpt]
      split
      · exact forall₂_self (fun _ h => h) _
      · exact .cons (fun _ => rfl) (ih ws)

theorem setFlagValues_kept (as : List FlagValue) : ∀ ws,
    List.Forall₂ (fun a a' : FlagValue => a.value.isSome = true → a'.value.isSome = true) as (setFlagValues as ws).1 := by
  induction as with
  | nil => intro ws; cases ws <;> exact .nil
  | cons a as ih =>
    intro ws
    cases ws with
    | nil => exact forall₂_self (fun _ h => h) _
    | cons w ws =>
      rw [setFlagValues]
      split
      · exact forall₂_self (fun _ h => h) _
      · exact .cons (fun _ => rfl) (ih ws)

theorem setFlagValuesOpt_kept (as : List FlagValueOpt) : ∀ ws,
    List.Forall₂ (fun a a' : FlagValueOpt => a.active = true → a'.active = true) as (setFlagValuesOpt as ws).1 := by
  induction as with
  | nil => intro ws; cases ws <;> exact .nil
  | cons a as ih =>
    intro ws
    cases ws with
    | nil => exact forall₂_self (fun _ h => h) _
    | cons w ws =>
      rw [setFlagValuesOpt]
      split
      · exact forall₂_self (fun _ h => h) _
      · exact .cons (fun _ => rfl) (ih ws)

theorem activateFlag_kept (n : Str) (fs : List Flag) : List.Forall₂ (fun f f' : Flag => f.active = true → f'.active = true) fs (activateFlag fs n).1 := by
  induction fs with
  | nil => exact .nil
  | cons f fs ih =>
    rw [activateFlag]
    split
    · exact .cons (fun _ => rfl) (forall₂_self (fun _ h => h) _)
    · exact .cons (fun h => h) ih

theorem activateFlags_kept (ns : List Str) : ∀ fs : List Flag,
    List.Forall₂ (fun f f' : Flag => f.active = true → f'.active = true) fs (activateFlags fs ns).1 := by
  induction ns with
  | nil => intro fs; exact forall₂_self (fun _ h => h) _
  | cons n ns ih =>
    intro fs
    have := activateFlag_kept n fs
    rw [activateFlags]
    split
    · rename_i h; rw [h] at this; exact this
    · rename_i h; rw [h] at this
      exact forall₂_comp (fun _ _ _ f g h => g (f h)) this (ih _)

theorem setValues_kept (c : Cmd) (sc : Scan) (as os en : List Str) : Kept c (setValues c sc as os en).1 := by
  have h1 := setPacks_kept c.packs en
  have h2 := setArgs_kept c.args as
  have h3 := setArgsOpt_kept c.argsOpt os
  have h4 := activateFlags_kept sc.flags c.flags
  have h5 := setFlagValues_kept c.flagValues sc.fvValues
  have h6 := setFlagValuesOpt_kept c.flagValuesOpt sc.fvoValues
  have k := Kept.refl c
  unfold setValues
  split
  · rename_i h; rw [h] at h1; exact ⟨k.1, k.2, h1, k.4, k.5, k.6⟩
  · rename_i h
    rw [h] at h1
    simp only
    split
    · exact ⟨k.1, k.2, h1, k.4, k.5, k.6⟩
    · split
      · rename_i h; rw [h] at h2; exact ⟨h2, k.2, h1, k.4, k.5, k.6⟩
      · rename_i h
        rw [h] at h2
        split
        · rename_i h; rw [h] at h3; exact ⟨h2, h3, h1, k.4, k.5, k.6⟩
        · rename_i h
          rw [h] at h3
          split
          · rename_i h; rw [h] at h4; exact ⟨h2, h3, h1, h4, k.5, k.6⟩
          · rename_i h
            rw [h] at h4
            split
            · rename_i h; rw [h] at h5; exact ⟨h2, h3, h1, h4, h5, k.6⟩
            · rename_i h
              rw [h] at h5
              exact ⟨h2, h3, h1, h4, h5, h6⟩

theorem runCmd_kept (x : Ctx) (q : CmdRef) (entered : List Str) (r : CmdRef) (c : Cmd) (hc : x.get r = some c) :
    ∃ c', (runCmd x q entered).1.get r = some c' ∧ Kept c c' := by
  unfold runCmd
  split
  · exact ⟨c, hc, .refl c⟩
  · rename_i d hd
    split
    · exact ⟨c, hc, .refl c⟩
    · rename_i sc as os en _
      have hk := setValues_kept d sc as os en
      generalize setValues d sc as os en = sv at hk
      obtain ⟨d', o⟩ := sv
      have key : ∃ c', (x.set d' q).get r = some c' ∧ Kept c c' := by
        by_cases hqr : q = r
        · subst hqr
          obtain rfl : c = d := by rw [hc] at hd; cases hd; rfl
          exact ⟨d', get_set hc, hk⟩
        · refine ⟨c, ?_, .refl c⟩
          cases q with
          | main =>
            cases r with
            | main => exact absurd rfl hqr
            | cmd j => exact hc
          | cmd i =>
            cases r with
            | main => exact hc
            | cmd j =>
              have : i ≠ j := fun h => hqr (by rw [h])
              show (x.cmds.set i d')[j]? = some c
              rw [List.getElem?_set_ne this]; exact hc
      cases o with
      | none => exact key
      | some e => exact key

/-- **C73 refuted, always.** Whatever command lines are processed, accepted or rejected, in whatever order: what was entered in any command is never
taken back. Flags stay on, packs keep the values of all earlier lines in front, and optional elements once set do not return to their defaults. -/
theorem C73_never_reset (x : Ctx) (lines : List (List Str)) (r : CmdRef) (c : Cmd) (hc : x.get r = some c) :
    ∃ c', (lines.foldl (fun y l => (process y l).1) x).get r = some c' ∧ Kept c c' := by
  induction lines generalizing x c with
  | nil => exact ⟨c, hc, .refl c⟩
  | cons l ls ih =>
    have h1 : ∃ c', (process x l).1.get r = some c' ∧ Kept c c' := by
      unfold process
      split
      · exact runCmd_kept _ _ _ _ _ hc
      · split
        · exact ⟨c, hc, .refl c⟩
        · exact runCmd_kept _ _ _ _ _ hc
        · split
          · exact ⟨c, hc, .refl c⟩
          · exact runCmd_kept _ _ _ _ _ hc
    obtain ⟨c1, hc1, k1⟩ := h1
    obtain ⟨c2, hc2, k2⟩ := ih _ c1 hc1
    exact ⟨c2, hc2, k1.trans k2⟩

/-- Two lines for the command `list`, the second of which is rejected, leave both values in its pack. -/
example : (([["list".toList, "a".toList], ["list".toList, "b".toList], ["list".toList, "c".toList, "-x".toList]] : List (List Str)).foldl
    (fun y l => (process y l).1) demo).get (.cmd 0) =
      some { listCmd with packs := [⟨.str, 0, 0, [.str "a".toList, .str "b".toList]⟩] } := by decide +kernel

end Verif.CmdLine
