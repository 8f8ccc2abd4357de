import Verif.Path.Theorems
import Verif.Str.Theorems

/-!
# Case conversion, extensions, `~`: C70, C71
-/

namespace Verif.Path

open Verif Str
open Verif.Str.Spec (Cuts joined OccursAt)

/-! ## C70: upper and lower case -/

/-- A letter and its counterpart in the other case, from the alphabet written out. -/
def Counterpart (up low : Char) : Prop :=
  (up, low) ∈ "ABCDEFGHIJKLMNOPQRSTUVWXYZ".toList.zip "abcdefghijklmnopqrstuvwxyz".toList

/-- The character `d` is `c` in lower case. -/
def IsLower (c d : Char) : Prop := Counterpart c d ∨ (∀ l, ¬ Counterpart c l) ∧ d = c

/-- The character `d` is `c` in upper case. -/
def IsUpper (c d : Char) : Prop := Counterpart d c ∨ (∀ u, ¬ Counterpart u c) ∧ d = c

def Ascii (s : Str) : Prop := ∀ c ∈ s, c.toNat < 128

instance (u l : Char) : Decidable (Counterpart u l) := by unfold Counterpart; infer_instance

theorem char_lt {P : Char → Prop} (h : ∀ n < 128, P (Char.ofNat n)) (c : Char) (hc : c.toNat < 128) : P c := by
  have := h c.toNat hc
  rwa [Char.ofNat_toNat] at this

theorem no_counterpart (c : Char) : (∀ l, ¬ Counterpart c l) ↔ c ∉ "ABCDEFGHIJKLMNOPQRSTUVWXYZ".toList := by
  unfold Counterpart
  constructor
  · intro h hc
    obtain ⟨l, hl⟩ := (by decide +kernel : ∀ c ∈ "ABCDEFGHIJKLMNOPQRSTUVWXYZ".toList,
      ∃ l ∈ "abcdefghijklmnopqrstuvwxyz".toList,
        (c, l) ∈ "ABCDEFGHIJKLMNOPQRSTUVWXYZ".toList.zip "abcdefghijklmnopqrstuvwxyz".toList) c hc
    exact h l hl.2
  · intro h l hl
    exact h (List.of_mem_zip hl).1

theorem no_counterpart' (c : Char) : (∀ u, ¬ Counterpart u c) ↔ c ∉ "abcdefghijklmnopqrstuvwxyz".toList := by
  unfold Counterpart
  constructor
  · intro h hc
    obtain ⟨l, hl⟩ := (by decide +kernel : ∀ c ∈ "abcdefghijklmnopqrstuvwxyz".toList,
      ∃ l ∈ "ABCDEFGHIJKLMNOPQRSTUVWXYZ".toList,
        (l, c) ∈ "ABCDEFGHIJKLMNOPQRSTUVWXYZ".toList.zip "abcdefghijklmnopqrstuvwxyz".toList) c hc
    exact h l hl.2
  · intro h l hl
    exact h (List.of_mem_zip hl).2

theorem toLowerChar_spec (c : Char) (hc : c.toNat < 128) : ∃ d, toLowerChar c = .ok d ∧ IsLower c d := by
  refine ⟨if 'A' ≤ c ∧ c ≤ 'Z' then Char.ofNat (c.toNat + 32) else c, by simp [toLowerChar, Nat.not_le.2 hc], ?_⟩
  unfold IsLower
  rw [no_counterpart]
  exact char_lt (P := fun c => Counterpart c (if 'A' ≤ c ∧ c ≤ 'Z' then Char.ofNat (c.toNat + 32) else c) ∨
    c ∉ "ABCDEFGHIJKLMNOPQRSTUVWXYZ".toList ∧ (if 'A' ≤ c ∧ c ≤ 'Z' then Char.ofNat (c.toNat + 32) else c) = c)
    (by decide +kernel) c hc

theorem toUpperChar_spec (c : Char) (hc : c.toNat < 128) : ∃ d, toUpperChar c = .ok d ∧ IsUpper c d := by
  refine ⟨if 'a' ≤ c ∧ c ≤ 'z' then Char.ofNat (c.toNat - 32) else c, by simp [toUpperChar, Nat.not_le.2 hc], ?_⟩
  unfold IsUpper
  rw [no_counterpart']
  exact char_lt (P := fun c => Counterpart (if 'a' ≤ c ∧ c ≤ 'z' then Char.ofNat (c.toNat - 32) else c) c ∨
    c ∉ "abcdefghijklmnopqrstuvwxyz".toList ∧ (if 'a' ≤ c ∧ c ≤ 'z' then Char.ofNat (c.toNat - 32) else c) = c)
    (by decide +kernel) c hc

/-- C70: `toLower` and `toUpper` convert an ASCII text character by character. -/
theorem C70_case_partial (s : Str) (h : Ascii s) :
    (∃ t, toLower s = .ok t ∧ List.Forall₂ IsLower s t) ∧ ∃ t, toUpper s = .ok t ∧ List.Forall₂ IsUpper s t := by
  induction s with
  | nil => exact ⟨⟨[], rfl, .nil⟩, ⟨[], rfl, .nil⟩⟩
  | cons c s ih =>
    obtain ⟨⟨t, e1, f1⟩, ⟨u, e2, f2⟩⟩ := ih (fun x hx => h x (by simp [hx]))
    obtain ⟨d, g1, g2⟩ := toLowerChar_spec c (h c (by simp))
    obtain ⟨e, k1, k2⟩ := toUpperChar_spec c (h c (by simp))
    exact ⟨⟨d :: t, by simp [toLower, e1, g1], .cons g2 f1⟩, ⟨e :: u, by simp [toUpper, e2, k1], .cons k2 f2⟩⟩

/-- C70 fails for every other text: the functions of `<cctype>` are called with a negative number. -/
theorem C70_not_ascii (s : Str) (h : ¬ Ascii s) : toLower s = .ub ∧ toUpper s = .ub := by
  induction s with
  | nil => exact absurd (fun c hc => absurd hc (by simp)) h
  | cons c s ih =>
    by_cases hc : c.toNat < 128
    · have hs : ¬ Ascii s := by
        intro ha
        apply h
        intro x hx
        rcases List.mem_cons.1 hx with rfl | hx
        · exact hc
        · exact ha x hx
      obtain ⟨d, g1, _⟩ := toLowerChar_spec c hc
      obtain ⟨e, k1, _⟩ := toUpperChar_spec c hc
      exact ⟨by simp [toLower, g1, (ih hs).1], by simp [toUpper, k1, (ih hs).2]⟩
    · exact ⟨by simp [toLower, toLowerChar, Nat.le_of_not_lt hc], by simp [toUpper, toUpperChar, Nat.le_of_not_lt hc]⟩

/-- The same character up to case. -/
def SameLetter (c d : Char) : Prop := c = d ∨ Counterpart c d ∨ Counterpart d c

theorem toLower_ok (s : Str) (h : Ascii s) : toLower s = .ok (s.map fun c => if 'A' ≤ c ∧ c ≤ 'Z' then Char.ofNat (c.toNat + 32) else c) := by
  induction s with
  | nil => rfl
  | cons c s ih =>
    have hc := h c (by simp)
    rw [toLower, ih (fun x hx => h x (by simp [hx]))]
    simp [toLowerChar, Nat.not_le.2 hc]

theorem counterpart_iff (u l : Char) : Counterpart u l ↔ 65 ≤ u.toNat ∧ u.toNat ≤ 90 ∧ l.toNat = u.toNat + 32 := by
  constructor
  · intro h
    exact (by decide +kernel : ∀ x ∈ "ABCDEFGHIJKLMNOPQRSTUVWXYZ".toList.zip "abcdefghijklmnopqrstuvwxyz".toList,
      65 ≤ x.1.toNat ∧ x.1.toNat ≤ 90 ∧ x.2.toNat = x.1.toNat + 32) (u, l) h
  · rintro ⟨h1, h2, h3⟩
    have := (by decide +kernel : ∀ n < 91, 65 ≤ n → Counterpart (Char.ofNat n) (Char.ofNat (n + 32))) u.toNat (by omega) h1
    rwa [← h3, Char.ofNat_toNat, Char.ofNat_toNat] at this

theorem toNat_lower (c : Char) : (if 'A' ≤ c ∧ c ≤ 'Z' then Char.ofNat (c.toNat + 32) else c).toNat =
    if 65 ≤ c.toNat ∧ c.toNat ≤ 90 then c.toNat + 32 else c.toNat := by
  have h : ('A' ≤ c ∧ c ≤ 'Z') ↔ (65 ≤ c.toNat ∧ c.toNat ≤ 90) := Iff.rfl
  by_cases hc : 65 ≤ c.toNat ∧ c.toNat ≤ 90
  · rw [if_pos hc, if_pos (h.2 hc)]
    exact (by decide +kernel : ∀ n < 91, (Char.ofNat (n + 32)).toNat = n + 32) c.toNat (by omega)
  · rw [if_neg hc, if_neg (fun e => hc (h.1 e))]

theorem lower_eq_iff (c d : Char) :
    (if 'A' ≤ c ∧ c ≤ 'Z' then Char.ofNat (c.toNat + 32) else c) =
      (if 'A' ≤ d ∧ d ≤ 'Z' then Char.ofNat (d.toNat + 32) else d) ↔ SameLetter c d := by
  have inj : ∀ a b : Char, a = b ↔ a.toNat = b.toNat := fun a b =>
    ⟨fun h => h ▸ rfl, fun h => by rw [← Char.ofNat_toNat a, h, Char.ofNat_toNat]⟩
  rw [inj, toNat_lower, toNat_lower, SameLetter, counterpart_iff, counterpart_iff, inj]
  split <;> split <;> omega

/-- C70: a path has an extension exactly if its text ends with it, up to the case of the letters. -/
theorem C70_has_extension_partial (fs : FS) (p : PathObj) (s ext : Str) (hs : getStr fs p = .ok s) (h1 : Ascii s)
    (h2 : Ascii ext) :
    ∃ b, hasExtension fs p ext = .ok b ∧ (b = true ↔ ∃ e, e <:+ s ∧ List.Forall₂ SameLetter e ext) := by
  simp only [hasExtension, hs, Outcome.bind_ok, toLower_ok s h1, toLower_ok ext h2, endsWith_ok]
  refine ⟨_, rfl, ?_⟩
  rw [decide_eq_true_eq]
  constructor
  · rintro ⟨t, ht⟩
    obtain ⟨a, b, rfl, rfl, hb⟩ := List.map_eq_append_iff.1 ht.symm
    refine ⟨b, ⟨a, rfl⟩, ?_⟩
    have hb1 : Ascii b := fun c hc => h1 c (by simp [hc])
    clear hs h1 ht
    induction b generalizing ext with
    | nil => cases ext with
      | nil => exact .nil
      | cons => simp at hb
    | cons c b ih => cases ext with
      | nil => simp at hb
      | cons d ext =>
        simp only [List.map_cons, List.cons.injEq] at hb
        exact .cons ((lower_eq_iff c d).1 hb.1)
          (ih ext (fun x hx => h2 x (by simp [hx])) hb.2 (fun x hx => hb1 x (by simp [hx])))
  · rintro ⟨e, ⟨a, rfl⟩, hf⟩
    rw [List.map_append]
    refine ⟨_, congrArg _ ?_⟩
    have hb1 : Ascii e := fun c hc => h1 c (by simp [hc])
    clear hs h1
    induction hf with
    | nil => rfl
    | cons h hf ih =>
      rename_i c d e ext
      simp only [List.map_cons]
      rw [ih (fun x hx => h2 x (by simp [hx])) (fun x hx => hb1 x (by simp [hx])),
        (lower_eq_iff c d).2 h]

example : Ascii "photo.JPG".toList ∧ Ascii ".jpg".toList := by unfold Ascii; decide
example : ¬ Ascii "É".toList := by unfold Ascii; decide

/-! ## C71: `~` -/

theorem joined_tilde (b s : Str) (cuts : List (Str × Str)) (last : Str) (h : Cuts [['~']] s cuts last) :
    joined b cuts last = s.flatMap (fun c => if c = '~' then b else [c]) := by
  have free : ∀ u : Str, '~' ∉ u → u.flatMap (fun c => if c = '~' then b else [c]) = u := by
    intro u hu
    induction u with
    | nil => rfl
    | cons c u ih =>
      simp only [List.mem_cons, not_or] at hu
      rw [List.flatMap_cons, ih hu.2, if_neg (fun e => hu.1 e.symm)]; rfl
  induction h with
  | last h =>
    rename_i s
    rw [free]
    · simp [joined]
    · intro hm
      obtain ⟨l, r, rfl⟩ := List.append_of_mem hm
      exact h l.length (by simp) (by simp [OccursAt])
  | cut before here more ih =>
    rename_i piece sep rest cuts last
    have hsep : sep = ['~'] := by
      obtain ⟨l, r, e, _⟩ := here
      cases l with
      | nil => simp at e; exact e.1.symm
      | cons x l => simp at e
    subst hsep
    have hp : '~' ∉ piece := by
      intro hm
      obtain ⟨l, r, rfl⟩ := List.append_of_mem hm
      exact before l.length (by simp) (by simp [OccursAt])
    rw [List.flatMap_append, List.flatMap_append, free piece hp, ← ih]
    simp [joined]

/-- C71: each `~` of the path becomes the home folder (or nothing if there is none), provided its name has no `~`. -/
theorem C71_expand_partial (fs : FS) (home : Option Str) (p : PathObj) (s : Str) (hs : getStr fs p = .ok s)
    (hh : ∀ h, home = some h → '~' ∉ h) :
    ∃ n, ∀ fuel > n, expandUserPath fuel fs home p =
      .ok (PathObj.of (s.flatMap fun c => if c = '~' then home.getD [] else [c])) := by
  obtain ⟨cuts, last, n, hc, hr⟩ := C34_disjoint_partial s ['~'] (home.getD []) (by simp) (by
    intro c hc
    have hc : c = '~' := by simpa using hc
    subst hc
    cases home with
    | none => simp
    | some h => exact hh h rfl) (.inr rfl)
  refine ⟨n, fun fuel hf => ?_⟩
  simp only [expandUserPath, hs, Outcome.bind_ok, hr fuel hf, Outcome.pure_eq, joined_tilde _ _ _ _ hc]

/-- C71 fails if the name of the home folder contains `~`: the function never returns. -/
theorem C71_endless (fs : FS) (home : Str) (p : PathObj) (s : Str) (hs : getStr fs p = .ok s) (h1 : '~' ∈ s) (h2 : '~' ∈ home)
    (fuel : Nat) : expandUserPath fuel fs (some home) p = .diverge := by
  have hin : ∀ u : Str, '~' ∈ u → ['~'] <:+: u := by
    intro u hu
    obtain ⟨l, r, rfl⟩ := List.append_of_mem hu
    exact ⟨l, r, by simp⟩
  simp only [expandUserPath, hs, Outcome.bind_ok, Option.getD_some, C34_never_ends s ['~'] home (hin s h1) (hin home h2) fuel,
    Outcome.bind_diverge]

example (fs : FS) (h : fs.stat "~/x".toList = none) : getStr fs (PathObj.of "~\\x".toList) = .ok "~/x".toList := by
  rw [getStr_of]
  have e : coll false ("~\\x".toList.map unback) = "~/x".toList := by decide
  have f : isFolder fs "~/x".toList = false := by
    have : cstr "~/x".toList = "~/x".toList := by decide
    rw [isFolder, this, h]; rfl
  simp only [e, f, Bool.false_eq_true, and_false, if_false]

end Verif.Path
