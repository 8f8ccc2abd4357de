import Verif.Str.LemmasSplit

/-! # Replacing -/

namespace Verif.Str

open Verif Spec

theorem replaceAt_ok {s t : Str} {p n : Nat} (h : p ≤ s.length) : replaceAt s p n t = .ok (s.take p ++ t ++ s.drop (p + n)) := by
  unfold replaceAt; rw [if_neg (by omega)]

theorem infix_of_occurs {a s : Str} {i : Nat} (h : a <+: s.drop i) : a <:+: s :=
  h.isInfix.trans (List.drop_suffix i s).isInfix

theorem find_zero_none {s a : Str} : find s a 0 = none ↔ ¬ a <:+: s := by
  constructor
  · intro h hi
    obtain ⟨x, y, rfl⟩ := hi
    refine find_none (Nat.zero_le _) h x.length (Nat.zero_le _) (by simp) ?_
    rw [List.append_assoc, List.drop_left]
    exact List.prefix_append ..
  · intro h
    cases hf : find s a 0 with
    | none => rfl
    | some i => exact absurd (infix_of_occurs (find_some hf).2.2.1) h

/-- A larger bound on the number of iterations gives the same result. -/
theorem replaceAll_mono {n m : Nat} (h : n ≤ m) {s a b r : Str} (hr : replaceAllFuel n s a b = .ok r) : replaceAllFuel m s a b = .ok r := by
  induction n generalizing m s with
  | zero => simp [replaceAllFuel] at hr
  | succ n ih =>
    obtain ⟨m, rfl⟩ : ∃ k, m = k + 1 := ⟨m - 1, by omega⟩
    unfold replaceAllFuel at hr ⊢
    cases hf : find s a 0 with
    | none => rw [hf] at hr; exact hr
    | some p =>
      rw [hf] at hr
      simp only at hr ⊢
      obtain ⟨s', h1, h2⟩ := Outcome.bind_eq_ok.1 hr
      rw [h1]
      exact ih (by omega) h2

theorem replaceAll_free {n : Nat} {s a b r : Str} (hr : replaceAllFuel n s a b = .ok r) : ¬ a <:+: r := by
  induction n generalizing s with
  | zero => simp [replaceAllFuel] at hr
  | succ n ih =>
    unfold replaceAllFuel at hr
    cases hf : find s a 0 with
    | none =>
      rw [hf] at hr
      cases hr
      exact find_zero_none.1 hf
    | some p =>
      rw [hf] at hr
      simp only at hr
      obtain ⟨s', h1, h2⟩ := Outcome.bind_eq_ok.1 hr
      exact ih h2

theorem replaceAll_diverges (n : Nat) {s a b : Str} (hs : a <:+: s) (hb : a <:+: b) : replaceAllFuel n s a b = .diverge := by
  induction n generalizing s with
  | zero => rfl
  | succ n ih =>
    unfold replaceAllFuel
    cases hf : find s a 0 with
    | none => exact absurd hs (find_zero_none.1 hf)
    | some p =>
      have := find_some hf
      simp only [replaceAt_ok this.2.1, Outcome.bind_ok]
      apply ih
      obtain ⟨x, y, rfl⟩ := hb
      exact ⟨s.take p ++ x, y ++ s.drop (p + a.length), by simp⟩

theorem replaceAll_shrinks {a b : Str} (hab : b.length < a.length) (n : Nat) (s : Str) (h : s.length < n) :
    ∃ r, replaceAllFuel n s a b = .ok r := by
  induction n generalizing s with
  | zero => omega
  | succ n ih =>
    unfold replaceAllFuel
    cases hf : find s a 0 with
    | none => exact ⟨s, rfl⟩
    | some p =>
      obtain ⟨_, h1, h2, _⟩ := find_some hf
      simp only [replaceAt_ok h1, Outcome.bind_ok]
      apply ih
      have := h2.length_le
      simp at this ⊢
      omega

/-- No occurrence of `a` touches an inserted `b`, whatever the text around it. -/
def Apart (a b : Str) : Prop := ∀ (p q : Str) (i : Nat), a <+: (p ++ b ++ q).drop i → i + a.length ≤ p.length ∨ p.length + b.length ≤ i

theorem prefix_drop_append {a u v : Str} {i : Nat} (h : a <+: (u ++ v).drop i) (hl : i + a.length ≤ u.length) (w : Str) :
    a <+: (u ++ w).drop i := by
  have e : ∀ v : Str, (u ++ v).drop i = u.drop i ++ v := fun v => List.drop_append_of_le_length (by omega)
  rw [e] at h ⊢
  have h1 : a <+: u.drop i := by
    rw [List.prefix_append_right_inj _ |>.symm] at h <;> first | exact [] | skip
    exact List.prefix_of_prefix_length_le (l₃ := u.drop i ++ v) (by simpa using h) (List.prefix_append ..) (by simp; omega)
  exact h1.trans (List.prefix_append ..)

/-- `done`: the part already rewritten; no occurrence of `a` begins in it. -/
theorem replaceAll_apart {a b : Str} (ha : a ≠ []) (hab : Apart a b) {s : Str} {cuts : List (Str × Str)} {last : Str}
    (hc : Cuts [a] s cuts last) (done : Str) (hd : ∀ x i, i < done.length → ¬ a <+: (done ++ x).drop i) :
    replaceAllFuel (cuts.length + 1) (done ++ s) a b = .ok (done ++ joined b cuts last) := by
  induction hc generalizing done with
  | @last s h =>
    have hf : find (done ++ s) a 0 = none := by
      rw [find_zero_none]
      rintro ⟨x, y, hxy⟩
      have hp : a <+: (done ++ s).drop x.length := by
        rw [← hxy, List.append_assoc, List.drop_left]; exact List.prefix_append ..
      rcases Nat.lt_or_ge x.length done.length with hlt | hge
      · exact hd s x.length hlt hp
      · rw [List.drop_append, List.drop_eq_nil_of_le hge, List.nil_append] at hp
        have hl := congrArg List.length hxy
        have := List.length_pos_iff.2 ha
        simp at hl
        exact h (x.length - done.length) (by omega) ⟨a, by simp, hp⟩
    simp [replaceAllFuel, hf, joined]
  | @cut piece sep rest cuts last before here more ih =>
    have hsep : sep = a := by
      obtain ⟨l, r, h1, _⟩ := here
      have : sep ∈ [a] := by rw [h1]; simp
      simpa using this
    subst hsep
    have hpos := List.length_pos_iff.2 ha
    have hf : find (done ++ (piece ++ sep ++ rest)) sep 0 = some (done ++ piece).length := by
      refine find_eq (Nat.zero_le _) (by simp) ?_ ?_
      · rw [show done ++ (piece ++ sep ++ rest) = (done ++ piece) ++ (sep ++ rest) by simp, List.drop_left]
        exact List.prefix_append ..
      · intro j _ hj hp
        rcases Nat.lt_or_ge j done.length with hlt | hge
        · exact hd _ j hlt hp
        · rw [List.drop_append, List.drop_eq_nil_of_le hge, List.nil_append] at hp
          exact before (j - done.length) (by simp at hj; omega) ⟨sep, by simp, hp⟩
    have hrep : (done ++ (piece ++ sep ++ rest)).take (done ++ piece).length ++ b ++
        (done ++ (piece ++ sep ++ rest)).drop ((done ++ piece).length + sep.length) = (done ++ piece ++ b) ++ rest := by
      rw [show done ++ (piece ++ sep ++ rest) = (done ++ piece) ++ (sep ++ rest) by simp, List.take_left, ← List.drop_drop,
        List.drop_left, List.drop_left]
    rw [List.length_cons, replaceAllFuel, hf]
    simp only
    rw [replaceAt_ok (by simp), Outcome.bind_ok, hrep, ih (done ++ piece ++ b) ?_]
    · simp [joined]
    · intro x i hi hp
      rcases hab (done ++ piece) x i hp with h | h
      · have hp' : sep <+: (done ++ piece ++ (sep ++ rest)).drop i := by
          rw [List.append_assoc (done ++ piece) b x] at hp
          exact prefix_drop_append hp h _
        rcases Nat.lt_or_ge i done.length with hlt | hge
        · rw [List.append_assoc] at hp'
          exact hd _ i hlt hp'
        · rw [List.append_assoc, List.drop_append, List.drop_eq_nil_of_le hge, List.nil_append] at hp'
          refine before (i - done.length) (by simp at h; omega) ⟨sep, by simp, ?_⟩
          rw [List.append_assoc]; exact hp'
      · simp at h hi; omega

/-- Sufficient: `a` and `b` have no character in common, and `b` is not empty or `a` is a single character. -/
theorem apart_of_disjoint {a b : Str} (ha : a ≠ []) (hd : ∀ c ∈ a, c ∉ b) (hb : b ≠ [] ∨ a.length = 1) : Apart a b := by
  intro p q i h
  by_contra hn
  rw [not_or, not_le, not_le] at hn
  obtain ⟨h1, h2⟩ := hn
  obtain ⟨r, hr⟩ := h
  have hget : ∀ k, k < a.length → (p ++ b ++ q)[i + k]? = a[k]? := by
    intro k hk
    rw [← List.getElem?_drop, ← hr, List.getElem?_append_left hk]
  have contra : ∀ k, k < a.length → p.length ≤ i + k → i + k < p.length + b.length → False := by
    intro k hk hp hq
    have h := hget k hk
    rw [List.append_assoc, List.getElem?_append_right hp, List.getElem?_append_left (by omega),
      List.getElem?_eq_getElem hk, List.getElem?_eq_getElem (by omega), Option.some.injEq] at h
    exact hd a[k] (List.getElem_mem _) (h ▸ List.getElem_mem _)
  rcases Nat.lt_or_ge i p.length with hlt | hge
  · rcases hb with hb | hb
    · exact contra (p.length - i) (by omega) (by omega) (by have := List.length_pos_iff.2 hb; omega)
    · omega
  · refine contra 0 ?_ (by omega) (by omega)
    exact List.length_pos_iff.2 ha

end Verif.Str
