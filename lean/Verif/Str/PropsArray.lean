import Verif.Str.Theorems

/-! # Splitting at a character array with a zero inside (C31) -/

namespace Verif.Str

/-- Cutting `s` at the first occurrence of `x`, again and again, where `d` more characters are lost after each: the pieces, or nothing if fewer
than `d` are left. `keep`: what was cut away stays at the end of its piece. -/
inductive Skips (keep : Bool) (x : Str) (d : Nat) : Str → Option (List Str) → Prop where
  | last {s : Str} (h : ¬ x <:+: s) : Skips keep x d s (some (if s = [] then [] else [s]))
  | short {p rest : Str} (hf : ∀ j, j < p.length → ¬ x <+: (p ++ x ++ rest).drop j) (h : rest.length < d) : Skips keep x d (p ++ x ++ rest) none
  | cut {p lost rest : Str} {r : Option (List Str)} (hf : ∀ j, j < p.length → ¬ x <+: (p ++ x ++ (lost ++ rest)).drop j) (h : lost.length = d)
      (t : Skips keep x d rest r) :
      Skips keep x d (p ++ x ++ (lost ++ rest))
        (r.map fun l => (if (if keep then p ++ x ++ lost else p) = [] then [] else [if keep then p ++ x ++ lost else p]) ++ l)

/-- Pieces after those already found; no pieces: an exception. -/
def skipOutcome (target : List Str) : Option (List Str) → Outcome (List Str)
  | some l => .ok (target ++ l)
  | none => .throw

theorem push_eq (target : List Str) (t : Str) : pushNonempty target t = target ++ (if t = [] then [] else [t]) := by
  unfold pushNonempty
  cases t <;> simp

theorem splitImpl_skips (keep : Bool) (s x : Str) (d : Nat) (hpos : 0 < x.length + d) : ∀ (n st : Nat) (target : List Str), s.length - st = n →
    st ≤ s.length → ∃ r, Skips keep x d (s.drop st) r ∧
      splitImpl (if keep then .trailingSeparator else .normal) s x (x.length + d) target st = skipOutcome target r := by
  intro n
  induction n using Nat.strongRecOn with
  | _ n ih =>
    intro st target hn hst
    unfold splitImpl
    cases hf : find s x st with
    | none =>
      have hno := find_none hst hf
      refine ⟨_, .last ?_, ?_⟩
      · rintro ⟨u, v, huv⟩
        refine hno (st + u.length) (by omega) ?_ ?_
        · have := congrArg List.length huv
          simp at this; omega
        · rw [← List.drop_drop, ← huv, List.append_assoc, List.drop_left]
          exact List.prefix_append ..
      · simp only [finishSplit, substr_ok hst, Outcome.bind_ok, Outcome.pure_eq, push_eq, skipOutcome]
        rw [List.take_of_length_le (by simp)]
    | some pos =>
      obtain ⟨h1, h2, ⟨rest, h3⟩, h4⟩ := find_some hf
      have hdec : s.drop st = (s.drop st).take (pos - st) ++ x ++ rest := by
        have : (s.drop st).drop (pos - st) = s.drop pos := by rw [List.drop_drop]; congr 1; omega
        rw [List.append_assoc, h3, ← this, List.take_append_drop]
      have hplen : ((s.drop st).take (pos - st)).length = pos - st := by simp; omega
      have hrest : rest.length + x.length = s.length - pos := by
        have := congrArg List.length h3
        simp at this; omega
      have hfree : ∀ j, j < ((s.drop st).take (pos - st)).length → ¬ x <+: (s.drop st).drop j := by
        intro j hj
        rw [List.drop_drop]
        exact h4 (st + j) (by omega) (by omega)
      have hm : (if keep then Mode.trailingSeparator else Mode.normal) ≠ .tokenizeSeparator := by cases keep <;> simp
      simp only [substr_ok hst, Outcome.bind_ok, if_neg hm, Outcome.pure_eq]
      rw [dif_pos ⟨by omega, hst⟩]
      by_cases hd : rest.length < d
      · refine ⟨none, ?_, ?_⟩
        · rw [hdec]
          exact .short (by rw [← hdec]; exact hfree) hd
        · unfold splitImpl
          have hfn : find s x (pos + (x.length + d)) = none := by unfold find; rw [if_neg (by omega)]
          rw [hfn]
          simp only [finishSplit, substr]
          rw [if_pos (by omega)]
          rfl
      · generalize hp : (s.drop st).take (pos - st) = p at hdec hplen hfree
        obtain ⟨r, hr, er⟩ := ih (s.length - (pos + (x.length + d))) (by omega) (pos + (x.length + d))
          (pushNonempty target ((s.drop st).take (tokenLength (if keep then .trailingSeparator else .normal) pos st (x.length + d)))) rfl (by omega)
        have hr2 : s.drop (pos + (x.length + d)) = rest.drop d := by
          rw [← List.drop_drop, ← List.drop_drop, ← h3, List.drop_left]
        have htok : (s.drop st).take (tokenLength (if keep then .trailingSeparator else .normal) pos st (x.length + d)) =
            if keep then p ++ x ++ rest.take d else p := by
          cases keep with
          | false => simpa [tokenLength] using hp
          | true =>
            simp only [tokenLength, if_true]
            rw [hdec, List.take_append_of_le_length (l₁ := p ++ x ++ rest) (l₂ := []) (by simp; omega) |>.symm, List.append_nil]
            rw [show pos - st + (x.length + d) = (p ++ x).length + d by simp [hplen]; omega, List.take_length_add_append]
        rw [hr2] at hr
        refine ⟨r.map fun l => (if (if keep then p ++ x ++ rest.take d else p) = [] then [] else [if keep then p ++ x ++ rest.take d else p]) ++ l,
          ?_, ?_⟩
        · have hsp : s.drop st = p ++ x ++ (rest.take d ++ rest.drop d) := by rw [List.take_append_drop]; exact hdec
          rw [hsp]
          exact .cut (by rw [← hsp]; exact hfree) (by simp; omega) hr
        · rw [er, htok, push_eq]
          cases r with
          | none => rfl
          | some l => simp [skipOutcome]

/-- **C31 (arrays with a zero inside).** An array with text `x`, a zero and more characters is searched for as `x`, but as many characters are skipped
as the array has, apart from its last: after each separator text is lost, in the mode that keeps separators it stays in the piece before, and if not
enough text is left the function throws. -/
theorem C31_array_with_zero (keep : Bool) (s x y : Str) (hx : '\x00' ∉ x) (hy : y ≠ []) :
    ∃ r, Skips keep x y.length s r ∧
      getSplit (if keep then .trailingSeparator else .normal) s (.array (x ++ '\x00' :: y)) = skipOutcome [] r := by
  have ht : (x ++ '\x00' :: y).takeWhile (· ≠ '\x00') = x := by
    rw [List.takeWhile_append_of_pos (fun c hc => by simp; rintro rfl; exact hx hc)]
    simp
  have hp : 0 < y.length := List.length_pos_iff.2 hy
  obtain ⟨r, h1, h2⟩ := splitImpl_skips keep s x y.length (by omega) s.length 0 [] (by omega) (by omega)
  refine ⟨r, by simpa using h1, ?_⟩
  rw [getSplit, if_pos (by simp), ht, show (x ++ '\x00' :: y).length - 1 = x.length + y.length by simp]
  exact h2

/-- **C31.** The pieces that the rule of `C31_array_with_zero` gives are determined by the text. -/
theorem C31_array_unique {keep : Bool} {x : Str} {d : Nat} {s : Str} {r r' : Option (List Str)} (h : Skips keep x d s r) (h' : Skips keep x d s r') :
    r = r' := by
  have first : ∀ {p q u v : Str}, (∀ j, j < p.length → ¬ x <+: (p ++ x ++ u).drop j) → (∀ j, j < q.length → ¬ x <+: (q ++ x ++ v).drop j) →
      p ++ x ++ u = q ++ x ++ v → p = q ∧ u = v := by
    intro p q u v hp hq e
    have hl : p.length = q.length := by
      rcases Nat.lt_trichotomy p.length q.length with hlt | h | hgt
      · refine absurd ?_ (hq _ hlt)
        rw [← e, List.append_assoc, List.drop_left]; exact List.prefix_append ..
      · exact h
      · refine absurd ?_ (hp _ hgt)
        rw [e, List.append_assoc, List.drop_left]; exact List.prefix_append ..
    have h1 := List.append_inj e (by simp [hl])
    exact ⟨(List.append_inj h1.1 hl).1, h1.2⟩
  have inf : ∀ (p u : Str), x <:+: p ++ x ++ u := fun p u => ⟨p, u, rfl⟩
  induction h generalizing r' with
  | @last s h =>
    cases h' with
    | last _ => rfl
    | short _ _ => exact absurd (inf _ _) h
    | cut _ _ _ => exact absurd (inf _ _) h
  | @short p rest hf h =>
    generalize hs : p ++ x ++ rest = s at h' hf
    cases h' with
    | last h2 => exact absurd (hs ▸ inf _ _) h2
    | short _ _ => rfl
    | cut hf2 h2 _ =>
      subst h2
      have := (first (by rw [hs]; exact hf) hf2 hs).2
      subst this
      simp at h
  | @cut p lost rest r hf h t ih =>
    generalize hs : p ++ x ++ (lost ++ rest) = s at h' hf
    cases h' with
    | last h2 => exact absurd (hs ▸ inf _ _) h2
    | short hf2 h2 =>
      have := (first (by rw [hs]; exact hf) hf2 hs).2
      subst this
      simp at h2; omega
    | @cut p2 lost2 rest2 r2 hf2 h2 t2 =>
      obtain ⟨rfl, h3⟩ := first (by rw [hs]; exact hf) hf2 hs
      obtain ⟨rfl, rfl⟩ := List.append_inj h3 (by omega)
      rw [ih t2]

example : getSplit .normal "a,bcd".toList (.array [',', '\x00', 'x', '\x00']) = .ok ["a".toList, "d".toList] ∧
    getSplit .normal "a,b".toList (.array [',', '\x00', 'x', '\x00']) = .throw := by
  constructor <;> decide +kernel

end Verif.Str
