import Verif.JsonConv.Theorems

/-! # Exactly which `char` arrays survive being stored and extracted (C23), and that none passes its own check (C24) -/

namespace Verif.JsonConv

open Verif Verif.Json

variable {R : Type} {ops : RealOps R} {lt : X R → X R → Bool}

/-- **C23 (`char` arrays, exactly).** Storing a `char` array with content `a` and extracting it into any array of the same length gives `a`
back if and only if the last element is its only terminator; in every other case the behaviour is undefined: in the extraction if there
is an earlier terminator, in storing it if there is none. -/
theorem C23_char_array_exactly (dbg : Bool) (a : List Char) (old : X R) :
    (Char.ofNat 0 ∉ a → toVal (R := R) (.chars a.length) (.s a) = .ub) ∧
    (∀ t r, a = t ++ Char.ofNat 0 :: r → Char.ofNat 0 ∉ t → toVal (R := R) (.chars a.length) (.s a) = .ok (.str t) ∧
      extr ops lt dbg (.chars a.length) (.str t) old = if r = [] then .ok (.s a) else .ub) := by
  constructor
  · intro h; simp [toVal, h]
  · rintro t r rfl ht
    have htw : (t ++ Char.ofNat 0 :: r).takeWhile (· ≠ Char.ofNat 0) = t := by
      rw [List.takeWhile_append_of_pos]
      · simp
      · intro c hc; simp only [decide_eq_true_eq]; rintro rfl; exact ht hc
    refine ⟨by simp only [toVal]; rw [if_pos (by simp), htw], ?_⟩
    cases r with
    | nil =>
      rw [if_pos rfl]
      simp [extr, getStr, charsOf_back]
    | cons c r =>
      rw [if_neg (by simp)]
      have : charsOf (t ++ Char.ofNat 0 :: c :: r).length t = .ub := by
        have key : ∀ (f : Nat → Outcome Char) (l : List Nat) (i : Nat), i ∈ l → f i = .ub → (∀ j ∈ l, f j = .ub ∨ ∃ x, f j = .ok x) →
            mapO f l = .ub := by
          intro f l
          induction l with
          | nil => intro i hi; cases hi
          | cons j l ih =>
            intro i hi hu hall
            rcases hall j List.mem_cons_self with hj | ⟨x, hj⟩
            · rw [mapO, hj]; rfl
            · rcases List.mem_cons.1 hi with rfl | hi
              · rw [hu] at hj; cases hj
              · rw [mapO, hj, ih i hi hu (fun k hk => hall k (List.mem_cons_of_mem _ hk))]; rfl
        refine key _ _ (t.length + 1) (by simp) (by simp) ?_
        intro j _
        by_cases h : j < t.length
        · exact .inr ⟨t[j], by simp [h]⟩
        · by_cases h' : j = t.length
          · exact .inr ⟨Char.ofNat 0, by simp [h']⟩
          · left; simp [show t.length ≤ j by omega, h']
      rw [extr, getStr, Outcome.bind_ok, this, Outcome.bind_ub]

/-- **C24 fails** for every `char` array: whatever was stored from one does not pass the check for its own type. -/
theorem C24_char_array_never_passes (a : List Char) (v : Val R) (h : toVal (.chars a.length) (.s a) = .ok v) :
    chk (.chars a.length) v = false := by
  simp only [toVal] at h
  split at h
  · rename_i hm
    cases h
    have : (a.takeWhile (· ≠ Char.ofNat 0)).length < a.length := by
      induction a with
      | nil => cases hm
      | cons c a ih =>
        by_cases hc : c = Char.ofNat 0
        · simp [List.takeWhile_cons, hc]
        · rcases List.mem_cons.1 hm with he | hm
          · exact absurd he.symm hc
          · have := ih hm
            rw [List.takeWhile_cons, if_pos (by simpa using hc)]
            simpa using this
    have hne : (a.takeWhile (· ≠ Char.ofNat 0)).length ≠ a.length := by omega
    simp only [chk, chkNN]
    simpa using hne
  · cases h

example : toVal (R := Rat) (.chars 3) (.s ['a', 'b', Char.ofNat 0]) = .ok (.str ['a', 'b']) := by simp [toVal]

end Verif.JsonConv
