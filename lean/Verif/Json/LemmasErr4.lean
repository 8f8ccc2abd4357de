import Verif.Json.LemmasErr3

/-! # The reader throws nothing but read errors -/

namespace Verif.Json

open Verif

variable {R : Type} {ops : RealOps R} {α β : Type}

theorem bind_noThrow {o : Outcome α} {f : α → Outcome β} (h : o ≠ .throw) (hf : ∀ a, f a ≠ .throw) : (o >>= f) ≠ .throw := by
  cases o with
  | ok a => exact hf a
  | throw => exact absurd rfl h
  | _ => intro h; cases h

theorem andThen_noThrow {o : OutE α} {f : α → OutE β} (h : o ≠ .throw) (hf : ∀ a, o = .ok (.ok a) → f a ≠ .throw) :
    andThen o f ≠ .throw := by
  cases o with
  | ok r => cases r with
    | ok a => exact hf a rfl
    | error e => intro h; cases h
  | throw => exact absurd rfl h
  | _ => intro h; cases h

theorem plain_noThrow {o : Outcome α} (h : o ≠ .throw) : plain o ≠ .throw := by
  cases o with
  | throw => exact absurd rfl h
  | _ => intro h; cases h

theorem cur_noThrow (x : Ctx) (r : List Char) : cur x r ≠ .throw := by
  rcases cur_cases x r with ⟨_, _, _, e⟩ | ⟨_, _, e⟩ | ⟨_, _, e⟩ <;> rw [e] <;> intro h <;> cases h

theorem throwErrorE_noThrow (x : Ctx) (t b r : List Char) : throwErrorE (α := α) x t b r ≠ .throw := by
  unfold throwErrorE; split <;> intro h <;> cases h

theorem getEscape_noThrow (dbg : Bool) (c : Char) : getEscape dbg c ≠ .throw := by
  unfold getEscape
  repeat' split
  all_goals (intro h; cases h)

theorem convert_noThrow (x : Ctx) (n : Nat) : ∀ r, convert x n r ≠ .throw := by
  induction n using Nat.strongRecOn with
  | _ n ih =>
    intro r
    rw [convert]
    split
    · intro h; cases h
    · refine bind_noThrow (cur_noThrow x r) fun c => ?_
      split
      · refine bind_noThrow (ih _ (by omega) _) fun a => ?_
        intro h; cases h
      · refine bind_noThrow (cur_noThrow x _) fun c => ?_
        refine bind_noThrow (getEscape_noThrow _ _) fun e => ?_
        refine bind_noThrow (ih _ (by omega) _) fun a => ?_
        intro h; cases h

theorem readStr_noThrow (x : Ctx) (r : List Char) : readStr x r ≠ .throw := by
  rw [readStr]
  refine bind_noThrow (scanEnd_not_throw _ _) fun n => ?_
  refine bind_noThrow (convert_noThrow x _ _) fun p => ?_
  intro h; cases h

theorem matchKwE_noThrow (x : Ctx) (all : List Char) : ∀ kw r, matchKwE x all kw r ≠ .throw
  | [], _ => by intro h; cases h
  | k :: ks, r => by
    rw [matchKwE]
    refine andThen_noThrow (plain_noThrow (cur_noThrow x r)) fun c _ => ?_
    split
    · exact throwErrorE_noThrow _ _ _ _
    · exact matchKwE_noThrow x all ks _

theorem isNumStart_noThrow (c : Char) : isNumStart ops c ≠ .throw := by
  unfold isNumStart
  repeat' split
  all_goals (intro h; cases h)

theorem parseNum_noThrow (r : List Char) : parseNum ops r ≠ .throw := by
  unfold parseNum
  simp only []
  split <;> intro h <;> cases h

mutual
theorem parseValE_noThrow (x : Ctx) (n : Nat) (r : List Char) : parseValE ops x n r ≠ .throw := by
  match n with
  | 0 => rw [parseValE]; intro h; cases h
  | n + 1 =>
    rw [parseValE]
    refine andThen_noThrow (plain_noThrow (cur_noThrow x r)) fun c _ => ?_
    split
    · refine andThen_noThrow (plain_noThrow (cur_noThrow x _)) fun d _ => ?_
      split
      · intro h; cases h
      · exact objLoopE_noThrow x n _ _ List.Pairwise.nil
    · split
      · refine andThen_noThrow (plain_noThrow (cur_noThrow x _)) fun d _ => ?_
        split
        · intro h; cases h
        · exact arrLoopE_noThrow x n _ _
      · split
        · refine andThen_noThrow (plain_noThrow (readStr_noThrow x _)) fun d _ => ?_
          intro h; cases h
        · split
          · exact andThen_noThrow (matchKwE_noThrow _ _ _ _) fun d _ => (by intro h; cases h)
          · split
            · exact andThen_noThrow (matchKwE_noThrow _ _ _ _) fun d _ => (by intro h; cases h)
            · split
              · exact andThen_noThrow (matchKwE_noThrow _ _ _ _) fun d _ => (by intro h; cases h)
              · refine andThen_noThrow (plain_noThrow (isNumStart_noThrow c)) fun b _ => ?_
                split
                · exact plain_noThrow (parseNum_noThrow _)
                · exact throwErrorE_noThrow _ _ _ _

theorem arrLoopE_noThrow (x : Ctx) (n : Nat) (r : List Char) (acc : List (Val R)) : arrLoopE ops x n r acc ≠ .throw := by
  match n with
  | 0 => rw [arrLoopE]; intro h; cases h
  | n + 1 =>
    rw [arrLoopE]
    refine andThen_noThrow (parseValE_noThrow x n r) fun vr _ => ?_
    refine andThen_noThrow (plain_noThrow (cur_noThrow x _)) fun c _ => ?_
    split
    · exact arrLoopE_noThrow x n _ _
    · split
      · intro h; cases h
      · exact throwErrorE_noThrow _ _ _ _

theorem objLoopE_noThrow (x : Ctx) (n : Nat) (r : List Char) (acc : List (List Char × Val R))
    (ha : Container.Increasing strLt acc) : objLoopE ops x n r acc ≠ .throw := by
  match n with
  | 0 => rw [objLoopE]; intro h; cases h
  | n + 1 =>
    rw [objLoopE]
    refine andThen_noThrow (plain_noThrow (cur_noThrow x _)) fun c _ => ?_
    split
    · exact throwErrorE_noThrow _ _ _ _
    · refine andThen_noThrow (plain_noThrow (readStr_noThrow x _)) fun kr _ => ?_
      refine andThen_noThrow (plain_noThrow (cur_noThrow x _)) fun c _ => ?_
      split
      · exact throwErrorE_noThrow _ _ _ _
      · refine andThen_noThrow (parseValE_noThrow x n _) fun vr _ => ?_
        rw [setIndex_eq_put _ ha, plain_ok, andThen_ok]
        refine andThen_noThrow (plain_noThrow (cur_noThrow x _)) fun c _ => ?_
        split
        · exact objLoopE_noThrow x n _ _ (put_increasing ha _ _)
        · split
          · intro h; cases h
          · exact throwErrorE_noThrow _ _ _ _
end

theorem purgeStr_noThrow (dbg : Bool) : ∀ (s : List Char) (prev : Char), purgeStr dbg prev s ≠ .throw
  | [], prev => by rw [purgeStr]; split <;> intro h <;> cases h
  | c :: cs, prev => by
    rw [purgeStr]
    split
    · refine bind_noThrow (purgeStr_noThrow dbg cs c) fun a => ?_
      intro h; cases h
    · intro h; cases h

theorem purgeComment_noThrow (dbg : Bool) : ∀ (s : List Char), purgeComment dbg s ≠ .throw
  | [] => by rw [purgeComment]; split <;> intro h <;> cases h
  | c :: cs => by
    rw [purgeComment]
    split
    · intro h; cases h
    · exact purgeComment_noThrow dbg cs

theorem purgeLoop_noThrow (dbg : Bool) : ∀ (n : Nat) (s : List Char), purgeLoop dbg n s ≠ .throw
  | 0, _ => by rw [purgeLoop]; intro h; cases h
  | n + 1, [] => by rw [purgeLoop]; intro h; cases h
  | n + 1, c :: cs => by
    rw [purgeLoop]
    split
    · refine bind_noThrow (purgeStr_noThrow dbg _ _) fun a => ?_
      refine bind_noThrow (purgeLoop_noThrow dbg n _) fun r => ?_
      intro h; cases h
    · split
      · intro h; cases h
      · split
        · exact bind_noThrow (purgeComment_noThrow dbg _) fun b => purgeLoop_noThrow dbg n _
        · refine bind_noThrow (purgeLoop_noThrow dbg n _) fun r => ?_
          intro h; cases h

/-- The exceptions have a title. -/
def Titled (o : OutE α) : Prop := ∀ e, o = .ok (.error e) → e.title ≠ []

theorem andThen_titled {o : OutE α} {f : α → OutE β} (h : Titled o) (hf : ∀ a, o = .ok (.ok a) → Titled (f a)) :
    Titled (andThen o f) := by
  cases o with
  | ok r => cases r with
    | ok a => exact hf a rfl
    | error e => intro e' he; cases he; exact h _ rfl
  | _ => intro _ h; cases h

theorem plain_titled {o : Outcome α} : Titled (plain o) := by
  cases o <;> intro _ h <;> cases h

theorem throwErrorE_titled {x : Ctx} {t b r : List Char} (ht : t ≠ []) : Titled (throwErrorE (α := α) x t b r) := by
  unfold throwErrorE
  split
  · intro e h; cases h; exact ht
  · intro e h; cases h

theorem matchKwE_titled (x : Ctx) (all : List Char) : ∀ kw r, Titled (matchKwE x all kw r)
  | [], _ => by intro _ h; cases h
  | k :: ks, r => by
    rw [matchKwE]
    refine andThen_titled plain_titled fun c _ => ?_
    split
    · exact throwErrorE_titled (by intro h; cases h)
    · exact matchKwE_titled x all ks _

mutual
theorem parseValE_titled (x : Ctx) (n : Nat) (r : List Char) : Titled (parseValE ops x n r) := by
  match n with
  | 0 => rw [parseValE]; intro _ h; cases h
  | n + 1 =>
    rw [parseValE]
    refine andThen_titled plain_titled fun c _ => ?_
    split
    · refine andThen_titled plain_titled fun d _ => ?_
      split
      · intro _ h; cases h
      · exact objLoopE_titled x n _ _
    · split
      · refine andThen_titled plain_titled fun d _ => ?_
        split
        · intro _ h; cases h
        · exact arrLoopE_titled x n _ _
      · split
        · refine andThen_titled plain_titled fun d _ => ?_
          intro _ h; cases h
        · split
          · exact andThen_titled (matchKwE_titled _ _ _ _) fun d _ => (by intro _ h; cases h)
          · split
            · exact andThen_titled (matchKwE_titled _ _ _ _) fun d _ => (by intro _ h; cases h)
            · split
              · exact andThen_titled (matchKwE_titled _ _ _ _) fun d _ => (by intro _ h; cases h)
              · refine andThen_titled plain_titled fun b _ => ?_
                split
                · exact plain_titled
                · exact throwErrorE_titled (by intro h; cases h)

theorem arrLoopE_titled (x : Ctx) (n : Nat) (r : List Char) (acc : List (Val R)) : Titled (arrLoopE ops x n r acc) := by
  match n with
  | 0 => rw [arrLoopE]; intro _ h; cases h
  | n + 1 =>
    rw [arrLoopE]
    refine andThen_titled (parseValE_titled x n r) fun vr _ => ?_
    refine andThen_titled plain_titled fun c _ => ?_
    split
    · exact arrLoopE_titled x n _ _
    · split
      · intro _ h; cases h
      · exact throwErrorE_titled (by intro h; cases h)

theorem objLoopE_titled (x : Ctx) (n : Nat) (r : List Char) (acc : List (List Char × Val R)) : Titled (objLoopE ops x n r acc) := by
  match n with
  | 0 => rw [objLoopE]; intro _ h; cases h
  | n + 1 =>
    rw [objLoopE]
    refine andThen_titled plain_titled fun c _ => ?_
    split
    · exact throwErrorE_titled (by intro h; cases h)
    · refine andThen_titled plain_titled fun kr _ => ?_
      refine andThen_titled plain_titled fun c _ => ?_
      split
      · exact throwErrorE_titled (by intro h; cases h)
      · refine andThen_titled (parseValE_titled x n _) fun vr _ => ?_
        refine andThen_titled plain_titled fun acc _ => ?_
        refine andThen_titled plain_titled fun c _ => ?_
        split
        · exact objLoopE_titled x n _ _
        · split
          · intro _ h; cases h
          · exact throwErrorE_titled (by intro h; cases h)
end

end Verif.Json
