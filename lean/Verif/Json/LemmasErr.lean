import Verif.Json.Err
import Verif.Json.SpecErr
import Verif.Json.LemmasLayout

/-! # Where the reader stops: lemmas for C142 -/

namespace Verif.Json

open Verif

variable {R : Type} {ops : RealOps R} {α β : Type}

@[simp] theorem andThen_ok (a : α) (f : α → OutE β) : andThen (.ok (.ok a)) f = f a := rfl
@[simp] theorem andThen_error (e : Raised) (f : α → OutE β) : andThen (.ok (.error e)) f = .ok (.error e) := rfl
@[simp] theorem andThen_assertFail (f : α → OutE β) : andThen .assertFail f = .assertFail := rfl
@[simp] theorem andThen_ub (f : α → OutE β) : andThen .ub f = .ub := rfl
@[simp] theorem andThen_throw (f : α → OutE β) : andThen .throw f = .throw := rfl
@[simp] theorem andThen_diverge (f : α → OutE β) : andThen .diverge f = .diverge := rfl
@[simp] theorem plain_ok (a : α) : plain (.ok a) = .ok (.ok a) := rfl

/-- Forgetting which exception it was. -/
def forget : OutE α → Outcome α
  | .ok (.ok a) => .ok a
  | .ok (.error _) => .throw
  | .throw => .throw
  | .assertFail => .assertFail
  | .ub => .ub
  | .diverge => .diverge

theorem forget_plain (o : Outcome α) : forget (plain o) = o := by cases o <;> rfl

theorem forget_andThen {o : OutE α} {o' : Outcome α} {f : α → OutE β} {g : α → Outcome β} (ho : forget o = o')
    (h : ∀ a, forget (f a) = g a) : forget (andThen o f) = (o' >>= g) := by
  subst ho
  cases o with
  | ok r => cases r with
    | ok a => exact h a
    | error e => rfl
  | _ => rfl

theorem forget_throwErrorE (x : Ctx) (t b rest : List Char) : forget (throwErrorE (α := α) x t b rest) = throwError x rest := by
  unfold throwErrorE throwError
  split <;> rfl

theorem forget_matchKwE (x : Ctx) (all : List Char) : ∀ kw rest, forget (matchKwE x all kw rest) = matchKw x kw rest
  | [], _ => rfl
  | k :: ks, rest => by
    rw [matchKwE, matchKw]
    refine forget_andThen (forget_plain _) fun c => ?_
    split
    · exact forget_throwErrorE ..
    · exact forget_matchKwE x all ks _

mutual
theorem forget_parseValE (x : Ctx) (n : Nat) (rest : List Char) : forget (parseValE ops x n rest) = parseVal ops x n rest := by
  match n with
  | 0 => rw [parseValE, parseVal]; rfl
  | n + 1 =>
    rw [parseValE, parseVal]
    refine forget_andThen (forget_plain _) fun c => ?_
    split
    · refine forget_andThen (forget_plain _) fun d => ?_
      split
      · rfl
      · exact forget_objLoopE x n _ _
    · split
      · refine forget_andThen (forget_plain _) fun d => ?_
        split
        · rfl
        · exact forget_arrLoopE x n _ _
      · split
        · refine forget_andThen (forget_plain _) fun ⟨s, r⟩ => ?_
          rfl
        · split
          · exact forget_andThen (forget_matchKwE ..) fun r => rfl
          · split
            · exact forget_andThen (forget_matchKwE ..) fun r => rfl
            · split
              · exact forget_andThen (forget_matchKwE ..) fun r => rfl
              · refine forget_andThen (forget_plain _) fun b => ?_
                split
                · exact forget_plain _
                · exact forget_throwErrorE ..

theorem forget_arrLoopE (x : Ctx) (n : Nat) (rest : List Char) (acc : List (Val R)) :
    forget (arrLoopE ops x n rest acc) = arrLoop ops x n rest acc := by
  match n with
  | 0 => rw [arrLoopE, arrLoop]; rfl
  | n + 1 =>
    rw [arrLoopE, arrLoop]
    refine forget_andThen (forget_parseValE x n rest) fun ⟨v, r⟩ => ?_
    refine forget_andThen (forget_plain _) fun c => ?_
    split
    · exact forget_arrLoopE x n _ _
    · split
      · rfl
      · exact forget_throwErrorE ..

theorem forget_objLoopE (x : Ctx) (n : Nat) (rest : List Char) (acc : List (List Char × Val R)) :
    forget (objLoopE ops x n rest acc) = objLoop ops x n rest acc := by
  match n with
  | 0 => rw [objLoopE, objLoop]; rfl
  | n + 1 =>
    rw [objLoopE, objLoop]
    refine forget_andThen (forget_plain _) fun c => ?_
    split
    · exact forget_throwErrorE ..
    · refine forget_andThen (forget_plain _) fun ⟨k, r⟩ => ?_
      refine forget_andThen (forget_plain _) fun c => ?_
      split
      · exact forget_throwErrorE ..
      · refine forget_andThen (forget_parseValE x n _) fun ⟨v, r⟩ => ?_
        refine forget_andThen (forget_plain _) fun acc => ?_
        refine forget_andThen (forget_plain _) fun c => ?_
        split
        · exact forget_objLoopE x n _ _
        · split
          · rfl
          · exact forget_throwErrorE ..
end

/-! ### More fuel changes nothing -/

theorem andThen_mono {o o' : OutE α} {f f' : α → OutE β} (h : andThen o f ≠ .diverge) (ho : o ≠ .diverge → o' = o)
    (hf : ∀ a, f a ≠ .diverge → f' a = f a) : andThen o' f' = andThen o f := by
  cases o with
  | ok r => rw [ho (by simp)]; cases r with
    | ok a => exact hf a h
    | error e => rfl
  | diverge => exact absurd rfl h
  | _ => rw [ho (by simp)]; rfl

mutual
theorem parseValE_mono (x : Ctx) (n m : Nat) (hm : n ≤ m) (rest : List Char) (h : parseValE ops x n rest ≠ .diverge) :
    parseValE ops x m rest = parseValE ops x n rest := by
  match n, m with
  | 0, _ => exact absurd (by rw [parseValE]) h
  | n + 1, 0 => omega
  | n + 1, m + 1 =>
    have hm : n ≤ m := by omega
    rw [parseValE] at h ⊢
    rw [parseValE]
    refine andThen_mono h (fun _ => rfl) fun c h => ?_
    split
    · rename_i hc; rw [if_pos hc] at h
      refine andThen_mono h (fun _ => rfl) fun d h => ?_
      split
      · rfl
      · rename_i hd; rw [if_neg hd] at h; exact objLoopE_mono x n m hm _ _ h
    · rename_i hc; rw [if_neg hc] at h
      split
      · rename_i hc; rw [if_pos hc] at h
        refine andThen_mono h (fun _ => rfl) fun d h => ?_
        split
        · rfl
        · rename_i hd; rw [if_neg hd] at h; exact arrLoopE_mono x n m hm _ _ h
      · rfl

theorem arrLoopE_mono (x : Ctx) (n m : Nat) (hm : n ≤ m) (rest : List Char) (acc : List (Val R))
    (h : arrLoopE ops x n rest acc ≠ .diverge) : arrLoopE ops x m rest acc = arrLoopE ops x n rest acc := by
  match n, m with
  | 0, _ => exact absurd (by rw [arrLoopE]) h
  | n + 1, 0 => omega
  | n + 1, m + 1 =>
    have hm : n ≤ m := by omega
    rw [arrLoopE] at h ⊢
    rw [arrLoopE]
    refine andThen_mono h (parseValE_mono x n m hm _) fun vr h => ?_
    refine andThen_mono h (fun _ => rfl) fun c h => ?_
    split
    · rename_i hc; rw [if_pos hc] at h; exact arrLoopE_mono x n m hm _ _ h
    · rfl

theorem objLoopE_mono (x : Ctx) (n m : Nat) (hm : n ≤ m) (rest : List Char) (acc : List (List Char × Val R))
    (h : objLoopE ops x n rest acc ≠ .diverge) : objLoopE ops x m rest acc = objLoopE ops x n rest acc := by
  match n, m with
  | 0, _ => exact absurd (by rw [objLoopE]) h
  | n + 1, 0 => omega
  | n + 1, m + 1 =>
    have hm : n ≤ m := by omega
    rw [objLoopE] at h ⊢
    rw [objLoopE]
    refine andThen_mono h (fun _ => rfl) fun c h => ?_
    split
    · rfl
    · rename_i hc; rw [if_neg hc] at h
      refine andThen_mono h (fun _ => rfl) fun kr h => ?_
      refine andThen_mono h (fun _ => rfl) fun c h => ?_
      split
      · rfl
      · rename_i hc; rw [if_neg hc] at h
        refine andThen_mono h (parseValE_mono x n m hm _) fun vr h => ?_
        refine andThen_mono h (fun _ => rfl) fun acc h => ?_
        refine andThen_mono h (fun _ => rfl) fun c h => ?_
        split
        · rename_i hc; rw [if_pos hc] at h; exact objLoopE_mono x n m hm _ _ h
        · rfl
end

/-! ### String literals and keywords -/

theorem convert_cut {x x' : Ctx} (hd : x'.dbg = x.dbg) : ∀ {b : List Char}, Body b → ∀ (rest rest' k r : List Char),
    convert x b.length (b ++ rest) = .ok (k, r) → r = rest ∧ convert x' b.length (b ++ rest') = .ok (k, rest')
  | _, .nil, rest, rest', k, r, h => by
    rw [convert] at h
    simp at h
    rw [convert]
    simp [h]
  | _, @Body.plain c cs hq hb hc, rest, rest', k, r, h => by
    rw [convert] at h ⊢
    simp only [List.length_cons, Nat.add_eq_zero_iff, Nat.one_ne_zero, and_false, dite_false, List.cons_append, cur,
      Outcome.bind_ok, ne_eq, hb, not_false_eq_true, if_true, List.tail_cons, Nat.add_sub_cancel] at h ⊢
    obtain ⟨⟨a, b⟩, h1, h2⟩ := Outcome.bind_eq_ok.1 h
    cases h2
    obtain ⟨e1, e2⟩ := convert_cut hd hc rest rest' _ _ h1
    exact ⟨e1, by rw [e2]; rfl⟩
  | _, @Body.esc d cs hc, rest, rest', k, r, h => by
    rw [convert] at h ⊢
    simp only [List.length_cons, Nat.add_eq_zero_iff, Nat.one_ne_zero, and_false, dite_false, List.cons_append, cur,
      Outcome.bind_ok, ne_eq, not_true_eq_false, if_false, List.tail_cons, hd] at h ⊢
    obtain ⟨e, h1, h⟩ := Outcome.bind_eq_ok.1 h
    obtain ⟨⟨a, b⟩, h2, h3⟩ := Outcome.bind_eq_ok.1 h
    cases h3
    obtain ⟨e1, e2⟩ := convert_cut hd hc rest rest' _ _ h2
    refine ⟨e1, ?_⟩
    rw [h1, Outcome.bind_ok]
    have : cs.length + 1 + 1 - 2 = cs.length := by omega
    rw [this, e2]; rfl

theorem scanEnd_quote (dbg : Bool) (t : List Char) : scanEnd dbg ('"' :: t) = .ok 0 := by
  cases t <;> simp [scanEnd]

theorem scanEnd_plain (dbg : Bool) {c : Char} {t : List Char} (hq : c ≠ '"') (hb : c ≠ '\\') (ht : t ≠ []) :
    scanEnd dbg (c :: t) = (do let n ← scanEnd dbg t; return n + 1) := by
  cases t with
  | nil => exact absurd rfl ht
  | cons d t => rw [scanEnd, if_neg hq, if_neg hb]

theorem scanEnd_cut {dbg : Bool} : ∀ {b : List Char}, Body b → ∀ (t t' : List Char) {n : Nat},
    scanEnd dbg (b ++ '"' :: t) = .ok n → scanEnd dbg (b ++ '"' :: t') = .ok n
  | _, .nil, t, t', n, h => by
    rw [List.nil_append, scanEnd_quote] at h ⊢; exact h
  | _, @Body.plain c cs hq hb hc, t, t', n, h => by
    rw [List.cons_append, scanEnd_plain dbg hq hb (by simp)] at h ⊢
    obtain ⟨m, h1, h2⟩ := Outcome.bind_eq_ok.1 h
    rw [scanEnd_cut hc t t' h1]; exact h2
  | _, @Body.esc d cs hc, t, t', n, h => by
    rw [List.cons_append, List.cons_append, scanEnd, if_neg (by decide), if_pos rfl] at h ⊢
    split at h
    · cases h
    · rename_i hv
      rw [if_neg hv]
      obtain ⟨m, h1, h2⟩ := Outcome.bind_eq_ok.1 h
      rw [scanEnd_cut hc t t' h1]; exact h2

theorem readStr_cut {x : Ctx} {c : Char} {w k r : List Char} (h : readStr x (c :: w) = .ok (k, r)) :
    ∃ b, c :: w = c :: b ++ r ∧ ∀ (x' : Ctx) t, x'.dbg = x.dbg → readStr x' (c :: b ++ t) = .ok (k, t) := by
  rw [readStr] at h
  obtain ⟨n, hn, h⟩ := Outcome.bind_eq_ok.1 h
  obtain ⟨⟨s, r'⟩, hs, h⟩ := Outcome.bind_eq_ok.1 h
  cases h
  rw [List.tail_cons] at hn hs
  rcases scanEnd_ok x.dbg w with ⟨b, t, rfl, h, hb⟩ | ⟨h, _⟩ | ⟨h, _⟩
  · rw [hn] at h; cases h
    obtain ⟨rfl, _⟩ := convert_cut (x' := x) rfl hb _ [] _ _ hs
    refine ⟨b ++ ['"'], by simp, ?_⟩
    intro x' t' hx
    have h1 : scanEnd x'.dbg (b ++ '"' :: t') = .ok b.length := by
      rw [hx]
      exact scanEnd_cut hb _ _ hn
    have h2 := (convert_cut hx hb _ ('"' :: t') _ _ hs).2
    have e : b ++ ['"'] ++ t' = b ++ '"' :: t' := by simp
    rw [readStr, List.cons_append, List.tail_cons, e, h1, Outcome.bind_ok, h2]
    rfl
  · rw [hn] at h; cases h
  · rw [hn] at h; cases h

theorem matchKwE_append (x : Ctx) (all : List Char) : ∀ (kw rest : List Char), matchKwE x all kw (kw ++ rest) = .ok (.ok rest)
  | [], _ => rfl
  | k :: ks, rest => by simp [matchKwE, cur, matchKwE_append x all ks rest]

/-- The character under the cursor. -/
theorem cur_cases (x : Ctx) (rest : List Char) :
    (∃ c w, rest = c :: w ∧ cur x rest = .ok c) ∨ (rest = [] ∧ x.dbg = false ∧ cur x rest = .ok (Char.ofNat 0)) ∨
      (rest = [] ∧ x.dbg = true ∧ cur x rest = .assertFail) := by
  cases rest with
  | nil => cases h : x.dbg <;> simp [cur, h]
  | cons c w => exact .inl ⟨c, w, rfl, rfl⟩

/-- Matching a keyword: it is there, or the first difference is reported. -/
theorem matchKwE_cases (x : Ctx) (all : List Char) : ∀ (kw rest : List Char), Char.ofNat 0 ∉ kw →
    (∃ r, rest = kw ++ r ∧ matchKwE x all kw rest = .ok (.ok r)) ∨
    (∃ before k after r c, kw = before ++ k :: after ∧ rest = before ++ r ∧ c = r.headD (Char.ofNat 0) ∧ c ≠ k ∧
      matchKwE x all kw rest = throwErrorE x tKeyword (bKeyword all) r) ∨
    matchKwE x all kw rest = .assertFail
  | [], rest, _ => .inl ⟨rest, rfl, rfl⟩
  | k :: ks, rest, h0 => by
    rw [matchKwE]
    rcases cur_cases x rest with ⟨c, w, rfl, e⟩ | ⟨rfl, _, e⟩ | ⟨rfl, _, e⟩
    · rw [e, plain_ok, andThen_ok]
      by_cases hc : c = k
      · subst hc
        rw [if_neg (by simp)]
        rcases matchKwE_cases x all ks w (fun h => h0 (List.mem_cons_of_mem _ h)) with
          ⟨r, rfl, h⟩ | ⟨before, k, after, r, d, rfl, rfl, hd, hne, h⟩ | h
        · exact .inl ⟨r, rfl, h⟩
        · exact .inr (.inl ⟨c :: before, k, after, r, d, rfl, rfl, hd, hne, h⟩)
        · exact .inr (.inr h)
      · rw [if_pos hc]
        exact .inr (.inl ⟨[], k, ks, c :: w, c, rfl, rfl, rfl, hc, rfl⟩)
    · rw [e, plain_ok, andThen_ok, if_pos (by rintro rfl; exact h0 List.mem_cons_self)]
      exact .inr (.inl ⟨[], k, ks, [], _, rfl, rfl, rfl, by rintro rfl; exact h0 List.mem_cons_self, rfl⟩)
    · rw [e]; exact .inr (.inr rfl)

end Verif.Json
