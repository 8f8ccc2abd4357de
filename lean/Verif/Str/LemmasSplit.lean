import Verif.Str.Lemmas

/-! # Splitting -/

namespace Verif.Str

open Verif Spec

/-- What `findFirstOf` knows after the separators `done`. -/
def Best (s : Str) (st : Nat) (done : List Str) : Option (Nat × Nat) → Prop
  | none => ∀ j, st ≤ j → j ≤ s.length → ¬ OccursAt done s j
  | some (r, len) => st ≤ r ∧ r ≤ s.length ∧ (∃ sep, Found done (s.drop r) sep ∧ len = sep.length) ∧
      ∀ j, st ≤ j → j < r → ¬ OccursAt done s j

theorem occursAt_snoc {done : List Str} {sep s : Str} {j : Nat} : OccursAt (done ++ [sep]) s j ↔ OccursAt done s j ∨ sep <+: s.drop j := by
  unfold OccursAt
  constructor
  · rintro ⟨x, hx, h⟩
    rcases List.mem_append.1 hx with hx | hx
    · exact .inl ⟨x, hx, h⟩
    · rw [List.mem_singleton.1 hx] at h; exact .inr h
  · rintro (⟨x, hx, h⟩ | h)
    · exact ⟨x, List.mem_append_left _ hx, h⟩
    · exact ⟨sep, by simp, h⟩

theorem found_snoc {done : List Str} {sep x s : Str} (h : Found done s x) : Found (done ++ [sep]) s x := by
  obtain ⟨l, r, rfl, h1, h2⟩ := h
  exact ⟨l, r ++ [sep], by simp, h1, h2⟩

theorem findFirstOf_best {s : Str} {st : Nat} (hst : st ≤ s.length) (todo done : List Str) (result : Option (Nat × Nat))
    (h : Best s st done result) : Best s st (done ++ todo) (findFirstOf s st todo result) := by
  induction todo generalizing done result with
  | nil => simpa [findFirstOf] using h
  | cons sep todo ih =>
    rw [show done ++ sep :: todo = (done ++ [sep]) ++ todo by simp]
    unfold findFirstOf
    cases hf : find s sep st with
    | none =>
      have hn := find_none hst hf
      refine ih _ _ ?_
      cases result with
      | none =>
        intro j h1 h2 h3
        rcases occursAt_snoc.1 h3 with h3 | h3
        · exact h j h1 h2 h3
        · exact hn j h1 h2 h3
      | some p =>
        obtain ⟨r, len⟩ := p
        obtain ⟨h1, h2, ⟨x, h3, h4⟩, h5⟩ := h
        refine ⟨h1, h2, ⟨x, found_snoc h3, h4⟩, fun j hj1 hj2 hj3 => ?_⟩
        rcases occursAt_snoc.1 hj3 with h6 | h6
        · exact h5 j hj1 hj2 h6
        · exact hn j hj1 (by omega) h6
    | some temp =>
      obtain ⟨t1, t2, t3, t4⟩ := find_some hf
      cases result with
      | none =>
        refine ih _ _ ⟨t1, t2, ⟨sep, ⟨done, [], rfl, t3, ?_⟩, rfl⟩, ?_⟩
        · intro x hx hp; exact h temp t1 t2 ⟨x, hx, hp⟩
        · intro j hj1 hj2 hj3
          rcases occursAt_snoc.1 hj3 with h6 | h6
          · exact h j hj1 (by omega) h6
          · exact t4 j hj1 hj2 h6
      | some p =>
        obtain ⟨r, len⟩ := p
        obtain ⟨h1, h2, ⟨x, h3, h4⟩, h5⟩ := h
        dsimp only
        refine ih _ _ ?_
        split
        · rename_i hlt
          refine ⟨t1, t2, ⟨sep, ⟨done, [], rfl, t3, ?_⟩, rfl⟩, ?_⟩
          · intro y hy hp; exact h5 temp t1 hlt ⟨y, hy, hp⟩
          · intro j hj1 hj2 hj3
            rcases occursAt_snoc.1 hj3 with h6 | h6
            · exact h5 j hj1 (by omega) h6
            · exact t4 j hj1 hj2 h6
        · rename_i hge
          refine ⟨h1, h2, ⟨x, found_snoc h3, h4⟩, fun j hj1 hj2 hj3 => ?_⟩
          rcases occursAt_snoc.1 hj3 with h6 | h6
          · exact h5 j hj1 hj2 h6
          · exact t4 j hj1 (by omega) h6

theorem findFirstOf_spec {s : Str} {st : Nat} (hst : st ≤ s.length) (seps : List Str) :
    Best s st seps (findFirstOf s st seps none) := by
  have := findFirstOf_best hst seps [] none (by intro j _ _ h; obtain ⟨x, hx, _⟩ := h; simp at hx)
  simpa using this

/-- The text from `startAt` on, cut at the separator found at `pos`. -/
theorem text_cut {s sep : Str} {st pos : Nat} (h1 : st ≤ pos) (hp : sep <+: s.drop pos) :
    s.drop st = (s.drop st).take (pos - st) ++ sep ++ s.drop (pos + sep.length) := by
  obtain ⟨r, hr⟩ := hp
  have h2 : s.drop (pos + sep.length) = r := by
    rw [← List.drop_drop, ← hr, List.drop_left]
  have h3 : s.drop pos = (s.drop st).drop (pos - st) := by rw [List.drop_drop]; congr 1; omega
  rw [h2, List.append_assoc, hr, h3, List.take_append_drop]

theorem take_token {s sep : Str} {st pos : Nat} (h1 : st ≤ pos) (h2 : pos ≤ s.length) (hp : sep <+: s.drop pos) :
    (s.drop st).take (pos - st + sep.length) = (s.drop st).take (pos - st) ++ sep := by
  have hl : ((s.drop st).take (pos - st)).length = pos - st := by simp; omega
  conv => lhs; rw [text_cut h1 hp]
  rw [List.take_left' (by simp [hl])]

theorem substr_ok {s : Str} {p n : Nat} (h : p ≤ s.length) : substr s p n = .ok ((s.drop p).take n) := by
  unfold substr; rw [if_neg (by omega)]

theorem pushNonempty_eq (target : List Str) (t : Str) : pushNonempty target t = target ++ nonempty [t] := by
  unfold pushNonempty nonempty
  cases t <;> simp

theorem nonempty_cons (x : Str) (l : List Str) : nonempty (x :: l) = nonempty [x] ++ nonempty l := by
  unfold nonempty
  rw [show x :: l = [x] ++ l from rfl, List.filter_append]

/-- The result of each mode in terms of the cuts. -/
def outcome (m : Mode) (cuts : List (Str × Str)) (last : Str) : List Str :=
  match m with
  | .normal => pieces cuts last
  | .trailingSeparator => trailing cuts last
  | .tokenizeSeparator => tokens cuts last

theorem outcome_cons (m : Mode) (p sep : Str) (cuts : List (Str × Str)) (last : Str) :
    outcome m ((p, sep) :: cuts) last =
      nonempty [if m = .trailingSeparator then p ++ sep else p] ++ (if m = .tokenizeSeparator then [sep] else []) ++ outcome m cuts last := by
  cases m
  · simp only [outcome, pieces, List.map_cons, List.cons_append, reduceCtorEq, if_false, List.append_nil]
    rw [nonempty_cons]
  · simp only [outcome, trailing, List.map_cons, List.cons_append, reduceCtorEq, if_false, if_true, List.append_nil]
    rw [nonempty_cons]
  · simp [outcome, tokens]

theorem outcome_nil (m : Mode) (last : Str) : outcome m [] last = nonempty [last] := by
  cases m <;> simp [outcome, pieces, trailing, tokens]

theorem occursAt_drop {seps : List Str} {s : Str} {st i : Nat} : OccursAt seps (s.drop st) i ↔ OccursAt seps s (st + i) := by
  unfold OccursAt
  rw [List.drop_drop]

theorem splitMany_cuts {m : Mode} {seps : List Str} (hne : ∀ x ∈ seps, x ≠ []) (s : Str) (target : List Str) (st : Nat)
    (hst : st ≤ s.length) : ∃ cuts last, Cuts seps (s.drop st) cuts last ∧
      splitMany m s seps target st = .ok (target ++ outcome m cuts last) := by
  induction h : s.length + 1 - st using Nat.strongRecOn generalizing target st with
  | _ n ih =>
    have hb := findFirstOf_spec hst seps
    unfold splitMany
    cases hf : findFirstOf s st seps none with
    | none =>
      rw [hf] at hb
      refine ⟨[], s.drop st, .last ?_, ?_⟩
      · intro i hi ho
        exact hb (st + i) (by omega) (by simp at hi; omega) (occursAt_drop.1 ho)
      · simp only [finishSplit, substr_ok hst]
        rw [outcome_nil, ← pushNonempty_eq]
        simp [List.take_of_length_le]
    | some p =>
      obtain ⟨pos, len⟩ := p
      rw [hf] at hb
      obtain ⟨h1, h2, ⟨sep, h3, rfl⟩, h5⟩ := hb
      have hsep : sep ∈ seps := by obtain ⟨l, r, rfl, _⟩ := h3; simp
      have hpre : sep <+: s.drop pos := by obtain ⟨l, r, _, h, _⟩ := h3; exact h
      have hlen : 0 < sep.length := List.length_pos_iff.2 (hne sep hsep)
      have hle : pos + sep.length ≤ s.length := by
        have := hpre.length_le
        simp at this
        omega
      have hcut := text_cut h1 hpre
      have hpl : ((s.drop st).take (pos - st)).length = pos - st := by simp; omega
      have hdp : s.drop pos = sep ++ s.drop (pos + sep.length) := by
        have := text_cut (Nat.le_refl pos) hpre
        simpa using this
      have key : ∀ target', ∃ cuts last, Cuts seps (s.drop (pos + sep.length)) cuts last ∧
          splitMany m s seps target' (pos + sep.length) = .ok (target' ++ outcome m cuts last) :=
        fun target' => ih _ (by omega) target' (pos + sep.length) hle rfl
      simp only [substr_ok hst, substr_ok h2, Outcome.bind_ok, Outcome.pure_eq]
      have htok : (s.drop st).take (tokenLength m pos st sep.length) =
          if m = .trailingSeparator then (s.drop st).take (pos - st) ++ sep else (s.drop st).take (pos - st) := by
        unfold tokenLength
        split
        · exact take_token h1 h2 hpre
        · rfl
      have htk : (s.drop pos).take sep.length = sep := by rw [hdp, List.take_left]
      rw [htok, pushNonempty_eq, htk, dif_pos ⟨by omega, hst⟩]
      have hC : ∀ cuts last, Cuts seps (s.drop (pos + sep.length)) cuts last →
          Cuts seps (s.drop st) (((s.drop st).take (pos - st), sep) :: cuts) last := by
        intro cuts last hc
        conv => arg 2; rw [hcut]
        refine .cut ?_ ?_ hc
        · rw [← hcut]
          intro i hi ho
          rw [hpl] at hi
          exact h5 (st + i) (by omega) (by omega) (occursAt_drop.1 ho)
        · rw [← hdp]; exact h3
      by_cases hm : m = .tokenizeSeparator
      · simp only [hm, if_true, Outcome.bind_ok]
        subst hm
        obtain ⟨cuts, last, hc, he⟩ := key (target ++ nonempty [(s.drop st).take (pos - st)] ++ [sep])
        refine ⟨_, last, hC cuts last hc, ?_⟩
        rw [outcome_cons]
        simp only [reduceCtorEq, if_false, if_true]
        rw [he]
        simp
      · simp only [hm, if_false, Outcome.bind_ok]
        obtain ⟨cuts, last, hc, he⟩ := key (target ++ nonempty [if m = .trailingSeparator then (s.drop st).take (pos - st) ++ sep
          else (s.drop st).take (pos - st)])
        refine ⟨_, last, hC cuts last hc, ?_⟩
        rw [outcome_cons, he]
        simp [hm]
        omega

theorem findFirstOf_singleton (s sep : Str) (st : Nat) : findFirstOf s st [sep] none = (find s sep st).map (·, sep.length) := by
  unfold findFirstOf
  cases find s sep st <;> rfl

theorem splitImpl_eq_many {m : Mode} (hm : m ≠ .tokenizeSeparator) (s sep : Str) (target : List Str) (st : Nat) :
    splitImpl m s sep sep.length target st = splitMany m s [sep] target st := by
  induction h : s.length + 1 - st using Nat.strongRecOn generalizing target st with
  | _ n ih =>
    unfold splitImpl splitMany
    rw [findFirstOf_singleton]
    cases find s sep st with
    | none => rfl
    | some pos =>
      simp only [Option.map_some, hm, if_false, Outcome.pure_eq, Outcome.bind_ok]
      cases substr s st (tokenLength m pos st sep.length) with
      | ok token =>
        simp only [Outcome.bind_ok]
        split
        · rename_i hlt
          exact ih _ (by omega) _ _ rfl
        · rfl
      | _ => rfl

/-! ## The cuts are determined by the text and the separators -/

theorem found_unique {seps : List Str} {s a b : Str} (ha : Found seps s a) (hb : Found seps s b) : a = b := by
  obtain ⟨l, r, h1, h2, h3⟩ := ha
  obtain ⟨l', r', h1', h2', h3'⟩ := hb
  have h := h1.symm.trans h1'
  rcases List.append_eq_append_iff.1 h with ⟨m, hm1, hm2⟩ | ⟨m, hm1, hm2⟩
  · cases m with
    | nil => simp at hm2; exact hm2.1
    | cons x m =>
      simp only [List.cons_append, List.cons.injEq] at hm2
      exact absurd (hm2.1 ▸ h2) (h3' x (by rw [hm1]; simp))
  · cases m with
    | nil => simp at hm2; exact hm2.1.symm
    | cons x m =>
      simp only [List.cons_append, List.cons.injEq] at hm2
      exact absurd (hm2.1 ▸ h2') (h3 x (by rw [hm1]; simp))

theorem cuts_unique {seps : List Str} {s : Str} {c₁ c₂ : List (Str × Str)} {l₁ l₂ : Str} (h₁ : Cuts seps s c₁ l₁)
    (h₂ : Cuts seps s c₂ l₂) : c₁ = c₂ ∧ l₁ = l₂ := by
  induction h₁ generalizing c₂ l₂ with
  | last h =>
    cases h₂ with
    | last => exact ⟨rfl, rfl⟩
    | @cut piece sep rest cuts last before here more =>
      exfalso
      obtain ⟨l, r, rfl, h1, _⟩ := here
      exact h piece.length (by simp) ⟨sep, by simp, by rw [List.append_assoc, List.drop_left]; exact h1⟩
  | @cut piece sep rest cuts last before here more ih =>
    generalize hs : piece ++ sep ++ rest = s at h₂
    cases h₂ with
    | last h =>
      exfalso
      obtain ⟨l, r, rfl, h1, _⟩ := here
      subst hs
      exact h piece.length (by simp) ⟨sep, by simp, by rw [List.append_assoc, List.drop_left]; exact h1⟩
    | @cut piece' sep' rest' cuts' last' before' here' more' =>
      have hp : ∀ {p q r p' q' r' : Str}, p ++ q ++ r = p' ++ q' ++ r' →
          (∀ i < p'.length, ¬ OccursAt seps (p' ++ q' ++ r') i) → Found seps (q ++ r) q → p'.length ≤ p.length := by
        intro p q r p' q' r' he hb hf
        by_contra hlt
        obtain ⟨l, r₂, h1, h2, _⟩ := hf
        refine hb p.length (by omega) ⟨q, by rw [h1]; simp, ?_⟩
        rw [← he, List.append_assoc, List.drop_left]; exact h2
      have hl : piece.length = piece'.length :=
        Nat.le_antisymm (hp hs.symm before here') (hp hs before' here)
      have e1 : piece = piece' ∧ sep ++ rest = sep' ++ rest' := by
        rw [List.append_assoc, List.append_assoc] at hs
        exact List.append_inj hs hl
      have e2 : sep = sep' := by
        rw [e1.2] at here
        exact found_unique here here'
      obtain ⟨rfl, e3⟩ := e1
      subst e2
      obtain rfl := List.append_cancel_left e3
      obtain ⟨rfl, rfl⟩ := ih more'
      exact ⟨rfl, rfl⟩

theorem cuts_join {seps : List Str} {s : Str} {c : List (Str × Str)} {l : Str} (h : Cuts seps s c l) :
    c.flatMap (fun p => p.1 ++ p.2) ++ l = s := by
  induction h with
  | last => rfl
  | cut _ _ _ ih =>
    rw [List.flatMap_cons, List.append_assoc, ih, List.append_assoc]

theorem flatten_nonempty (l : List Str) : (nonempty l).flatten = l.flatten := by
  unfold nonempty
  induction l with
  | nil => rfl
  | cons x l ih =>
    cases x with
    | nil => simpa using ih
    | cons c x => simpa using ih

/-- A piece contains no separator. -/
theorem cuts_free {seps : List Str} {s : Str} {c : List (Str × Str)} {l : Str} (h : Cuts seps s c l) :
    (∀ p ∈ c, p.2 ∈ seps ∧ ∀ sep ∈ seps, sep ≠ [] → ¬ sep <:+: p.1) ∧ ∀ sep ∈ seps, sep ≠ [] → ¬ sep <:+: l := by
  induction h with
  | @last s h =>
    refine ⟨by simp, fun sep hs _ hi => ?_⟩
    obtain ⟨a, b, rfl⟩ := hi
    refine h a.length (by simp) ⟨sep, hs, ?_⟩
    rw [List.append_assoc, List.drop_left]
    exact List.prefix_append ..
  | @cut piece sep rest cuts last before here more ih =>
    refine ⟨?_, ih.2⟩
    intro p hp
    rcases List.mem_cons.1 hp with rfl | hp
    · refine ⟨by obtain ⟨l, r, rfl, _⟩ := here; simp, fun x hx hne hi => ?_⟩
      obtain ⟨a, b, hab⟩ := hi
      simp only at hab
      subst hab
      have := List.length_pos_iff.2 hne
      refine before a.length (by simp; omega) ⟨x, hx, ?_⟩
      simp only [List.append_assoc, List.drop_left]
      exact List.prefix_append ..
    · exact ih.1 p hp

end Verif.Str
