import Verif.Json.LemmasRead

/-! # The reader terminates; under conditions it never runs into undefined behaviour -/

namespace Verif.Json

open Verif

/-- A result is acceptable: a value satisfying `post`, an exception, a failing assertion only in a debug build, UB only if
`P` does not hold; never divergence. -/
def Meets {α : Type} (dbg : Bool) (P : Prop) (post : α → Prop) : Outcome α → Prop
  | .ok a => post a
  | .throw => True
  | .assertFail => P → dbg = true
  | .ub => ¬ P
  | .diverge => False

variable {R : Type} {ops : RealOps R}

theorem Meets.bind {α β : Type} {dbg : Bool} {P : Prop} {p : α → Prop} {q : β → Prop} {o : Outcome α}
    {f : α → Outcome β} (h : Meets dbg P p o) (hf : ∀ a, p a → Meets dbg P q (f a)) : Meets dbg P q (o >>= f) := by
  cases o with
  | ok a => exact hf a h
  | throw => exact h
  | assertFail => exact h
  | ub => exact h
  | diverge => exact h

theorem Meets.mono {α : Type} {dbg : Bool} {P : Prop} {p q : α → Prop} {o : Outcome α} (h : Meets dbg P p o)
    (hpq : ∀ a, p a → q a) : Meets dbg P q o := by
  cases o with
  | ok a => exact hpq a h
  | throw => exact h
  | assertFail => exact h
  | ub => exact h
  | diverge => exact h

theorem Meets.ofOk {α : Type} {dbg : Bool} {P : Prop} {p : α → Prop} {a : α} (h : p a) :
    Meets dbg P p (.ok a) := h

/-- The current character: the head of the rest, or the terminator at the end. -/
theorem cur_meets (x : Ctx) (P : Prop) (rest : List Char) :
    Meets x.dbg P (fun c => (∃ t, rest = c :: t) ∨ (rest = [] ∧ c = Char.ofNat 0)) (cur x rest) := by
  cases rest with
  | nil =>
    unfold cur
    cases hd : x.dbg with
    | true => simp [Meets]
    | false => simp [Meets]
  | cons c t => exact .inl ⟨t, rfl⟩

/-- What holds of the rest at every point outside strings. -/
def Inv (ops : RealOps R) (dbg : Bool) (P : Prop) (rest : List Char) : Prop :=
  P → (dbg = true ∨ Balanced rest) ∧ NumbersOk ops rest

theorem numbersOk_suffix {s t : List Char} (h : NumbersOk ops s) (ht : t <:+ s) : NumbersOk ops t :=
  fun u hu => h u (hu.trans ht)

theorem Inv.tail {dbg : Bool} {P : Prop} {c : Char} {t : List Char} (h : Inv ops dbg P (c :: t)) (hq : c ≠ '"') :
    Inv ops dbg P t := by
  intro hp
  obtain ⟨h1, h2⟩ := h hp
  refine ⟨?_, numbersOk_suffix h2 (List.suffix_cons _ _)⟩
  rcases h1 with h1 | h1
  · exact .inl h1
  · right; unfold Balanced at h1; rwa [if_neg hq] at h1

theorem Inv.drop {dbg : Bool} {P : Prop} : ∀ (n : Nat) {s : List Char}, Inv ops dbg P s → (∀ c ∈ s.take n, c ≠ '"') →
    Inv ops dbg P (s.drop n)
  | 0, s, h, _ => by simpa using h
  | n + 1, [], h, _ => by simpa using h
  | n + 1, c :: s, h, hn => by
    rw [List.drop_succ_cons]
    rw [List.take_succ_cons] at hn
    exact Inv.drop n (h.tail (hn c List.mem_cons_self)) (fun d hd => hn d (List.mem_cons_of_mem _ hd))

theorem throwError_meets {α : Type} {x : Ctx} {P : Prop} {q : α → Prop} (rest : List Char)
    (hx : P → 1 ≤ x.realSize ∧ x.size ≤ x.realSize + 3) : Meets x.dbg P q (throwError (α := α) x rest) := by
  unfold throwError
  split
  · trivial
  · rename_i h
    intro hp
    have := hx hp
    exact h ⟨this.1, by omega⟩

theorem matchKw_meets {x : Ctx} {P : Prop} (hx : P → 1 ≤ x.realSize ∧ x.size ≤ x.realSize + 3) :
    ∀ (kw rest : List Char), '"' ∉ kw → Char.ofNat 0 ∉ kw → Inv ops x.dbg P rest →
    Meets x.dbg P (fun r => Inv ops x.dbg P r ∧ r.length ≤ rest.length) (matchKw x kw rest)
  | [], rest, _, _, h => ⟨h, Nat.le_refl _⟩
  | k :: ks, rest, hk, h0, h => by
    rw [matchKw]
    refine (cur_meets x P rest).bind ?_
    intro c hc
    split
    · exact throwError_meets rest hx
    · rename_i hck
      simp only [ne_eq, Decidable.not_not] at hck
      subst hck
      rcases hc with ⟨t, rfl⟩ | ⟨rfl, rfl⟩
      · have hq : c ≠ '"' := by rintro rfl; exact hk List.mem_cons_self
        have := matchKw_meets hx ks t (fun hm => hk (List.mem_cons_of_mem _ hm))
          (fun hm => h0 (List.mem_cons_of_mem _ hm)) (h.tail hq)
        refine this.mono ?_
        rintro r ⟨h1, h2⟩
        exact ⟨h1, by simp; omega⟩
      · exact absurd List.mem_cons_self h0

theorem isValidEscape_iff (c : Char) : isValidEscape c = (escMeaning c).isSome := by
  unfold escMeaning isValidEscape
  repeat' split
  all_goals simp_all

theorem getEscape_of_some {dbg : Bool} {c : Char} (h : (escMeaning c).isSome) : ∃ m, getEscape dbg c = .ok m := by
  obtain ⟨m, hm⟩ := Option.isSome_iff_exists.1 h
  exact ⟨m, (escMeaning_ok hm dbg).2⟩

/-- The body of a literal as `scanEnd` delimits it. -/
inductive Body : List Char → Prop
  | nil : Body []
  | plain {c cs} (hq : c ≠ '"') (hb : c ≠ '\\') (h : Body cs) : Body (c :: cs)
  | esc {d cs} (h : Body cs) : Body ('\\' :: d :: cs)

/-- Finding the end of a literal: if it succeeds there is a body and a closing quote; in a debug build the escapes are
valid. -/
theorem scanEnd_ok (dbg : Bool) : ∀ (s : List Char),
    (∃ b t, s = b ++ '"' :: t ∧ scanEnd dbg s = .ok b.length ∧ Body b) ∨
    (scanEnd dbg s = .assertFail ∧ dbg = true) ∨ (scanEnd dbg s = .ub ∧ dbg = false)
  | [] => by cases dbg <;> simp [scanEnd]
  | [c] => by
    by_cases hc : c = '"'
    · left; exact ⟨[], [], by simp [hc], by simp [scanEnd, hc], .nil⟩
    · right; cases dbg <;> simp [scanEnd, hc]
  | c :: d :: cs => by
    by_cases hc : c = '"'
    · left; exact ⟨[], d :: cs, by simp [hc], by simp [scanEnd, hc], .nil⟩
    · by_cases hb : c = '\\'
      · subst hb
        by_cases hv : (dbg && !isValidEscape d) = true
        · right; left
          refine ⟨by rw [scanEnd, if_neg hc, if_pos rfl, if_pos hv], ?_⟩
          simp at hv; exact hv.1
        · have hs : scanEnd dbg ('\\' :: d :: cs) = (do let n ← scanEnd dbg cs; return n + 2) := by
            rw [scanEnd, if_neg hc, if_pos rfl, if_neg hv]
          rcases scanEnd_ok dbg cs with ⟨b, t, h1, h2, h3⟩ | ⟨h1, h2⟩ | ⟨h1, h2⟩
          · left
            exact ⟨'\\' :: d :: b, t, by simp [h1], by rw [hs, h2]; rfl, .esc h3⟩
          · right; left; exact ⟨by rw [hs, h1]; rfl, h2⟩
          · right; right; exact ⟨by rw [hs, h1]; rfl, h2⟩
      · have hs : scanEnd dbg (c :: d :: cs) = (do let n ← scanEnd dbg (d :: cs); return n + 1) := by
          rw [scanEnd, if_neg hc, if_neg hb]
        rcases scanEnd_ok dbg (d :: cs) with ⟨b, t, h1, h2, h3⟩ | ⟨h1, h2⟩ | ⟨h1, h2⟩
        · left
          exact ⟨c :: b, t, by simp [h1], by rw [hs, h2]; rfl, .plain hc hb h3⟩
        · right; left; exact ⟨by rw [hs, h1]; rfl, h2⟩
        · right; right; exact ⟨by rw [hs, h1]; rfl, h2⟩

/-- Inside a literal, a balanced text is a valid body, a closing quote and a balanced rest. -/
theorem balancedIn_split : ∀ {b t : List Char}, Body b → BalancedIn (b ++ '"' :: t) → Balanced t
  | _, t, .nil, h => by
    cases t with
    | nil => trivial
    | cons d t => simpa [BalancedIn] using h
  | _, t, @Body.plain c cs hq hb h, hbal => by
    cases hcs : cs ++ '"' :: t with
    | nil => simp at hcs
    | cons d ds =>
      rw [List.cons_append, hcs, BalancedIn, if_neg hq, if_neg hb, ← hcs] at hbal
      exact balancedIn_split h hbal
  | _, t, @Body.esc d cs h, hbal => by
    rw [List.cons_append, List.cons_append, BalancedIn, if_neg (by decide), if_pos rfl] at hbal
    exact balancedIn_split h hbal.2

theorem balancedIn_scan : ∀ {s : List Char}, BalancedIn s → ∀ dbg, ∃ n, scanEnd dbg s = .ok n
  | [], h, _ => by simp [BalancedIn] at h
  | [c], h, dbg => ⟨0, by simp only [BalancedIn] at h; simp [scanEnd, h]⟩
  | c :: d :: cs, h, dbg => by
    rw [BalancedIn] at h
    split at h
    · rename_i hc; exact ⟨0, by simp [scanEnd, hc]⟩
    · rename_i hc
      split at h
      · rename_i hb
        obtain ⟨n, hn⟩ := balancedIn_scan h.2 dbg
        have hv : isValidEscape d = true := by rw [isValidEscape_iff]; exact h.1
        subst hb
        exact ⟨n + 2, by simp [scanEnd, hv, hn]⟩
      · rename_i hb
        obtain ⟨n, hn⟩ := balancedIn_scan h dbg
        exact ⟨n + 1, by simp [scanEnd, hc, hb, hn]⟩

/-- Decoding a body; it can only go wrong at an invalid escape. -/
theorem convert_meets (x : Ctx) (P : Prop) : ∀ {b : List Char}, Body b → ∀ (rest : List Char),
    (P → x.dbg = true ∨ BalancedIn (b ++ rest)) →
    Meets x.dbg P (fun r => r.2 = rest) (convert x b.length (b ++ rest))
  | _, .nil, rest, _ => by rw [convert]; exact rfl
  | _, @Body.plain c cs hq hb h, rest, hbal => by
    rw [convert]
    have hne : ¬ (c :: cs).length = 0 := by simp
    rw [dif_neg hne]
    simp only [List.cons_append, cur, Outcome.bind_ok, List.tail_cons, List.length_cons, Nat.add_sub_cancel]
    rw [if_pos hb]
    have hbal' : P → x.dbg = true ∨ BalancedIn (cs ++ rest) := by
      intro hp
      rcases hbal hp with h1 | h1
      · exact .inl h1
      · right
        cases hcs : cs ++ rest with
        | nil => rw [List.cons_append, hcs, BalancedIn] at h1; exact absurd h1 hq
        | cons d ds => rw [List.cons_append, hcs, BalancedIn, if_neg hq, if_neg hb] at h1; exact h1
    exact (convert_meets x P h rest hbal').bind (fun a ha => ha)
  | _, @Body.esc d cs h, rest, hbal => by
    rw [convert]
    have hne : ¬ ('\\' :: d :: cs).length = 0 := by simp
    rw [dif_neg hne]
    have hlen : ('\\' :: d :: cs).length - 2 = cs.length := by simp
    rw [hlen]
    simp only [List.cons_append, cur, Outcome.bind_ok, List.tail_cons]
    rw [if_neg (by simp)]
    have hesc : Meets x.dbg P (fun _ => True) (getEscape x.dbg d) := by
      by_cases hv : (escMeaning d).isSome
      · obtain ⟨m, hm⟩ := getEscape_of_some (dbg := x.dbg) hv
        rw [hm]; trivial
      · cases hd : x.dbg with
        | true =>
          have : isValidEscape d = false := by rw [isValidEscape_iff]; simpa using hv
          simp [getEscape, this, Meets]
        | false =>
          have hnp : ¬ P := by
            intro hp
            rcases hbal hp with h1 | h1
            · rw [hd] at h1; exact absurd h1 (by decide)
            · rw [List.cons_append, List.cons_append, BalancedIn, if_neg (by decide), if_pos rfl] at h1
              exact hv h1.1
          cases hg : getEscape false d with
          | ok a => trivial
          | throw => trivial
          | assertFail => exact fun hp => absurd hp hnp
          | ub => exact hnp
          | diverge =>
            exfalso
            unfold getEscape at hg
            repeat' split at hg
            all_goals cases hg
    have hbal' : P → x.dbg = true ∨ BalancedIn (cs ++ rest) := by
      intro hp
      rcases hbal hp with h1 | h1
      · exact .inl h1
      · right
        rw [List.cons_append, List.cons_append, BalancedIn, if_neg (by decide), if_pos rfl] at h1
        exact h1.2
    refine hesc.bind (fun e _ => ?_)
    exact (convert_meets x P h rest hbal').bind (fun a ha => ha)

theorem readStr_meets {x : Ctx} {P : Prop} {t : List Char} (h : Inv ops x.dbg P ('"' :: t)) :
    Meets x.dbg P (fun r => Inv ops x.dbg P r.2 ∧ r.2.length < ('"' :: t).length) (readStr x ('"' :: t)) := by
  rw [readStr]
  simp only [List.tail_cons]
  have hin : P → x.dbg = true ∨ BalancedIn t := by
    intro hp
    rcases (h hp).1 with h1 | h1
    · exact .inl h1
    · right; rw [Balanced, if_pos rfl] at h1; exact h1
  rcases scanEnd_ok x.dbg t with ⟨b, u, h1, h2, h3⟩ | ⟨h1, h2⟩ | ⟨h1, h2⟩
  · rw [h2, Outcome.bind_ok, h1]
    refine (convert_meets x P h3 ('"' :: u) (by rw [← h1]; exact hin)).bind ?_
    rintro ⟨s, r⟩ hr
    have hr : r = '"' :: u := hr
    subst hr
    refine Meets.ofOk ⟨?_, by simp; omega⟩
    intro hp
    refine ⟨?_, numbersOk_suffix (h hp).2 ⟨'"' :: b ++ ['"'], by simp [h1]⟩⟩
    rcases hin hp with h4 | h4
    · exact .inl h4
    · right; rw [h1] at h4; exact balancedIn_split h3 h4
  · rw [h1]; exact fun _ => h2
  · rw [h1]
    intro hp
    rcases hin hp with h4 | h4
    · rw [h2] at h4; exact absurd h4 (by decide)
    · obtain ⟨n, hn⟩ := balancedIn_scan h4 x.dbg
      rw [h1] at hn; cases hn

theorem parseNum_meets {x : Ctx} {P : Prop} {rest : List Char} (h : Inv ops x.dbg P rest) :
    Meets x.dbg P (fun r => Inv ops x.dbg P r.2 ∧ r.2.length ≤ rest.length) (parseNum ops rest) := by
  unfold parseNum
  simp only []
  split
  · rename_i hn
    intro hp
    have := ((h hp).2 rest (List.suffix_refl _)).1
    rw [hn] at this; simp at this
  · refine Meets.ofOk ⟨?_, by simp⟩
    intro hp
    refine Inv.drop _ h ?_ hp
    rintro c hc rfl
    exact ((h hp).2 rest (List.suffix_refl _)).2.1 hc

theorem isNumStart_meets {x : Ctx} {P : Prop} {c : Char} {t : List Char} (h : Inv ops x.dbg P (c :: t)) :
    Meets x.dbg P (fun _ => True) (isNumStart ops c) := by
  unfold isNumStart
  split
  · exact Meets.ofOk trivial
  · split
    · exact Meets.ofOk trivial
    · rename_i hc
      split
      · exact Meets.ofOk trivial
      · rename_i hn
        intro hp
        have := ((h hp).2 (c :: t) (List.suffix_refl _)).2.2 c rfl (by omega)
        rw [hn] at this; simp at this

mutual

theorem parseVal_meets {x : Ctx} {P : Prop} (hx : P → 1 ≤ x.realSize ∧ x.size ≤ x.realSize + 3)
    (fuel : Nat) (rest : List Char) (hf : 2 * rest.length + 1 ≤ fuel)
    (h : Inv ops x.dbg P rest) :
    Meets x.dbg P (fun r => Inv ops x.dbg P r.2 ∧ r.2.length ≤ rest.length) (parseVal ops x fuel rest) := by
  match fuel with
  | 0 => omega
  | fuel + 1 =>
    rw [parseVal]
    refine (cur_meets x P rest).bind ?_
    rintro c (⟨t, rfl⟩ | ⟨rfl, rfl⟩)
    · simp only [List.tail_cons]
      simp only [List.length_cons] at hf
      split
      · rename_i hc
        have ht := h.tail (by rw [hc]; decide)
        refine (cur_meets x P t).bind ?_
        intro d hd
        split
        · rename_i hd'
          rcases hd with ⟨u, rfl⟩ | ⟨rfl, rfl⟩
          · exact Meets.ofOk ⟨ht.tail (by rw [hd']; decide), by simp; omega⟩
          · exact absurd hd' (by decide)
        · refine (objLoop_meets hx fuel t [] List.Pairwise.nil (by omega) ht).mono ?_
          rintro r ⟨h1, h2⟩; exact ⟨h1, by simp; omega⟩
      · split
        · rename_i hc
          have ht := h.tail (by rw [hc]; decide)
          refine (cur_meets x P t).bind ?_
          intro d hd
          split
          · rename_i hd'
            rcases hd with ⟨u, rfl⟩ | ⟨rfl, rfl⟩
            · exact Meets.ofOk ⟨ht.tail (by rw [hd']; decide), by simp; omega⟩
            · exact absurd hd' (by decide)
          · refine (arrLoop_meets hx fuel t [] (by omega) ht).mono ?_
            rintro r ⟨h1, h2⟩; exact ⟨h1, by simp; omega⟩
        · split
          · rename_i hc
            subst hc
            refine (readStr_meets h).bind ?_
            rintro ⟨s, r⟩ ⟨h1, h2⟩
            exact Meets.ofOk ⟨h1, Nat.le_of_lt h2⟩
          · split
            · refine (matchKw_meets hx _ _ (by decide) (by decide) h).bind ?_
              rintro r hr; exact hr
            · split
              · refine (matchKw_meets hx _ _ (by decide) (by decide) h).bind ?_
                rintro r hr; exact hr
              · split
                · refine (matchKw_meets hx _ _ (by decide) (by decide) h).bind ?_
                  rintro r hr; exact hr
                · refine (isNumStart_meets h).bind ?_
                  rintro b -
                  split
                  · exact parseNum_meets h
                  · exact throwError_meets _ hx
    · rw [if_neg (by decide), if_neg (by decide), if_neg (by decide), if_neg (by decide), if_neg (by decide),
        if_neg (by decide)]
      have : isNumStart ops (Char.ofNat 0) = .ok false := rfl
      rw [this]
      exact throwError_meets _ hx

theorem arrLoop_meets {x : Ctx} {P : Prop} (hx : P → 1 ≤ x.realSize ∧ x.size ≤ x.realSize + 3)
    (fuel : Nat) (rest : List Char) (acc : List (Val R)) (hf : 2 * rest.length + 2 ≤ fuel)
    (h : Inv ops x.dbg P rest) :
    Meets x.dbg P (fun r => Inv ops x.dbg P r.2 ∧ r.2.length ≤ rest.length) (arrLoop ops x fuel rest acc) := by
  match fuel with
  | 0 => omega
  | fuel + 1 =>
    rw [arrLoop]
    refine (parseVal_meets hx fuel rest (by omega) h).bind ?_
    rintro ⟨v, r⟩ ⟨h1, h2⟩
    simp only at h1 h2 ⊢
    refine (cur_meets x P r).bind ?_
    rintro c (⟨t, rfl⟩ | ⟨rfl, rfl⟩)
    · simp only [List.tail_cons]
      simp only [List.length_cons] at h2
      split
      · rename_i hc
        refine (arrLoop_meets hx fuel t _ (by omega) (h1.tail (by rw [hc]; decide))).mono ?_
        rintro r ⟨h3, h4⟩; exact ⟨h3, by omega⟩
      · split
        · rename_i hc
          exact Meets.ofOk ⟨h1.tail (by rw [hc]; decide), by simp only; omega⟩
        · exact throwError_meets _ hx
    · rw [if_neg (by decide), if_neg (by decide)]
      exact throwError_meets _ hx

theorem objLoop_meets {x : Ctx} {P : Prop} (hx : P → 1 ≤ x.realSize ∧ x.size ≤ x.realSize + 3)
    (fuel : Nat) (rest : List Char) (acc : List (List Char × Val R))
    (ha : Container.Increasing strLt acc) (hf : 2 * rest.length + 2 ≤ fuel) (h : Inv ops x.dbg P rest) :
    Meets x.dbg P (fun r => Inv ops x.dbg P r.2 ∧ r.2.length ≤ rest.length) (objLoop ops x fuel rest acc) := by
  match fuel with
  | 0 => omega
  | fuel + 1 =>
    rw [objLoop]
    refine (cur_meets x P rest).bind ?_
    intro c hc
    split
    · exact throwError_meets _ hx
    · rename_i hcq
      simp only [ne_eq, Decidable.not_not] at hcq
      subst hcq
      rcases hc with ⟨t, rfl⟩ | ⟨_, hc⟩
      · refine (readStr_meets h).bind ?_
        rintro ⟨key, r⟩ ⟨h1, h2⟩
        simp only at h1 h2 ⊢
        refine (cur_meets x P r).bind ?_
        intro d hd
        split
        · exact throwError_meets _ hx
        · rename_i hdc
          simp only [ne_eq, Decidable.not_not] at hdc
          subst hdc
          rcases hd with ⟨u, rfl⟩ | ⟨_, hd⟩
          · simp only [List.tail_cons]
            simp only [List.length_cons] at h2 hf
            refine (parseVal_meets hx fuel u (by omega) (h1.tail (by decide))).bind ?_
            rintro ⟨v, r⟩ ⟨h3, h4⟩
            simp only at h3 h4 ⊢
            rw [setIndex_eq_put _ ha, Outcome.bind_ok]
            refine (cur_meets x P r).bind ?_
            rintro e (⟨w, rfl⟩ | ⟨rfl, rfl⟩)
            · simp only [List.tail_cons]
              simp only [List.length_cons] at h4
              split
              · rename_i he
                refine (objLoop_meets hx fuel w _ (put_increasing ha key v) (by omega)
                  (h3.tail (by rw [he]; decide))).mono ?_
                rintro r ⟨h5, h6⟩; exact ⟨h5, by simp; omega⟩
              · split
                · rename_i he
                  exact Meets.ofOk ⟨h3.tail (by rw [he]; decide), by simp; omega⟩
                · exact throwError_meets _ hx
            · rw [if_neg (by decide), if_neg (by decide)]
              exact throwError_meets _ hx
          · exact absurd hd (by decide)
      · exact absurd hc (by decide)

end

/-! ### Purging -/

theorem purgeStr_meets (dbg : Bool) : ∀ (s : List Char) (prev : Char),
    Meets dbg False (fun r => r.2.length < s.length) (purgeStr dbg prev s)
  | [], prev => by cases dbg <;> simp [purgeStr, Meets]
  | c :: cs, prev => by
    rw [purgeStr]
    split
    · refine (purgeStr_meets dbg cs c).bind ?_
      rintro ⟨a, b⟩ h
      simp only at h
      refine Meets.ofOk ?_
      simp; omega
    · refine Meets.ofOk ?_
      simp

theorem purgeComment_meets (dbg : Bool) : ∀ (s : List Char),
    Meets dbg False (fun r => r.length < s.length) (purgeComment dbg s)
  | [] => by cases dbg <;> simp [purgeComment, Meets]
  | c :: cs => by
    rw [purgeComment]
    split
    · refine Meets.ofOk ?_; simp
    · refine (purgeComment_meets dbg cs).mono ?_
      intro r h; simp; omega

theorem purgeLoop_meets (dbg : Bool) : ∀ (fuel : Nat) (s : List Char), s.length < fuel →
    Meets dbg False (fun _ => True) (purgeLoop dbg fuel s)
  | 0, _, h => by omega
  | fuel + 1, [], _ => by rw [purgeLoop]; trivial
  | fuel + 1, c :: cs, h => by
    simp only [List.length_cons] at h
    rw [purgeLoop]
    split
    · refine (purgeStr_meets dbg cs '"').bind ?_
      rintro ⟨a, b⟩ hb
      simp only at hb
      refine (purgeLoop_meets dbg fuel b (by omega)).bind (fun _ _ => trivial)
    · split
      · exact fun hp => hp.elim
      · split
        · refine (purgeComment_meets dbg cs).bind ?_
          intro b hb
          exact purgeLoop_meets dbg fuel b (by omega)
        · refine (purgeLoop_meets dbg fuel cs (by omega)).bind (fun _ _ => trivial)

/-- Reading never diverges. -/
theorem read_terminates (dbg : Bool) (s : List Char) : Meets dbg False (fun _ => True) (read ops dbg s) := by
  rw [read]
  refine (purgeLoop_meets dbg _ s (by omega)).bind ?_
  intro p _
  simp only []
  refine (parseVal_meets (ops := ops) (P := False)
    (x := { dbg := dbg, size := (purgedSrc s p).length, realSize := p.length })
    (fun h => h.elim) _ _ (by omega) (fun h => h.elim)).bind ?_
  intro _ _
  trivial

theorem read_safe (dbg : Bool) (s : List Char) (hne : s ≠ []) (hp : purge dbg s = .ok s)
    (hb : dbg = true ∨ Balanced s) (hc : NumbersOk ops s) : Meets dbg True (fun _ => True) (read ops dbg s) := by
  rw [read, hp, Outcome.bind_ok]
  have hsrc : purgedSrc s s = s := by simp [purgedSrc]
  simp only [hsrc]
  have h1 : 1 ≤ s.length := by
    cases s with
    | nil => exact absurd rfl hne
    | cons _ _ => simp
  refine (parseVal_meets (ops := ops) (P := True) (x := { dbg := dbg, size := s.length, realSize := s.length })
    (fun _ => ⟨h1, by simp⟩) _ _ (by omega) (fun _ => ⟨hb, hc⟩)).bind ?_
  intro _ _
  trivial

end Verif.Json
