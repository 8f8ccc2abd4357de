import Verif.Mpl.Model
import Verif.Mpl.Spec

/-!
# Lemmas about type lists
-/

namespace Verif.Mpl

variable {α : Type} [DecidableEq α]

theorem elems_of_get (ts : List α) (is : List Nat) (us : List α)
    (h : is.map (fun i => ts[i]?) = us.map some) : elems ts is = some us := by
  induction is generalizing us with
  | nil => cases us with
    | nil => rfl
    | cons u us => simp at h
  | cons i is ih =>
    cases us with
    | nil => simp at h
    | cons u us =>
      simp only [List.map_cons, List.cons.injEq] at h
      rw [elems, h.1, ih us h.2]
      rfl

/-- Picking out elements by a function of the index. -/
theorem elems_range (ts : List α) (n : Nat) (f : Nat → Nat) (us : List α) (hl : us.length = n)
    (h : ∀ i, i < n → ts[f i]? = us[i]?) :
    elems ts ((List.range n).map f) = some us := by
  apply elems_of_get
  rw [List.map_map]
  apply List.ext_getElem?
  intro i
  simp only [List.getElem?_map]
  by_cases hi : i < n
  · rw [List.getElem?_range hi]
    simp only [Option.map_some, Function.comp]
    rw [h i hi, List.getElem?_eq_getElem (by omega)]
    rfl
  · rw [List.getElem?_eq_none (by simpa using hi), List.getElem?_eq_none (by omega)]
    rfl

theorem insert_eq (ts : List α) (t : α) (n : Nat) (h : n ≤ ts.length) :
    insert ts t n = some (ts.take n ++ t :: ts.drop n) := by
  unfold insert
  by_cases he : ts = []
  · subst he
    simp
  · rw [if_neg he, if_pos h]
    apply elems_range
    · simp only [List.length_append, List.length_take, List.length_cons, List.length_drop]; omega
    · intro i hi
      unfold getMapIns
      have htl : (ts.take n).length = n := by simp only [List.length_take]; omega
      by_cases h1 : i < n
      · rw [if_pos h1, List.getElem?_append_left (by omega), List.getElem?_append_left (by omega),
          List.getElem?_take, if_pos h1]
      · rw [if_neg h1, List.getElem?_append_right (l₁ := ts.take n) (by omega), htl]
        by_cases h2 : i = n
        · subst h2
          rw [if_pos rfl, List.getElem?_append_right (Nat.le_refl _)]
          simp
        · rw [if_neg h2, List.getElem?_append_left (by omega)]
          obtain ⟨j, rfl⟩ : ∃ j, i = n + 1 + j := ⟨i - n - 1, by omega⟩
          have e1 : n + 1 + j - n = j + 1 := by omega
          have e2 : n + 1 + j - 1 = n + j := by omega
          rw [e1, e2, List.getElem?_cons_succ, List.getElem?_drop]

theorem remove_eq (ts : List α) (n : Nat) (h : n < ts.length) :
    remove ts n = some (ts.take n ++ ts.drop (n + 1)) := by
  unfold remove
  rw [if_pos h]
  apply elems_range
  · simp only [List.length_append, List.length_take, List.length_drop]; omega
  · intro i hi
    unfold getMapRem
    have htl : (ts.take n).length = n := by simp only [List.length_take]; omega
    by_cases h1 : i < n
    · rw [if_pos h1, List.getElem?_append_left (by omega), List.getElem?_take, if_pos h1]
    · rw [if_neg h1, List.getElem?_append_right (by omega), htl, List.getElem?_drop]
      congr 1; omega

theorem apply_eq {β : Type} (f : α → β) (ts : List α) : apply f ts = ts.map f := by
  induction ts with
  | nil => rfl
  | cons t ts ih => rw [apply, ih]; rfl

theorem filterHlpr_eq (p : α → Bool) (ts r : List α) : filterHlpr p ts r = r ++ ts.filter p := by
  induction ts generalizing r with
  | nil => simp [filterHlpr]
  | cons t ts ih =>
    rw [filterHlpr, ih, ih, List.filter_cons, pushBack]
    cases p t <;> simp

theorem filterIdxHlpr_eq (p : Nat → Bool) (i : Nat) (ts r : List α) :
    filterIdxHlpr p i ts r = r ++ ((ts.zipIdx i).filter fun q => p q.2).map Prod.fst := by
  induction ts generalizing i r with
  | nil => simp [filterIdxHlpr]
  | cons t ts ih =>
    rw [filterIdxHlpr, ih, ih, List.zipIdx_cons, List.filter_cons, pushBack]
    cases p i <;> simp

theorem containsLoop_iff (bs : List Bool) : containsLoop bs = true ↔ true ∈ bs := by
  induction bs with
  | nil => simp [containsLoop]
  | cons b bs ih => cases b <;> simp [containsLoop, ih]

theorem has_iff (ts : List α) (t : α) : has ts t = true ↔ t ∈ ts := by
  rw [has, containsLoop_iff, List.mem_map]
  constructor
  · rintro ⟨u, hu, e⟩; rw [of_decide_eq_true e]; exact hu
  · intro h; exact ⟨t, h, decide_eq_true rfl⟩

theorem reverseHlpr_eq (ts r : List α) : reverseHlpr ts r = ts.reverse ++ r := by
  induction ts generalizing r with
  | nil => rfl
  | cons t ts ih => rw [reverseHlpr, ih, pushFront]; simp

theorem getCountOf_eq (t : α) (ts : List α) : getCountOf t ts = ts.count t := by
  induction ts with
  | nil => rfl
  | cons u us ih =>
    rw [getCountOf, ih, List.count_cons]
    by_cases h : t = u
    · subst h; simp; omega
    · rw [if_neg h, if_neg (by simpa using fun c => h c.symm)]; omega

theorem idxOfLoop_eq (bs : List Bool) (k i : Nat) :
    idxOfLoop bs k = some i ↔
      k ≤ i ∧ bs[i - k]? = some true ∧ ∀ j, k ≤ j → j < i → bs[j - k]? ≠ some true := by
  induction bs generalizing k with
  | nil => simp [idxOfLoop]
  | cons b bs ih =>
    cases b with
    | true =>
      rw [idxOfLoop, if_pos rfl]
      constructor
      · intro h; cases h
        exact ⟨Nat.le_refl _, by simp, fun j h1 h2 => by omega⟩
      · rintro ⟨h1, h2, h3⟩
        by_cases e : k = i
        · rw [e]
        · exact absurd (by simp) (h3 k (Nat.le_refl _) (by omega))
    | false =>
      rw [idxOfLoop, if_neg (by simp), ih]
      constructor
      · rintro ⟨h1, h2, h3⟩
        have e : i - k = (i - (k + 1)) + 1 := by omega
        refine ⟨by omega, by rw [e, List.getElem?_cons_succ]; exact h2, fun j j1 j2 => ?_⟩
        by_cases e' : j = k
        · subst e'; simp
        · have e : j - k = (j - (k + 1)) + 1 := by omega
          rw [e, List.getElem?_cons_succ]
          exact h3 j (by omega) j2
      · rintro ⟨h1, h2, h3⟩
        have hk : k < i := by
          rcases Nat.lt_or_ge k i with h | h
          · exact h
          · have : i - k = 0 := by omega
            rw [this] at h2; simp at h2
        have e : i - k = (i - (k + 1)) + 1 := by omega
        rw [e, List.getElem?_cons_succ] at h2
        refine ⟨by omega, h2, fun j j1 j2 => ?_⟩
        have := h3 j (by omega) j2
        have e : j - k = (j - (k + 1)) + 1 := by omega
        rw [e, List.getElem?_cons_succ] at this
        exact this

/-! ## Sequences -/

theorem slice_eq (ts : List α) (a b : Nat) (hts : ts ≠ []) (hab : a ≤ b) (hb : b ≤ ts.length) :
    slice ts a b = some ((ts.drop a).take (b - a)) := by
  unfold slice
  have ca : clampListIdx ts a = a := by
    unfold clampListIdx
    rw [if_neg (by omega), if_neg (by simp only [Int.toNat_natCast]; omega), Int.toNat_natCast]
  have cb : clampListIdx ts b = b := by
    unfold clampListIdx
    rw [if_neg (by omega), if_neg (by simp only [Int.toNat_natCast]; omega), Int.toNat_natCast]
  rw [if_neg hts, ca, cb, if_pos hab]
  apply elems_range
  · simp only [List.length_take, List.length_drop]; omega
  · intro i hi
    rw [List.getElem?_take, if_pos hi, List.getElem?_drop]

theorem slice_none (ts : List α) (a b : Nat) (hts : ts ≠ []) (hab : b < a) (ha : a ≤ ts.length) :
    slice ts a b = none := by
  unfold slice
  have ca : clampListIdx ts a = a := by
    unfold clampListIdx
    rw [if_neg (by omega), if_neg (by simp only [Int.toNat_natCast]; omega), Int.toNat_natCast]
  have cb : clampListIdx ts b = b := by
    unfold clampListIdx
    rw [if_neg (by omega), if_neg (by simp only [Int.toNat_natCast]; omega), Int.toNat_natCast]
  rw [if_neg hts, ca, cb, if_neg (by omega)]

theorem occursAt_iff (ts tm : List α) (i : Nat) :
    Spec.OccursAt ts tm i ↔
      i + tm.length ≤ ts.length ∧ ∀ k, k < tm.length → ts[i + k]? = tm[k]? := by
  constructor
  · rintro ⟨a, b, rfl, rfl⟩
    refine ⟨by simp only [List.length_append]; omega, fun k hk => ?_⟩
    rw [List.append_assoc, List.getElem?_append_right (by omega), Nat.add_sub_cancel_left,
      List.getElem?_append_left hk]
  · rintro ⟨h1, h2⟩
    refine ⟨ts.take i, ts.drop (i + tm.length), ?_, by simp only [List.length_take]; omega⟩
    have : tm = (ts.drop i).take tm.length := by
      apply List.ext_getElem?
      intro k
      rw [List.getElem?_take]
      by_cases hk : k < tm.length
      · rw [if_pos hk, List.getElem?_drop, h2 k hk]
      · rw [if_neg hk, List.getElem?_eq_none (by omega)]
    rw [this, List.append_assoc]
    have hl : ((ts.drop i).take tm.length).length = tm.length := by
      simp only [List.length_take, List.length_drop]; omega
    rw [hl, ← List.drop_drop, List.take_append_drop, List.take_append_drop]

theorem concat_eq (ls : List (List Nat)) : concat ls = ls.flatten := by
  induction ls with
  | nil => rfl
  | cons l ls ih => rw [concat, ih]; rfl

theorem getMatch_eq (ts tm : List α) (i : Nat) (h : i + tm.length ≤ ts.length)
    [Decidable (Spec.OccursAt ts tm i)] :
    getMatch ts tm i = if Spec.OccursAt ts tm i then [i] else [] := by
  unfold getMatch
  congr 1
  simp only [List.all_eq_true, List.mem_range, decide_eq_true_eq]
  exact propext ⟨fun h' => (occursAt_iff _ _ _).2 ⟨h, h'⟩, fun h' => ((occursAt_iff _ _ _).1 h').2⟩

open Classical in
theorem flatten_if (p : Nat → Prop) (is : List Nat) :
    (is.map fun i => if p i then [i] else []).flatten = is.filter (fun i => decide (p i)) := by
  induction is with
  | nil => rfl
  | cons i is ih =>
    rw [List.map_cons, List.flatten_cons, ih, List.filter_cons]
    by_cases h : p i <;> simp [h]

open Classical in
theorem idxsOfSeq_eq (ts tm : List α) (hm : tm ≠ []) :
    idxsOfSeq ts tm =
      (List.range (ts.length + 1 - tm.length)).filter fun i => decide (Spec.OccursAt ts tm i) := by
  have hm' : 0 < tm.length := List.length_pos_iff.2 hm
  unfold idxsOfSeq
  by_cases hts : ts = []
  · subst hts
    rw [if_pos (Or.inl rfl)]
    have : ([] : List α).length + 1 - tm.length = 0 := by simp only [List.length_nil]; omega
    rw [this]; rfl
  · rw [if_neg (by simp [hts, hm]), concat_eq]
    have : ((ts.length : Int) - tm.length + 1).toNat = ts.length + 1 - tm.length := by omega
    rw [this, ← flatten_if]
    congr 1
    apply List.map_congr_left
    intro i hi
    rw [List.mem_range] at hi
    rw [getMatch_eq ts tm i (by omega)]

open Classical in
theorem mem_idxsOfSeq (ts tm : List α) (hm : tm ≠ []) (i : Nat) :
    i ∈ idxsOfSeq ts tm ↔ Spec.OccursAt ts tm i := by
  rw [idxsOfSeq_eq ts tm hm, List.mem_filter, List.mem_range, decide_eq_true_eq]
  constructor
  · exact fun h => h.2
  · intro h
    have := ((occursAt_iff _ _ _).1 h).1
    exact ⟨by omega, h⟩

open Classical in
theorem sorted_idxsOfSeq (ts tm : List α) : (idxsOfSeq ts tm).Pairwise (· < ·) := by
  by_cases hm : tm = []
  · unfold idxsOfSeq; simp [hm]
  · rw [idxsOfSeq_eq ts tm hm]
    exact List.Pairwise.filter _ List.pairwise_lt_range

/-! ## Replacing -/

theorem prefix_drop_iff (ts tm : List α) (i : Nat) (hi : i ≤ ts.length) :
    tm <+: ts.drop i ↔ Spec.OccursAt ts tm i := by
  constructor
  · rintro ⟨b, hb⟩
    refine ⟨ts.take i, b, ?_, by simp only [List.length_take]; omega⟩
    rw [List.append_assoc, hb, List.take_append_drop]
  · rintro ⟨a, b, rfl, rfl⟩
    refine ⟨b, ?_⟩
    rw [List.append_assoc, List.drop_left]

/-- Where nothing is found everything is kept. -/
theorem replaced_skip (tm tn ts : List α) (n a : Nat) (out : List α) (h : a + n ≤ ts.length)
    (no : ∀ p, a ≤ p → p < a + n → ¬ Spec.OccursAt ts tm p)
    (hr : Spec.Replaced tm tn (ts.drop (a + n)) out) :
    Spec.Replaced tm tn (ts.drop a) ((ts.drop a).take n ++ out) := by
  induction n generalizing a with
  | zero => simpa using hr
  | succ n ih =>
    have ha : a < ts.length := by omega
    have e : a + (n + 1) = a + 1 + n := by omega
    have := ih (a + 1) (by omega) (fun p h1 h2 => no p (by omega) (by omega)) (by rw [← e]; exact hr)
    have hno : ¬ tm <+: ts.drop a := fun c =>
      no a (Nat.le_refl _) (by omega) ((prefix_drop_iff ts tm a (by omega)).1 c)
    rw [List.drop_eq_getElem_cons ha] at hno ⊢
    rw [List.take_succ_cons, List.cons_append]
    exact Spec.Replaced.keep hno this

theorem occursAt_drop (ts tm : List α) (i : Nat) (h : Spec.OccursAt ts tm i) :
    ts.drop i = tm ++ ts.drop (i + tm.length) := by
  obtain ⟨a, b, rfl, rfl⟩ := h
  rw [← List.drop_drop, List.append_assoc, List.drop_left, List.drop_left]

/-- The replacement, when the occurrences that are left do not overlap. -/
theorem replaceHlpr_ok (ts tm tn : List α) (hts : ts ≠ []) (hm : tm ≠ []) (is : List Nat)
    (r : List α) (last : Nat) (hl : last ≤ ts.length)
    (hs : is.Pairwise fun i j => i + tm.length ≤ j) (hge : ∀ i ∈ is, last ≤ i)
    (hmem : ∀ i, last ≤ i → (i ∈ is ↔ Spec.OccursAt ts tm i)) :
    ∃ out, Spec.Replaced tm tn (ts.drop last) out ∧
      replaceHlpr ts tm tn r is last = some (r ++ out) := by
  have hm' : 0 < tm.length := List.length_pos_iff.2 hm
  induction is generalizing r last with
  | nil =>
    refine ⟨ts.drop last, ?_, ?_⟩
    · have := replaced_skip tm tn ts (ts.length - last) last [] (by omega)
        (fun p h1 _ c => by have := (hmem p h1).2 c; simp at this)
        (by rw [List.drop_eq_nil_of_le (by omega)]; exact .nil)
      rw [List.append_nil, List.take_of_length_le (by simp only [List.length_drop]; omega)] at this
      exact this
    · rw [replaceHlpr, slice_eq ts last ts.length hts hl (Nat.le_refl _),
        List.take_of_length_le (by simp only [List.length_drop]; omega)]
      rfl
  | cons i is ih =>
    have hi : Spec.OccursAt ts tm i := (hmem i (hge i (by simp))).1 (by simp)
    have hil := ((occursAt_iff _ _ _).1 hi).1
    have hli := hge i (by simp)
    rw [List.pairwise_cons] at hs
    obtain ⟨out, h1, h2⟩ := ih (append (append r ((ts.drop last).take (i - last))) tn)
      (i + tm.length) hil hs.2 (fun j hj => hs.1 j hj) (fun j hj => by
        rw [← hmem j (by omega), List.mem_cons]
        constructor
        · exact Or.inr
        · rintro (rfl | h)
          · omega
          · exact h)
    refine ⟨(ts.drop last).take (i - last) ++ (tn ++ out), ?_, ?_⟩
    · have hw := replaced_skip tm tn ts (i - last) last (tn ++ out) (by omega) (fun p p1 p2 c => by
          rcases List.mem_cons.1 ((hmem p p1).2 c) with rfl | h
          · omega
          · have := hs.1 p h; omega)
      apply hw
      have : last + (i - last) = i := by omega
      rw [this, occursAt_drop ts tm i hi]
      exact Spec.Replaced.found h1
    · rw [replaceHlpr, slice_eq ts last i hts hli (by omega)]
      simp only [Option.bind_eq_bind, Option.bind_some]
      rw [h2]
      simp [append]

/-- Overlapping occurrences: the slice between them does not exist. -/
theorem replaceHlpr_none (ts tm tn : List α) (hts : ts ≠ []) (is : List Nat)
    (r : List α) (last : Nat) (hl : last ≤ ts.length) (hs : is.Pairwise (· < ·))
    (hle : ∀ i ∈ is, i + tm.length ≤ ts.length)
    (h : (∃ i ∈ is, i < last) ∨ ∃ i ∈ is, ∃ j ∈ is, i < j ∧ j < i + tm.length) :
    replaceHlpr ts tm tn r is last = none := by
  induction is generalizing r last with
  | nil => rcases h with ⟨i, h, _⟩ | ⟨i, h, _⟩ <;> simp at h
  | cons i is ih =>
    rw [List.pairwise_cons] at hs
    rw [replaceHlpr]
    have hil := hle i (by simp)
    by_cases hlt : i < last
    · rw [slice_none ts last i hts hlt hl]; rfl
    · rw [slice_eq ts last i hts (by omega) (by omega)]
      simp only [Option.bind_eq_bind, Option.bind_some]
      apply ih _ (i + tm.length) hil hs.2 (fun j hj => hle j (by simp [hj]))
      rcases h with ⟨j, hj, hjl⟩ | ⟨a, ha, b, hb, h1, h2⟩
      · exfalso
        rcases List.mem_cons.1 hj with rfl | hj
        · exact hlt hjl
        · have := hs.1 j hj; omega
      · rcases List.mem_cons.1 hb with rfl | hb'
        · exfalso
          rcases List.mem_cons.1 ha with rfl | ha
          · omega
          · have := hs.1 a ha; omega
        · rcases List.mem_cons.1 ha with rfl | ha'
          · exact Or.inl ⟨b, hb', h2⟩
          · exact Or.inr ⟨a, ha', b, hb', h1, h2⟩

end Verif.Mpl
