import Verif.Mpl.Lemmas

/-!
# Theorems about type lists: C59
-/

namespace Verif.Mpl

variable {α : Type} [DecidableEq α]

/-! ## Adding, removing, access -/

/-- **C59.** `PushBack`, `PushFront`, `Append`, `Prepend` and `Apply`. -/
theorem C59_ends (ts us : List α) (t : α) {β : Type} (f : α → β) :
    pushBack ts t = ts ++ [t] ∧ pushFront ts t = t :: ts ∧
    append ts us = ts ++ us ∧ prepend ts us = us ++ ts ∧ apply f ts = ts.map f :=
  ⟨rfl, rfl, rfl, rfl, apply_eq f ts⟩

/-- **C59.** `Insert<t, n>` puts `t` at index `n` and moves the types from there on by one;
the index may be at most the size.  What is missing: the empty list takes any index. -/
theorem C59_insert_partial (ts : List α) (t : α) (n : Nat) :
    (n ≤ ts.length → insert ts t n = some (ts.take n ++ t :: ts.drop n)) ∧
    (ts.length < n → ts ≠ [] → insert ts t n = none) := by
  refine ⟨insert_eq ts t n, fun h h' => ?_⟩
  unfold insert
  rw [if_neg h', if_neg (by omega)]

/-- What is missing in `C59_insert_partial`. -/
theorem C59_insert_empty (t : α) (n : Nat) : insert [] t n = some [t] := rfl

/-- **C59.** `Remove<n>` takes the type at index `n` out; there must be one. -/
theorem C59_remove (ts : List α) (n : Nat) :
    (n < ts.length → remove ts n = some (ts.take n ++ ts.drop (n + 1))) ∧
    (ts.length ≤ n → remove ts n = none) := by
  refine ⟨remove_eq ts n, fun h => ?_⟩
  unfold remove
  rw [if_neg (by omega)]

/-- **C59.** Removing what was inserted gives the list back. -/
theorem C59_insert_remove (ts us : List α) (t : α) (n : Nat) (hn : n ≤ ts.length)
    (h : insert ts t n = some us) : remove us n = some ts := by
  rw [insert_eq ts t n hn] at h
  cases h
  have hl : (ts.take n).length = n := by simp only [List.length_take]; omega
  rw [remove_eq _ n (by simp only [List.length_append, List.length_cons]; omega)]
  congr 1
  rw [List.take_left' hl]
  have : (ts.take n ++ t :: ts.drop n).drop (n + 1) = ts.drop n := by
    rw [← List.drop_drop, List.drop_left' hl]; rfl
  rw [this, List.take_append_drop]

/-- **C59.** `At`, `Head`, `Tail`, `PopBack`, `PopFront`: every index from the start, the
first and the last type, and the lists without them; on the empty list none of them
compiles. -/
theorem C59_access (ts : List α) :
    (∀ i : Nat, at_ ts i = ts[i]?) ∧ (∀ i : Int, i < 0 → at_ ts i = none) ∧
    head ts = ts.head? ∧ tail ts = ts.getLast? ∧
    (ts ≠ [] → popBack ts = some ts.dropLast ∧ popFront ts = some (ts.drop 1)) ∧
    (ts = [] → popBack ts = none ∧ popFront ts = none) := by
  have hat : ∀ i : Nat, at_ ts i = ts[i]? := fun i => by
    unfold at_; rw [if_pos (by omega), Int.toNat_natCast]
  refine ⟨hat, fun i hi => by unfold at_; rw [if_neg (by omega)], ?_, ?_, ?_, ?_⟩
  · unfold head
    have := hat 0
    rw [show ((0 : Nat) : Int) = 0 from rfl] at this
    rw [this, List.head?_eq_getElem?]
  · unfold tail
    cases ts with
    | nil => rfl
    | cons t ts =>
      have : (((t :: ts).length : Int) - 1) = ((t :: ts).length - 1 : Nat) := by
        simp only [List.length_cons]; omega
      rw [this, hat, List.getLast?_eq_getElem?]
  · intro h
    have hp : 0 < ts.length := List.length_pos_iff.2 h
    refine ⟨?_, ?_⟩
    · unfold popBack
      rw [if_neg h, remove_eq ts _ (by omega), List.dropLast_eq_take]
      congr 1
      rw [List.drop_eq_nil_of_le (by omega), List.append_nil]
    · unfold popFront
      rw [if_neg h, remove_eq ts 0 hp]
      rfl
  · intro h
    subst h
    exact ⟨rfl, rfl⟩

/-- **C59.** `VAHead` and `VATail` are the first and the last type of a pack. -/
theorem C59_va (ts : List α) : vaHead ts = ts.head? ∧ vaTail ts = ts.getLast? := by
  refine ⟨by cases ts <;> rfl, ?_⟩
  induction ts with
  | nil => rfl
  | cons t ts ih =>
    cases ts with
    | nil => rfl
    | cons u us => rw [vaTail, ih]; rfl

example : insert ['a', 'b', 'c'] 'x' 1 = some ['a', 'x', 'b', 'c'] ∧
    remove ['a', 'b', 'c'] 1 = some ['a', 'c'] ∧ tail ['a', 'b'] = some 'b' := by decide

/-! ## Filters and searches -/

/-- **C59.** `Filter`, `FilterIdx`, `Reverse`: the types that satisfy the filter, the types
at the indices that do, in the order of the list; the list from its end. -/
theorem C59_filter (p : α → Bool) (q : Nat → Bool) (ts : List α) :
    filter p ts = ts.filter p ∧
    (ts ≠ [] → filterIdx q ts =
      some ((ts.zipIdx.filter fun x => q x.2).map Prod.fst)) ∧
    reverse ts = ts.reverse := by
  refine ⟨by rw [filter, filterHlpr_eq, List.nil_append], fun h => ?_, ?_⟩
  · rw [filterIdx, if_neg h, filterIdxHlpr_eq, List.nil_append]
  · rw [reverse, reverseHlpr_eq, List.append_nil]

/-- **C59.** `has`, `getCountOf`, `getIdxOf`: whether a type is in the list, how many times,
and the index of its first occurrence (which compiles if there is one). -/
theorem C59_search (ts : List α) (t : α) :
    (has ts t = true ↔ t ∈ ts) ∧ getCountOf t ts = ts.count t ∧
    (∀ i, getIdxOf ts t = some i ↔ ts[i]? = some t ∧ ∀ j, j < i → ts[j]? ≠ some t) ∧
    (getIdxOf ts t = none ↔ t ∉ ts) := by
  have key : ∀ i, getIdxOf ts t = some i ↔
      ts[i]? = some t ∧ ∀ j, j < i → ts[j]? ≠ some t := by
    intro i
    have hm : ∀ j : Nat, (ts.map fun u => decide (t = u))[j]? = some true ↔ ts[j]? = some t := by
      intro j
      rw [List.getElem?_map]
      cases ts[j]? with
      | none => simp
      | some u =>
        simp only [Option.map_some, Option.some.injEq, decide_eq_true_eq]
        exact ⟨fun h => h.symm, fun h => h.symm⟩
    unfold getIdxOf
    constructor
    · intro h
      split at h
      · rw [idxOfLoop_eq] at h
        obtain ⟨_, h2, h3⟩ := h
        rw [Nat.sub_zero, hm] at h2
        refine ⟨h2, fun j hj c => ?_⟩
        exact h3 j (Nat.zero_le _) hj (by rw [Nat.sub_zero, hm]; exact c)
      · cases h
    · rintro ⟨h1, h2⟩
      rw [if_pos ((has_iff ts t).2 (List.mem_of_getElem? h1)), idxOfLoop_eq]
      refine ⟨Nat.zero_le _, by rw [Nat.sub_zero, hm]; exact h1, fun j _ hj c => ?_⟩
      rw [Nat.sub_zero, hm] at c
      exact h2 j hj c
  refine ⟨has_iff ts t, getCountOf_eq t ts, key, ?_⟩
  constructor
  · intro h hmem
    -- the first occurrence
    have : ∃ i : Nat, ts[i]? = some t ∧ ∀ j, j < i → ts[j]? ≠ some t := by
      clear h key
      induction ts with
      | nil => simp at hmem
      | cons u us ih =>
        by_cases hu : u = t
        · subst hu
          exact ⟨0, rfl, fun j hj => absurd hj (Nat.not_lt_zero j)⟩
        · rcases List.mem_cons.1 hmem with h | h
          · exact absurd h.symm hu
          · obtain ⟨i, h1, h2⟩ := ih h
            refine ⟨i + 1, h1, fun j hj => ?_⟩
            cases j with
            | zero => simpa using hu
            | succ j => exact h2 j (by omega)
    obtain ⟨i, hi⟩ := this
    rw [(key i).2 hi] at h
    cases h
  · intro h
    unfold getIdxOf
    rw [if_neg fun c => h ((has_iff ts t).1 c)]

/-- **C59.** `all` and `any`, for lists that are not empty. -/
theorem C59_all_partial (p : α → Bool) (ts : List α) (h : ts ≠ []) :
    (all p ts = true ↔ ∀ t ∈ ts, p t = true) ∧ (any p ts = true ↔ ∃ t ∈ ts, p t = true) := by
  have hf : filter p ts = ts.filter p := by rw [filter, filterHlpr_eq, List.nil_append]
  unfold all any
  rw [if_neg h, if_neg h, hf]
  refine ⟨?_, ?_⟩
  · rw [beq_iff_eq]
    constructor
    · intro e
      exact List.filter_eq_self.1 (List.Sublist.eq_of_length List.filter_sublist e)
    · intro e
      rw [List.filter_eq_self.2 e]
  · rw [decide_eq_true_eq, gt_iff_lt, List.length_pos_iff]
    constructor
    · intro e
      obtain ⟨t, ht⟩ := List.exists_mem_of_ne_nil _ e
      exact ⟨t, (List.mem_filter.1 ht).1, (List.mem_filter.1 ht).2⟩
    · rintro ⟨t, h1, h2⟩ e
      have : t ∈ ts.filter p := List.mem_filter.2 ⟨h1, h2⟩
      rw [e] at this
      simp at this

/-- What is missing: of the empty list it is not true that all its types satisfy a
filter. -/
theorem C59_all_empty (p : α → Bool) : all p [] = false ∧ any p [] = false := ⟨rfl, rfl⟩

example : all (· != 'x') ['a', 'b'] = true ∧ any (· == 'b') ['a', 'b'] = true ∧
    getIdxOf ['a', 'b', 'b'] 'b' = some 1 ∧ getCountOf 'b' ['a', 'b', 'b'] = 2 := by decide

/-! ## Unique -/

omit [DecidableEq α] in
theorem firstOcc_snoc {ts us : List α} {t : α} (h : Spec.FirstOccurrences ts us) (ht : t ∉ ts) :
    Spec.FirstOccurrences (ts ++ [t]) (us ++ [t]) := by
  have htu : t ∉ us := fun c => ht ((h.mem t).1 c)
  refine ⟨?_, ?_, ?_⟩
  · rw [List.nodup_append]
    refine ⟨h.nodup, by simp, ?_⟩
    intro a ha b hb
    rw [List.mem_singleton] at hb
    subst hb
    intro c; subst c; exact htu ha
  · intro u
    rw [List.mem_append, List.mem_append, h.mem u]
  · intro a v b e
    rcases List.eq_nil_or_concat b with rfl | ⟨b', w, rfl⟩
    · have : us ++ [t] = a ++ [v] := e
      obtain ⟨e1, e2⟩ := List.append_inj' this rfl
      cases e2
      exact ⟨ts, [], rfl, ht, fun u => by rw [← e1]; exact h.mem u⟩
    · have : us ++ [t] = (a ++ v :: b') ++ [w] := by rw [e]; simp
      obtain ⟨e1, e2⟩ := List.append_inj' this rfl
      obtain ⟨c, d, h1, h2, h3⟩ := h.order a v b' e1
      exact ⟨c, d ++ [t], by rw [h1]; simp, h2, h3⟩

omit [DecidableEq α] in
theorem firstOcc_old {ts us : List α} {t : α} (h : Spec.FirstOccurrences ts us) (ht : t ∈ ts) :
    Spec.FirstOccurrences (ts ++ [t]) us := by
  refine ⟨h.nodup, ?_, ?_⟩
  · intro u
    rw [List.mem_append, h.mem u, List.mem_singleton]
    constructor
    · exact Or.inl
    · rintro (h | rfl)
      · exact h
      · exact ht
  · intro a v b e
    obtain ⟨c, d, h1, h2, h3⟩ := h.order a v b e
    exact ⟨c, d ++ [t], by rw [h1]; simp, h2, h3⟩

theorem uniqueHlpr_first (ts pre r : List α) (h : Spec.FirstOccurrences pre r) :
    Spec.FirstOccurrences (pre ++ ts) (uniqueHlpr ts r) := by
  induction ts generalizing pre r with
  | nil => rw [List.append_nil]; exact h
  | cons t ts ih =>
    have e : pre ++ t :: ts = (pre ++ [t]) ++ ts := by simp
    rw [uniqueHlpr, e]
    by_cases ht : t ∈ pre
    · rw [if_pos ((has_iff r t).2 ((h.mem t).2 ht))]
      exact ih _ _ (firstOcc_old h ht)
    · rw [if_neg fun c => ht ((h.mem t).1 ((has_iff r t).1 c))]
      exact ih _ _ (firstOcc_snoc h ht)

/-- **C59.** `Unique` leaves the first occurrence of every type, in the order of the list. -/
theorem C59_unique (ts : List α) : Spec.FirstOccurrences ts (unique ts) := by
  have := uniqueHlpr_first ts [] [] ⟨List.nodup_nil, fun t => Iff.rfl, fun a t b e => by
    cases a <;> simp at e⟩
  exact this

omit [DecidableEq α] in
/-- The first occurrences are determined: `C59_unique` leaves no choice. -/
theorem C59_unique_unique (ts us vs : List α) (h : Spec.FirstOccurrences ts us)
    (h' : Spec.FirstOccurrences ts vs) : us = vs := by
  -- a common beginning, then the rest
  have key : ∀ (b b' a : List α), us = a ++ b → vs = a ++ b' → b = b' := by
    intro b
    induction b with
    | nil =>
      intro b' a e e'
      cases b' with
      | nil => rfl
      | cons t b' =>
        exfalso
        have h1 : t ∈ vs := by rw [e']; simp
        have h2 : t ∈ us := (h.mem t).2 ((h'.mem t).1 h1)
        rw [e, List.append_nil] at h2
        have := h'.nodup
        rw [e', List.nodup_append] at this
        exact this.2.2 t h2 t (by simp) rfl
    | cons t b ih =>
      intro b' a e e'
      cases b' with
      | nil =>
        exfalso
        have h1 : t ∈ us := by rw [e]; simp
        have h2 : t ∈ vs := (h'.mem t).2 ((h.mem t).1 h1)
        rw [e', List.append_nil] at h2
        have := h.nodup
        rw [e, List.nodup_append] at this
        exact this.2.2 t h2 t (by simp) rfl
      | cons t' b' =>
        obtain ⟨c, d, e1, n1, m1⟩ := h.order a t b e
        obtain ⟨c', d', e2, n2, m2⟩ := h'.order a t' b' e'
        have hl : c.length = c'.length := by
          rcases Nat.lt_trichotomy c.length c'.length with hlt | heq | hgt
          · exfalso
            have ht : t ∈ c' := by
              have : ts[c.length]? = some t := by rw [e1]; simp
              rw [e2, List.getElem?_append_left hlt] at this
              exact List.mem_of_getElem? this
            exact n1 ((m1 t).1 ((m2 t).2 ht))
          · exact heq
          · exfalso
            have ht : t' ∈ c := by
              have : ts[c'.length]? = some t' := by rw [e2]; simp
              rw [e1, List.getElem?_append_left hgt] at this
              exact List.mem_of_getElem? this
            exact n2 ((m2 t').1 ((m1 t').2 ht))
        have : c ++ t :: d = c' ++ t' :: d' := by rw [← e1, ← e2]
        obtain ⟨_, e4⟩ := List.append_inj this hl
        obtain ⟨rfl, _⟩ := List.cons.inj e4
        rw [ih b' (a ++ [t]) (by rw [e]; simp) (by rw [e']; simp)]
  simpa using key us vs [] rfl rfl

/-- **C59.** `unique`: the list has no type twice. -/
theorem C59_is_unique (ts : List α) : isUnique ts = true ↔ ts.Nodup := by
  unfold isUnique
  rw [decide_eq_true_eq]
  constructor
  · intro h
    rw [h]; exact (C59_unique ts).nodup
  · intro h
    refine (C59_unique_unique ts _ _ (C59_unique ts) ⟨h, fun _ => Iff.rfl, fun a t b e => ?_⟩).symm
    refine ⟨a, b, e, ?_, fun _ => Iff.rfl⟩
    rw [e, List.nodup_append] at h
    exact fun c => h.2.2 t c t (by simp) rfl

example : unique ['b', 'a', 'b', 'c', 'a'] = ['b', 'a', 'c'] ∧ isUnique ['b', 'a', 'b'] = false := by
  decide

/-! ## Slices and sequences -/

/-- **C59.** `Slice<s1, s2>` is the sublist `[s1, s2)`, cut at the end of the list; it does
not compile if it would end before it starts.  What is missing: negative indices. -/
theorem C59_slice_partial (ts : List α) (h : ts ≠ []) (s1 s2 : Nat) :
    (s1 ≤ s2 → slice ts s1 s2 = some ((ts.take s2).drop s1)) ∧
    (s2 < s1 → s2 < ts.length → slice ts s1 s2 = none) := by
  have hc : ∀ x : Nat, clampListIdx ts x = min x ts.length := by
    intro x
    unfold clampListIdx
    rw [if_neg (by omega)]
    simp only [Int.toNat_natCast]
    split <;> omega
  unfold slice
  rw [if_neg h, hc, hc]
  refine ⟨fun hs => ?_, fun h1 h2 => if_neg (by omega)⟩
  rw [if_pos (by omega)]
  apply elems_range
  · simp only [List.length_take, List.length_drop]; omega
  · intro i hi
    rw [List.getElem?_drop, List.getElem?_take]
    have e : min s1 ts.length = s1 := by omega
    rw [e, if_pos (by omega)]

/-- What is missing: a negative start is not clamped to the start of the list, it counts as
the end. -/
theorem C59_slice_negative (ts : List α) (h : ts ≠ []) (s1 : Int) (hs : s1 < 0) :
    slice ts s1 ts.length = some [] ∧ slice ts s1 0 = none := by
  have hp : 0 < ts.length := List.length_pos_iff.2 h
  have h1 : clampListIdx ts s1 = ts.length := by unfold clampListIdx; rw [if_pos hs]
  have h2 : clampListIdx ts ts.length = ts.length := by
    unfold clampListIdx
    rw [if_neg (by omega), if_neg (by simp only [Int.toNat_natCast]; omega), Int.toNat_natCast]
  have h3 : clampListIdx ts 0 = 0 := by
    unfold clampListIdx
    rw [if_neg (by omega), if_neg (by simp)]; rfl
  unfold slice
  rw [if_neg h, if_neg h, h1, h2, h3, if_pos (Nat.le_refl _), if_neg (by omega), Nat.sub_self]
  exact ⟨rfl, rfl⟩

/-- **C59.** `IdxsOfSeq` gives the indices where a list (that is not empty) occurs, all of
them, in ascending order; `getCountOfSeq` is their number and `hasSeq` says whether there
is one. -/
theorem C59_idxs (ts tm : List α) (hm : tm ≠ []) :
    (idxsOfSeq ts tm).Pairwise (· < ·) ∧
    (∀ i, i ∈ idxsOfSeq ts tm ↔ Spec.OccursAt ts tm i) ∧
    getCountOfSeq ts tm = (idxsOfSeq ts tm).length ∧
    (hasSeq ts tm = true ↔ tm <:+: ts) := by
  refine ⟨sorted_idxsOfSeq ts tm, mem_idxsOfSeq ts tm hm, rfl, ?_⟩
  unfold hasSeq getCountOfSeq
  rw [decide_eq_true_eq, gt_iff_lt, List.length_pos_iff]
  constructor
  · intro h
    obtain ⟨i, hi⟩ := List.exists_mem_of_ne_nil _ h
    obtain ⟨a, b, e, _⟩ := (mem_idxsOfSeq ts tm hm i).1 hi
    exact ⟨a, b, e.symm⟩
  · rintro ⟨a, b, e⟩ c
    have := (mem_idxsOfSeq ts tm hm a.length).2 ⟨a, b, e.symm, rfl⟩
    rw [c] at this
    simp at this

/-- **C59.** `IdxsOf<t>` gives the indices of a type, all of them, in ascending order. -/
theorem C59_idxs_of (ts : List α) (t : α) :
    (idxsOf ts t).Pairwise (· < ·) ∧ ∀ i, i ∈ idxsOf ts t ↔ ts[i]? = some t := by
  refine ⟨sorted_idxsOfSeq ts [t], fun i => ?_⟩
  unfold idxsOf
  rw [mem_idxsOfSeq ts [t] (by simp), occursAt_iff]
  constructor
  · rintro ⟨_, h⟩
    exact h 0 (by simp)
  · intro h
    have : i < ts.length := (List.getElem?_eq_some_iff.1 h).1
    refine ⟨by simp only [List.length_singleton]; omega, fun k hk => ?_⟩
    have : k = 0 := by simpa using hk
    subst this
    exact h

/-- **C59.** `ReplaceAllOfSeq<tm, tn>` replaces every occurrence of `tm`, if they do not
overlap. -/
theorem C59_replace_seq_partial (ts tm tn : List α) (hm : tm ≠ [])
    (ho : ¬ Spec.Overlap ts tm) :
    ∃ out, Spec.Replaced tm tn ts out ∧ replaceAllOfSeq ts tm tn = some out := by
  unfold replaceAllOfSeq
  by_cases hts : ts = []
  · subst hts
    exact ⟨[], .nil, rfl⟩
  · rw [if_neg hts]
    have hs : (idxsOfSeq ts tm).Pairwise fun i j => i + tm.length ≤ j := by
      refine List.Pairwise.imp_of_mem ?_ (sorted_idxsOfSeq ts tm)
      intro i j hi hj hij
      rcases Nat.lt_or_ge j (i + tm.length) with hlt | hge
      · exact absurd ⟨i, j, hij, hlt, (mem_idxsOfSeq ts tm hm i).1 hi,
          (mem_idxsOfSeq ts tm hm j).1 hj⟩ ho
      · exact hge
    obtain ⟨out, h1, h2⟩ := replaceHlpr_ok ts tm tn hts hm (idxsOfSeq ts tm) [] 0
      (Nat.zero_le _) hs (fun _ _ => Nat.zero_le _) (fun i _ => mem_idxsOfSeq ts tm hm i)
    exact ⟨out, h1, h2⟩

/-- What is missing: with overlapping occurrences `ReplaceAllOfSeq` does not compile. -/
theorem C59_replace_seq_overlap (ts tm tn : List α) (ho : Spec.Overlap ts tm) :
    replaceAllOfSeq ts tm tn = none := by
  obtain ⟨i, j, h1, h2, h3, h4⟩ := ho
  have hm : tm ≠ [] := by rintro rfl; simp at h2; omega
  have hts : ts ≠ [] := by
    rintro rfl
    have h5 := ((occursAt_iff _ _ _).1 h3).1
    have h6 : 0 < tm.length := List.length_pos_iff.2 hm
    rw [List.length_nil] at h5
    omega
  unfold replaceAllOfSeq
  rw [if_neg hts]
  apply replaceHlpr_none ts tm tn hts _ _ 0 (Nat.zero_le _) (sorted_idxsOfSeq ts tm)
  · intro k hk
    exact ((occursAt_iff _ _ _).1 ((mem_idxsOfSeq ts tm hm k).1 hk)).1
  · exact Or.inr ⟨i, (mem_idxsOfSeq ts tm hm i).2 h3, j, (mem_idxsOfSeq ts tm hm j).2 h4, h1, h2⟩

/-- **C59.** `ReplaceAllOf<t, tn>` replaces every occurrence of a type by the types of a
list. -/
theorem C59_replace (ts : List α) (t : α) (tn : List α) :
    replaceAllOf ts t tn = some (ts.flatMap fun u => if u = t then tn else [u]) := by
  unfold replaceAllOf
  obtain ⟨out, h1, h2⟩ := C59_replace_seq_partial ts [t] tn (by simp) (by
    rintro ⟨i, j, h1, h2, _⟩
    simp only [List.length_singleton] at h2
    omega)
  rw [h2]
  congr 1
  have key : ∀ ts out, Spec.Replaced [t] tn ts out →
      out = ts.flatMap fun u => if u = t then tn else [u] := by
    intro ts out h
    induction h with
    | nil => rfl
    | found h ih => simp [ih]
    | keep no h ih =>
      next u us o =>
      have hu : u ≠ t := by
        rintro rfl
        exact no ⟨us, rfl⟩
      simp [ih, hu]
  exact key ts out h1

omit [DecidableEq α] in
/-- The replacement is determined: `C59_replace_seq_partial` leaves no choice. -/
theorem C59_replaced_unique (tm tn ts o o' : List α) (hm : tm ≠ [])
    (h : Spec.Replaced tm tn ts o) (h' : Spec.Replaced tm tn ts o') : o = o' := by
  induction h generalizing o' with
  | nil =>
    generalize hx : ([] : List α) = x at h'
    cases h' with
    | nil => rfl
    | found h => exact absurd (List.append_eq_nil_iff.1 hx.symm).1 hm
    | keep => cases hx
  | found h ih =>
    next us out =>
    generalize hx : tm ++ us = x at h'
    cases h' with
    | nil => exact absurd (List.append_eq_nil_iff.1 hx).1 hm
    | found h =>
      have := List.append_cancel_left hx
      subst this
      rw [ih _ h]
    | keep no h => exact absurd ⟨us, hx⟩ no
  | keep no h ih =>
    next t us out =>
    generalize hx : t :: us = x at h' no
    cases h' with
    | nil => cases hx
    | found h => exact absurd ⟨_, rfl⟩ no
    | keep _ h =>
      cases hx
      rw [ih _ h]

example : replaceAllOfSeq ['a', 'b', 'c', 'a', 'b'] ['a', 'b'] ['x'] = some ['x', 'c', 'x'] ∧
    replaceAllOfSeq ['a', 'a', 'a'] ['a', 'a'] ['x'] = none ∧
    replaceAllOf ['a', 'b', 'a'] 'a' ['x', 'y'] = some ['x', 'y', 'b', 'x', 'y'] ∧
    idxsOfSeq ['a', 'a', 'a'] ['a', 'a'] = [0, 1] ∧
    slice ['a', 'b', 'c'] 1 9 = some ['b', 'c'] := by decide

/-- `C59_replace_seq_partial` and `C59_replace_seq_overlap` are both about something. -/
example : ¬ Spec.Overlap ['a', 'b', 'c'] ['a', 'b'] ∧ Spec.Overlap ['a', 'a', 'a'] ['a', 'a'] := by
  constructor
  · rintro ⟨i, j, h1, h2, h3, h4⟩
    have h5 := (mem_idxsOfSeq ['a', 'b', 'c'] ['a', 'b'] (by simp) i).2 h3
    have h6 := (mem_idxsOfSeq ['a', 'b', 'c'] ['a', 'b'] (by simp) j).2 h4
    have e : idxsOfSeq ['a', 'b', 'c'] ['a', 'b'] = [0] := by decide
    rw [e, List.mem_singleton] at h5 h6
    omega
  · exact ⟨0, 1, by decide, by decide, ⟨[], ['a'], rfl, rfl⟩, ⟨['a'], [], rfl, rfl⟩⟩

end Verif.Mpl
