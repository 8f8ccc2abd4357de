import Verif.Container.Spec

/-! # Lemmas about binary search and sorted vectors -/

namespace Verif.Container

open Verif

variable {K V T : Type}

theorem mem_takeWhile_imp {p : T → Bool} {d : List T} {x : T} (h : x ∈ d.takeWhile p) : p x = true := by
  induction d with
  | nil => simp at h
  | cons y d ih =>
    rw [List.takeWhile_cons] at h
    split at h
    · rcases List.mem_cons.1 h with rfl | h
      · assumption
      · exact ih h
    · simp at h

/-- `n` splits `d` into the part satisfying `p` and the rest. -/
def Splits (p : T → Bool) (d : List T) (n : Nat) : Prop :=
  n ≤ d.length ∧ (∀ i x, d[i]? = some x → (p x = true ↔ i < n))

theorem lowerBoundLoop_spec {p : T → Bool} {d : List T} {n : Nat} (hs : Splits p d n) :
    ∀ len first, first ≤ n → n ≤ first + len → first + len ≤ d.length →
      lowerBoundLoop p d first len = .ok n := by
  intro len
  induction len using Nat.strongRecOn with
  | _ len ih =>
    intro first h1 h2 h3
    unfold lowerBoundLoop
    split
    · have : first = n := by omega
      rw [this]
    · have hlt : first + len / 2 < d.length := by omega
      have hget : d[first + len / 2]? = some d[first + len / 2] := List.getElem?_eq_getElem hlt
      have hp := hs.2 _ _ hget
      simp only [hget]
      split
      · rename_i hpx
        have := hp.1 hpx
        exact ih _ (by omega) _ (by omega) (by omega) (by omega)
      · rename_i hpx
        have : ¬ (first + len / 2 < n) := fun h => hpx (hp.2 h)
        exact ih _ (by omega) _ (by omega) (by omega) (by omega)

theorem lowerBound_spec {p : T → Bool} {d : List T} {n : Nat} (hs : Splits p d n) :
    lowerBound p d = .ok n :=
  lowerBoundLoop_spec hs _ _ (Nat.zero_le _) (by simpa using hs.1) (by simp)

/-- A list on which `p` is antitone splits at the length of its `takeWhile`. -/
theorem splits_of {p : T → Bool} {d : List T} (h : d.Pairwise (fun x y => p y = true → p x = true)) :
    Splits p d (d.takeWhile p).length := by
  induction d with
  | nil => simp [Splits]
  | cons x d ih =>
    rw [List.pairwise_cons] at h
    have ih := ih h.2
    by_cases hp : p x = true
    · simp only [List.takeWhile_cons, hp, if_true, List.length_cons]
      refine ⟨by simpa using ih.1, ?_⟩
      intro i y hy
      cases i with
      | zero => simp at hy; subst hy; simp [hp]
      | succ i =>
        simp only [List.getElem?_cons_succ] at hy
        rw [ih.2 i y hy]; omega
    · have : (List.takeWhile p (x :: d)).length = 0 := by simp [List.takeWhile_cons, hp]
      rw [this]
      refine ⟨Nat.zero_le _, ?_⟩
      intro i y hy
      constructor
      · intro hpy
        cases i with
        | zero => simp at hy; subst hy; exact absurd hpy hp
        | succ i =>
          simp only [List.getElem?_cons_succ] at hy
          exact absurd (h.1 y (List.mem_of_getElem? hy) hpy) hp
      · omega

/-- Strictly increasing keys. -/
abbrev Increasing (lt : K → K → Bool) (d : List (K × V)) : Prop := d.Pairwise (fun x y => lt x.1 y.1 = true)

section
variable [DecidableEq K] {lt : K → K → Bool}

/-- The association found in `d`. -/
def toMap (d : List (K × V)) (k : K) : Option V := (d.find? (fun x => x.1 == k)).map (·.2)

theorem StrictTotal.antisymm (h : StrictTotal lt) {a b : K} (h1 : lt a b = true) : lt b a = false := by
  cases h2 : lt b a with
  | false => rfl
  | true => have := h.trans _ _ _ h1 h2; rw [h.irrefl] at this; simp at this

theorem increasing_splits (h : StrictTotal lt) {d : List (K × V)} (hd : Increasing lt d) (k : K) :
    Splits (fun x => lt x.1 k) d (d.takeWhile (fun x => lt x.1 k)).length := by
  apply splits_of
  refine hd.imp ?_
  intro x y hxy hy
  exact h.trans _ _ _ hxy hy

theorem lookup_ok (h : StrictTotal lt) {d : List (K × V)} (hd : Increasing lt d) (k : K) :
    lookup lt d k = .ok (d.takeWhile (fun x => lt x.1 k)).length :=
  lowerBound_spec (increasing_splits h hd k)

/-- A sorted vector seen from key `k`: a part before, possibly a pair for `k`, a part behind. -/
theorem cut (h : StrictTotal lt) {d : List (K × V)} (hd : Increasing lt d) (k : K) :
    ∃ l r, (∀ x ∈ l, lt x.1 k = true) ∧ (∀ x ∈ r, lt k x.1 = true) ∧
      (d.takeWhile (fun x => lt x.1 k)).length = l.length ∧
      ((d = l ++ r ∧ toMap d k = none) ∨ ∃ v, d = l ++ (k, v) :: r ∧ toMap d k = some v) := by
  refine ⟨d.takeWhile (fun x => lt x.1 k), ?_⟩
  have hl : ∀ x ∈ d.takeWhile (fun x => lt x.1 k), lt x.1 k = true := by
    intro x hx
    exact mem_takeWhile_imp (p := fun x : K × V => lt x.1 k) hx
  have hlne : ∀ x ∈ d.takeWhile (fun x => lt x.1 k), (x.1 == k) = false := by
    intro x hx
    have := hl x hx
    simp only [beq_eq_false_iff_ne]
    rintro rfl
    rw [h.irrefl] at this; simp at this
  have happ := List.takeWhile_append_dropWhile (p := fun x : K × V => lt x.1 k) (l := d)
  have hfl : (d.takeWhile (fun x => lt x.1 k)).find? (fun x => x.1 == k) = none := by
    rw [List.find?_eq_none]; intro x hx; simp [hlne x hx]
  cases hr : d.dropWhile (fun x => lt x.1 k) with
  | nil =>
    rw [hr] at happ
    refine ⟨[], hl, by simp, rfl, .inl ⟨happ.symm, ?_⟩⟩
    rw [toMap, ← happ, List.find?_append, hfl]; rfl
  | cons x r =>
    have hx : lt x.1 k = false := by
      have := List.head?_dropWhile_not (fun x : K × V => lt x.1 k) d
      rw [hr] at this
      simpa using this
    rw [hr] at happ
    have hd' : Increasing lt (x :: r) := by
      have := hd
      unfold Increasing at this
      rw [← happ, List.pairwise_append] at this
      exact this.2.1
    have hxr := (List.pairwise_cons.1 hd').1
    by_cases hk : x.1 = k
    · refine ⟨r, hl, ?_, rfl, .inr ⟨x.2, ?_, ?_⟩⟩
      · intro y hy; rw [← hk]; exact hxr y hy
      · rw [← hk]; rw [← hk] at happ; exact happ.symm
      · rw [toMap, ← happ, List.find?_append, hfl]
        simp [hk]
    · have hkx : lt k x.1 = true := by
        rcases h.total _ _ hk with h1 | h1
        · rw [h1] at hx; simp at hx
        · exact h1
      have hall : ∀ y ∈ x :: r, lt k y.1 = true := by
        intro y hy
        rcases List.mem_cons.1 hy with rfl | hy
        · exact hkx
        · exact h.trans _ _ _ hkx (hxr y hy)
      refine ⟨x :: r, hl, hall, rfl, .inl ⟨happ.symm, ?_⟩⟩
      rw [toMap, ← happ, List.find?_append, hfl]
      simp only [Option.none_or, Option.map_eq_none_iff, List.find?_eq_none]
      intro y hy
      have := hall y hy
      simp only [beq_iff_eq]
      rintro rfl
      rw [h.irrefl] at this; simp at this

theorem isAt_lookup (h : StrictTotal lt) {d : List (K × V)} (hd : Increasing lt d) (k : K) :
    ∃ i, lookup lt d k = .ok i ∧ i ≤ d.length ∧
      (match toMap d k with
        | some v => isAt d i k = true ∧ d[i]? = some (k, v)
        | none => isAt d i k = false) := by
  obtain ⟨l, r, h1, h2, h3, h4⟩ := cut h hd k
  refine ⟨_, lookup_ok h hd k, ?_, ?_⟩
  · exact (List.takeWhile_prefix _).length_le
  · rw [h3]
    rcases h4 with ⟨h5, h6⟩ | ⟨v, h5, h6⟩
    · rw [h6]
      simp only
      unfold isAt
      rw [h5, List.getElem?_append_right (Nat.le_refl _), Nat.sub_self]
      cases r with
      | nil => rfl
      | cons x r =>
        simp only [List.getElem?_cons_zero, beq_eq_false_iff_ne]
        rintro hx
        have := h2 x (by simp)
        rw [hx, h.irrefl] at this; simp at this
    · rw [h6]
      simp only
      have hg : d[l.length]? = some (k, v) := by
        rw [h5, List.getElem?_append_right (Nat.le_refl _), Nat.sub_self]; rfl
      exact ⟨by simp [isAt, hg], hg⟩

theorem toMap_mem {d : List (K × V)} (hn : (d.map (·.1)).Nodup) {k : K} {v : V} :
    toMap d k = some v ↔ (k, v) ∈ d := by
  induction d with
  | nil => simp [toMap]
  | cons x d ih =>
    obtain ⟨k', v'⟩ := x
    simp only [List.map_cons, List.nodup_cons] at hn
    have ih := ih hn.2
    by_cases hk : k' = k
    · subst hk
      simp only [toMap, List.find?_cons, beq_self_eq_true, Option.map_some, Option.some.injEq,
        List.mem_cons, Prod.mk.injEq, true_and]
      constructor
      · intro h; exact .inl h.symm
      · rintro (h | h)
        · exact h.symm
        · exact absurd (List.mem_map.2 ⟨_, h, rfl⟩) hn.1
    · have : (k' == k) = false := by simpa using hk
      simp only [toMap, List.find?_cons, this, List.mem_cons, Prod.mk.injEq]
      have hk' : ¬ k = k' := fun h => hk h.symm
      simp only [hk', false_and, false_or]
      exact ih

theorem increasing_nodup (h : StrictTotal lt) {d : List (K × V)} (hd : Increasing lt d) :
    (d.map (·.1)).Nodup := by
  rw [List.Nodup, List.pairwise_map]
  refine hd.imp ?_
  intro x y hxy he
  rw [he, h.irrefl] at hxy; simp at hxy

theorem mem_toMap (h : StrictTotal lt) {d : List (K × V)} (hd : Increasing lt d) {k : K} {v : V} :
    toMap d k = some v ↔ (k, v) ∈ d := toMap_mem (increasing_nodup h hd)

/-- `operator[]` followed by an assignment of `w`, as an edit of the vector. -/
theorem setIndex_shape (h : StrictTotal lt) (dflt : V) {d : List (K × V)} (hd : Increasing lt d) (k : K) (w : V) :
    ∃ l r old, setIndex lt dflt d k w = .ok (l ++ (k, w) :: r) ∧ (d = l ++ r ∨ d = l ++ (k, old) :: r) ∧
      (∀ x ∈ l, lt x.1 k = true) ∧ (∀ x ∈ r, lt k x.1 = true) := by
  obtain ⟨l, r, h1, h2, h3, h4⟩ := cut h hd k
  obtain ⟨i, h5, h6, h7⟩ := isAt_lookup h hd k
  have hi : i = l.length := by
    have := lookup_ok h hd k
    rw [h5] at this
    simp at this; omega
  subst hi
  refine ⟨l, r, ?_⟩
  rcases h4 with ⟨h8, h9⟩ | ⟨v, h8, h9⟩
  · rw [h9] at h7
    simp only at h7
    refine ⟨w, ?_, .inl h8, h1, h2⟩
    simp only [setIndex, index, h5, Outcome.bind_ok, h7]
    simp [h8, emplace]
  · rw [h9] at h7
    simp only at h7
    refine ⟨v, ?_, .inr h8, h1, h2⟩
    simp only [setIndex, index, h5, Outcome.bind_ok, h7]
    simp [h8]

/-- The effect of `operator[]` followed by an assignment of `w`. -/
theorem setIndex_spec (h : StrictTotal lt) (dflt : V) {d : List (K × V)} (hd : Increasing lt d) (k : K) (w : V) :
    ∃ d', setIndex lt dflt d k w = .ok d' ∧ Increasing lt d' ∧
      ∀ k', toMap d' k' = if k' = k then some w else toMap d k' := by
  obtain ⟨l, r, old, hset, hdd, h1, h2⟩ := setIndex_shape h dflt hd k w
  have hinc : Increasing lt (l ++ (k, w) :: r) := by
    have hd2 : Increasing lt (l ++ r) := by
      rcases hdd with rfl | rfl
      · exact hd
      · exact hd.sublist ((List.sublist_cons_self _ _).append_left _)
    unfold Increasing at hd2 ⊢
    rw [List.pairwise_append] at hd2 ⊢
    refine ⟨hd2.1, List.pairwise_cons.2 ⟨fun x hx => h2 x hx, hd2.2.1⟩, ?_⟩
    intro a ha b hb
    rcases List.mem_cons.1 hb with rfl | hb
    · exact h1 a ha
    · exact hd2.2.2 a ha b hb
  refine ⟨_, hset, hinc, ?_⟩
  intro k'
  by_cases hk : k' = k
  · subst hk
    rw [if_pos rfl, mem_toMap h hinc]; simp
  · rw [if_neg hk]
    apply Option.ext
    intro v
    rw [mem_toMap h hinc, mem_toMap h hd]
    rcases hdd with rfl | rfl <;> simp [hk]

theorem getIndex_spec (h : StrictTotal lt) (dflt : V) {d : List (K × V)} (hd : Increasing lt d) (k : K) :
    ∃ d', getIndex lt dflt d k = .ok (d', (toMap d k).getD dflt) ∧ Increasing lt d' ∧
      ∀ k', toMap d' k' = if k' = k then some ((toMap d k).getD dflt) else toMap d k' := by
  obtain ⟨l, r, h1, h2, h3, h4⟩ := cut h hd k
  obtain ⟨i, h5, h6, h7⟩ := isAt_lookup h hd k
  have hi : i = l.length := by
    have := lookup_ok h hd k
    rw [h5] at this
    simp at this; omega
  subst hi
  -- it has the same effect on the map as writing back what is there
  obtain ⟨d', hd1, hd2, hd3⟩ := setIndex_spec h dflt hd k ((toMap d k).getD dflt)
  refine ⟨d', ?_, hd2, hd3⟩
  rcases h4 with ⟨h8, h9⟩ | ⟨v, h8, h9⟩
  · rw [h9] at h7 hd1 ⊢
    simp only at h7
    simp only [setIndex, getIndex, index, h5, Outcome.bind_ok, h7] at hd1 ⊢
    simp [h8, emplace] at hd1 ⊢
    subst hd1
    simp [secondAt]
  · rw [h9] at h7 hd1 ⊢
    simp only at h7
    simp only [setIndex, getIndex, index, h5, Outcome.bind_ok, h7] at hd1 ⊢
    simp [h8] at hd1 ⊢
    subst hd1
    simp [secondAt]

theorem run_spec (h : StrictTotal lt) (dflt : V) : ∀ (os : List (Op K V)) (d : List (K × V)), Increasing lt d →
    ∃ d', run lt dflt d os = .ok d' ∧ Increasing lt d' ∧ toMap d' = specRun dflt (toMap d) os := by
  intro os
  induction os with
  | nil => intro d hd; exact ⟨d, rfl, hd, rfl⟩
  | cons o os ih =>
    intro d hd
    have key : ∃ d1, step lt dflt d o = .ok d1 ∧ Increasing lt d1 ∧ toMap d1 = specStep dflt (toMap d) o := by
      cases o with
      | write k v =>
        obtain ⟨d1, h1, h2, h3⟩ := setIndex_spec h dflt hd k v
        exact ⟨d1, h1, h2, funext h3⟩
      | touch k =>
        obtain ⟨d1, h1, h2, h3⟩ := getIndex_spec h dflt hd k
        exact ⟨d1, by simp [step, h1], h2, funext h3⟩
      | clear => exact ⟨[], rfl, List.Pairwise.nil, rfl⟩
    obtain ⟨d1, h1, h2, h3⟩ := key
    obtain ⟨d2, h4, h5, h6⟩ := ih d1 h2
    exact ⟨d2, by simp [run, h1, h4], h5, by rw [h6, h3]; rfl⟩

end

/-! ## VecSorted -/

theorem sortedInsert_spec {cmp : T → T → Bool} (h : StrictWeak cmp) {d : List T}
    (hd : d.Pairwise (fun x y => cmp y x = false)) (x : T) :
    ∃ l r, d = l ++ r ∧ sortedInsert cmp d x = .ok (l ++ x :: r) ∧
      (∀ y ∈ l, cmp y x = true) ∧ (∀ y ∈ r, cmp y x = false) := by
  have hs : Splits (fun y => cmp y x) d (d.takeWhile (fun y => cmp y x)).length := by
    apply splits_of
    refine hd.imp ?_
    intro a b hab hb
    cases hax : cmp a x with
    | true => rfl
    | false =>
      have := h.incomp b a x hab hax
      rw [hb] at this; simp at this
  have happ := List.takeWhile_append_dropWhile (p := fun y => cmp y x) (l := d)
  refine ⟨d.takeWhile (fun y => cmp y x), d.dropWhile (fun y => cmp y x), happ.symm, ?_, ?_, ?_⟩
  · have := lowerBound_spec hs
    simp only [sortedInsert, this, Outcome.bind_ok, Outcome.pure_eq, emplace]
    congr 2
    · conv => lhs; rw [← happ]
      rw [List.take_left' (by rw [happ])]
    · congr 1
      conv => lhs; rw [← happ]
      rw [List.drop_left' (by rw [happ])]
  · intro y hy
    exact mem_takeWhile_imp (p := fun y => cmp y x) hy
  · intro y hy
    obtain ⟨i, hi⟩ := List.getElem?_of_mem hy
    have hd' : (d.takeWhile (fun y => cmp y x) ++ d.dropWhile (fun y => cmp y x))[(d.takeWhile (fun y => cmp y x)).length + i]? = some y := by
      rw [List.getElem?_append_right (by omega)]
      simpa using hi
    rw [happ] at hd'
    have := hs.2 _ _ hd'
    cases hc : cmp y x with
    | false => rfl
    | true => have := this.1 hc; omega

end Verif.Container
