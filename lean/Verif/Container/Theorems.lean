import Verif.Container.Lemmas

/-! # Property theorems about `VecMap` and `VecSorted` (C08, C09, C10, C64) -/

namespace Verif.Container

open Verif

variable {K V T : Type}

/-- Order on `Nat` for the examples. -/
def natLt (a b : Nat) : Bool := decide (a < b)

theorem natLt_total : StrictTotal natLt := by
  refine ⟨?_, ?_, ?_⟩
  · intro a; simp [natLt]
  · intro a b c; simp [natLt]; omega
  · intro a b; simp [natLt]; omega

/-- Last digit order on `Nat`: a strict weak order that is not total. -/
def digitLt (a b : Nat) : Bool := decide (a % 10 < b % 10)

theorem digitLt_weak : StrictWeak digitLt := by
  refine ⟨?_, ?_, ?_⟩
  · intro a; simp [digitLt]
  · intro a b c; simp [digitLt]; omega
  · intro a b c; simp [digitLt]; omega

def demo : List (Op Nat Nat) := [.write 5 50, .write 2 20, .touch 9, .write 7 70, .write 2 21, .touch 5]

/-! ## C08 -/

/-- **C08.** After any history of `operator[]` writes, `operator[]` reads and `clear`s starting from an
empty map, every query answers as the finite map does: `has`/`count` tell whether the key was written or
touched since the last `clear`, `at` gives its value or throws, `atOrDefault` gives its value or the
default, `m[k]` gives its value or inserts the default, `atItr` points at the pair or is `end`. No call is
undefined behaviour. -/
theorem C08_behaves_like_finite_map [DecidableEq K] (lt : K → K → Bool) (hlt : StrictTotal lt) (dflt : V)
    (os : List (Op K V)) :
    ∃ d, run lt dflt [] os = .ok d ∧ ∀ k,
      let m := specRun dflt (fun _ => none) os
      has lt d k = .ok (m k).isSome ∧
      count lt d k = .ok (if (m k).isSome then 1 else 0) ∧
      at' lt d k = (match m k with | some v => .ok v | none => .throw) ∧
      atOrDefault lt dflt d k = .ok (match m k with | some v => v | none => dflt) ∧
      (∃ d', getIndex lt dflt d k = .ok (d', match m k with | some v => v | none => dflt)) ∧
      (∃ i, atItr lt d k = .ok i ∧ match m k with | some v => d[i]? = some (k, v) | none => i = d.length) := by
  obtain ⟨d, h1, h2, h3⟩ := run_spec hlt dflt os [] List.Pairwise.nil
  have h3 : toMap d = specRun dflt (fun _ => none) os := h3
  refine ⟨d, h1, ?_⟩
  intro k
  simp only
  rw [← h3]
  obtain ⟨i, h4, h5, h6⟩ := isAt_lookup hlt h2 k
  obtain ⟨d', h7, _, _⟩ := getIndex_spec hlt dflt h2 k
  cases hk : toMap d k with
  | some v =>
    rw [hk] at h6 h7
    simp only at h6
    refine ⟨?_, ?_, ?_, ?_, ⟨d', h7⟩, i, ?_, h6.2⟩ <;>
      simp [has, count, at', atOrDefault, atItr, h4, h6.1, secondAt, h6.2]
  | none =>
    rw [hk] at h6 h7
    simp only at h6
    refine ⟨?_, ?_, ?_, ?_, ⟨d', h7⟩, d.length, ?_, rfl⟩ <;>
      simp [has, count, at', atOrDefault, atItr, h4, h6]

example : run natLt 0 [] demo = .ok [(2, 21), (5, 50), (7, 70), (9, 0)] ∧
    specRun 0 (fun _ => none) demo 2 = some 21 := by decide +kernel

/-- Reading or writing one key through `operator[]` leaves the association of every other key alone
(a frame property stated on the observable queries only). -/
theorem C08_write_frame [DecidableEq K] (lt : K → K → Bool) (hlt : StrictTotal lt) (dflt : V)
    (os : List (Op K V)) (k : K) (v : V) :
    ∃ d d', run lt dflt [] os = .ok d ∧ run lt dflt [] (os ++ [.write k v]) = .ok d' ∧
      at' lt d' k = .ok v ∧ ∀ k', k' ≠ k → at' lt d' k' = at' lt d k' := by
  obtain ⟨d, h1, h2⟩ := C08_behaves_like_finite_map lt hlt dflt os
  obtain ⟨d', h3, h4⟩ := C08_behaves_like_finite_map lt hlt dflt (os ++ [.write k v])
  refine ⟨d, d', h1, h3, ?_, ?_⟩
  · rw [(h4 k).2.2.1]; simp [specRun, specStep]
  · intro k' hk'
    rw [(h4 k').2.2.1, (h2 k').2.2.1]
    simp [specRun, specStep, hk']

/-! ## C09 -/

/-- **C09 (histories).** Iteration visits strictly increasing keys, and exactly those of the map. -/
theorem C09_strictly_increasing [DecidableEq K] (lt : K → K → Bool) (hlt : StrictTotal lt) (dflt : V)
    (os : List (Op K V)) :
    ∃ d, run lt dflt [] os = .ok d ∧ d.Pairwise (fun x y => lt x.1 y.1 = true) ∧
      ∀ k v, (k, v) ∈ d ↔ specRun dflt (fun _ => none) os k = some v := by
  obtain ⟨d, h1, h2, h3⟩ := run_spec hlt dflt os [] List.Pairwise.nil
  refine ⟨d, h1, h2, ?_⟩
  intro k v
  rw [← mem_toMap hlt h2, h3]; rfl

/-- **C09 (initializer list, partial: no duplicate keys).** A map built from an initializer list whose
keys are distinct iterates in strictly increasing order over exactly the given pairs, and stays so under
any further history. Missing: lists with duplicate keys, where the claim is false, see below. -/
theorem C09_initializer_list_partial [DecidableEq K] (lt : K → K → Bool) (hlt : StrictTotal lt) (dflt : V)
    (il d : List (K × V)) (hil : (il.map (·.1)).Nodup) (hd : CtorResult lt il d) (os : List (Op K V)) :
    (∀ k v, at' lt d k = .ok v ↔ (k, v) ∈ il) ∧
    ∃ d', run lt dflt d os = .ok d' ∧ d'.Pairwise (fun x y => lt x.1 y.1 = true) := by
  have hinc : Increasing lt d := by
    have hn : (d.map (·.1)).Nodup := (hd.1.map _).nodup_iff.2 hil
    rw [List.Nodup, List.pairwise_map] at hn
    unfold Increasing
    refine (hd.2.and hn).imp ?_
    intro x y hxy
    rcases hlt.total _ _ hxy.2 with h | h
    · exact h
    · rw [hxy.1] at h; simp at h
  refine ⟨?_, ?_⟩
  · intro k v
    rw [← hd.1.mem_iff, ← mem_toMap hlt hinc]
    obtain ⟨i, h4, h5, h6⟩ := isAt_lookup hlt hinc k
    cases hk : toMap d k with
    | some w =>
      rw [hk] at h6; simp only at h6
      simp [at', h4, h6.1, secondAt, h6.2]
    | none =>
      rw [hk] at h6; simp only at h6
      simp [at', h4, h6]
  · obtain ⟨d', h1, h2, _⟩ := run_spec hlt dflt os d hinc
    exact ⟨d', h1, h2⟩

example : ([(5, 50), (2, 20), (9, 90)].map (·.1)).Nodup ∧
    CtorResult natLt [(5, 50), (2, 20), (9, 90)] [(2, 20), (5, 50), (9, 90)] := by
  refine ⟨by decide, ?_, by decide⟩
  decide

/-- **C09 fails for initializer lists with duplicate keys**: every possible result of the constructor
keeps both pairs, so iteration visits the key twice. -/
theorem C09_duplicate_keys_survive (d : List (Nat × Nat)) (h : CtorResult natLt [(1, 10), (1, 11)] d) :
    ¬ d.Pairwise (fun x y => natLt x.1 y.1 = true) ∧ d.length = 2 := by
  have hlen : d.length = 2 := by rw [h.1.length_eq]; rfl
  refine ⟨?_, hlen⟩
  intro hp
  have hn := increasing_nodup natLt_total hp
  have := (h.1.map (·.1)).nodup_iff.1 hn
  simp at this

/-- such results exist -/
example : CtorResult natLt [(1, 10), (1, 11)] [(1, 10), (1, 11)] := ⟨.refl _, by decide⟩

/-! ## C10 -/

/-- **C10.** Starting from an empty `VecSorted` (or any one built by its constructors) any sequence of
insertions succeeds, keeps the vector sorted with respect to the comparator, and the elements are exactly
the initial and inserted ones with multiplicity. -/
theorem C10_sorted_permutation (cmp : T → T → Bool) (hc : StrictWeak cmp) (il d : List T)
    (hd : SortedCtorResult cmp il d) (xs : List T) :
    ∃ d', sortedInserts cmp d xs = .ok d' ∧ d'.Pairwise (fun x y => cmp y x = false) ∧
      d'.Perm (il ++ xs) := by
  have gen : ∀ (xs d : List T), d.Pairwise (fun x y => cmp y x = false) →
      ∃ d', sortedInserts cmp d xs = .ok d' ∧ d'.Pairwise (fun x y => cmp y x = false) ∧ d'.Perm (d ++ xs) := by
    intro xs
    induction xs with
    | nil => intro d hd; exact ⟨d, rfl, hd, by simp⟩
    | cons x xs ih =>
      intro d hd
      obtain ⟨l, r, h1, h2, h3, h4⟩ := sortedInsert_spec hc hd x
      have hs : (l ++ x :: r).Pairwise (fun x y => cmp y x = false) := by
        rw [h1, List.pairwise_append] at hd
        rw [List.pairwise_append]
        refine ⟨hd.1, List.pairwise_cons.2 ⟨fun y hy => h4 y hy, hd.2.1⟩, ?_⟩
        intro a ha b hb
        rcases List.mem_cons.1 hb with rfl | hb
        · cases hba : cmp b a with
          | false => rfl
          | true => have := hc.trans _ _ _ (h3 a ha) hba; rw [hc.irrefl] at this; simp at this
        · exact hd.2.2 a ha b hb
      obtain ⟨d', h5, h6, h7⟩ := ih _ hs
      refine ⟨d', by simp [sortedInserts, h2, h5], h6, h7.trans ?_⟩
      rw [h1]
      simp only [List.append_assoc, List.cons_append]
      exact ((List.perm_middle (l₁ := r) (l₂ := xs) (a := x)).symm).append_left l
  obtain ⟨d', h1, h2, h3⟩ := gen xs d hd.2
  exact ⟨d', h1, h2, h3.trans (hd.1.append_right xs)⟩

/-- The value inserted last stands in front of the elements equivalent to it (the iterator returned by
`insert` points to it): everything before is strictly smaller, nothing behind is smaller. -/
theorem C10_insert_position (cmp : T → T → Bool) (hc : StrictWeak cmp) (il d : List T)
    (hd : SortedCtorResult cmp il d) (x : T) :
    ∃ l r, d = l ++ r ∧ sortedInsert cmp d x = .ok (l ++ x :: r) ∧
      (∀ y ∈ l, cmp y x = true) ∧ (∀ y ∈ r, cmp y x = false) :=
  sortedInsert_spec hc hd.2 x

example : SortedCtorResult digitLt [3, 21, 11, 5] [21, 11, 3, 5] ∧
    sortedInserts digitLt [21, 11, 3, 5] [13, 2] = .ok [21, 11, 2, 13, 3, 5] := by
  refine ⟨⟨by decide, by decide⟩, by decide +kernel⟩

/-! ## C64 -/

/-- **C64.** `operator==` on VecMaps (equality of the vectors, VecMapBase.hpp:113-118) holds exactly when
the two maps, however they were built, associate the same values with the same keys. -/
theorem C64_equality_is_extensional [DecidableEq K] (lt : K → K → Bool) (hlt : StrictTotal lt) (dflt : V)
    (os os' : List (Op K V)) :
    ∃ d d', run lt dflt [] os = .ok d ∧ run lt dflt [] os' = .ok d' ∧
      (d = d' ↔ ∀ k, at' lt d k = at' lt d' k) := by
  obtain ⟨d, h1, h2, h3⟩ := run_spec hlt dflt os [] List.Pairwise.nil
  obtain ⟨d', h1', h2', h3'⟩ := run_spec hlt dflt os' [] List.Pairwise.nil
  refine ⟨d, d', h1, h1', ?_⟩
  constructor
  · rintro rfl k; rfl
  · intro hat
    have hmap : ∀ k, toMap d k = toMap d' k := by
      intro k
      have hk := hat k
      obtain ⟨i, h4, h5, h6⟩ := isAt_lookup hlt h2 k
      obtain ⟨j, h4', h5', h6'⟩ := isAt_lookup hlt h2' k
      cases hd : toMap d k <;> cases hd' : toMap d' k <;>
        rw [hd] at h6 <;> rw [hd'] at h6' <;> simp only at h6 h6'
      · rw [at', h4, at', h4'] at hk
        simp [h6, h6', secondAt] at hk
      · rw [at', h4, at', h4'] at hk
        simp [h6, h6', secondAt] at hk
      · rw [at', h4, at', h4'] at hk
        simp [h6, h6', secondAt] at hk
        rw [hk]
    have gen : ∀ (d d' : List (K × V)), Increasing lt d → Increasing lt d' →
        (∀ x, x ∈ d ↔ x ∈ d') → d = d' := by
      intro d
      induction d with
      | nil =>
        intro d' _ _ h
        cases d' with
        | nil => rfl
        | cons x d' => have := (h x).2 (by simp); simp at this
      | cons x d ih =>
        intro d' hd hd' h
        cases d' with
        | nil => have := (h x).1 (by simp); simp at this
        | cons y d' =>
          have hx := List.pairwise_cons.1 hd
          have hy := List.pairwise_cons.1 hd'
          have hxy : x = y := by
            rcases List.mem_cons.1 ((h x).1 (by simp)) with h1 | h1
            · exact h1
            · rcases List.mem_cons.1 ((h y).2 (by simp)) with h2 | h2
              · exact h2.symm
              · have := hlt.trans _ _ _ (hy.1 x h1) (hx.1 y h2)
                rw [hlt.irrefl] at this; simp at this
          subst hxy
          congr 1
          apply ih d' hx.2 hy.2
          intro z
          have hz := h z
          constructor
          · intro hm
            rcases List.mem_cons.1 (hz.1 (by simp [hm])) with h1 | h1
            · have := hx.1 z hm
              rw [h1, hlt.irrefl] at this; simp at this
            · exact h1
          · intro hm
            rcases List.mem_cons.1 (hz.2 (by simp [hm])) with h1 | h1
            · have := hy.1 z hm
              rw [h1, hlt.irrefl] at this; simp at this
            · exact h1
    apply gen d d' h2 h2'
    intro x
    obtain ⟨k, v⟩ := x
    rw [← mem_toMap hlt h2, ← mem_toMap hlt h2', hmap]

example : run natLt 0 [] demo = run natLt 0 [] [.write 9 0, .write 7 70, .write 5 50, .write 2 21] := by decide +kernel

end Verif.Container
