import Verif.Json.LemmasPart

/-! # Assignment between two parts of one JSON value (C156) -/

namespace Verif.Json.Part

open Verif Spec

variable {R : Type}

theorem owning_iff (w : Val R) :
    owning w = true ↔ (∃ s, some (node w) = some (Node.str s)) ∨ (∃ n, some (node w) = some (Node.arr n)) ∨ some (node w) = some (.obj : Node R) := by
  cases w <;> simp [owning, node]

/-- The last step: both references are there. -/
theorem copyTo_spec {v : Val R} {p q : List Step} {l r : List Nat} (h : Sorted v) (hp : At v p l) (hq : At v q r) :
    (Overlap v p q → copyTo v (some l) (some r) = .ub) ∧
    (¬ Overlap v p q → ∃ w, copyTo v (some l) (some r) = .ok w ∧ Sorted w ∧ (∀ t, look w (p ++ t) = look v (q ++ t)) ∧
      ∀ s, ¬ p <+: s → look w s = look v s) := by
  obtain ⟨h1, h2, h3⟩ := copyOut_spec h hp hq
  unfold Overlap
  by_cases hpq : p = q
  · simp only [if_pos hpq]
    obtain ⟨w, hw, hc⟩ := h1 hpq
    rw [hw, ← owning_iff]
    constructor
    · intro ho
      rw [if_pos ho] at hc
      simp [copyTo, hc]
    · intro ho
      rw [if_neg ho] at hc
      obtain ⟨w2, hw2, hs2, hl2⟩ := at_look h hq
      subst hpq
      -- the value itself
      have hww : Sorted w ∧ ∀ t, look v (p ++ t) = look w t := by
        have e : node w = node w2 := by
          have := hl2 []
          rw [List.append_nil, hw] at this
          simpa [look] using this
        have : w = w2 := by
          cases w <;> cases w2 <;> simp [owning, node] at ho e <;> simp [e]
        subst this
        exact ⟨hs2, hl2⟩
      obtain ⟨v', k1, k2, k3, k4⟩ := setAt_spec h hp hww.1
      exact ⟨v', by simp [copyTo, hc, k1], k2, fun t => by rw [k3, hww.2], k4⟩
  · simp only [if_neg hpq]
    constructor
    · intro ho
      simp [copyTo, h2 hpq ho]
    · intro ho
      obtain ⟨w, hw1, hw2, hw3⟩ := h3 hpq ho
      obtain ⟨v', k1, k2, k3, k4⟩ := setAt_spec h hp hw2
      exact ⟨v', by simp [copyTo, hw1, k1], k2, fun t => by rw [k3, hw3], k4⟩

theorem look_append_none {v : Val R} {p : List Step} (h : look v p = none) (t : List Step) : look v (p ++ t) = none := by
  induction p generalizing v with
  | nil => simp [look] at h
  | cons s p ih =>
    rw [look_cons] at h
    rw [List.cons_append, look_cons]
    cases hk : kid v s with
    | none => rfl
    | some w => rw [hk] at h; exact ih h

/-- A reference is formed: what the value is then. -/
theorem walk_reach {v : Val R} {p : List Step} (h : Sorted v) (hp : Reach v p) (dbg : Bool) (full : List Step → Bool) :
    ∃ v' a ins, walk dbg full [] v p = .ok (v', a, ins) ∧ Sorted v' ∧ At v' p a ∧
      (∀ s, look v' s = if s = p ∧ look v p = none then some .nll else look v s) ∧
      ∀ x b, At v x b → (look v p ≠ none → kept ins b = some b ∧ v' = v) ∧
        (look v p = none →
          (Lost full v x p → kept ins b = none) ∧ (¬ Lost full v x p → ∃ b', kept ins b = some b' ∧ At v' x b')) := by
  by_cases hl : look v p = none
  · rcases hp with hp | ⟨o, k, rfl, ho⟩
    · exact absurd hl hp
    · obtain ⟨v', a, i, h1, h2, h3, h4, h5⟩ := walk_new h ho hl dbg full []
      refine ⟨v', a ++ [i], _, h1, h2, h3, fun s => by rw [h4]; simp [hl], fun x b hb => ⟨fun hn => absurd hl hn, fun _ => ?_⟩⟩
      obtain ⟨k1, k2⟩ := h5 x b hb (full ([] ++ o))
      have hne : x ≠ o ++ [.key k] := by
        rintro rfl
        obtain ⟨w, _, _, hw⟩ := at_look h hb
        have := hw []
        rw [List.append_nil, hl] at this
        simp [look] at this
      constructor
      · rintro ⟨-, -, o', k', j, rest, he, hx, hc⟩
        obtain ⟨he1, he2⟩ := List.append_inj' he rfl
        cases he2
        subst he1
        exact k1 ⟨j, rest, hx, hc⟩
      · intro hn
        exact k2 (fun ⟨j, rest, hx, hc⟩ => hn ⟨hne, hl, o, k, j, rest, rfl, hx, hc⟩)
  · obtain ⟨a, h1, h2⟩ := walk_there h hl dbg full []
    exact ⟨v, a, none, h1, h, h2, fun s => by simp [hl], fun x b hb => ⟨fun _ => ⟨rfl, rfl⟩, fun hn => absurd hn hl⟩⟩

/-- **C156.** Take any value whose objects are in order, and any two paths. The references to them are formed one after the other (`x`
first), whichever vectors are full, and then one is assigned to the other. If a path cannot be followed, this is undefined (or an assertion
fails). Otherwise it is undefined exactly if forming the second reference makes the first invalid, or if one part is inside of the other, or
both are the same string, array or object. In all other cases the target becomes a copy of the source, and nothing else changes. -/
theorem C156_assign (dbg : Bool) (full : List Step → Bool) (v : Val R) (hv : Sorted v) (x y : List Step) (toSecond : Bool) :
    (¬ (Reach v x ∧ Reach v y) →
      assign dbg full v x y toSecond = .ub ∨ dbg = true ∧ assign dbg full v x y toSecond = .assertFail) ∧
    (Reach v x → Reach v y → Lost full v x y ∨ Overlap v x y → assign dbg full v x y toSecond = .ub) ∧
    (Reach v x → Reach v y → ¬ Lost full v x y → ¬ Overlap v x y →
      ∃ w, assign dbg full v x y toSecond = .ok w ∧ Sorted w ∧ if toSecond then Copied v y x w else Copied v x y w) := by
  by_cases hx : Reach v x
  swap
  · refine ⟨fun _ => ?_, fun h => absurd h hx, fun h => absurd h hx⟩
    rcases walk_bad hv hx dbg full [] with h1 | ⟨hd, h1⟩
    · left; simp [assign, h1]
    · right; exact ⟨hd, by simp [assign, h1]⟩
  obtain ⟨v1, a, ins1, h1, h2, h3, h4, -⟩ := walk_reach hv hx dbg full
  have hr : Reach v1 y ↔ Reach v y := by
    unfold Reach
    simp only [h4]
    constructor
    · rintro (hh | ⟨p, k, hy, hh⟩)
      · by_cases hc : y = x ∧ look v x = none
        · rw [hc.1]; exact hx
        · rw [if_neg hc] at hh; exact .inl hh
      · by_cases hc : p = x ∧ look v x = none
        · rw [if_pos hc] at hh; cases hh
        · rw [if_neg hc] at hh; exact .inr ⟨p, k, hy, hh⟩
    · rintro (hh | ⟨p, k, hy, hh⟩)
      · left
        split
        · simp
        · exact hh
      · right
        refine ⟨p, k, hy, ?_⟩
        rw [if_neg (fun hc => by rw [hc.1, hc.2] at hh; cases hh)]
        exact hh
  by_cases hy : Reach v y
  swap
  · refine ⟨fun _ => ?_, fun _ h => absurd h hy, fun _ h => absurd h hy⟩
    rcases walk_bad h2 (fun h => hy (hr.1 h)) dbg full [] with k1 | ⟨hd, k1⟩
    · left; simp [assign, h1, k1]
    · right; exact ⟨hd, by simp [assign, h1, k1]⟩
  refine ⟨fun hn => absurd ⟨hx, hy⟩ hn, ?_⟩
  obtain ⟨v2, b, ins, k1, k2, k3, k4, k5⟩ := walk_reach h2 (hr.2 hy) dbg full
  obtain ⟨k6, k7⟩ := k5 x a h3
  have hl1 : look v1 y = none ↔ x ≠ y ∧ look v y = none := by
    rw [h4]
    by_cases hxy : y = x
    · subst hxy
      by_cases hc : look v y = none
      · simp [hc]
      · simp [hc]
    · simp [hxy, Ne.symm hxy]
  have hlost : Lost full v1 x y ↔ Lost full v x y := by
    unfold Lost
    rw [hl1]
    constructor
    · rintro ⟨ha, ⟨-, hb⟩, hc⟩; exact ⟨ha, hb, hc⟩
    · rintro ⟨ha, hb, hc⟩; exact ⟨ha, ⟨ha, hb⟩, hc⟩
  have hrun : ∀ c, kept ins a = c → assign dbg full v x y toSecond =
      if toSecond then copyTo v2 (some b) c else copyTo v2 c (some b) := by
    rintro c rfl
    simp only [assign, h1, Outcome.bind_ok, k1]
  -- the first reference after the second has been formed
  have hkept : (Lost full v x y → kept ins a = none) ∧ (¬ Lost full v x y → ∃ b', kept ins a = some b' ∧ At v2 x b') := by
    by_cases hl : look v1 y = none
    · rw [← hlost]; exact k7 hl
    · obtain ⟨g1, g2⟩ := k6 hl
      refine ⟨fun hh => absurd (hlost.2 hh).2.1 hl, fun _ => ⟨a, g1, by rw [g2]; exact h3⟩⟩
  have hlook2 : ∀ s, look v2 s = if (s = x ∧ look v x = none) ∨ (s = y ∧ look v y = none) then some .nll else look v s := by
    intro s
    rw [k4, h4 s]
    simp only [hl1]
    by_cases ha : s = x ∧ look v x = none
    · simp only [if_pos ha, if_pos (Or.inl ha : _ ∨ (s = y ∧ look v y = none))]
      split <;> rfl
    · rw [if_neg ha]
      by_cases hb : s = y ∧ look v y = none
      · rw [if_pos (Or.inr hb), if_pos]
        refine ⟨hb.1, ?_, hb.2⟩
        rintro rfl
        exact ha hb
      · rw [if_neg (fun hc => hb ⟨hc.1, hc.2.2⟩), if_neg (fun hc => hc.elim ha hb)]
  have hov : ∀ p q, (p = x ∧ q = y ∨ p = y ∧ q = x) → (Overlap v2 p q ↔ Overlap v x y) := by
    intro p q hpq
    unfold Overlap
    by_cases hxy : x = y
    · subst hxy
      have : p = x ∧ q = x := by rcases hpq with h | h <;> exact h
      obtain ⟨rfl, rfl⟩ := this
      rw [hlook2]
      by_cases hc : look v q = none
      · simp [hc]
      · simp [hc]
    · rcases hpq with ⟨rfl, rfl⟩ | ⟨rfl, rfl⟩
      · rw [if_neg hxy, if_neg hxy]
      · rw [if_neg (Ne.symm hxy), if_neg hxy, or_comm]
  have hcopied : ∀ p q w, (p = x ∧ q = y ∨ p = y ∧ q = x) → ¬ Overlap v x y → (∀ t, look w (p ++ t) = look v2 (q ++ t)) →
      (∀ s, ¬ p <+: s → look w s = look v2 s) → Copied v p q w := by
    intro p q w hpq hno hw1 hw2
    have hl2 : ∀ s, look v2 s = if (s = p ∧ look v p = none) ∨ (s = q ∧ look v q = none) then some .nll else look v s := by
      intro s
      rw [hlook2]
      rcases hpq with ⟨rfl, rfl⟩ | ⟨rfl, rfl⟩
      · rfl
      · simp only [or_comm]
    have hno' : ∀ t, q ++ t = p → p = q := by
      intro t ht
      refine Decidable.byContradiction fun hne => hno ?_
      have hpre : q <+: p := ⟨t, ht⟩
      unfold Overlap
      rcases hpq with ⟨rfl, rfl⟩ | ⟨rfl, rfl⟩
      · rw [if_neg hne]; exact .inr hpre
      · rw [if_neg (Ne.symm hne)]; exact .inl hpre
    constructor
    · intro t
      rw [hw1, hl2]
      by_cases hq : look v q = none
      · rw [if_pos hq]
        by_cases ht : t = []
        · subst ht; simp [hq]
        · rw [if_neg ht, if_neg, look_append_none hq]
          rintro (⟨hc, -⟩ | ⟨hc, -⟩)
          · have := hno' t hc
            rw [this] at hc
            simp at hc; exact ht hc
          · simp at hc; exact ht hc
      · rw [if_neg hq, if_neg]
        rintro (⟨hc, hc'⟩ | ⟨hc, hc'⟩)
        · rw [hno' t hc] at hc'; exact hq hc'
        · exact hq hc'
    · intro s hs
      rw [hw2 s hs, hl2]
      have hsp : s ≠ p := by rintro rfl; exact hs (List.prefix_refl _)
      simp [hsp]
  constructor
  · intro _ _ hlo
    by_cases hl : Lost full v x y
    · rw [hrun _ (hkept.1 hl)]
      cases toSecond <;> rfl
    · obtain ⟨b', g1, g2⟩ := hkept.2 hl
      have ho := hlo.resolve_left hl
      rw [hrun _ g1]
      cases toSecond with
      | true => exact (copyTo_spec k2 k3 g2).1 ((hov y x (.inr ⟨rfl, rfl⟩)).2 ho)
      | false => exact (copyTo_spec k2 g2 k3).1 ((hov x y (.inl ⟨rfl, rfl⟩)).2 ho)
  · intro _ _ hl ho
    obtain ⟨b', g1, g2⟩ := hkept.2 hl
    rw [hrun _ g1]
    cases toSecond with
    | true =>
      obtain ⟨w, w1, w2, w3, w4⟩ := (copyTo_spec k2 k3 g2).2 (fun h => ho ((hov y x (.inr ⟨rfl, rfl⟩)).1 h))
      exact ⟨w, w1, w2, hcopied y x w (.inr ⟨rfl, rfl⟩) ho w3 w4⟩
    | false =>
      obtain ⟨w, w1, w2, w3, w4⟩ := (copyTo_spec k2 g2 k3).2 (fun h => ho ((hov x y (.inl ⟨rfl, rfl⟩)).1 h))
      exact ⟨w, w1, w2, hcopied x y w (.inl ⟨rfl, rfl⟩) ho w3 w4⟩

/-- **C156, the common case.** `v["k"] = v["j"]` where `j` is a key of the object and `k` is not: undefined if `k` is smaller than `j` or the
vector of the object is full; otherwise there is a new entry equal to the old one. -/
theorem C156_new_entry (dbg : Bool) (full : List Step → Bool) (kvs : List (List Char × Val R)) (hv : Sorted (.obj kvs)) (j k : List Char)
    (c : Val R) (hj : (j, c) ∈ kvs) (hk : ∀ x ∈ kvs, x.1 ≠ k) :
    ((strLt k j = true ∨ full [] = true) → assign dbg full (.obj kvs) [.key j] [.key k] true = .ub) ∧
    ((strLt j k = true ∧ full [] = false) → ∃ w, assign dbg full (.obj kvs) [.key j] [.key k] true = .ok w ∧ Sorted w ∧
      Copied (.obj kvs) [.key k] [.key j] w) := by
  have hne : j ≠ k := hk _ hj
  have hlj : look (.obj kvs) [.key j] = some (node c) := by
    have := (kid_iff hv (s := .key j) (w := c)).2 (by
      obtain ⟨i, hi⟩ := List.mem_iff_getElem?.1 hj
      exact ⟨i, by simp [nm, hi], by simp [child, hi]⟩)
    rw [look_cons, this]; rfl
  have hlk : look (.obj kvs) [.key k] = none := by
    have : kvs.find? (fun x => decide (x.1 = k)) = none := by
      rw [List.find?_eq_none]
      intro x hx
      simpa using hk x hx
    simp [look, this]
  have hrj : Reach (.obj kvs) [.key j] := .inl (by rw [hlj]; simp)
  have hrk : Reach (.obj kvs) [.key k] := .inr ⟨[], k, rfl, rfl⟩
  obtain ⟨-, h1, h2⟩ := C156_assign dbg full (.obj kvs) hv [.key j] [.key k] true
  constructor
  · intro hc
    refine h1 hrj hrk (.inl ⟨by simp [hne], hlk, [], k, j, [], rfl, rfl, ?_⟩)
    rcases hc with hc | hc
    · exact .inr ⟨rfl, hc⟩
    · exact .inl hc
  · rintro ⟨hc1, hc2⟩
    refine h2 hrj hrk ?_ ?_
    · rintro ⟨-, -, o, k', j', rest, hy, hx, hc⟩
      cases o with
      | nil =>
        simp only [List.nil_append, List.cons.injEq, Step.key.injEq, and_true] at hy hx
        obtain ⟨rfl, rfl⟩ := hx
        subst hy
        rcases hc with hc | ⟨-, hc⟩
        · rw [hc2] at hc; cases hc
        · rw [strLt_strictTotal.antisymm hc1] at hc; cases hc
      | cons s o => simp at hy
    · simp [Overlap, hne, Ne.symm hne]

/-- **C156, a value in itself.** To assign a value to a part of it, or a part of it to the whole, is always undefined. -/
theorem C156_into_itself (dbg : Bool) (full : List Step → Bool) (v : Val R) (hv : Sorted v) (p t : List Step) (ht : t ≠ [])
    (hp : look v p ≠ none) (hq : Reach v (p ++ t)) (toSecond : Bool) :
    assign dbg full v p (p ++ t) toSecond = .ub ∧ assign dbg full v (p ++ t) p toSecond = .ub := by
  have hne : p ≠ p ++ t := fun h => ht (by simpa using h)
  constructor
  · refine (C156_assign dbg full v hv p (p ++ t) toSecond).2.1 (.inl hp) hq (.inr ?_)
    rw [Overlap, if_neg hne]
    exact .inl (List.prefix_append ..)
  · refine (C156_assign dbg full v hv (p ++ t) p toSecond).2.1 hq (.inl hp) (.inr ?_)
    rw [Overlap, if_neg (Ne.symm hne)]
    exact .inr (List.prefix_append ..)

/-- The object `{"b": {"x": 5}, "d": [true, "s"]}`. -/
def sample : Val Nat := .obj [(['b'], .obj [(['x'], .num (.intS 5))]), (['d'], .arr [.bln true, .str ['s']])]

theorem sample_sorted : Sorted sample := by
  refine .obj ?_ (by decide)
  intro p hp
  simp only [List.mem_cons, List.not_mem_nil, or_false] at hp
  rcases hp with rfl | rfl
  · refine .obj ?_ (by decide)
    intro p hp
    simp only [List.mem_cons, List.not_mem_nil, or_false] at hp
    subst hp; exact .num
  · refine .arr ?_
    intro p hp
    simp only [List.mem_cons, List.not_mem_nil, or_false] at hp
    rcases hp with rfl | rfl
    · exact .bln
    · exact .str

/-- What happens with the object `{"b": {"x": 5}, "d": [true, "s"]}`: `v["a"] = v["b"]` and `v["e"] = v["b"]` with a full vector are
undefined; `v["e"] = v["b"]["x"]` with spare memory, `v["a"] = v["b"]["x"]` with spare memory, `v["d"][0] = v["b"]`, `v["b"]["y"] = v["d"][1]` with
a full inner vector and `v["b"]["x"] = v["b"]["x"]` are not; `v["d"][1] = v["d"][1]`, `v["b"]["y"] = v` and `v["d"] = v["d"][0]` are undefined,
and `v["a"]["b"] = v["d"]` too (an assertion fails in debug mode). -/
theorem C156_example :
    let v := sample
    let spare : List Step → Bool := fun _ => false
    assign false spare v [.key ['b']] [.key ['a']] true = .ub ∧
    assign false (fun _ => true) v [.key ['b']] [.key ['e']] true = .ub ∧
    assign false spare v [.key ['b'], .key ['x']] [.key ['e']] true =
      .ok (.obj [(['b'], .obj [(['x'], .num (.intS 5))]), (['d'], .arr [.bln true, .str ['s']]), (['e'], .num (.intS 5))]) ∧
    assign false spare v [.key ['b'], .key ['x']] [.key ['a']] true =
      .ok (.obj [(['a'], .num (.intS 5)), (['b'], .obj [(['x'], .num (.intS 5))]), (['d'], .arr [.bln true, .str ['s']])]) ∧
    assign false spare v [.key ['b']] [.key ['d'], .idx 0] true =
      .ok (.obj [(['b'], .obj [(['x'], .num (.intS 5))]), (['d'], .arr [.obj [(['x'], .num (.intS 5))], .str ['s']])]) ∧
    assign false (fun o => o != []) v [.key ['d'], .idx 1] [.key ['b'], .key ['y']] true =
      .ok (.obj [(['b'], .obj [(['x'], .num (.intS 5)), (['y'], .str ['s'])]), (['d'], .arr [.bln true, .str ['s']])]) ∧
    assign false spare v [.key ['b'], .key ['x']] [.key ['b'], .key ['x']] true = .ok v ∧
    assign false spare v [.key ['d'], .idx 1] [.key ['d'], .idx 1] true = .ub ∧
    assign false spare v [] [.key ['b'], .key ['y']] true = .ub ∧
    assign false spare v [.key ['d'], .idx 0] [.key ['d']] true = .ub ∧
    assign true spare v [.key ['d']] [.key ['a'], .key ['b']] true = .assertFail := by
  have la : ∀ u w : Val Nat, Container.lookup strLt [(['b'], u), (['d'], w)] ['a'] = .ok 0 := fun u w => by
    rw [Container.lookup_ok strLt_strictTotal (by simp [Container.Increasing, strLt])]; simp [strLt]
  have lb : ∀ u w : Val Nat, Container.lookup strLt [(['b'], u), (['d'], w)] ['b'] = .ok 0 := fun u w => by
    rw [Container.lookup_ok strLt_strictTotal (by simp [Container.Increasing, strLt])]; simp [strLt]
  have ld : ∀ u w : Val Nat, Container.lookup strLt [(['b'], u), (['d'], w)] ['d'] = .ok 1 := fun u w => by
    rw [Container.lookup_ok strLt_strictTotal (by simp [Container.Increasing, strLt])]; simp [strLt]
  have le : ∀ u w : Val Nat, Container.lookup strLt [(['b'], u), (['d'], w)] ['e'] = .ok 2 := fun u w => by
    rw [Container.lookup_ok strLt_strictTotal (by simp [Container.Increasing, strLt])]; simp [strLt]
  have lx : ∀ u : Val Nat, Container.lookup strLt [(['x'], u)] ['x'] = .ok 0 := fun u => by
    rw [Container.lookup_ok strLt_strictTotal (by simp [Container.Increasing])]; simp [strLt]
  have ly : ∀ u : Val Nat, Container.lookup strLt [(['x'], u)] ['y'] = .ok 1 := fun u => by
    rw [Container.lookup_ok strLt_strictTotal (by simp [Container.Increasing])]; simp [strLt]
  refine ⟨?_, ?_, ?_, ?_, ?_, ?_, ?_, ?_, ?_, ?_, ?_⟩ <;>
    simp [assign, walk, here, getObj, getArr, la, lb, ld, le, lx, ly, Container.isAt, sample,
      child, setChild, insertChild, Container.emplace, kept, afterInsert, copyTo, copyOut, copyOut.whole, setAt, owning]

/-- The hypotheses of `C156_assign`, `C156_new_entry` and `C156_into_itself` are met by this object. -/
example : Sorted sample ∧ Reach sample [.key ['b'], .key ['x']] ∧ Reach sample [.key ['e']] ∧
    ¬ Lost (fun _ => false) sample [.key ['b'], .key ['x']] [.key ['a']] ∧ Lost (fun _ => false) sample [.key ['b']] [.key ['a']] ∧
    ¬ Overlap sample [.key ['b'], .key ['x']] [.key ['a']] ∧ ¬ Reach sample [.key ['a'], .key ['b']] := by
  refine ⟨sample_sorted, .inl (by simp [sample, look]), .inr ⟨[], ['e'], rfl, rfl⟩, ?_, ?_, ?_, ?_⟩
  · rintro ⟨-, -, o, k, j, rest, hy, hx, hc⟩
    rcases hc with hc | ⟨rfl, hc⟩
    · cases hc
    · cases o with
      | nil => simp at hx
      | cons s o => simp at hy
  · exact ⟨by simp, by simp [sample, look], [], ['a'], ['b'], [], rfl, rfl, .inr ⟨rfl, by decide⟩⟩
  · simp [Overlap]
  · rintro (h | ⟨p, k, he, h⟩)
    · simp [sample, look] at h
    · cases p with
      | nil => simp at he
      | cons s p =>
        simp only [List.cons_append, List.cons.injEq] at he
        obtain ⟨rfl, he⟩ := he
        cases p <;> simp [sample, look] at h

end Verif.Json.Part
