import Verif.Grow.Spec

/-! # Growable arrays: C166 -/

namespace Verif.Grow

open Spec

variable {V : Type}

theorem step_ok (T : Elem V) (fails : Nat → Bool) (old fuel i : Nat) (data newData : List V) (h : i < old) (v : V) (hd : data[i]? = some v)
    (hn : i < newData.length) (hf : fails i = false) :
    moveLoop T fails old (fuel + 1) i data newData = moveLoop T fails old fuel ((i + 1) % 2 ^ 32) (data.set i (T.moved v)) (newData.set i v) := by
  rw [moveLoop, if_pos h, hd, List.getElem?_eq_getElem hn]
  simp [hf]

theorem next_eq {i old : Nat} (h : i < old) (ho : old < 2 ^ 32) : (i + 1) % 2 ^ 32 = i + 1 := Nat.mod_eq_of_lt (by omega)

/-- The loop when nothing throws. -/
theorem loop_ok (T : Elem V) (fails : Nat → Bool) (old : Nat) (ho : old < 2 ^ 32) : ∀ (n fuel i : Nat) (data newData : List V), old - i = n → n < fuel →
    old ≤ data.length → old ≤ newData.length → (∀ j, i ≤ j → j < old → fails j = false) →
    ∃ d nd, moveLoop T fails old fuel i data newData = (.ok (), d, nd) ∧ nd.length = newData.length ∧
      ∀ j, nd[j]? = if i ≤ j ∧ j < old then data[j]? else newData[j]? := by
  intro n
  induction n with
  | zero =>
    intro fuel i data newData hn hf _ _ _
    obtain ⟨f, rfl⟩ : ∃ f, fuel = f + 1 := ⟨fuel - 1, by omega⟩
    refine ⟨data, newData, by rw [moveLoop, if_neg (by omega)], rfl, fun j => ?_⟩
    rw [if_neg (by omega)]
  | succ n ih =>
    intro fuel i data newData hn hf hd hnd hno
    obtain ⟨f, rfl⟩ : ∃ f, fuel = f + 1 := ⟨fuel - 1, by omega⟩
    have hi : i < old := by omega
    have hdi : data[i]? = some data[i] := List.getElem?_eq_getElem (by omega)
    rw [step_ok T fails old f i data newData hi _ hdi (by omega) (hno i (Nat.le_refl _) hi), next_eq hi ho]
    obtain ⟨d, nd, e, h1, h2⟩ := ih f (i + 1) (data.set i (T.moved data[i])) (newData.set i data[i]) (by omega) (by omega)
      (by simpa using hd) (by simpa using hnd) (fun j hj => hno j (by omega))
    refine ⟨d, nd, e, by simpa using h1, fun j => ?_⟩
    rw [h2]
    by_cases hj : i = j
    · subst hj
      rw [if_neg (by omega), if_pos ⟨Nat.le_refl _, hi⟩, List.getElem?_set_self (by omega), hdi]
    · rw [List.getElem?_set_ne hj, List.getElem?_set_ne hj]
      by_cases hj2 : i + 1 ≤ j ∧ j < old
      · rw [if_pos hj2, if_pos ⟨by omega, hj2.2⟩]
      · rw [if_neg hj2, if_neg (by omega)]

/-- The loop when the assignment of element `k` throws. -/
theorem loop_throw (T : Elem V) (fails : Nat → Bool) (old k : Nat) (ho : old < 2 ^ 32) (hk : k < old) (hfk : fails k = true) :
    ∀ (n fuel i : Nat) (data newData : List V), k - i = n → n < fuel → i ≤ k →
    old ≤ data.length → old ≤ newData.length → (∀ j, i ≤ j → j < k → fails j = false) →
    ∃ d nd, moveLoop T fails old fuel i data newData = (.throw, d, nd) ∧ d.length = data.length ∧
      ∀ j, d[j]? = if i ≤ j ∧ j < k then data[j]?.map T.moved else data[j]? := by
  intro n
  induction n with
  | zero =>
    intro fuel i data newData hn hf hik hd hnd _
    obtain ⟨f, rfl⟩ : ∃ f, fuel = f + 1 := ⟨fuel - 1, by omega⟩
    obtain rfl : i = k := by omega
    refine ⟨data, newData, ?_, rfl, fun j => by rw [if_neg (by omega)]⟩
    rw [moveLoop, if_pos hk, List.getElem?_eq_getElem (show i < data.length by omega), List.getElem?_eq_getElem (show i < newData.length by omega)]
    simp [hfk]
  | succ n ih =>
    intro fuel i data newData hn hf hik hd hnd hno
    obtain ⟨f, rfl⟩ : ∃ f, fuel = f + 1 := ⟨fuel - 1, by omega⟩
    have hi : i < old := by omega
    have hdi : data[i]? = some data[i] := List.getElem?_eq_getElem (by omega)
    rw [step_ok T fails old f i data newData hi _ hdi (by omega) (hno i (Nat.le_refl _) (by omega)), next_eq hi ho]
    obtain ⟨d, nd, e, h1, h2⟩ := ih f (i + 1) (data.set i (T.moved data[i])) (newData.set i data[i]) (by omega) (by omega) (by omega)
      (by simpa using hd) (by simpa using hnd) (fun j hj => hno j (by omega))
    refine ⟨d, nd, e, by simpa using h1, fun j => ?_⟩
    rw [h2]
    by_cases hj : i = j
    · subst hj
      rw [if_neg (by omega), if_pos ⟨Nat.le_refl _, by omega⟩, List.getElem?_set_self (by omega), hdi]; rfl
    · rw [List.getElem?_set_ne hj]
      by_cases hj2 : i + 1 ≤ j ∧ j < k
      · rw [if_pos hj2, if_pos ⟨by omega, hj2.2⟩]
      · rw [if_neg hj2, if_neg (by omega)]

/-- **C166 (growing).** Growing keeps the elements below the old capacity and adds elements with the value of a new one. -/
theorem C166_grow (dbg : Bool) (T : Elem V) (fails : Nat → Bool) (fuel old new : Nat) (data : List V) (hon : old ≤ new) (ho : old < 2 ^ 32)
    (hd : old ≤ data.length) (hf : old < fuel) (hno : ∀ j, j < old → fails j = false) :
    grow dbg T false fails fuel old new data = (.ok (), data.take old ++ List.replicate (new - old) T.dflt) := by
  obtain ⟨d, nd, e, h1, h2⟩ := loop_ok T fails old ho old fuel 0 data (List.replicate new T.dflt) (by omega) hf hd (by simpa using hon)
    (fun j _ => hno j)
  unfold grow
  rw [if_neg (by simp [hon]), if_neg (by simp), e]
  refine Prod.ext rfl (List.ext_getElem? fun j => ?_)
  show nd[j]? = _
  rw [h2]
  simp only [Nat.zero_le, true_and]
  by_cases hj : j < old
  · rw [if_pos hj, List.getElem?_append_left (by simp; omega), List.getElem?_take_of_lt hj]
  · rw [if_neg hj, List.getElem?_append_right (by simp; omega), List.getElem?_replicate, List.getElem?_replicate, List.length_take, Nat.min_eq_left hd]
    by_cases hj2 : j < new
    · rw [if_pos hj2, if_pos (by omega)]
    · rw [if_neg hj2, if_neg (by omega)]

/-- **C166 (a constructor throws).** If memory cannot be had or a constructor of the new elements throws, nothing is changed. -/
theorem C166_no_memory (dbg : Bool) (T : Elem V) (fails : Nat → Bool) (fuel old new : Nat) (data : List V) (hon : old ≤ new) :
    grow dbg T true fails fuel old new data = (.throw, data) := by
  unfold grow
  rw [if_neg (by simp [hon]), if_pos rfl]

/-- **C166 (a move throws).** If the assignment of element `k` throws, the array keeps its capacity, but the elements before `k` have lost their
values: they are what a move leaves behind. -/
theorem C166_move_throws (dbg : Bool) (T : Elem V) (fails : Nat → Bool) (fuel old new k : Nat) (data : List V) (hon : old ≤ new) (ho : old < 2 ^ 32)
    (hd : old ≤ data.length) (hf : old < fuel) (hk : k < old) (hfk : fails k = true) (hno : ∀ j, j < k → fails j = false) :
    grow dbg T false fails fuel old new data = (.throw, (data.take k).map T.moved ++ data.drop k) := by
  obtain ⟨d, nd, e, h1, h2⟩ := loop_throw T fails old k ho hk hfk k fuel 0 data (List.replicate new T.dflt) (by omega) (by omega) (by omega) hd
    (by simpa using hon) (fun j _ => hno j)
  unfold grow
  rw [if_neg (by simp [hon]), if_neg (by simp), e]
  refine Prod.ext rfl (List.ext_getElem? fun j => ?_)
  show d[j]? = _
  rw [h2]
  simp only [Nat.zero_le, true_and]
  by_cases hj : j < k
  · rw [if_pos hj, List.getElem?_append_left (by simp; omega), List.getElem?_map, List.getElem?_take_of_lt hj]
  · rw [if_neg hj, List.getElem?_append_right (by simp; omega), List.getElem?_drop]
    congr 1
    simp; omega

/-- **C166 (large arrays).** With an old capacity of 2 ^ 32 or more growing never ends: the counter starts again at 0. -/
theorem C166_endless (dbg : Bool) (T : Elem V) (fuel old new : Nat) (data : List V) (hon : old ≤ new) (ho : 2 ^ 32 ≤ old) (hd : old ≤ data.length) :
    (grow dbg T false (fun _ => false) fuel old new data).1 = .diverge := by
  have go : ∀ (fuel i : Nat) (data newData : List V), i < 2 ^ 32 → old ≤ data.length → old ≤ newData.length →
      (moveLoop T (fun _ => false) old fuel i data newData).1 = .diverge := by
    intro fuel
    induction fuel with
    | zero => intros; rfl
    | succ f ih =>
      intro i data newData hi hd hn
      rw [step_ok T _ old f i data newData (by omega) _ (List.getElem?_eq_getElem (show i < data.length by omega)) (by omega) rfl]
      exact ih _ _ _ (Nat.mod_lt _ (by decide)) (by simpa using hd) (by simpa using hn)
  have := go fuel 0 data (List.replicate new T.dflt) (by decide) hd (by simpa using hon)
  unfold grow
  rw [if_neg (by simp [hon]), if_neg (by simp)]
  generalize moveLoop T (fun _ => false) old fuel 0 data (List.replicate new T.dflt) = r at this
  obtain ⟨o, d, nd⟩ := r
  simp only at this
  subst this
  rfl

/-- **C166 (shrinking, or a wrong old capacity).** If the old capacity is more than the new one, or more than there are elements, the behaviour is
undefined in a release build; a debug build notices only the first. -/
theorem C166_wrong (T : Elem V) (fuel old new : Nat) (data : List V) (ho : min data.length new < 2 ^ 32)
    (hf : min data.length new < fuel) (h : min data.length new < old) :
    (grow false T false (fun _ => false) fuel old new data).1 = .ub ∧
    (grow true T false (fun _ => false) fuel old new data).1 = if new < old then .assertFail else .ub := by
  have go : ∀ (n fuel i : Nat) (d nd : List V), min data.length new - i = n → n < fuel → d.length = data.length → nd.length = new → i ≤ min data.length new →
      (moveLoop T (fun _ => false) old fuel i d nd).1 = .ub := by
    intro n
    induction n with
    | zero =>
      intro fuel i d nd hn hf hd hnd hi
      obtain ⟨f, rfl⟩ : ∃ f, fuel = f + 1 := ⟨fuel - 1, by omega⟩
      rw [moveLoop, if_pos (by omega)]
      by_cases hd2 : i < d.length
      · have : nd[i]? = none := List.getElem?_eq_none (by omega)
        rw [this]
        cases d[i]? <;> rfl
      · rw [List.getElem?_eq_none (show d.length ≤ i by omega)]
    | succ n ih =>
      intro fuel i d nd hn hf hd hnd hi
      obtain ⟨f, rfl⟩ : ∃ f, fuel = f + 1 := ⟨fuel - 1, by omega⟩
      rw [step_ok T _ old f i d nd (by omega) _ (List.getElem?_eq_getElem (show i < d.length by omega)) (by omega) rfl,
        next_eq (show i < min data.length new by omega) ho]
      exact ih f (i + 1) _ _ (by omega) (by omega) (by simpa using hd) (by simpa using hnd) (by omega)
  have hub := go (min data.length new) fuel 0 data (List.replicate new T.dflt) (by omega) hf rfl (by simp) (by omega)
  have tail : ∀ dbg, ¬ (dbg = true ∧ ¬ old ≤ new) → (grow dbg T false (fun _ => false) fuel old new data).1 = .ub := by
    intro dbg hdbg
    unfold grow
    rw [if_neg hdbg, if_neg (by simp)]
    generalize moveLoop T (fun _ => false) old fuel 0 data (List.replicate new T.dflt) = r at hub
    obtain ⟨o, d, nd⟩ := r
    simp only at hub
    subst hub
    rfl
  refine ⟨tail false (by simp), ?_⟩
  by_cases hn : new < old
  · rw [if_pos hn]; unfold grow; rw [if_pos ⟨rfl, by omega⟩]
  · rw [if_neg hn]; exact tail true (by simp; omega)

/-- **C166 (histories).** After any legal history the array has the capacity reached, and every element below it has the value written last, or that
of a new element. -/
theorem C166_history (dbg : Bool) (T : Elem V) (ops : List (Op V)) (cap : Nat) (h : Legal ops 0 cap) :
    ∃ data, run dbg T ops (0, []) = .ok (cap, data) ∧ data.length = cap ∧ ∀ i, i < cap → read i data = .ok (expected T i ops) := by
  have go : ∀ (ops : List (Op V)) (c cap : Nat), Legal ops c cap → ∀ data : List V, data.length = c →
      ∃ data', run dbg T ops (c, data) = .ok (cap, data') ∧ data'.length = cap ∧
        ∀ i, i < cap → data'[i]? = some ((writes i ops).getLast?.getD ((data[i]?).getD T.dflt)) := by
    intro ops c cap h
    induction h with
    | nil c =>
      intro data hd
      refine ⟨data, rfl, hd, fun i hi => ?_⟩
      rw [List.getElem?_eq_getElem (by omega)]; rfl
    | @grow ops c n cap' h hn t ih =>
      intro data hd
      obtain ⟨d', e, h1, h2⟩ := ih (data.take c ++ List.replicate (n - c) T.dflt) (by simp; omega)
      refine ⟨d', ?_, h1, fun i hi => ?_⟩
      · rw [run, C166_grow dbg T _ (c + 1) c n data h hn (by omega) (by omega) (fun _ _ => rfl)]
        exact e
      · rw [h2 i hi]
        have hw : writes i (Op.grow n :: ops) = writes i ops := rfl
        rw [hw]
        congr 2
        by_cases hic : i < c
        · rw [List.getElem?_append_left (by simp; omega), List.getElem?_take_of_lt hic]
        · rw [List.getElem?_append_right (by simp; omega), List.getElem?_eq_none (show data.length ≤ i by omega), List.getElem?_replicate]
          split <;> rfl
    | @write ops c cap' j v h t ih =>
      intro data hd
      obtain ⟨d', e, h1, h2⟩ := ih (data.set j v) (by simpa using hd)
      refine ⟨d', ?_, h1, fun i hi => ?_⟩
      · rw [run, write, if_pos (by omega), Outcome.bind_ok]; exact e
      · rw [h2 i hi]
        by_cases hij : j = i
        · subst hij
          have hw : writes j (Op.write j v :: ops) = v :: writes j ops := by simp [writes]
          rw [hw, List.getElem?_set_self (by omega)]
          cases hl : writes j ops with
          | nil => rfl
          | cons a l => rw [List.getLast?_cons_cons]; cases hh : (a :: l).getLast? with
            | none => simp at hh
            | some b => rfl
        · have hw : writes i (Op.write j v :: ops) = writes i ops := by simp [writes, hij]
          rw [hw, List.getElem?_set_ne hij]
  obtain ⟨d, e, h1, h2⟩ := go ops 0 cap h [] rfl
  refine ⟨d, e, h1, fun i hi => ?_⟩
  rw [read, h2 i hi]
  rfl

/-- **C166 (beyond the end).** Reading or writing beyond the end is undefined; below it, it never is. -/
theorem C166_bounds (i : Nat) (v : V) (data : List V) :
    (write i v data = .ub ↔ data.length ≤ i) ∧ (read i data = .ub ↔ data.length ≤ i) := by
  constructor
  · unfold write; split
    · simp; omega
    · simp; omega
  · unfold read
    by_cases h : i < data.length
    · rw [List.getElem?_eq_getElem h]; simp; omega
    · rw [List.getElem?_eq_none (by omega)]; simp; omega

/-- Numbers that a move sets to 0: the third assignment throws. -/
example : grow true ⟨7, fun _ => (0 : Nat)⟩ false (fun i => i == 2) 9 4 6 [1, 2, 3, 4] = (.throw, [0, 0, 3, 4]) ∧
    grow true ⟨7, fun _ => (0 : Nat)⟩ false (fun _ => false) 9 4 6 [1, 2, 3, 4] = (.ok (), [1, 2, 3, 4, 7, 7]) ∧
    (grow true ⟨7, fun _ => (0 : Nat)⟩ false (fun _ => false) 9 4 6 [1, 2]).1 = .ub := by decide +kernel

example : Legal [Op.grow 2, .write 1 (5 : Nat), .grow 3, .write 2 6, .write 1 8] 0 3 :=
  .grow (by decide) (by decide) (.write (by decide) (.grow (by decide) (by decide) (.write (by decide) (.write (by decide) (.nil 3)))))

end Verif.Grow
