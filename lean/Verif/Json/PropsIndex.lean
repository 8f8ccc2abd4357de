import Verif.Json.Theorems

/-!
# C125: elements of JSON arrays, and reading with a default
-/

namespace Verif.Json

open Verif

variable {R : Type}

/-- **C125 (appending).** `emplace` makes the array one longer, puts the value at the end and leaves the other elements. -/
theorem C125_emplace (dbg : Bool) (v : Val R) (n : Nat) (hn : getSizeArr dbg v = .ok n) (x : Val R) :
    ∃ v', emplaceBack dbg v x = .ok v' ∧ getSizeArr dbg v' = .ok (n + 1) ∧ getIdx dbg v' n = .ok x ∧
      ∀ i, i < n → ∃ y, getIdx dbg v i = .ok y ∧ getIdx dbg v' i = .ok y := by
  cases v with
  | arr vs =>
    simp only [getSizeArr, getArr, Outcome.bind_ok, Outcome.pure_eq, Outcome.ok.injEq] at hn
    subst hn
    refine ⟨.arr (vs ++ [x]), rfl, ?_, ?_, ?_⟩
    · simp [getSizeArr, getArr]
    · simp [getIdx, getArr]
    · intro i hi
      refine ⟨vs[i], ?_, ?_⟩
      · simp [getIdx, getArr, List.getElem?_eq_getElem hi]
      · simp [getIdx, getArr, List.getElem?_append_left hi, List.getElem?_eq_getElem hi]
  | _ => cases dbg <;> simp [getSizeArr, getArr] at hn <;> cases hn

/-- **C125 (assigning).** `v[i] = x` inside the array changes that element only. -/
theorem C125_set (dbg : Bool) (v : Val R) (n : Nat) (hn : getSizeArr dbg v = .ok n) (i : Nat) (hi : i < n) (x : Val R) :
    ∃ v', setIdx dbg v i x = .ok v' ∧ getSizeArr dbg v' = .ok n ∧ getIdx dbg v' i = .ok x ∧
      ∀ j, j ≠ i → getIdx dbg v' j = getIdx dbg v j := by
  cases v with
  | arr vs =>
    simp only [getSizeArr, getArr, Outcome.bind_ok, Outcome.pure_eq, Outcome.ok.injEq] at hn
    subst hn
    refine ⟨.arr (vs.set i x), by simp [setIdx, getArr, hi], by simp [getSizeArr, getArr], ?_, ?_⟩
    · simp [getIdx, getArr, List.getElem?_set_self hi]
    · intro j hj
      simp [getIdx, getArr, List.getElem?_set_ne (Ne.symm hj)]
  | _ => cases dbg <;> simp [getSizeArr, getArr] at hn <;> cases hn

/-- **C125 (outside).** `has(i)` says whether `i` is inside. Outside, reading a constant array throws, whereas reading or assigning
an element of a mutable one is undefined, in checked builds too. Inside, both ways of reading agree. -/
theorem C125_outside (dbg : Bool) (v : Val R) (n : Nat) (hn : getSizeArr dbg v = .ok n) (i : Nat) (x : Val R) :
    hasIdx dbg v i = .ok (decide (i < n)) ∧ isEmptyArr dbg v = .ok (decide (n = 0)) ∧
      (i < n → ∃ y, getIdx dbg v i = .ok y ∧ getIdxMut dbg v i = .ok y) ∧
      (n ≤ i → getIdx dbg v i = .throw ∧ getIdxMut dbg v i = .ub ∧ setIdx dbg v i x = .ub) := by
  cases v with
  | arr vs =>
    simp only [getSizeArr, getArr, Outcome.bind_ok, Outcome.pure_eq, Outcome.ok.injEq] at hn
    subst hn
    refine ⟨rfl, rfl, fun h => ⟨vs[i], ?_, ?_⟩, fun h => ⟨?_, ?_, ?_⟩⟩
    · simp [getIdx, getArr, List.getElem?_eq_getElem h]
    · simp [getIdxMut, getArr, List.getElem?_eq_getElem h]
    · simp [getIdx, getArr, List.getElem?_eq_none h]
    · simp [getIdxMut, getArr, List.getElem?_eq_none h]
    · simp [setIdx, getArr, Nat.not_lt.2 h]
  | _ => cases dbg <;> simp [getSizeArr, getArr] at hn <;> cases hn

/-- **C125 (not an array).** On any other value every one of these functions fails its assertion in checked builds; in unchecked
ones the behaviour is undefined. -/
theorem C125_not_an_array (dbg : Bool) (v : Val R) (h : ∀ vs, v ≠ .arr vs) (i : Nat) (x : Val R) :
    let bad {A : Type} (o : Outcome A) : Prop := o = if dbg then .assertFail else .ub
    bad (getSizeArr dbg v) ∧ bad (isEmptyArr dbg v) ∧ bad (hasIdx dbg v i) ∧ bad (getIdx dbg v i) ∧ bad (getIdxMut dbg v i) ∧
      bad (setIdx dbg v i x) ∧ bad (emplaceBack dbg v x) := by
  cases v with
  | arr vs => exact absurd rfl (h vs)
  | _ => cases dbg <;> exact ⟨rfl, rfl, rfl, rfl, rfl, rfl, rfl⟩

/-- **C125 (default).** `getIfHas` converts the element when there is one and gives the default otherwise; it never throws for being
outside. -/
theorem C125_get_if_has {T : Type} (conv : Val R → Outcome T) (dbg : Bool) (v : Val R) (n : Nat) (hn : getSizeArr dbg v = .ok n)
    (i : Nat) (d : T) :
    (n ≤ i → getIfHasIdx conv dbg v i d = .ok d) ∧
    (∀ y, getIdx dbg v i = .ok y → getIfHasIdx conv dbg v i d = conv y) := by
  obtain ⟨h1, _, h2, h3⟩ := C125_outside dbg v n hn i .nll
  constructor
  · intro h
    simp [getIfHasIdx, h1, Nat.not_lt.2 h]
  · intro y hy
    have hi : i < n := by
      by_contra hc
      rw [(h3 (by omega)).1] at hy
      simp at hy
    simp [getIfHasIdx, h1, hi, hy]

/-- The same for objects. -/
theorem C125_get_if_has_key {T : Type} (conv : Val R → Outcome T) (dbg : Bool) (kvs : List (List Char × Val R))
    (hs : kvs.Pairwise (fun p q => strLt p.1 q.1 = true)) (k : List Char) (d : T) :
    ((∀ y, (k, y) ∉ kvs) → getIfHasKey conv dbg (.obj kvs) k d = .ok d) ∧
    (∀ y, (k, y) ∈ kvs → getIfHasKey conv dbg (.obj kvs) k d = conv y) := by
  have hm := fun y => Container.mem_toMap strLt_strictTotal hs (k := k) (v := y)
  constructor
  · intro h
    have : Container.toMap kvs k = none := by
      cases hk : Container.toMap kvs k with
      | none => rfl
      | some y => exact absurd ((hm y).1 hk) (h y)
    simp [getIfHasKey, hasKey_map dbg hs, this]
  · intro y hy
    have := (hm y).2 hy
    simp [getIfHasKey, hasKey_map dbg hs, getKey_map dbg hs, this]

/-- Hypotheses met: an array of two, an object with two keys. -/
example : getSizeArr (R := Rat) true (.arr [.nll, .bln true]) = .ok 2 := rfl
example : getIfHasKey (R := Rat) (fun v => match v with | .bln b => .ok b | _ => .assertFail) true
    (.obj [(['a'], .bln true), (['b'], .nll)]) ['c'] false = .ok false := by decide +kernel

end Verif.Json
