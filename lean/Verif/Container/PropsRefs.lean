import Verif.Container.Refs

/-!
# Theorems: references into a `VecMap` (C152)
-/

namespace Verif.Container

open Verif Spec

variable {K V : Type} [DecidableEq K] {lt : K → K → Bool} {grow : Nat → Nat} {dflt : V}

/-- A reference of the program and what it is thought to be. -/
def RefOk (items : List (K × V)) (o : Option Nat) (x : K × Bool) : Prop :=
  if x.2 then ∃ i v, o = some i ∧ items[i]? = some (x.1, v) else o = none

structure RRel (lt : K → K → Bool) (s : RSt K V) (a : RMap K V) : Prop where
  inc : Increasing lt s.items
  map : toMap s.items = a.map
  size : s.items.length = a.size
  cap : s.cap = a.cap
  len : s.refs.length = a.refs.length
  refs : ∀ (r : Nat) x, a.refs[r]? = some x → ∃ o, s.refs[r]? = some o ∧ RefOk s.items o x

theorem RRel.deref {s : RSt K V} {a : RMap K V} (h : StrictTotal lt) (hr : RRel lt s a) (r : Nat) :
    match a.key r with
    | .ok k => ∃ i v, s.deref r = .ok i ∧ s.items[i]? = some (k, v) ∧ a.map k = some v
    | .ub => s.deref r = .ub
    | _ => False := by
  unfold RMap.key
  cases hx : a.refs[r]? with
  | none =>
    have : s.refs[r]? = none := by
      rw [List.getElem?_eq_none_iff] at hx ⊢
      rw [hr.len]; exact hx
    simp [RSt.deref, this]
  | some x =>
    obtain ⟨k, b⟩ := x
    obtain ⟨o, h1, h2⟩ := hr.refs r _ hx
    cases b with
    | true =>
      simp only [RefOk, if_true] at h2
      obtain ⟨i, v, rfl, h3⟩ := h2
      refine ⟨i, v, by simp [RSt.deref, h1], h3, ?_⟩
      rw [← hr.map]
      exact (mem_toMap h hr.inc).2 (List.mem_of_getElem? h3)
    | false =>
      simp only [RefOk, Bool.false_eq_true, if_false] at h2
      subst h2
      simp [RSt.deref, h1]

theorem RRel.push {s : RSt K V} {a : RMap K V} (hr : RRel lt s a) {i : Nat} {k : K} {v : V} (hi : s.items[i]? = some (k, v)) :
    RRel lt { s with refs := s.refs ++ [some i] } { a with refs := a.refs ++ [(k, true)] } := by
  refine ⟨hr.inc, hr.map, hr.size, hr.cap, by simp [hr.len], fun r x hx => ?_⟩
  by_cases hlt : r < a.refs.length
  · rw [List.getElem?_append_left hlt] at hx
    obtain ⟨o, h1, h2⟩ := hr.refs r x hx
    exact ⟨o, by simp only; rw [List.getElem?_append_left (by rw [hr.len]; exact hlt)]; exact h1, h2⟩
  · rw [List.getElem?_append_right (by omega)] at hx
    have hr0 : r - a.refs.length = 0 := by
      rcases Nat.eq_zero_or_pos (r - a.refs.length) with h | h
      · exact h
      · rw [List.getElem?_eq_none (by simp; omega)] at hx; cases hx
    rw [hr0] at hx
    simp only [List.getElem?_cons_zero, Option.some.injEq] at hx
    subst hx
    refine ⟨some i, ?_, ?_⟩
    · simp only; rw [List.getElem?_append_right (by rw [hr.len]; omega), hr.len, hr0]; rfl
    · simp only [RefOk, if_true]; exact ⟨i, v, rfl, hi⟩

theorem RRel.drop {s : RSt K V} {a : RMap K V} (hr : RRel lt s a) (items : List (K × V)) (m : K → Option V) (n c : Nat) (h1 : Increasing lt items)
    (h2 : toMap items = m) (h3 : items.length = n) :
    RRel lt ⟨items, c, s.refs.map (fun _ => none)⟩ ⟨m, n, c, a.refs.map (fun x => (x.1, false))⟩ := by
  refine ⟨h1, h2, h3, rfl, by simp [hr.len], fun r x hx => ?_⟩
  simp only [List.getElem?_map, Option.map_eq_some_iff] at hx ⊢
  obtain ⟨y, h4, rfl⟩ := hx
  obtain ⟨o, h5, -⟩ := hr.refs r y h4
  exact ⟨none, ⟨o, h5, rfl⟩, by simp [RefOk]⟩

theorem RRel.insert (h : StrictTotal lt) {s : RSt K V} {a : RMap K V} (hr : RRel lt s a) {k : K} (hk : a.map k = none) (c : Nat) :
    ∃ i, lookup lt s.items k = .ok i ∧ isAt s.items i k = false ∧
      RRel lt ⟨emplace s.items i (k, dflt), c, s.refs.map (moved (decide (s.cap ≤ s.items.length)) i) ++ [some i]⟩
        { a.set k dflt with
          size := a.size + 1, cap := c
          refs := a.refs.map (fun x => (x.1, x.2 && a.size < a.cap && lt x.1 k)) ++ [(k, true)] } := by
  obtain ⟨l, r, h1, h2, h3, h4⟩ := cut h hr.inc k
  rw [hr.map, hk] at h4
  have h5 : s.items = l ++ r := by
    rcases h4 with ⟨h5, -⟩ | ⟨v, -, h6⟩
    · exact h5
    · simp at h6
  refine ⟨l.length, by rw [lookup_ok h hr.inc, h3], ?_, ?_⟩
  · unfold isAt
    rw [h5, List.getElem?_append_right (Nat.le_refl _), Nat.sub_self]
    cases r with
    | nil => rfl
    | cons x r =>
      simp only [List.getElem?_cons_zero, beq_eq_false_iff_ne]
      intro hx
      have := h2 x (by simp)
      rw [hx, h.irrefl] at this; simp at this
  have hem : emplace s.items l.length (k, dflt) = l ++ (k, dflt) :: r := by
    unfold emplace
    rw [h5]; simp
  have hinc : Increasing lt (l ++ (k, dflt) :: r) := by
    have := hr.inc
    rw [h5] at this
    unfold Increasing at this ⊢
    rw [List.pairwise_append] at this ⊢
    refine ⟨this.1, List.pairwise_cons.2 ⟨fun y hy => h2 y hy, this.2.1⟩, fun x hx y hy => ?_⟩
    rcases List.mem_cons.1 hy with rfl | hy
    · exact h1 x hx
    · exact this.2.2 x hx y hy
  have base : RRel lt ⟨l ++ (k, dflt) :: r, c, s.refs.map (moved (decide (s.cap ≤ s.items.length)) l.length)⟩
      { a.set k dflt with
        size := a.size + 1, cap := c
        refs := a.refs.map (fun x => (x.1, x.2 && a.size < a.cap && lt x.1 k)) } := by
    refine ⟨hinc, ?_, ?_, rfl, by simp [hr.len], fun q x hx => ?_⟩
    · funext k'
      simp only [RMap.set]
      by_cases hkk : k' = k
      · rw [if_pos hkk, hkk]
        exact (mem_toMap h hinc).2 (by simp)
      · rw [if_neg hkk, ← hr.map]
        have hmem : ∀ v, (k', v) ∈ l ++ (k, dflt) :: r ↔ (k', v) ∈ s.items := by
          intro v
          rw [h5]
          simp [hkk]
        cases hm : toMap s.items k' with
        | some v => exact (mem_toMap h hinc).2 ((hmem v).2 ((mem_toMap h hr.inc).1 hm))
        | none =>
          cases hm' : toMap (l ++ (k, dflt) :: r) k' with
          | none => rfl
          | some v =>
            have := (mem_toMap h hr.inc).2 ((hmem v).1 ((mem_toMap h hinc).1 hm'))
            rw [hm] at this; cases this
    · have := hr.size
      rw [h5] at this
      simp at this ⊢
      omega
    · simp only [List.getElem?_map, Option.map_eq_some_iff] at hx ⊢
      obtain ⟨y, h6, rfl⟩ := hx
      obtain ⟨o, h7, h8⟩ := hr.refs q y h6
      refine ⟨_, ⟨o, h7, rfl⟩, ?_⟩
      obtain ⟨ky, by_⟩ := y
      cases by_ with
      | false =>
        simp only [RefOk, Bool.false_eq_true, if_false] at h8
        subst h8
        simp [RefOk, moved]
      | true =>
        simp only [RefOk, if_true] at h8
        obtain ⟨j, v, rfl, h9⟩ := h8
        have hky : ky ≠ k := by
          rintro rfl
          have := (mem_toMap h hr.inc).2 (List.mem_of_getElem? h9)
          rw [hr.map, hk] at this; cases this
        have hj : j < l.length ↔ lt ky k = true := by
          rw [h5] at h9
          constructor
          · intro hj
            rw [List.getElem?_append_left hj] at h9
            exact h1 _ (List.mem_of_getElem? h9)
          · intro hlt
            rcases Nat.lt_or_ge j l.length with hj | hj
            · exact hj
            · rw [List.getElem?_append_right hj] at h9
              have := h2 _ (List.mem_of_getElem? h9)
              rw [h.antisymm hlt] at this; cases this
        have hfull : (a.size < a.cap) ↔ ¬ (s.cap ≤ s.items.length) := by
          rw [hr.cap, hr.size]; omega
        by_cases hok : a.size < a.cap ∧ lt ky k = true
        · have hnf := hfull.1 hok.1
          simp only [RefOk, hok.1, hok.2, decide_true, Bool.and_self, if_true, moved, hnf, decide_false, Bool.not_false, Bool.true_and,
            decide_eq_true_eq, if_pos (hj.2 hok.2)]
          refine ⟨j, v, rfl, ?_⟩
          rw [h5] at h9
          rw [List.getElem?_append_left (hj.2 hok.2)] at h9 ⊢
          exact h9
        · have : (decide (a.size < a.cap) && lt ky k) = false := by
            cases hl : lt ky k <;> simp_all
          simp only [RefOk, Bool.true_and, this, Bool.false_eq_true, if_false, moved]
          by_cases hs : s.cap ≤ s.items.length
          · simp [hs]
          · have : ¬ j < l.length := by
              rw [hj]
              intro hl
              exact hok ⟨hfull.2 hs, hl⟩
            simp [this]
  have hget : (l ++ (k, dflt) :: r)[l.length]? = some (k, dflt) := by
    rw [List.getElem?_append_right (Nat.le_refl _), Nat.sub_self]; rfl
  rw [hem]
  exact base.push hget

theorem RRel.write (h : StrictTotal lt) {s : RSt K V} {a : RMap K V} (hr : RRel lt s a) {i : Nat} {k : K} {w v : V}
    (hi : s.items[i]? = some (k, w)) : RRel lt { s with items := s.items.set i (k, v) } (a.set k v) := by
  have hlt := (List.getElem?_eq_some_iff.1 hi).1
  have keys : (s.items.set i (k, v)).map (·.1) = s.items.map (·.1) := by
    rw [List.map_set]
    apply List.ext_getElem?
    intro j
    rw [List.getElem?_set]
    split
    · rename_i hij
      subst hij
      have := (List.getElem?_eq_some_iff.1 hi).2
      simp [hlt, this]
    · rfl
  have hinc : Increasing lt (s.items.set i (k, v)) := by
    have := hr.inc
    unfold Increasing at this ⊢
    have e : ∀ d : List (K × V), d.Pairwise (fun x y => lt x.1 y.1 = true) ↔ (d.map (·.1)).Pairwise (fun x y => lt x y = true) :=
      fun d => by rw [List.pairwise_map]
    rw [e] at this ⊢
    rw [keys]; exact this
  have hnd := increasing_nodup h hr.inc
  have same : ∀ j k' v', j ≠ i → s.items[j]? = some (k', v') → (s.items.set i (k, v))[j]? = some (k', v') := by
    intro j k' v' hj hjj
    rw [List.getElem?_set, if_neg (fun e => hj e.symm)]; exact hjj
  have self : (s.items.set i (k, v))[i]? = some (k, v) := by
    rw [List.getElem?_set, if_pos rfl, if_pos hlt]
  have uniq : ∀ j w', s.items[j]? = some (k, w') → j = i := by
    intro j w' hj
    have hjl := (List.getElem?_eq_some_iff.1 hj).1
    refine (List.getElem?_inj (by simpa using hjl) hnd).1 ?_
    simp [hj, hi]
  refine ⟨hinc, ?_, by simp [hr.size, RMap.set], hr.cap, hr.len, fun r x hx => ?_⟩
  · funext k'
    simp only [RMap.set]
    by_cases hkk : k' = k
    · rw [if_pos hkk, hkk]
      exact (mem_toMap h hinc).2 (List.mem_of_getElem? self)
    · rw [if_neg hkk, ← hr.map]
      have hmem : ∀ v', (k', v') ∈ s.items.set i (k, v) ↔ (k', v') ∈ s.items := by
        intro v'
        constructor
        · intro hm
          obtain ⟨j, hj⟩ := List.mem_iff_getElem?.1 hm
          rw [List.getElem?_set] at hj
          split at hj
          · simp only [Option.some.injEq, Prod.mk.injEq] at hj
            exact absurd hj.1.symm hkk
          · exact List.mem_of_getElem? hj
        · intro hm
          obtain ⟨j, hj⟩ := List.mem_iff_getElem?.1 hm
          refine List.mem_of_getElem? (same j k' v' ?_ hj)
          rintro rfl
          rw [hi] at hj
          simp only [Option.some.injEq, Prod.mk.injEq] at hj
          exact hkk hj.1.symm
      cases hm : toMap s.items k' with
      | some v' => exact (mem_toMap h hinc).2 ((hmem v').2 ((mem_toMap h hr.inc).1 hm))
      | none =>
        cases hm' : toMap (s.items.set i (k, v)) k' with
        | none => rfl
        | some v' =>
          have := (mem_toMap h hr.inc).2 ((hmem v').1 ((mem_toMap h hinc).1 hm'))
          rw [hm] at this; cases this
  · obtain ⟨o, h1, h2⟩ := hr.refs r x hx
    refine ⟨o, h1, ?_⟩
    unfold RefOk at h2 ⊢
    split
    · rename_i hx2
      rw [if_pos hx2] at h2
      obtain ⟨j, v', rfl, h3⟩ := h2
      by_cases hji : j = i
      · subst hji
        rw [hi] at h3
        simp only [Option.some.injEq, Prod.mk.injEq] at h3
        exact ⟨j, v, rfl, by rw [self, h3.1]⟩
      · exact ⟨j, v', rfl, same j _ _ hji h3⟩
    · rename_i hx2
      rw [if_neg hx2] at h2
      exact h2

theorem rstep_spec (h : StrictTotal lt) {s : RSt K V} {a : RMap K V} (hr : RRel lt s a) (o : ROp K V) :
    match RMap.step lt grow dflt a o with
    | .ok (a', out) => ∃ s', rstep lt grow dflt s o = .ok (s', out) ∧ RRel lt s' a'
    | .ub => rstep lt grow dflt s o = .ub
    | .throw => rstep lt grow dflt s o = .throw
    | _ => False := by
  cases o with
  | bind k =>
    simp only [RMap.step]
    cases hk : a.map k with
    | some v =>
      simp only [Option.isSome_some, if_true]
      obtain ⟨i, h1, h2, h3⟩ := isAt_lookup h hr.inc k
      rw [hr.map, hk] at h3
      exact ⟨_, by simp [rstep, RSt.bind, h1, h3.1], hr.push h3.2⟩
    | none =>
      simp only [Option.isSome_none, Bool.false_eq_true, if_false]
      obtain ⟨i, h1, h2, h3⟩ := hr.insert (dflt := dflt) h hk (if a.cap ≤ a.size then grow a.size else a.cap)
      refine ⟨_, ?_, h3⟩
      simp [rstep, RSt.bind, h1, h2, hr.cap, hr.size]
  | bindAt k =>
    simp only [RMap.step]
    obtain ⟨i, h1, h2, h3⟩ := isAt_lookup h hr.inc k
    cases hk : a.map k with
    | some v =>
      simp only [Option.isSome_some, if_true]
      rw [hr.map, hk] at h3
      exact ⟨_, by simp [rstep, RSt.bindAt, h1, h3.1], hr.push h3.2⟩
    | none =>
      rw [hr.map, hk] at h3
      simp only [Option.isSome_none, Bool.false_eq_true, if_false]
      simp only at h3
      simp [rstep, RSt.bindAt, h1, h3]
  | store r v =>
    simp only [RMap.step]
    have hd := hr.deref h r
    cases hk : a.key r with
    | ok k =>
      rw [hk] at hd
      obtain ⟨i, w, h1, h2, h3⟩ := hd
      exact ⟨_, by simp [rstep, RSt.store, h1, h2], hr.write h h2⟩
    | ub => rw [hk] at hd; simp only at hd; simp [rstep, RSt.store, hd]
    | throw => rw [hk] at hd; exact hd.elim
    | assertFail => rw [hk] at hd; exact hd.elim
    | diverge => rw [hk] at hd; exact hd.elim
  | copy r q =>
    simp only [RMap.step]
    have hd := hr.deref h q
    have hd' := hr.deref h r
    cases hj : a.key q with
    | ok j =>
      rw [hj] at hd
      obtain ⟨i, w, h1, h2, h3⟩ := hd
      cases hk : a.key r with
      | ok k =>
        rw [hk] at hd'
        obtain ⟨i', w', h4, h5, h6⟩ := hd'
        simp only [Outcome.bind_ok, h3]
        exact ⟨_, by simp [rstep, RSt.value, secondAt, RSt.store, h1, h2, h4, h5], hr.write h h5⟩
      | ub => rw [hk] at hd'; simp only at hd'; simp [rstep, RSt.value, secondAt, RSt.store, h1, h2, hd']
      | throw => rw [hk] at hd'; exact hd'.elim
      | assertFail => rw [hk] at hd'; exact hd'.elim
      | diverge => rw [hk] at hd'; exact hd'.elim
    | ub => rw [hj] at hd; simp only at hd; simp [rstep, RSt.value, hd]
    | throw => rw [hj] at hd; exact hd.elim
    | assertFail => rw [hj] at hd; exact hd.elim
    | diverge => rw [hj] at hd; exact hd.elim
  | read r =>
    simp only [RMap.step]
    have hd := hr.deref h r
    cases hk : a.key r with
    | ok k =>
      rw [hk] at hd
      obtain ⟨i, w, h1, h2, h3⟩ := hd
      simp only [Outcome.bind_ok, h3]
      exact ⟨s, by simp [rstep, RSt.value, secondAt, h1, h2], hr⟩
    | ub => rw [hk] at hd; simp only at hd; simp [rstep, RSt.value, hd]
    | throw => rw [hk] at hd; exact hd.elim
    | assertFail => rw [hk] at hd; exact hd.elim
    | diverge => rw [hk] at hd; exact hd.elim
  | reserve n =>
    refine ⟨_, rfl, ?_⟩
    rw [hr.cap]
    split
    · exact hr.drop s.items a.map a.size n hr.inc hr.map hr.size
    · exact hr
  | clear =>
    refine ⟨_, rfl, ?_⟩
    have := hr.drop [] (fun _ => none) 0 s.cap List.Pairwise.nil (by funext k; rfl) rfl
    rw [hr.cap] at this ⊢
    exact this

theorem rrun_spec (h : StrictTotal lt) : ∀ (os : List (ROp K V)) {s : RSt K V} {a : RMap K V}, RRel lt s a →
    match RMap.run lt grow dflt a os with
    | .ok (a', out) => ∃ s', rrun lt grow dflt s os = .ok (s', out) ∧ RRel lt s' a'
    | .ub => rrun lt grow dflt s os = .ub
    | .throw => rrun lt grow dflt s os = .throw
    | _ => False := by
  intro os
  induction os with
  | nil => intro s a hr; exact ⟨s, rfl, hr⟩
  | cons o os ih =>
    intro s a hr
    have hs := rstep_spec (grow := grow) (dflt := dflt) h hr o
    simp only [RMap.run]
    cases ha : RMap.step lt grow dflt a o with
    | ok x =>
      obtain ⟨a1, out⟩ := x
      rw [ha] at hs
      obtain ⟨s1, h1, h2⟩ := hs
      have := ih h2
      simp only [Outcome.bind_ok]
      cases hb : RMap.run lt grow dflt a1 os with
      | ok y =>
        obtain ⟨a2, outs⟩ := y
        rw [hb] at this
        obtain ⟨s2, h3, h4⟩ := this
        exact ⟨s2, by simp [rrun, h1, h3], h4⟩
      | ub => rw [hb] at this; simp only at this; simp [rrun, h1, this]
      | throw => rw [hb] at this; simp only at this; simp [rrun, h1, this]
      | assertFail => rw [hb] at this; exact this.elim
      | diverge => rw [hb] at this; exact this.elim
    | ub => rw [ha] at hs; simp only at hs; simp [rrun, hs]
    | throw => rw [ha] at hs; simp only at hs; simp [rrun, hs]
    | assertFail => rw [ha] at hs; exact hs.elim
    | diverge => rw [ha] at hs; exact hs.elim

/-- **C152 (programs with references).** A program that binds references to values of a `VecMap` and uses them later reads the same values
and makes the same map as if the references were to the values of their keys for ever, and is undefined exactly if it uses a
reference after a new key was inserted before its key, or when there was no memory left, or after `reserve` of more memory, or `clear`. -/
theorem C152_references (h : StrictTotal lt) (os : List (ROp K V)) :
    match RMap.run lt grow dflt RMap.init os with
    | .ok (a, out) => ∃ s, rrun lt grow dflt RSt.init os = .ok (s, out) ∧ (∀ k v, (k, v) ∈ s.items ↔ a.map k = some v) ∧
        s.items.length = a.size ∧ s.cap = a.cap
    | .ub => rrun lt grow dflt RSt.init os = .ub
    | .throw => rrun lt grow dflt RSt.init os = .throw
    | _ => False := by
  have h0 : RRel lt (RSt.init : RSt K V) RMap.init := ⟨List.Pairwise.nil, by funext k; rfl, rfl, rfl, rfl, by simp [RMap.init]⟩
  have := rrun_spec (grow := grow) (dflt := dflt) h os h0
  cases hb : RMap.run lt grow dflt RMap.init os with
  | ok y =>
    obtain ⟨a, out⟩ := y
    rw [hb] at this
    obtain ⟨s, h1, h2⟩ := this
    exact ⟨s, h1, fun k v => by rw [← mem_toMap h h2.inc, h2.map], h2.size, h2.cap⟩
  | ub => rw [hb] at this; exact this
  | throw => rw [hb] at this; exact this
  | assertFail => rw [hb] at this; exact this
  | diverge => rw [hb] at this; exact this

/-! ## Copying a value from one key to another -/

theorem RMap.run_append : ∀ (xs ys : List (ROp K V)) (a : RMap K V), RMap.run lt grow dflt a (xs ++ ys) =
    (RMap.run lt grow dflt a xs >>= fun r => RMap.run lt grow dflt r.1 ys >>= fun q => .ok (q.1, r.2 ++ q.2)) := by
  intro xs ys
  induction xs with
  | nil =>
    intro a
    simp only [List.nil_append, RMap.run, Outcome.bind_ok]
    cases RMap.run lt grow dflt a ys <;> simp
  | cons o xs ih =>
    intro a
    simp only [List.cons_append, RMap.run]
    cases RMap.step lt grow dflt a o with
    | ok x =>
      simp only [Outcome.bind_ok, ih]
      cases RMap.run lt grow dflt x.1 xs with
      | ok y =>
        obtain ⟨y1, y2⟩ := y
        simp only [Outcome.bind_ok]
        cases hz : RMap.run lt grow dflt y1 ys <;> simp [hz]
      | _ => simp
    | _ => simp

/-- After `auto& r = m[k]`. -/
def bound (lt : K → K → Bool) (grow : Nat → Nat) (dflt : V) (a : RMap K V) (k : K) : RMap K V where
  map := fun k' => if k' = k then some ((a.map k).getD dflt) else a.map k'
  size := if (a.map k).isSome then a.size else a.size + 1
  cap := if (a.map k).isSome then a.cap else if a.cap ≤ a.size then grow a.size else a.cap
  refs := a.refs.map (fun x => (x.1, x.2 && ((a.map k).isSome || (decide (a.size < a.cap) && lt x.1 k)))) ++ [(k, true)]

theorem step_bind (a : RMap K V) (k : K) : RMap.step lt grow dflt a (.bind k) = .ok (bound lt grow dflt a k, []) := by
  unfold bound
  cases hk : a.map k with
  | some v =>
    have : (fun k' => if k' = k then some v else a.map k') = a.map := by
      funext k'
      split
      · rename_i e; rw [e, hk]
      · rfl
    simp [RMap.step, hk, this]
  | none => simp [RMap.step, hk, RMap.set, Bool.and_assoc]

/-- Copying through the last two references: `m[k] = m[j]` when `m[j]` is evaluated first (`first = false`: `m[k]` first). -/
def copyProg (n : Nat) (jFirst : Bool) (j k : K) : List (ROp K V) :=
  if jFirst then [.bind j, .bind k, .copy (n + 1) n] else [.bind k, .bind j, .copy n (n + 1)]

/-- The first of two look-ups, for `x`, gives a reference that is lost at the second one, for `y`. -/
def Lost (lt : K → K → Bool) (grow : Nat → Nat) (a : RMap K V) (x y : K) : Prop :=
  y ≠ x ∧ a.map y = none ∧
    (lt y x = true ∨ (if (a.map x).isSome then a.cap ≤ a.size else (if a.cap ≤ a.size then grow a.size else a.cap) ≤ a.size + 1))

theorem bound_refs_eq (a : RMap K V) (k : K) : (bound lt grow dflt a k).refs =
    a.refs.map (fun x => (x.1, x.2 && ((a.map k).isSome || (decide (a.size < a.cap) && lt x.1 k)))) ++ [(k, true)] := rfl

theorem bound_refs (h : StrictTotal lt) (a : RMap K V) (x y : K) :
    (Lost lt grow a x y → (bound lt grow dflt (bound lt grow dflt a x) y).refs[a.refs.length]? = some (x, false)) ∧
    (¬ Lost lt grow a x y → (bound lt grow dflt (bound lt grow dflt a x) y).refs[a.refs.length]? = some (x, true)) ∧
    (bound lt grow dflt (bound lt grow dflt a x) y).refs[a.refs.length + 1]? = some (y, true) := by
  have e : (bound lt grow dflt (bound lt grow dflt a x) y).refs[a.refs.length]? =
      some (x, ((bound lt grow dflt a x).map y).isSome ||
        (decide ((bound lt grow dflt a x).size < (bound lt grow dflt a x).cap) && lt x y)) := by
    rw [bound_refs_eq (bound lt grow dflt a x) y]
    rw [List.getElem?_append_left (by simp [bound]), List.getElem?_map, show (bound lt grow dflt a x).refs[a.refs.length]? = some (x, true) by
      unfold bound
      simp only
      rw [List.getElem?_append_right (by simp)]
      simp]
    simp
  refine ⟨fun hl => ?_, fun hl => ?_, ?_⟩
  · rw [e]
    obtain ⟨h1, h2, h3⟩ := hl
    have : (bound lt grow dflt a x).map y = none := by simp [bound, h1, h2]
    rw [this]
    rcases h3 with h3 | h3
    · simp [h.antisymm h3]
    · have : ¬ (bound lt grow dflt a x).size < (bound lt grow dflt a x).cap := by
        simp only [bound]
        split at h3
        · rename_i hx; rw [if_pos hx, if_pos hx]; omega
        · rename_i hx; rw [if_neg hx, if_neg hx]; omega
      simp [this]
  · rw [e]
    by_cases h1 : y = x
    · subst h1; simp [bound]
    · cases h2 : a.map y with
      | some v => simp [bound, h1, h2]
      | none =>
        have h3 : ¬ (lt y x = true ∨ (if (a.map x).isSome then a.cap ≤ a.size else (if a.cap ≤ a.size then grow a.size else a.cap) ≤ a.size + 1)) :=
          fun h3 => hl ⟨h1, h2, h3⟩
        rw [not_or] at h3
        have hlt : lt x y = true := by
          rcases h.total x y (fun e => h1 e.symm) with h4 | h4
          · exact h4
          · exact absurd h4 h3.1
        have : (bound lt grow dflt a x).size < (bound lt grow dflt a x).cap := by
          have := h3.2
          simp only [bound]
          split at this
          · rename_i hx; rw [if_pos hx, if_pos hx]; omega
          · rename_i hx; rw [if_neg hx, if_neg hx]; omega
        simp [this, hlt]
  · conv => lhs; unfold bound
    simp only
    rw [List.getElem?_append_right (by simp [bound])]
    simp [bound]

/-- **C152 (`m[k] = m[j]`).** After any program: the assignment gives `k` the value of `j` (the default value if there was none), whatever
the order in which the two sides are evaluated, unless the first of the two look-ups gives a reference that the second one makes
invalid (`Lost`: it inserts its key, and this key is the smaller one or there is no memory left); then it is undefined. -/
theorem C152_assign (h : StrictTotal lt) (os : List (ROp K V)) (a : RMap K V) (out : List V)
    (ha : RMap.run lt grow dflt RMap.init os = .ok (a, out)) (jFirst : Bool) (j k : K) :
    let prog := os ++ copyProg a.refs.length jFirst j k
    let x := if jFirst then j else k
    let y := if jFirst then k else j
    (Lost lt grow a x y → rrun lt grow dflt RSt.init prog = .ub) ∧
    (¬ Lost lt grow a x y → ∃ s, rrun lt grow dflt RSt.init prog = .ok (s, out) ∧
      ∀ k' v, (k', v) ∈ s.items ↔ (if k' = k ∨ k' = j then some ((a.map j).getD dflt) else a.map k') = some v) := by
  intro prog x y
  have hspec := C152_references (grow := grow) (dflt := dflt) h prog
  have hb := bound_refs (grow := grow) (dflt := dflt) h a x y
  let b := bound lt grow dflt (bound lt grow dflt a x) y
  have hmap : ∀ k', b.map k' = if k' = y then some ((a.map y).getD dflt) else if k' = x then some ((a.map x).getD dflt) else a.map k' := by
    intro k'
    simp only [b, bound]
    by_cases h1 : k' = y
    · rw [if_pos h1, if_pos h1]
      by_cases h2 : y = x
      · simp [h2]
      · simp [h2]
    · simp [h1]
  have hrun : RMap.run lt grow dflt RMap.init prog =
      (if jFirst then RMap.step lt grow dflt b (.copy (a.refs.length + 1) a.refs.length)
        else RMap.step lt grow dflt b (.copy a.refs.length (a.refs.length + 1))) >>= fun q => .ok (q.1, out ++ q.2) := by
    rw [show prog = os ++ copyProg a.refs.length jFirst j k from rfl, RMap.run_append, ha, Outcome.bind_ok]
    cases jFirst with
    | true =>
      simp only [copyProg, if_true, RMap.run, step_bind, Outcome.bind_ok, x, y, b]
      cases RMap.step lt grow dflt (bound lt grow dflt (bound lt grow dflt a j) k) (.copy (a.refs.length + 1) a.refs.length) <;> simp
    | false =>
      simp only [copyProg, Bool.false_eq_true, if_false, RMap.run, step_bind, Outcome.bind_ok, x, y, b]
      cases RMap.step lt grow dflt (bound lt grow dflt (bound lt grow dflt a k) j) (.copy a.refs.length (a.refs.length + 1)) <;> simp
  constructor
  · intro hl
    have h1 : b.key a.refs.length = .ub := by simp only [RMap.key]; rw [show b.refs[a.refs.length]? = _ from hb.1 hl]
    have h2 : b.key (a.refs.length + 1) = .ok y := by simp only [RMap.key]; rw [show b.refs[a.refs.length + 1]? = _ from hb.2.2]
    have : RMap.run lt grow dflt RMap.init prog = .ub := by
      rw [hrun]
      cases jFirst <;> simp [RMap.step, h1, h2]
    rw [this] at hspec
    exact hspec
  · intro hl
    have h1 : b.key a.refs.length = .ok x := by simp only [RMap.key]; rw [show b.refs[a.refs.length]? = _ from hb.2.1 hl]
    have h2 : b.key (a.refs.length + 1) = .ok y := by simp only [RMap.key]; rw [show b.refs[a.refs.length + 1]? = _ from hb.2.2]
    have hj : b.map j = some ((a.map j).getD dflt) := by
      rw [hmap]
      cases jFirst <;> simp [x, y]
      all_goals (intro e; rw [e])
    have : RMap.run lt grow dflt RMap.init prog = .ok (b.set k ((a.map j).getD dflt), out) := by
      rw [hrun]
      cases jFirst with
      | true =>
        simp only [x, y, if_true] at h1 h2
        simp only [if_true, RMap.step, h1, h2, Outcome.bind_ok, hj, List.append_nil]
      | false =>
        simp only [x, y, Bool.false_eq_true, if_false] at h1 h2
        simp only [Bool.false_eq_true, if_false, RMap.step, h1, h2, Outcome.bind_ok, hj, List.append_nil]
    rw [this] at hspec
    obtain ⟨s, h3, h4, -, -⟩ := hspec
    refine ⟨s, h3, fun k' v => ?_⟩
    rw [h4]
    simp only [RMap.set]
    rw [hmap]
    by_cases e1 : k' = k
    · simp [e1]
    · by_cases e2 : k' = j
      · subst e2
        cases jFirst <;> simp [e1, x, y]
      · cases jFirst <;> simp [e1, e2, x, y]

/-- **C152 (the dictionary of templates).** `d[k] = d[j].asStr()` (Dictionary.hpp:44-47, 54-59): the argument is evaluated before the
assignment looks up `k`. In a dictionary that has `j` and not `k` it is undefined if `k` is before `j`, or if the vector is full. -/
theorem C152_dictionary (h : StrictTotal lt) (os : List (ROp K V)) (a : RMap K V) (out : List V)
    (ha : RMap.run lt grow dflt RMap.init os = .ok (a, out)) (j k : K) (v : V) (hj : a.map j = some v) (hk : a.map k = none) :
    ((lt k j = true ∨ a.cap ≤ a.size) → rrun lt grow dflt RSt.init (os ++ [.bind j, .bind k, .copy (a.refs.length + 1) a.refs.length]) = .ub) ∧
    ((lt j k = true ∧ a.size < a.cap) → ∃ s, rrun lt grow dflt RSt.init (os ++ [.bind j, .bind k, .copy (a.refs.length + 1) a.refs.length]) = .ok (s, out) ∧
      (k, v) ∈ s.items) := by
  have hne : k ≠ j := by rintro rfl; rw [hj] at hk; cases hk
  have := C152_assign h os a out ha true j k
  simp only [copyProg, if_true] at this
  refine ⟨fun hl => this.1 ⟨hne, hk, ?_⟩, fun hl => ?_⟩
  · simpa [hj] using hl
  · obtain ⟨s, h1, h2⟩ := this.2 (by
      rintro ⟨-, -, h3⟩
      simp only [hj, Option.isSome_some, if_true] at h3
      rcases h3 with h3 | h3
      · rw [h.antisymm hl.1] at h3; cases h3
      · omega)
    exact ⟨s, h1, (h2 k v).2 (by simp [hj])⟩

/-- The growth of libstdc++ and numbers as keys. -/
abbrev twice (n : Nat) : Nat := if n = 0 then 1 else 2 * n

theorem natTotal : StrictTotal (fun a b : Nat => decide (a < b)) :=
  ⟨by simp, by simp; omega, by simp; omega⟩

/-- **C152 (examples).** A map with the key 2 only: `m[1] = m[2]` and `m[3] = m[2]` are undefined if the right side is evaluated first. With
memory reserved `m[3] = m[2]` is fine and `m[1] = m[2]` still is not. If 1 is there already, it is fine too. -/
theorem C152_examples :
    let lt := fun a b : Nat => decide (a < b)
    rrun lt twice 0 RSt.init [.bind 2, .store 0 7, .bind 2, .bind 1, .copy 2 1] = .ub ∧
    rrun lt twice 0 RSt.init [.bind 2, .store 0 7, .bind 2, .bind 3, .copy 2 1] = .ub ∧
    rrun lt twice 0 RSt.init [.reserve 4, .bind 2, .store 0 7, .bind 2, .bind 3, .copy 2 1, .read 0] =
      .ok (⟨[(2, 7), (3, 7)], 4, [some 0, some 0, some 1]⟩, [7]) ∧
    rrun lt twice 0 RSt.init [.reserve 4, .bind 2, .store 0 7, .bind 2, .bind 1, .copy 2 1] = .ub ∧
    rrun lt twice 0 RSt.init [.bind 1, .bind 2, .store 1 7, .bind 2, .bind 1, .copy 3 2] =
      .ok (⟨[(1, 7), (2, 7)], 2, [none, some 1, some 1, some 0]⟩, []) := by
  decide +kernel

end Verif.Container
