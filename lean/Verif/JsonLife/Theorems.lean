import Verif.JsonLife.Model
import Verif.Json.Demo

/-! # Property theorems about the storage of JSON values (C21) -/

namespace Verif.JsonLife

open Verif Json

variable {R : Type}

/-! ## Specification -/

/-- Strings, arrays and objects own memory. -/
def Owning : Val R → Prop
  | .obj _ => True
  | .arr _ => True
  | .str _ => True
  | _ => False

/-- The value after an assignment, as a user expects it; a child is looked up in the old value. -/
def after (old : Val R) : Src R → Val R
  | .direct v => v
  | .viaAssign v => v
  | .self => old
  | .child i => match old with
    | .arr vs => vs[i]?.getD .nll
    | .obj kvs => (kvs[i]?.map (·.2)).getD .nll
    | _ => .nll

def final (old : Val R) : List (Src R) → Val R
  | [] => old
  | x :: xs => final (after old x) xs

/-- The assignment is one the code carries out: from another object by a converter that calls a setter; or from the
value itself or by a converter that assigns to the target, but then only while the value holds no string, array
or object. -/
def Allowed (old : Val R) : Src R → Prop
  | .direct _ => True
  | .viaAssign _ => ¬ Owning old
  | .self => ¬ Owning old
  | .child _ => False

def AllAllowed (old : Val R) : List (Src R) → Prop
  | [] => True
  | x :: xs => Allowed old x ∧ AllAllowed (after old x) xs

/-- The storage holds the value `v`: the tag is that of `v`, the living payload is `v` (none for null), and of the
payloads constructed so far, numbered from 0, all others have been destroyed, each exactly once. -/
def Holds (v : Val R) (s : St R) : Prop :=
  s.tag = kindOf v ∧
  (if kindOf v = .nll then s.live = none ∧ s.destroyed = List.range s.next
   else ∃ i, s.next = i + 1 ∧ s.live = some (i, v) ∧ s.destroyed = List.range i)

/-! ## Proofs -/

theorem setter_holds (v : Val R) {s : St R} (hl : s.live = none) (hd : s.destroyed = List.range s.next) :
    Holds v (setter v s) := by
  cases v <;> simp [Holds, setter, kindOf, hl, hd]

theorem deinitCurrent_holds {v : Val R} {s : St R} (h : Holds v s) :
    ∃ s', deinitCurrent s = .ok s' ∧ s'.tag = s.tag ∧ s'.live = none ∧ s'.destroyed = List.range s'.next := by
  obtain ⟨h1, h2⟩ := h
  by_cases hk : kindOf v = .nll
  · rw [if_pos hk] at h2
    exact ⟨s, by simp [deinitCurrent, h1, hk], rfl, h2.1, h2.2⟩
  · rw [if_neg hk] at h2
    obtain ⟨i, h3, h4, h5⟩ := h2
    refine ⟨{ s with live := none, destroyed := s.destroyed ++ [i] }, ?_, rfl, rfl, ?_⟩
    · unfold deinitCurrent
      rw [h1]
      cases v <;> simp_all [kindOf, deinit]
    · simp [h3, h5, List.range_succ]

/-- An allowed assignment is carried out, any other is undefined behaviour. -/
theorem assign_holds {v : Val R} {s : St R} (h : Holds v s) (x : Src R) :
    (Allowed v x → ∃ s', assign s x = .ok s' ∧ Holds (after v x) s') ∧ (¬ Allowed v x → assign s x = .ub) := by
  obtain ⟨s1, h1, h2, h3, h4⟩ := deinitCurrent_holds h
  have htag : s1.tag = kindOf v := h2.trans h.1
  cases x with
  | direct w =>
    refine ⟨fun _ => ⟨setter w s1, by simp [assign, h1], setter_holds w h3 h4⟩, fun hn => absurd trivial hn⟩
  | viaAssign w =>
    constructor
    · intro ha
      refine ⟨setter w s1, ?_, setter_holds w h3 h4⟩
      have : deinitCurrent s1 = .ok s1 := by
        unfold deinitCurrent
        rw [htag]
        cases v <;> simp [kindOf, deinit, h3, Allowed, Owning] at ha ⊢
      simp [assign, h1, this]
    · intro ha
      have : deinitCurrent s1 = .ub := by
        unfold deinitCurrent
        rw [htag]
        cases v <;> simp [kindOf, deinit, h3, Allowed, Owning] at ha ⊢
      simp [assign, h1, this]
  | child i =>
    refine ⟨fun ha => ha.elim, fun _ => by simp [assign, h1]⟩
  | self =>
    constructor
    · intro ha
      refine ⟨setter v s1, ?_, setter_holds v h3 h4⟩
      have h2' := h.2
      simp only [assign, h1, Outcome.bind_ok, htag]
      cases v <;> simp [kindOf, Allowed, Owning] at ha h2' ⊢
      all_goals
        obtain ⟨i, h5, h6, h7⟩ := h2'
        simp [h6]
    · intro ha
      simp only [assign, h1, Outcome.bind_ok, htag]
      cases v <;> simp [kindOf, Allowed, Owning] at ha ⊢

theorem run_holds {v : Val R} {s : St R} (h : Holds v s) (xs : List (Src R)) :
    (AllAllowed v xs → ∃ s', run s xs = .ok s' ∧ Holds (final v xs) s') ∧ (¬ AllAllowed v xs → run s xs = .ub) := by
  induction xs generalizing v s with
  | nil => exact ⟨fun _ => ⟨s, rfl, h⟩, fun hn => absurd trivial hn⟩
  | cons x xs ih =>
    obtain ⟨h1, h2⟩ := assign_holds h x
    constructor
    · rintro ⟨ha, has⟩
      obtain ⟨s', h3, h4⟩ := h1 ha
      obtain ⟨s'', h5, h6⟩ := (ih h4).1 has
      exact ⟨s'', by simp [run, h3, h5], h6⟩
    · intro hn
      by_cases ha : Allowed v x
      · obtain ⟨s', h3, h4⟩ := h1 ha
        have := (ih h4).2 (fun h => hn ⟨ha, h⟩)
        simp [run, h3, this]
      · simp [run, h2 ha]

/-! ## C21 -/

/-- **C21 (partial: allowed assignments).** Start with a fresh value and carry out any sequence of allowed assignments: the
result holds the value last assigned, its tag matches the payload, and every earlier payload was destroyed exactly
once; destroying the value then destroys the last one, so that all payloads ever constructed are destroyed exactly
once. Missing: the other assignments, which are undefined behaviour, see below. -/
theorem C21_assignments_partial (xs : List (Src R)) (h : AllAllowed .nll xs) :
    ∃ s s', run St.init xs = .ok s ∧ Holds (final .nll xs) s ∧
      destroy s = .ok s' ∧ s'.live = none ∧ s'.destroyed = List.range s'.next := by
  have h0 : Holds (.nll : Val R) St.init := by simp [Holds, St.init, kindOf]
  obtain ⟨s, h1, h2⟩ := (run_holds h0 xs).1 h
  obtain ⟨s', h3, _, h4, h5⟩ := deinitCurrent_holds h2
  exact ⟨s, s', h1, h2, h3, h4, h5⟩

/-- **C21 fails** for all other sequences: as soon as one assignment is not allowed, that is, a string, array or
object is overwritten by itself, by one of its children, or through a converter that assigns to its target (enums,
maps, bitsets, user types), the behaviour is undefined. -/
theorem C21_other_assignments_are_undefined (xs : List (Src R)) (h : ¬ AllAllowed .nll xs) : run St.init xs = .ub :=
  (run_holds (by simp [Holds, St.init, kindOf] : Holds (.nll : Val R) St.init) xs).2 h

/-- Sequences of plain assignments are always allowed. -/
theorem C21_direct_assignments (vs : List (Val R)) :
    ∃ s, run St.init (vs.map .direct) = .ok s ∧ Holds (vs.getLast?.getD .nll) s := by
  have key : ∀ (vs : List (Val R)) (v : Val R), AllAllowed v (vs.map .direct) ∧
      final v (vs.map .direct) = vs.getLast?.getD v := by
    intro vs
    induction vs with
    | nil => intro v; exact ⟨trivial, rfl⟩
    | cons w vs ih =>
      intro v
      refine ⟨⟨trivial, (ih w).1⟩, ?_⟩
      rw [List.map_cons, final, after, (ih w).2, List.getLast?_cons]
      rfl
  obtain ⟨s, _, h1, h2, _⟩ := C21_assignments_partial (vs.map .direct) (key vs .nll).1
  rw [(key vs .nll).2] at h2
  exact ⟨s, h1, h2⟩

/-- Before a fresh value the converters that assign to their target are harmless. -/
theorem C21_construction (v : Val R) : ∃ s, run St.init [.viaAssign v] = .ok s ∧ Holds v s := by
  obtain ⟨s, _, h1, h2, _⟩ := C21_assignments_partial (R := R) [.viaAssign v] ⟨by simp [Allowed, Owning], trivial⟩
  exact ⟨s, h1, h2⟩

/-- A concrete allowed sequence: string, array, number, number through an enum, itself, boolean. -/
example : AllAllowed (.nll : Val Rat) [.direct (.str "ab".toList), .direct (.arr [.nll]), .direct (.num (.intS 1)),
    .viaAssign (.num (.intS 2)), .self, .direct (.bln true)] := by
  simp [AllAllowed, Allowed, after, Owning]

/-- The three failing kinds, concretely: `v = "ab"` and then an enum, `v = v`, or with an array `v = v[0]`. -/
theorem C21_concrete_failures :
    run (R := R) St.init [.direct (.str "ab".toList), .viaAssign (.num (.intS 1))] = .ub ∧
    run (R := R) St.init [.direct (.str "ab".toList), .self] = .ub ∧
    run (R := R) St.init [.direct (.arr [.bln true]), .child 0] = .ub := by
  refine ⟨?_, ?_, ?_⟩ <;> apply C21_other_assignments_are_undefined <;>
    simp [AllAllowed, Allowed, after, Owning]

end Verif.JsonLife
