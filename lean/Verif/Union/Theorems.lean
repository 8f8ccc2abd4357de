import Verif.Union.Model

/-! # C15: lifecycle of `Union` and `Maybe` -/

namespace Verif.Union

open Verif

variable {V : Type}

/-! ### Specification: what may be called when, and what is read -/

/-- `none`: the call sequence misuses the union. The first argument is the object it holds. -/
def spec : Option (Nat × V) → List (Op V) → Option (List V)
  | none, [] => some []
  | some _, [] => none
  | none, .init T v :: os => spec (some (T, v)) os
  | some _, .init _ _ :: _ => none
  | none, .get _ :: _ => none
  | some (S, v), .get T :: os => if S = T then (spec (some (S, v)) os).map (v :: ·) else none
  | none, .put _ _ :: _ => none
  | some (S, _), .put T v :: os => if S = T then spec (some (S, v)) os else none
  | none, .deinit _ :: _ => none
  | some (S, _), .deinit T :: os => if S = T then spec none os else none

/-- The types named in the calls are members of the union (anything else does not compile). -/
def WellTyped (Ts : List Nat) (os : List (Op V)) : Prop :=
  ∀ o ∈ os, match o with | .init T _ | .get T | .put T _ | .deinit T => T ∈ Ts

/-! ### Lemmas -/

theorem idxOf_ge (T : Nat) (Ts : List Nat) : -1 ≤ idxOf T Ts := by
  induction Ts with
  | nil => simp [idxOf]
  | cons S Ts ih =>
    simp only [idxOf]
    split
    · omega
    · split <;> omega

theorem idxOf_mem {T : Nat} {Ts : List Nat} (h : T ∈ Ts) : 0 ≤ idxOf T Ts := by
  induction Ts with
  | nil => simp at h
  | cons S Ts ih =>
    rw [idxOf]
    split
    · omega
    · rename_i hne
      have hm : T ∈ Ts := by
        rcases List.mem_cons.1 h with h | h
        · exact absurd h.symm hne
        · exact h
      have := ih hm
      rw [if_neg (by omega)]; omega

theorem idxOf_inj {T S : Nat} {Ts : List Nat} (hT : T ∈ Ts) (hS : S ∈ Ts) (h : idxOf T Ts = idxOf S Ts) :
    T = S := by
  induction Ts with
  | nil => simp at hT
  | cons U Ts ih =>
    rw [idxOf, idxOf] at h
    by_cases e1 : U = T <;> by_cases e2 : U = S
    · omega
    · have hm : S ∈ Ts := by
        rcases List.mem_cons.1 hS with h | h
        · exact absurd h.symm e2
        · exact h
      have := idxOf_mem hm
      rw [if_pos e1, if_neg e2, if_neg (by omega)] at h; omega
    · have hm : T ∈ Ts := by
        rcases List.mem_cons.1 hT with h | h
        · exact absurd h.symm e1
        · exact h
      have := idxOf_mem hm
      rw [if_pos e2, if_neg e1, if_neg (by omega)] at h; omega
    · have hm : T ∈ Ts := by
        rcases List.mem_cons.1 hT with h | h
        · exact absurd h.symm e1
        · exact h
      have hm' : S ∈ Ts := by
        rcases List.mem_cons.1 hS with h | h
        · exact absurd h.symm e2
        · exact h
      have h1 := idxOf_mem hm
      have h2 := idxOf_mem hm'
      rw [if_neg e2, if_neg e1, if_neg (by omega), if_neg (by omega)] at h
      exact ih hm hm' (by omega)

/-- Flag and object agree. -/
def Agree (Ts : List Nat) (u : Un V) : Prop :=
  match u.obj with
  | none => u.dirty = -1
  | some (T, _) => T ∈ Ts ∧ u.dirty = idxOf T Ts

theorem run_debug (Ts : List Nat) (os : List (Op V)) : ∀ (u : Un V), Agree Ts u → u.leaked = 0 →
    WellTyped Ts os →
    run true Ts u os = match spec u.obj os with
      | some vs => .ok (vs, 0)
      | none => .assertFail := by
  induction os with
  | nil =>
    rintro ⟨d, o, k⟩ ha hk _
    cases o with
    | none => simp_all [Agree, run, Un.destroy, Un.assertClean, spec, lost]
    | some x =>
      have := idxOf_mem ha.1
      have hne : d ≠ -1 := by have := ha.2; simp at this; omega
      simp [run, Un.destroy, Un.assertClean, spec, beq_eq_false_iff_ne.2 hne]
  | cons c os ih =>
    rintro ⟨d, o, k⟩ ha hk hw
    have hw' : WellTyped Ts os := fun x hx => hw x (by simp [hx])
    have hc := hw c (by simp)
    simp only at hk
    subst hk
    cases o with
    | none =>
      have hd : d = -1 := ha
      subst hd
      cases c with
      | init T v =>
        simp only at hc
        rw [run, Un.init]
        simp only [Un.assertClean, if_true, beq_self_eq_true, Outcome.check_true, Outcome.bind_ok, Outcome.pure_eq]
        rw [ih { dirty := idxOf T Ts, obj := some (T, v), leaked := 0 + lost none } ⟨hc, rfl⟩ rfl hw']
        rfl
      | get T =>
        simp only at hc
        have hne : (-1 : Int) ≠ idxOf T Ts := by have := idxOf_mem hc; omega
        simp [run, Un.get, Un.assertDirty, spec, beq_eq_false_iff_ne.2 hne]
      | put T v =>
        simp only at hc
        have hne : (-1 : Int) ≠ idxOf T Ts := by have := idxOf_mem hc; omega
        simp [run, Un.put, Un.get, Un.assertDirty, spec, beq_eq_false_iff_ne.2 hne]
      | deinit T =>
        simp only at hc
        have hne : (-1 : Int) ≠ idxOf T Ts := by have := idxOf_mem hc; omega
        simp [run, Un.deinit, Un.assertDirty, spec, beq_eq_false_iff_ne.2 hne]
    | some x =>
      obtain ⟨S, w⟩ := x
      obtain ⟨hS, hd⟩ : S ∈ Ts ∧ d = idxOf S Ts := ha
      subst hd
      have hge := idxOf_mem hS
      cases c with
      | init T v =>
        have hne : idxOf S Ts ≠ -1 := by omega
        simp [run, Un.init, Un.assertClean, spec, beq_eq_false_iff_ne.2 hne]
      | get T =>
        simp only at hc
        by_cases e : S = T
        · subst e
          rw [run, Un.get]
          simp only [Un.assertDirty, if_true, beq_self_eq_true, Outcome.check_true, Outcome.bind_ok, Un.theObj]
          rw [ih ⟨idxOf S Ts, some (S, w), 0⟩ ⟨hS, rfl⟩ rfl hw']
          rw [spec, if_pos rfl]
          cases spec (some (S, w)) os <;> simp
        · have hne : idxOf S Ts ≠ idxOf T Ts := fun h => e (idxOf_inj hS hc h)
          simp [run, Un.get, Un.assertDirty, spec, beq_eq_false_iff_ne.2 hne, e]
      | put T v =>
        simp only at hc
        by_cases e : S = T
        · subst e
          rw [run, Un.put, Un.get]
          simp only [Un.assertDirty, if_true, beq_self_eq_true, Outcome.check_true, Outcome.bind_ok, Un.theObj,
            Outcome.pure_eq]
          rw [ih ⟨idxOf S Ts, some (S, v), 0⟩ ⟨hS, rfl⟩ rfl hw']
          rw [spec, if_pos rfl]
        · have hne : idxOf S Ts ≠ idxOf T Ts := fun h => e (idxOf_inj hS hc h)
          simp [run, Un.put, Un.get, Un.assertDirty, spec, beq_eq_false_iff_ne.2 hne, e]
      | deinit T =>
        simp only at hc
        by_cases e : S = T
        · subst e
          rw [run, Un.deinit]
          simp only [Un.assertDirty, if_true, beq_self_eq_true, Outcome.check_true, Outcome.bind_ok, Un.theObj,
            Outcome.pure_eq]
          rw [ih ⟨-1, none, 0⟩ rfl rfl hw']
          rw [spec, if_pos rfl]
        · have hne : idxOf S Ts ≠ idxOf T Ts := fun h => e (idxOf_inj hS hc h)
          simp [run, Un.deinit, Un.assertDirty, spec, beq_eq_false_iff_ne.2 hne, e]

theorem run_release (Ts : List Nat) (os : List (Op V)) : ∀ (u : Un V) (vs : List V), u.leaked = 0 →
    spec u.obj os = some vs → run false Ts u os = .ok (vs, 0) := by
  induction os with
  | nil =>
    rintro ⟨d, o, k⟩ vs hk hs
    cases o <;> simp_all [run, Un.destroy, Un.assertClean, spec, lost]
  | cons c os ih =>
    rintro ⟨d, o, k⟩ vs hk hs
    simp only at hk hs
    subst hk
    cases o with
    | none =>
      cases c with
      | init T v =>
        rw [run, Un.init]
        simp only [Un.assertClean, Bool.false_eq_true, if_false, Outcome.bind_ok, Outcome.pure_eq]
        exact ih _ vs rfl hs
      | get T => simp [spec] at hs
      | put T v => simp [spec] at hs
      | deinit T => simp [spec] at hs
    | some x =>
      obtain ⟨S, w⟩ := x
      cases c with
      | init T v => simp [spec] at hs
      | get T =>
        rw [spec] at hs
        split at hs
        · rename_i e
          subst e
          cases hs' : spec (some (S, w)) os with
          | none => simp [hs'] at hs
          | some us =>
            simp [hs'] at hs
            simp [run, Un.get, Un.assertDirty, Un.theObj, ih ⟨d, some (S, w), 0⟩ us rfl hs', hs]
        · simp at hs
      | put T v =>
        rw [spec] at hs
        split at hs
        · rename_i e
          subst e
          simp [run, Un.put, Un.get, Un.assertDirty, Un.theObj, ih ⟨d, some (S, v), 0⟩ vs rfl hs]
        · simp at hs
      | deinit T =>
        rw [spec] at hs
        split at hs
        · rename_i e
          subst e
          simp [run, Un.deinit, Un.assertDirty, Un.theObj, ih ⟨d, none, 0⟩ vs rfl hs]
        · simp at hs

/-! ### Property theorems -/

/-- C15, for constructors that do not throw. In a debug build, every sequence of calls followed by
destruction of the union: if it keeps to the protocol, it runs to the end, every read gives the value last
stored and no object is left undestroyed; if it does not, an assertion fails. Missing: a constructor that
throws, see `C15_throwing_constructor`. -/
theorem C15_union_lifecycle_partial (Ts : List Nat) (os : List (Op V)) (hw : WellTyped Ts os) :
    run true Ts Un.new os = match spec none os with
      | some vs => .ok (vs, 0)
      | none => .assertFail :=
  run_debug Ts os Un.new rfl rfl hw

/-- C15: without the debug checks, sequences that keep to the protocol do the same. -/
theorem C15_union_release_partial (Ts : List Nat) (os : List (Op V)) (vs : List V) (hs : spec none os = some vs) :
    run false Ts Un.new os = .ok (vs, 0) :=
  run_release Ts os Un.new vs rfl hs

/-- C15 for `Maybe`. -/
theorem C15_maybe_lifecycle_partial (os : List (MOp V)) :
    runMaybe true os = match spec none (os.map MOp.toOp) with
      | some vs => .ok (vs, 0)
      | none => .assertFail := by
  apply run_debug [0] _ Un.new rfl rfl
  intro o ho
  obtain ⟨m, _, rfl⟩ := List.mem_map.1 ho
  cases m <;> simp [MOp.toOp]

/-- C15 for the POD versions, which have no destructor to call and may be re-initialised at any time: a
`get<T>` reads the value most recently stored at type `T`, and a sequence that keeps to the protocol of
`Union` reads the same values here. -/
theorem C15_pod_reads_last_stored (os : List (Op V)) : ∀ (o : Option (Nat × V)) (vs : List V),
    spec o os = some vs → runPod o os = .ok vs := by
  induction os with
  | nil => intro o vs h; cases o <;> simp_all [spec, runPod]
  | cons c os ih =>
    intro o vs h
    cases o with
    | none =>
      cases c with
      | init T v => rw [runPod]; exact ih _ _ h
      | get T => simp [spec] at h
      | put T v => simp [spec] at h
      | deinit T => simp [spec] at h
    | some x =>
      obtain ⟨S, w⟩ := x
      cases c with
      | init T v => simp [spec] at h
      | get T =>
        rw [spec] at h
        split at h
        · rename_i e
          subst e
          cases hs' : spec (some (S, w)) os with
          | none => simp [hs'] at h
          | some us =>
            simp [hs'] at h
            simp [runPod, Un.theObj, ih _ _ hs', h]
        · simp at h
      | put T v =>
        rw [spec] at h
        split at h
        · rename_i e
          subst e
          simp [runPod, Un.theObj, ih _ _ h]
        · simp at h
      | deinit T =>
        rw [spec] at h
        split at h
        · rename_i e
          subst e
          rw [runPod]
          -- what is left in the storage does not matter to a sequence that starts empty
          have aux : ∀ (os : List (Op V)) (o : Option (Nat × V)) (vs : List V), spec none os = some vs →
              (∀ o vs, spec o os = some vs → runPod o os = .ok vs) → runPod o os = .ok vs := by
            intro os o vs h ih
            cases os with
            | nil => simp [spec] at h; simp [runPod, h]
            | cons c os =>
              have := ih none vs h
              cases c with
              | init T v => rw [runPod] at this ⊢; exact this
              | get T => simp [spec] at h
              | put T v => simp [spec] at h
              | deinit T => simp [spec] at h
          exact aux os _ _ h ih
        · simp at h

/-- C15 fails when a constructor throws: the debug flag is set before the constructor runs. If the caller
handles the exception, destroying the (empty) union fails an assertion; and `deinit` passes its check but
destroys an object that does not exist. -/
theorem C15_throwing_constructor :
    (do let u ← (Un.new : Un Nat).initThrow true [7, 8] 8
        u.destroy true) = .assertFail ∧
    (do let u ← (Un.new : Un Nat).initThrow true [7, 8] 8
        u.deinit true [7, 8] 8) = .ub := by decide

/-! ### The hypotheses are satisfiable -/

example : WellTyped [7, 8] ([.init 8 1, .get 8, .put 8 2, .get 8, .deinit 8, .init 7 3, .deinit 7] : List (Op Nat)) ∧
    spec none ([.init 8 1, .get 8, .put 8 2, .get 8, .deinit 8, .init 7 3, .deinit 7] : List (Op Nat)) = some [1, 2] := by
  constructor
  · intro o ho; simp at ho; rcases ho with rfl | rfl | rfl | rfl | rfl | rfl | rfl <;> simp
  · decide

example : spec none ([.init 8 1, .deinit 7] : List (Op Nat)) = none ∧
    run true [7, 8] Un.new ([.init 8 1, .deinit 7] : List (Op Nat)) = .assertFail := by decide

end Verif.Union
