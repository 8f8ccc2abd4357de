import Verif.Union.Theorems

/-! # C15: constructors that throw, builds without checks, and the POD versions -/

namespace Verif.Union

open Verif

variable {V : Type}

/-! ### Specification -/

/-- What a union with debug checks can be in: nothing inside, an object inside, or nothing inside although a construction
of type `T` was started. -/
inductive St (V : Type) where
  | empty
  | holds (T : Nat) (v : V)
  | broken (T : Nat)
  deriving Repr, DecidableEq

/-- How a sequence of calls ends. -/
inductive End (V : Type) where
  | reads (vs : List V)
  | assertion
  | undefined
  deriving Repr, DecidableEq

def End.cons (v : V) : End V → End V
  | .reads vs => .reads (v :: vs)
  | e => e

/-- The protocol: construct only when empty, use and destroy only what is there, be empty at the end. After a construction
that threw, the union counts as constructed: everything is refused, except using the object that is not there. -/
def specT : St V → List (TOp V) → End V
  | .empty, [] => .reads []
  | _, [] => .assertion
  | .empty, .op (.init T v) :: os => specT (.holds T v) os
  | .empty, .initThrow T :: os => specT (.broken T) os
  | .empty, _ :: _ => .assertion
  | .holds _ _, .op (.init _ _) :: _ => .assertion
  | .holds _ _, .initThrow _ :: _ => .assertion
  | .holds S v, .op (.get T) :: os => if S = T then (specT (.holds S v) os).cons v else .assertion
  | .holds S _, .op (.put T v) :: os => if S = T then specT (.holds S v) os else .assertion
  | .holds S _, .op (.deinit T) :: os => if S = T then specT .empty os else .assertion
  | .broken _, .op (.init _ _) :: _ => .assertion
  | .broken _, .initThrow _ :: _ => .assertion
  | .broken S, .op (.get T) :: _ => if S = T then .undefined else .assertion
  | .broken S, .op (.put T _) :: _ => if S = T then .undefined else .assertion
  | .broken S, .op (.deinit T) :: _ => if S = T then .undefined else .assertion

/-- The type a call names. -/
def TOp.type : TOp V → Nat
  | .op (.init T _) | .op (.get T) | .op (.put T _) | .op (.deinit T) | .initThrow T => T

/-- The type of the object a call uses, if it needs one. -/
def TOp.uses : TOp V → Option Nat
  | .op (.get T) | .op (.put T _) | .op (.deinit T) => some T
  | _ => none

/-- The object left by the calls so far (most recent construction or assignment, if not destroyed since). -/
def left (os : List (TOp V)) : Option (Nat × V) :=
  os.foldl (fun x o => match o with
    | .op (.init T v) | .op (.put T v) => some (T, v)
    | .op (.get _) => x
    | .op (.deinit _) | .initThrow _ => none) none

def isInit : TOp V → Bool
  | .op (.init _ _) => true
  | _ => false

def isDeinit : TOp V → Bool
  | .op (.deinit _) => true
  | _ => false

/-- The value most recently stored, with its type. -/
def lastStored (os : List (Op V)) : Option (Nat × V) :=
  os.foldl (fun x o => match o with
    | .init T v | .put T v => some (T, v)
    | _ => x) none

/-! ### Lemmas -/

def Match (Ts : List Nat) (u : Un V) : St V → Prop
  | .empty => u.obj = none ∧ u.dirty = -1
  | .holds T v => u.obj = some (T, v) ∧ u.dirty = idxOf T Ts ∧ T ∈ Ts
  | .broken T => u.obj = none ∧ u.dirty = idxOf T Ts ∧ T ∈ Ts

theorem runT_debug (Ts : List Nat) (os : List (TOp V)) : ∀ (u : Un V) (st : St V), Match Ts u st → u.leaked = 0 →
    (∀ o ∈ os, o.type ∈ Ts) →
    runT true Ts u os = match specT st os with
      | .reads vs => .ok (vs, 0)
      | .assertion => .assertFail
      | .undefined => .ub := by
  induction os with
  | nil =>
    rintro ⟨d, o, k⟩ st hm hk _
    cases st with
    | empty => obtain ⟨rfl, rfl⟩ := hm; simp at hk; subst hk; simp [runT, Un.destroy, Un.assertClean, specT, lost]
    | holds T v =>
      obtain ⟨rfl, rfl, hT⟩ := hm
      have : idxOf T Ts ≠ -1 := by have := idxOf_mem hT; omega
      simp [runT, Un.destroy, Un.assertClean, specT, beq_eq_false_iff_ne.2 this]
    | broken T =>
      obtain ⟨rfl, rfl, hT⟩ := hm
      have : idxOf T Ts ≠ -1 := by have := idxOf_mem hT; omega
      simp [runT, Un.destroy, Un.assertClean, specT, beq_eq_false_iff_ne.2 this]
  | cons c os ih =>
    rintro ⟨d, o, k⟩ st hm hk hw
    have hw' : ∀ o ∈ os, o.type ∈ Ts := fun x hx => hw x (by simp [hx])
    have hc := hw c (by simp)
    simp only at hk
    subst hk
    have key : ∀ {T S}, T ∈ Ts → S ∈ Ts → S ≠ T → (idxOf S Ts == idxOf T Ts) = false := fun hT hS h =>
      beq_eq_false_iff_ne.2 (fun e => h (idxOf_inj hS hT e))
    have neg : ∀ {T}, T ∈ Ts → (idxOf T Ts == -1) = false := fun hT => by
      have := idxOf_mem hT; exact beq_eq_false_iff_ne.2 (by omega)
    have neg' : ∀ {T}, T ∈ Ts → ((-1 : Int) == idxOf T Ts) = false := fun hT => by
      have := idxOf_mem hT; exact beq_eq_false_iff_ne.2 (by omega)
    cases st with
    | empty =>
      obtain ⟨rfl, rfl⟩ := hm
      cases c with
      | initThrow T =>
        have := ih ⟨idxOf T Ts, none, 0 + lost (none : Option (Nat × V))⟩ (.broken T) ⟨rfl, rfl, hc⟩ rfl hw'
        simp only [lost, Nat.add_zero] at this
        simp [runT, Un.initThrow, Un.assertClean, specT, this, lost]
      | op o =>
        cases o with
        | init T v =>
          have := ih ⟨idxOf T Ts, some (T, v), 0 + lost (none : Option (Nat × V))⟩ (.holds T v) ⟨rfl, rfl, hc⟩ rfl hw'
          simp only [lost, Nat.add_zero] at this
          simp [runT, Un.init, Un.assertClean, specT, this, lost]
        | get T => simp [runT, Un.get, Un.assertDirty, specT, neg' (show T ∈ Ts from hc)]
        | put T v => simp [runT, Un.put, Un.get, Un.assertDirty, specT, neg' (show T ∈ Ts from hc)]
        | deinit T => simp [runT, Un.deinit, Un.assertDirty, specT, neg' (show T ∈ Ts from hc)]
    | holds S w =>
      obtain ⟨rfl, rfl, hS⟩ := hm
      cases c with
      | initThrow T => simp [runT, Un.initThrow, Un.assertClean, specT, neg hS]
      | op o =>
        cases o with
        | init T v => simp [runT, Un.init, Un.assertClean, specT, neg hS]
        | get T =>
          by_cases e : S = T
          · subst e
            have := ih ⟨idxOf S Ts, some (S, w), 0⟩ (.holds S w) ⟨rfl, rfl, hS⟩ rfl hw'
            simp only [runT, Un.get, Un.assertDirty, specT, this, Un.theObj, if_true, beq_self_eq_true,
              Outcome.check_true, Outcome.bind_ok]
            cases specT (St.holds S w) os <;> simp [End.cons]
          · simp [runT, Un.get, Un.assertDirty, specT, key (show T ∈ Ts from hc) hS e, e]
        | put T v =>
          by_cases e : S = T
          · subst e
            have := ih ⟨idxOf S Ts, some (S, v), 0⟩ (.holds S v) ⟨rfl, rfl, hS⟩ rfl hw'
            simp [runT, Un.put, Un.get, Un.assertDirty, specT, this, Un.theObj]
          · simp [runT, Un.put, Un.get, Un.assertDirty, specT, key (show T ∈ Ts from hc) hS e, e]
        | deinit T =>
          by_cases e : S = T
          · subst e
            have := ih ⟨-1, none, 0⟩ .empty ⟨rfl, rfl⟩ rfl hw'
            simp [runT, Un.deinit, Un.assertDirty, specT, this, Un.theObj]
          · simp [runT, Un.deinit, Un.assertDirty, specT, key (show T ∈ Ts from hc) hS e, e]
    | broken S =>
      obtain ⟨rfl, rfl, hS⟩ := hm
      cases c with
      | initThrow T => simp [runT, Un.initThrow, Un.assertClean, specT, neg hS]
      | op o =>
        cases o with
        | init T v => simp [runT, Un.init, Un.assertClean, specT, neg hS]
        | get T =>
          by_cases e : S = T
          · subst e
            simp [runT, Un.get, Un.assertDirty, specT, Un.theObj]
          · simp [runT, Un.get, Un.assertDirty, specT, key (show T ∈ Ts from hc) hS e, e]
        | put T v =>
          by_cases e : S = T
          · subst e
            simp [runT, Un.put, Un.get, Un.assertDirty, specT, Un.theObj]
          · simp [runT, Un.put, Un.get, Un.assertDirty, specT, key (show T ∈ Ts from hc) hS e, e]
        | deinit T =>
          by_cases e : S = T
          · subst e
            simp [runT, Un.deinit, Un.assertDirty, specT, Un.theObj]
          · simp [runT, Un.deinit, Un.assertDirty, specT, key (show T ∈ Ts from hc) hS e, e]

def leftFrom (x : Option (Nat × V)) (os : List (TOp V)) : Option (Nat × V) :=
  os.foldl (fun x o => match o with
    | .op (.init T v) | .op (.put T v) => some (T, v)
    | .op (.get _) => x
    | .op (.deinit _) | .initThrow _ => none) x

def ProperFrom (x : Option (Nat × V)) (os : List (TOp V)) : Prop :=
  ∀ (pre post : List (TOp V)) (o : TOp V) (T : Nat), os = pre ++ o :: post → o.uses = some T →
    ∃ v, leftFrom x pre = some (T, v)

theorem properFrom_cons {x : Option (Nat × V)} {o os} : ProperFrom x (o :: os) ↔
    (∀ T, o.uses = some T → ∃ v, x = some (T, v)) ∧ ProperFrom (leftFrom x [o]) os := by
  constructor
  · intro h
    refine ⟨fun T hT => h [] os o T rfl hT, ?_⟩
    intro pre post o' T he hT
    exact h (o :: pre) post o' T (by simp [he]) hT
  · rintro ⟨h1, h2⟩ pre post o' T he hT
    cases pre with
    | nil => simp at he; obtain ⟨rfl, _⟩ := he; exact h1 T hT
    | cons p pre =>
      simp at he
      obtain ⟨rfl, he⟩ := he
      exact h2 pre post o' T he hT

theorem runT_release (Ts : List Nat) (os : List (TOp V)) : ∀ (d : Int) (x : Option (Nat × V)) (n : Nat),
    (ProperFrom x os → ∃ vs k, runT false Ts ⟨d, x, n⟩ os = .ok (vs, k) ∧
      k + os.countP isDeinit = n + lost x + os.countP isInit) ∧
    (¬ ProperFrom x os → runT false Ts ⟨d, x, n⟩ os = .ub) := by
  induction os with
  | nil =>
    intro d x n
    refine ⟨fun _ => ⟨[], n + lost x, by simp [runT, Un.destroy, Un.assertClean], by simp⟩, fun h => ?_⟩
    exact absurd (fun pre post o T he => by simp at he) h
  | cons o os ih =>
    intro d x n
    rw [properFrom_cons]
    cases o with
    | initThrow T =>
      have := ih d none (n + lost x)
      simp only [TOp.uses, reduceCtorEq, false_imp_iff, implies_true, true_and, leftFrom, List.foldl_cons, List.foldl_nil,
        runT, Un.initThrow, Un.assertClean, Bool.false_eq_true, if_false, Outcome.bind_ok, Outcome.pure_eq]
      refine ⟨fun h => ?_, this.2⟩
      obtain ⟨vs, k, h1, h2⟩ := this.1 h
      exact ⟨vs, k, h1, by simp [isDeinit, isInit, lost] at h2 ⊢; omega⟩
    | op o =>
      cases o with
      | init T v =>
        have := ih d (some (T, v)) (n + lost x)
        simp only [TOp.uses, reduceCtorEq, false_imp_iff, implies_true, true_and, leftFrom, List.foldl_cons,
          List.foldl_nil, runT, Un.init, Un.assertClean, Bool.false_eq_true, if_false, Outcome.bind_ok, Outcome.pure_eq]
        refine ⟨fun h => ?_, this.2⟩
        obtain ⟨vs, k, h1, h2⟩ := this.1 h
        refine ⟨vs, k, h1, ?_⟩
        rw [List.countP_cons_of_neg (by simp [isDeinit]), List.countP_cons_of_pos (by simp [isInit])]
        rw [show lost (some (T, v)) = 1 from rfl] at h2
        omega
      | get T =>
        simp only [TOp.uses, Option.some.injEq, forall_eq', leftFrom, List.foldl_cons, List.foldl_nil, runT, Un.get,
          Un.assertDirty, Bool.false_eq_true, if_false, Outcome.bind_ok, Un.theObj]
        by_cases hx : ∃ v, x = some (T, v)
        · obtain ⟨v, rfl⟩ := hx
          have := ih d (some (T, v)) n
          refine ⟨fun h => ?_, fun h => ?_⟩
          · obtain ⟨vs, k, h1, h2⟩ := this.1 h.2
            exact ⟨v :: vs, k, by simp [h1], by simpa [isDeinit, isInit] using h2⟩
          · have h3 := this.2 (fun hp => h ⟨⟨v, rfl⟩, hp⟩)
            simp [h3]
        · refine ⟨fun h => absurd h.1 hx, fun _ => ?_⟩
          cases x with
          | none => simp
          | some y =>
            have : y.1 ≠ T := fun e => hx ⟨y.2, by rw [← e]⟩
            simp [this]
      | put T v =>
        simp only [TOp.uses, Option.some.injEq, forall_eq', leftFrom, List.foldl_cons, List.foldl_nil, runT, Un.put,
          Un.get, Un.assertDirty, Bool.false_eq_true, if_false, Outcome.bind_ok, Un.theObj]
        by_cases hx : ∃ v, x = some (T, v)
        · obtain ⟨w, rfl⟩ := hx
          have := ih d (some (T, v)) n
          refine ⟨fun h => ?_, fun h => ?_⟩
          · obtain ⟨vs, k, h1, h2⟩ := this.1 h.2
            exact ⟨vs, k, by simp [h1], by simpa [isDeinit, isInit, lost] using h2⟩
          · have h3 := this.2 (fun hp => h ⟨⟨w, rfl⟩, hp⟩)
            simp [h3]
        · refine ⟨fun h => absurd h.1 hx, fun _ => ?_⟩
          cases x with
          | none => simp
          | some y =>
            have : y.1 ≠ T := fun e => hx ⟨y.2, by rw [← e]⟩
            simp [this]
      | deinit T =>
        simp only [TOp.uses, Option.some.injEq, forall_eq', leftFrom, List.foldl_cons, List.foldl_nil, runT, Un.deinit,
          Un.assertDirty, Bool.false_eq_true, if_false, Outcome.bind_ok, Un.theObj]
        by_cases hx : ∃ v, x = some (T, v)
        · obtain ⟨w, rfl⟩ := hx
          have := ih d none n
          refine ⟨fun h => ?_, fun h => ?_⟩
          · obtain ⟨vs, k, h1, h2⟩ := this.1 h.2
            refine ⟨vs, k, by simp [h1], ?_⟩
            rw [List.countP_cons_of_pos (by simp [isDeinit]), List.countP_cons_of_neg (by simp [isInit])]
            simp only [lost] at h2 ⊢
            omega
          · have h3 := this.2 (fun hp => h ⟨⟨w, rfl⟩, hp⟩)
            simp [h3]
        · refine ⟨fun h => absurd h.1 hx, fun _ => ?_⟩
          cases x with
          | none => simp
          | some y =>
            have : y.1 ≠ T := fun e => hx ⟨y.2, by rw [← e]⟩
            simp [this]

/-! ### Property theorems -/

/-- C15 in a debug build, with constructors that may throw: the outcome of every sequence of calls followed by the
destruction of the union. Sequences that keep to the protocol read what was last stored and leave no object behind; all
others fail an assertion, except that using the object whose construction threw is undefined. -/
theorem C15_union_lifecycle_throwing (Ts : List Nat) (os : List (TOp V)) (hw : ∀ o ∈ os, o.type ∈ Ts) :
    runT true Ts Un.new os = match specT .empty os with
      | .reads vs => .ok (vs, 0)
      | .assertion => .assertFail
      | .undefined => .ub :=
  runT_debug Ts os Un.new .empty ⟨rfl, rfl⟩ rfl hw

/-- A construction that throws can never be repaired: no sequence of calls that contains one runs to the end. -/
theorem C15_after_a_throw_no_way_out (Ts : List Nat) (os : List (TOp V)) (hw : ∀ o ∈ os, o.type ∈ Ts)
    (T : Nat) (ht : TOp.initThrow T ∈ os) (r : List V × Nat) : runT true Ts Un.new os ≠ .ok r := by
  rw [C15_union_lifecycle_throwing Ts os hw]
  have h1 : ∀ (os : List (TOp V)) (S : Nat) vs, specT (.broken S) os ≠ .reads vs := by
    intro os S vs
    cases os with
    | nil => simp [specT]
    | cons o os =>
      cases o with
      | initThrow => simp [specT]
      | op o => cases o <;> simp only [specT] <;> first | (split <;> simp; done) | simp
  have h2 : ∀ (os : List (TOp V)) (st : St V) vs, TOp.initThrow T ∈ os → specT st os ≠ .reads vs := by
    intro os
    induction os with
    | nil => simp
    | cons o os ih =>
      intro st vs hm
      cases st with
      | broken S => exact h1 _ S vs
      | empty =>
        cases o with
        | initThrow S => simp only [specT]; exact h1 _ _ vs
        | op o =>
          have hm' : TOp.initThrow T ∈ os := by simpa using hm
          cases o with
          | init S v => simp only [specT]; exact ih _ vs hm'
          | _ => simp [specT]
      | holds S v =>
        cases o with
        | initThrow S => simp [specT]
        | op o =>
          have hm' : TOp.initThrow T ∈ os := by simpa using hm
          cases o with
          | init S v => simp [specT]
          | get S' =>
            simp only [specT]
            split
            · cases h : specT (St.holds S v) os with
              | reads us => exact absurd h (ih _ us hm')
              | _ => simp [End.cons]
            · simp
          | put S' w =>
            simp only [specT]
            split
            · exact ih _ vs hm'
            · simp
          | deinit S' =>
            simp only [specT]
            split
            · exact ih _ vs hm'
            · simp
  cases h : specT St.empty os with
  | reads vs => exact absurd h (h2 os _ vs ht)
  | _ => simp

/-- C15 in a build without checks: a sequence of calls is undefined exactly if some call uses an object that is not there
(`left` of the calls before it); otherwise it runs to the end, and the number of objects never destroyed is the number of
those constructed less the number of calls that destroy one. -/
theorem C15_union_unchecked (Ts : List Nat) (os : List (TOp V)) :
    ((∀ pre post o T, os = pre ++ o :: post → o.uses = some T → ∃ v, left pre = some (T, v)) →
      ∃ vs k, runT false Ts Un.new os = .ok (vs, k) ∧ k + os.countP isDeinit = os.countP isInit) ∧
    ((∃ pre post o T, os = pre ++ o :: post ∧ o.uses = some T ∧ ∀ v, left pre ≠ some (T, v)) →
      runT false Ts Un.new os = .ub) := by
  have h := runT_release Ts os (-1) none 0
  refine ⟨fun hp => ?_, fun hp => ?_⟩
  · obtain ⟨vs, k, h1, h2⟩ := h.1 hp
    exact ⟨vs, k, h1, by simpa [lost] using h2⟩
  · apply h.2
    intro hq
    obtain ⟨pre, post, o, T, h1, h2, h3⟩ := hp
    obtain ⟨v, hv⟩ := hq pre post o T h1 h2
    exact h3 v hv

/-- The value a read gives in a build without checks. -/
theorem C15_union_unchecked_reads (Ts : List Nat) (os : List (TOp V)) (T : Nat) (vs : List V) (k : Nat)
    (h : runT false Ts Un.new (os ++ [.op (.get T)]) = .ok (vs, k)) :
    ∃ v, left os = some (T, v) ∧ vs.getLast? = some v := by
  have gen : ∀ (os : List (TOp V)) (d : Int) (x : Option (Nat × V)) (n : Nat) (vs : List V) (k : Nat),
      runT false Ts ⟨d, x, n⟩ (os ++ [.op (.get T)]) = .ok (vs, k) →
      ∃ v, leftFrom x os = some (T, v) ∧ vs.getLast? = some v := by
    intro os
    induction os with
    | nil =>
      intro d x n vs k h
      simp only [List.nil_append, runT, Un.get, Un.assertDirty, Bool.false_eq_true, if_false, Outcome.bind_ok,
        Un.theObj, Un.destroy, Un.assertClean, Outcome.pure_eq] at h
      cases x with
      | none => simp at h
      | some y =>
        by_cases e : y.1 = T
        · simp [e] at h; exact ⟨y.2, by simp [leftFrom, ← e], by simp [← h.1]⟩
        · simp [e] at h
    | cons o os ih =>
      intro d x n vs k h
      cases o with
      | initThrow S =>
        simp only [List.cons_append, runT, Un.initThrow, Un.assertClean, Bool.false_eq_true, if_false, Outcome.bind_ok,
          Outcome.pure_eq] at h
        exact ih _ _ _ _ _ h
      | op o =>
        cases o with
        | init S v =>
          simp only [List.cons_append, runT, Un.init, Un.assertClean, Bool.false_eq_true, if_false, Outcome.bind_ok,
            Outcome.pure_eq] at h
          exact ih _ _ _ _ _ h
        | get S =>
          simp only [List.cons_append, runT, Outcome.bind_eq_ok] at h
          obtain ⟨v, _, ⟨us, k'⟩, h2, h3⟩ := h
          obtain ⟨w, hw, hl⟩ := ih _ _ _ _ _ h2
          simp at h3
          refine ⟨w, hw, ?_⟩
          rw [← h3.1]
          cases us with
          | nil => simp at hl
          | cons u us => simpa using hl
        | put S v =>
          simp only [List.cons_append, runT, Un.put, Outcome.bind_eq_ok] at h
          obtain ⟨u, ⟨w, _, hu⟩, h2⟩ := h
          simp at hu; subst hu
          exact ih _ _ _ _ _ h2
        | deinit S =>
          simp only [List.cons_append, runT, Un.deinit, Outcome.bind_eq_ok] at h
          obtain ⟨u, ⟨_, _, w, _, hu⟩, h2⟩ := h
          simp at hu; subst hu
          exact ih _ _ _ _ _ h2
  exact gen os _ _ _ _ _ h

/-- C15 for the POD versions, completely: a sequence of calls is fine exactly if every `get<T>` (or assignment through it)
finds that the last value stored has type `T`. -/
theorem C15_pod_fine_iff (os : List (Op V)) :
    ((∀ pre post o T, os = pre ++ o :: post → (o = .get T ∨ ∃ w, o = .put T w) → ∃ v, lastStored pre = some (T, v)) →
      ∃ vs, runPod none os = .ok vs) ∧
    ((∃ pre post o T, os = pre ++ o :: post ∧ (o = .get T ∨ ∃ w, o = .put T w) ∧ ∀ v, lastStored pre ≠ some (T, v)) →
      runPod none os = .ub) := by
  let lf : Option (Nat × V) → List (Op V) → Option (Nat × V) := fun x os =>
    os.foldl (fun x o => match o with
      | .init T v | .put T v => some (T, v)
      | _ => x) x
  have gen : ∀ (os : List (Op V)) (x : Option (Nat × V)),
      ((∀ pre post o T, os = pre ++ o :: post → (o = .get T ∨ ∃ w, o = .put T w) → ∃ v, lf x pre = some (T, v)) →
        ∃ vs, runPod x os = .ok vs) ∧
      ((∃ pre post o T, os = pre ++ o :: post ∧ (o = .get T ∨ ∃ w, o = .put T w) ∧ ∀ v, lf x pre ≠ some (T, v)) →
        runPod x os = .ub) := by
    intro os
    induction os with
    | nil => intro x; exact ⟨fun _ => ⟨[], rfl⟩, by rintro ⟨pre, post, o, T, h, _⟩; simp at h⟩
    | cons o os ih =>
      intro x
      have hfwd : (∀ pre post o' T, o :: os = pre ++ o' :: post → (o' = .get T ∨ ∃ w, o' = .put T w) →
            ∃ v, lf x pre = some (T, v)) →
          ∀ pre post o' T, os = pre ++ o' :: post → (o' = .get T ∨ ∃ w, o' = .put T w) →
            ∃ v, lf (lf x [o]) pre = some (T, v) := by
        intro h pre post o' T he hu
        exact h (o :: pre) post o' T (by simp [he]) hu
      have hbwd : (∃ pre post o' T, o :: os = pre ++ o' :: post ∧ (o' = .get T ∨ ∃ w, o' = .put T w) ∧
            ∀ v, lf x pre ≠ some (T, v)) →
          (∃ T, (o = .get T ∨ ∃ w, o = .put T w) ∧ ∀ v, x ≠ some (T, v)) ∨
          ∃ pre post o' T, os = pre ++ o' :: post ∧ (o' = .get T ∨ ∃ w, o' = .put T w) ∧
            ∀ v, lf (lf x [o]) pre ≠ some (T, v) := by
        rintro ⟨pre, post, o', T, he, hu, hn⟩
        cases pre with
        | nil => simp at he; obtain ⟨rfl, _⟩ := he; exact .inl ⟨T, hu, hn⟩
        | cons p pre =>
          simp at he; obtain ⟨rfl, he⟩ := he
          exact .inr ⟨pre, post, o', T, he, hu, hn⟩
      have ih' := ih (lf x [o])
      cases o with
      | init T v =>
        refine ⟨fun h => ih'.1 (hfwd h), fun h => ?_⟩
        rcases hbwd h with ⟨S, h, _⟩ | h
        · simp at h
        · exact ih'.2 h
      | deinit T =>
        refine ⟨fun h => ih'.1 (hfwd h), fun h => ?_⟩
        rcases hbwd h with ⟨S, h, _⟩ | h
        · simp at h
        · exact ih'.2 h
      | get T =>
        refine ⟨fun h => ?_, fun h => ?_⟩
        · obtain ⟨v, hv⟩ := h [] os (.get T) T rfl (.inl rfl)
          obtain ⟨vs, hvs⟩ := ih'.1 (hfwd h)
          have hv : x = some (T, v) := hv
          subst hv
          exact ⟨v :: vs, by simp only [runPod, Un.theObj, if_true, Outcome.bind_ok]; rw [show runPod (some (T, v)) os = _ from hvs]; rfl⟩
        · by_cases hx : ∃ v, x = some (T, v)
          · obtain ⟨v, rfl⟩ := hx
            rcases hbwd h with ⟨S, h, hn⟩ | h
            · simp at h; subst h; exact absurd rfl (hn v)
            · have := ih'.2 h
              simp only [runPod, Un.theObj, if_true, Outcome.bind_ok]
              rw [show runPod (some (T, v)) os = _ from this]; rfl
          · cases x with
            | none => simp [runPod, Un.theObj]
            | some y =>
              have : y.1 ≠ T := fun e => hx ⟨y.2, by rw [← e]⟩
              simp [runPod, Un.theObj, this]
      | put T w =>
        refine ⟨fun h => ?_, fun h => ?_⟩
        · obtain ⟨v, hv⟩ := h [] os (.put T w) T rfl (.inr ⟨w, rfl⟩)
          obtain ⟨vs, hvs⟩ := ih'.1 (hfwd h)
          have hv : x = some (T, v) := hv
          subst hv
          exact ⟨vs, by simp only [runPod, Un.theObj, if_true, Outcome.bind_ok]; exact hvs⟩
        · by_cases hx : ∃ v, x = some (T, v)
          · obtain ⟨v, rfl⟩ := hx
            rcases hbwd h with ⟨S, h, hn⟩ | h
            · simp at h; subst h; exact absurd rfl (hn v)
            · have := ih'.2 h
              simp only [runPod, Un.theObj, if_true, Outcome.bind_ok]
              exact this
          · cases x with
            | none => simp [runPod, Un.theObj]
            | some y =>
              have : y.1 ≠ T := fun e => hx ⟨y.2, by rw [← e]⟩
              simp [runPod, Un.theObj, this]
  exact gen os none

/-- The value read from a POD version is the one most recently stored. -/
theorem C15_pod_value (os : List (Op V)) (T : Nat) (vs : List V) (h : runPod none (os ++ [.get T]) = .ok vs) :
    ∃ v, lastStored os = some (T, v) ∧ vs.getLast? = some v := by
  have gen : ∀ (os : List (Op V)) (x : Option (Nat × V)) (vs : List V), runPod x (os ++ [.get T]) = .ok vs →
      ∃ v, os.foldl (fun x o => match o with
        | .init T v | .put T v => some (T, v)
        | _ => x) x = some (T, v) ∧ vs.getLast? = some v := by
    intro os
    induction os with
    | nil =>
      intro x vs h
      simp only [List.nil_append, runPod, Un.theObj, Outcome.bind_ok, Outcome.pure_eq] at h
      cases x with
      | none => simp at h
      | some y =>
        by_cases e : y.1 = T
        · simp [e] at h; exact ⟨y.2, by simp [← e], by simp [← h]⟩
        · simp [e] at h
    | cons o os ih =>
      intro x vs h
      cases o with
      | init S v => exact ih _ _ h
      | deinit S => exact ih _ _ h
      | get S =>
        simp only [List.cons_append, runPod, Outcome.bind_eq_ok] at h
        obtain ⟨v, _, us, h2, h3⟩ := h
        obtain ⟨w, hw, hl⟩ := ih _ _ h2
        simp at h3
        refine ⟨w, hw, ?_⟩
        rw [← h3]
        cases us with
        | nil => simp at hl
        | cons u us => simpa using hl
      | put S v =>
        simp only [List.cons_append, runPod, Outcome.bind_eq_ok] at h
        obtain ⟨w, _, h2⟩ := h
        exact ih _ _ h2
  exact gen os none vs h

/-- The index used by the checks is the position of the type in the list of members. -/
theorem C15_index_is_position (T : Nat) (Ts : List Nat) (h : T ∈ Ts) : idxOf T Ts = (Ts.idxOf T : Nat) := by
  induction Ts with
  | nil => simp at h
  | cons S Ts ih =>
    rw [idxOf, List.idxOf_cons]
    by_cases e : S = T
    · simp [e]
    · have hm : T ∈ Ts := by
        rcases List.mem_cons.1 h with h | h
        · exact absurd h.symm e
        · exact h
      have h2 := ih hm
      simp only [e, if_false, beq_eq_false_iff_ne.2 e, cond_false]
      rw [if_neg (by rw [h2]; omega), h2]
      simp

/-! ### The hypotheses are satisfiable -/

example : (specT .empty [.op (.init 8 1), .op (.get 8), .op (.deinit 8), .op (.init 7 3), .op (.deinit 7)] : End Nat) =
      .reads [1] ∧
    specT .empty ([.op (.init 8 1), .op (.deinit 8), .initThrow 7, .op (.get 7)] : List (TOp Nat)) = .undefined ∧
    specT .empty ([.initThrow 7, .op (.init 7 1)] : List (TOp Nat)) = .assertion := by decide

/-- Two objects made, one destroyed: one is left over. -/
example : runT false [7, 8] Un.new ([.op (.init 7 1), .op (.init 8 2), .op (.get 8), .op (.deinit 8)] : List (TOp Nat)) =
    .ok ([2], 1) := by decide

example : runPod none ([.init 7 1, .init 8 2, .get 8, .deinit 8, .get 8, .put 8 5, .get 8] : List (Op Nat)) =
    .ok [2, 2, 5] := by decide

end Verif.Union
