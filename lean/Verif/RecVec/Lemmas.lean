import Verif.RecVec.Spec
import Verif.Recycler.Theorems

/-!
# Recycling vectors: simulation by recyclers
-/

namespace Verif.RecVec

open Verif Verif.Recycler

/-- The numbers of the objects in a vector. -/
def ids (es : List Entry) : List Nat := es.filterMap (Option.map Prod.fst)

theorem mem_ids {es : List Entry} {i : Nat} : i ∈ ids es ↔ ∃ t, some (i, t) ∈ es := by
  simp only [ids, List.mem_filterMap]
  constructor
  · rintro ⟨e, he, h⟩
    cases e with
    | none => simp at h
    | some p => obtain ⟨j, t⟩ := p; simp at h; subst h; exact ⟨t, he⟩
  · rintro ⟨t, h⟩; exact ⟨_, h, rfl⟩

/-- How the vectors are seen by the recyclers. -/
structure Corr (a : VAbs) (b : Abs) : Prop where
  kinds : b.recs = a.vecs.map (Option.map Prod.fst)
  len : b.objs.length = a.made
  objs : ∀ (i v : Nat) (t : Ty), b.objs[i]? = some (some (v, t)) ↔
    ∃ k es, a.vecs[v]? = some (some (k, es)) ∧ some (i, t) ∈ es
  nodup : ∀ (v : Nat) (k : Kind) (es : List Entry), a.vecs[v]? = some (some (k, es)) → (ids es).Nodup

/-- The deletions made when entries are destroyed. -/
def dels : List Entry → List Op
  | [] => []
  | none :: es => dels es
  | some (i, t) :: es => .delete i t :: dels es

theorem run_append (cfg : Cfg) (s : State) (os os' : List Op) :
    run cfg s (os ++ os') = (run cfg s os >>= fun s => run cfg s os') := by
  induction os generalizing s with
  | nil => rfl
  | cons o os ih =>
    simp only [List.cons_append, run]
    cases step cfg s o with
    | ok s1 => simp only [Outcome.bind_ok, ih]
    | _ => rfl

theorem runStay_append (base : Ty) (b : Abs) (os os' : List Op) :
    b.runStay base (os ++ os') = (b.runStay base os).bind (·.runStay base os') := by
  induction os generalizing b with
  | nil => rfl
  | cons o os ih =>
    simp only [List.cons_append, Abs.runStay]
    cases b.stepStay base o with
    | none => rfl
    | some b1 => simp only [Option.bind_some, ih]

theorem run_dels (cfg : Cfg) (s : State) (es : List Entry) : run cfg s (dels es) = deleteAll cfg s es := by
  induction es generalizing s with
  | nil => rfl
  | cons e es ih =>
    cases e with
    | none => exact ih s
    | some p =>
      obtain ⟨i, t⟩ := p
      simp only [dels, run, step, deleteAll]
      cases s.delete cfg i t with
      | ok s1 => simp only [Outcome.bind_ok, ih]
      | _ => rfl

theorem dels_mem {es : List Entry} {o : Op} (h : o ∈ dels es) : ∃ i t, o = .delete i t := by
  induction es with
  | nil => simp [dels] at h
  | cons e es ih =>
    cases e with
    | none => exact ih h
    | some p =>
      obtain ⟨i, t⟩ := p
      simp only [dels, List.mem_cons] at h
      rcases h with rfl | h
      · exact ⟨i, t, rfl⟩
      · exact ih h

theorem stay_dels (base : Ty) (es : List Entry) (b : Abs) (hn : (ids es).Nodup)
    (ho : ∀ (i : Nat) (t : Ty), some (i, t) ∈ es → ∃ v, b.objs[i]? = some (some (v, t))) :
    ∃ b', b.runStay base (dels es) = some b' ∧ b'.recs = b.recs ∧ b'.objs.length = b.objs.length ∧
      ∀ i : Nat, b'.objs[i]? = if i ∈ ids es then some none else b.objs[i]? := by
  induction es generalizing b with
  | nil => exact ⟨b, rfl, rfl, rfl, fun i => by simp [ids]⟩
  | cons e es ih =>
    cases e with
    | none =>
      obtain ⟨b', h1, h2, h3, h4⟩ := ih b hn (fun i t h => ho i t (List.mem_cons_of_mem _ h))
      exact ⟨b', h1, h2, h3, h4⟩
    | some p =>
      obtain ⟨i, t⟩ := p
      have hn' : i ∉ ids es ∧ (ids es).Nodup := List.nodup_cons.1 hn
      obtain ⟨v, hv⟩ := ho i t List.mem_cons_self
      have hlt : i < b.objs.length := lt_of_get hv
      obtain ⟨b', h1, h2, h3, h4⟩ := ih { b with objs := b.objs.set i none } hn'.2 (fun j t' h => by
        obtain ⟨v', hv'⟩ := ho j t' (List.mem_cons_of_mem _ h)
        have : i ≠ j := by rintro rfl; exact hn'.1 (mem_ids.2 ⟨t', h⟩)
        exact ⟨v', by simpa [List.getElem?_set_ne this] using hv'⟩)
      refine ⟨b', ?_, h2, by rw [h3]; simp, ?_⟩
      · simp only [dels, Abs.runStay, Abs.stepStay, Abs.step, hv, if_true, Option.bind_some]
        exact h1
      · intro j
        rw [h4]
        have hmem : j ∈ ids (some (i, t) :: es) ↔ j = i ∨ j ∈ ids es := List.mem_cons
        by_cases hj : j ∈ ids es
        · simp [hmem, hj]
        · by_cases hij : j = i
          · subst hij; simp [hmem, hn'.1, hlt]
          · simp [hmem, hj, hij, List.getElem?_set_ne (Ne.symm hij)]

theorem noAssign_of {base : Ty} {os : List Op} (h : ∀ d r, Op.moveAssign d r ∉ os) (b : Abs) : b.noAssign base os = true := by
  induction os generalizing b with
  | nil => rfl
  | cons o os ih =>
    rw [Abs.noAssign, Bool.and_eq_true]
    constructor
    · cases o with
      | moveAssign d r => exact absurd List.mem_cons_self (h d r)
      | _ => rfl
    · split
      · exact ih (fun d r hx => h d r (List.mem_cons_of_mem _ hx)) _
      · rfl

theorem kinds_set {l : List (Option (Kind × List Entry))} {v : Nat} {k : Kind} {es : List Entry} (es' : List Entry)
    (hv : l[v]? = some (some (k, es))) : (l.set v (some (k, es'))).map (Option.map Prod.fst) = l.map (Option.map Prod.fst) := by
  have hlt := lt_of_get hv
  apply List.ext_getElem?
  intro j
  by_cases hj : j = v
  · subst hj
    rw [List.getElem?_map, List.getElem?_map, List.getElem?_set_self hlt, hv]; rfl
  · rw [List.getElem?_map, List.getElem?_map, List.getElem?_set_ne (Ne.symm hj)]

theorem Corr.kindAt {a b} (h : Corr a b) {v : Nat} {k : Kind} {es : List Entry} (hv : a.vecs[v]? = some (some (k, es))) :
    b.recs[v]? = some (some k) := by
  rw [h.kinds, List.getElem?_map, hv]; rfl

/-- A vector whose entries change, the set of objects staying the same. -/
theorem Corr.perm {a b} (h : Corr a b) {v : Nat} {k : Kind} {es es' : List Entry} (hv : a.vecs[v]? = some (some (k, es)))
    (hp : es'.Perm es) : Corr { a with vecs := a.vecs.set v (some (k, es')) } b := by
  have hlt := lt_of_get hv
  refine ⟨?_, h.len, ?_, ?_⟩
  · rw [h.kinds, kinds_set _ hv]
  · intro i w t
    rw [h.objs]
    by_cases hj : w = v
    · subst hj
      simp only [hv, List.getElem?_set_self hlt, Option.some.injEq, Prod.mk.injEq]
      constructor
      · rintro ⟨_, _, ⟨rfl, rfl⟩, hm⟩; exact ⟨_, _, ⟨rfl, rfl⟩, hp.mem_iff.2 hm⟩
      · rintro ⟨_, _, ⟨rfl, rfl⟩, hm⟩; exact ⟨_, _, ⟨rfl, rfl⟩, hp.mem_iff.1 hm⟩
    · simp [List.getElem?_set_ne (Ne.symm hj)]
  · intro w k' es1 hw
    by_cases hj : w = v
    · subst hj
      simp only [List.getElem?_set_self hlt, Option.some.injEq, Prod.mk.injEq] at hw
      obtain ⟨rfl, rfl⟩ := hw
      exact ((hp.filterMap _).nodup_iff).2 (h.nodup _ _ _ hv)
    · rw [List.getElem?_set_ne (Ne.symm hj)] at hw
      exact h.nodup _ _ _ hw

/-- Adding a new object to a vector. -/
theorem Corr.add {a b} (h : Corr a b) {v : Nat} {k : Kind} {es es' : List Entry} {t : Ty} (hv : a.vecs[v]? = some (some (k, es)))
    (hp : es'.Perm (some (a.made, t) :: es)) :
    Corr ⟨a.vecs.set v (some (k, es')), a.made + 1⟩ { b with objs := b.objs ++ [some (v, t)] } := by
  have hlt := lt_of_get hv
  have fresh : ∀ (w : Nat) (k : Kind) (es : List Entry) (t : Ty), a.vecs[w]? = some (some (k, es)) → some (a.made, t) ∉ es := by
    intro w k es t hw hm
    have := (h.objs a.made w t).2 ⟨k, es, hw, hm⟩
    have := lt_of_get this
    rw [h.len] at this; omega
  have key : Corr ⟨a.vecs.set v (some (k, some (a.made, t) :: es)), a.made + 1⟩ { b with objs := b.objs ++ [some (v, t)] } := by
    refine ⟨?_, by simp [h.len], ?_, ?_⟩
    · show b.recs = _
      rw [h.kinds, kinds_set _ hv]
    · intro i w t'
      by_cases hi : i = a.made
      · subst hi
        simp only [← h.len, List.getElem?_concat_length, Option.some.injEq, Prod.mk.injEq]
        rw [h.len]
        constructor
        · rintro ⟨rfl, rfl⟩
          exact ⟨_, _, by rw [List.getElem?_set_self hlt], List.mem_cons_self⟩
        · rintro ⟨k', es1, hw, hm⟩
          by_cases hj : w = v
          · subst hj
            simp only [List.getElem?_set_self hlt, Option.some.injEq, Prod.mk.injEq] at hw
            obtain ⟨rfl, rfl⟩ := hw
            simp only [List.mem_cons, Option.some.injEq, Prod.mk.injEq, true_and] at hm
            rcases hm with rfl | hm
            · exact ⟨rfl, rfl⟩
            · exact absurd hm (fresh _ _ _ _ hv)
          · rw [List.getElem?_set_ne (Ne.symm hj)] at hw
            exact absurd hm (fresh _ _ _ _ hw)
      · have : (b.objs ++ [some (v, t)])[i]? = some (some (w, t')) ↔ b.objs[i]? = some (some (w, t')) := by
          rw [← h.len] at hi
          rcases Nat.lt_or_ge i b.objs.length with hl | hl
          · rw [List.getElem?_append_left hl]
          · rw [List.getElem?_append_right hl, List.getElem?_eq_none (by simp; omega), List.getElem?_eq_none hl]
        show (b.objs ++ [some (v, t)])[i]? = _ ↔ _
        rw [this, h.objs]
        by_cases hj : w = v
        · subst hj
          simp only [hv, List.getElem?_set_self hlt, Option.some.injEq, Prod.mk.injEq]
          constructor
          · rintro ⟨_, _, ⟨rfl, rfl⟩, hm⟩; exact ⟨_, _, ⟨rfl, rfl⟩, List.mem_cons_of_mem _ hm⟩
          · rintro ⟨_, _, ⟨rfl, rfl⟩, hm⟩
            simp only [List.mem_cons, Option.some.injEq, Prod.mk.injEq, hi, false_and, false_or] at hm
            exact ⟨_, _, ⟨rfl, rfl⟩, hm⟩
        · simp [List.getElem?_set_ne (Ne.symm hj)]
    · intro w k' es1 hw
      by_cases hj : w = v
      · subst hj
        simp only [List.getElem?_set_self hlt, Option.some.injEq, Prod.mk.injEq] at hw
        obtain ⟨rfl, rfl⟩ := hw
        refine List.nodup_cons.2 ⟨?_, h.nodup _ _ _ hv⟩
        intro hm
        obtain ⟨t', hm⟩ := mem_ids.1 hm
        exact fresh _ _ _ _ hv hm
      · rw [List.getElem?_set_ne (Ne.symm hj)] at hw
        exact h.nodup _ _ _ hw
  have := key.perm (v := v) (k := k) (es := some (a.made, t) :: es) (es' := es') (by simp [hlt]) hp
  simpa using this

/-- Destroying the objects of a vector, keeping (at most) its null entries. -/
theorem Corr.cleared {a b b'} (h : Corr a b) {v : Nat} {k : Kind} {es gone rest : List Entry}
    (hv : a.vecs[v]? = some (some (k, es))) (hr : b'.recs = b.recs) (hl : b'.objs.length = b.objs.length)
    (hg : ∀ e, e ∈ rest ∨ e ∈ gone → e = none ∨ e ∈ es)
    (hc : ∀ i t, some (i, t) ∈ es → (some (i, t) ∈ gone ∨ some (i, t) ∈ rest))
    (hd : ∀ i, i ∈ ids rest → i ∉ ids gone) (hnd : (ids rest).Nodup)
    (ho : ∀ i : Nat, b'.objs[i]? = if i ∈ ids gone then some none else b.objs[i]?) :
    Corr { a with vecs := a.vecs.set v (some (k, rest)) } b' := by
  have hlt := lt_of_get hv
  refine ⟨?_, by rw [hl, h.len], ?_, ?_⟩
  · rw [hr, h.kinds, kinds_set _ hv]
  · intro i w t
    rw [ho]
    by_cases hi : i ∈ ids gone
    · simp only [hi, if_true, Option.some.injEq, reduceCtorEq, false_iff]
      rintro ⟨k', es1, hw, hm⟩
      obtain ⟨t', ht'⟩ := mem_ids.1 hi
      have hmem := (hg _ (.inr ht')).resolve_left (by simp)
      have h1 := (h.objs i v t').2 ⟨_, _, hv, hmem⟩
      by_cases hj : w = v
      · subst hj
        simp only [List.getElem?_set_self hlt, Option.some.injEq, Prod.mk.injEq] at hw
        obtain ⟨rfl, rfl⟩ := hw
        exact hd i (mem_ids.2 ⟨t, hm⟩) hi
      · rw [List.getElem?_set_ne (Ne.symm hj)] at hw
        have h2 := (h.objs i w t).2 ⟨_, _, hw, hm⟩
        rw [h1] at h2; simp at h2; exact hj h2.1.symm
    · simp only [hi, if_false]
      rw [h.objs]
      by_cases hj : w = v
      · subst hj
        simp only [hv, List.getElem?_set_self hlt, Option.some.injEq, Prod.mk.injEq]
        constructor
        · rintro ⟨_, _, ⟨rfl, rfl⟩, hm⟩
          refine ⟨_, _, ⟨rfl, rfl⟩, (hc i t hm).resolve_left (fun hx => hi (mem_ids.2 ⟨t, hx⟩))⟩
        · rintro ⟨_, _, ⟨rfl, rfl⟩, hm⟩
          exact ⟨_, _, ⟨rfl, rfl⟩, (hg _ (.inl hm)).resolve_left (by simp)⟩
      · simp [List.getElem?_set_ne (Ne.symm hj)]
  · intro w k' es1 hw
    by_cases hj : w = v
    · subst hj
      simp only [List.getElem?_set_self hlt, Option.some.injEq, Prod.mk.injEq] at hw
      obtain ⟨rfl, rfl⟩ := hw
      exact hnd
    · rw [List.getElem?_set_ne (Ne.symm hj)] at hw
      exact h.nodup _ _ _ hw

end Verif.RecVec
