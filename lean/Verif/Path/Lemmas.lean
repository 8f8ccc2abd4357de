import Verif.Path.Spec
import Verif.Str.Theorems

/-!
# Lemmas about paths
-/

namespace Verif.Path

open Verif Str

/-! ## Normalisation -/

/-- What the collapsing loop computes, without indices; the flag says that the previous character was a slash. -/
def coll : Bool → Str → Str
  | _, [] => []
  | b, c :: s => if c = '/' then (if b then coll true s else '/' :: coll true s) else c :: coll false s

theorem coll_true_dropWhile (s : Str) : coll true s = coll false (s.dropWhile (· == '/')) := by
  induction s with
  | nil => rfl
  | cons c s ih =>
    by_cases h : c = '/'
    · subst h; simp [coll, ih]
    · simp [coll, h]

theorem slashRun_eq (p r : Str) : slashRun (p ++ r) p.length = p.length + (r.takeWhile (· == '/')).length := by
  induction r generalizing p with
  | nil => rw [slashRun]; simp
  | cons c r ih =>
    rw [slashRun]
    simp only [List.length_append, List.length_cons, show p.length < p.length + (r.length + 1) by omega, dif_pos,
      List.getElem_append_right (Nat.le_refl _), Nat.sub_self, List.getElem_cons_zero]
    by_cases h : c = '/'
    · subst h
      have := ih (p ++ ['/'])
      simp only [List.append_assoc, List.singleton_append, List.length_append, List.length_singleton] at this
      rw [if_pos rfl, this]
      simp; omega
    · simp [h]

theorem collapse_eq (p r : Str) : collapse (p ++ r) p.length = p ++ coll false r := by
  induction h : r.length using Nat.strongRecOn generalizing p r with
  | _ n ih =>
    cases r with
    | nil => rw [collapse]; simp [coll]
    | cons c r =>
      rw [collapse]
      simp only [List.length_append, List.length_cons, show p.length < p.length + (r.length + 1) by omega, dif_pos,
        List.getElem_append_right (Nat.le_refl _), Nat.sub_self, List.getElem_cons_zero]
      by_cases hc : c = '/'
      · subst hc
        simp only [ne_eq, not_true_eq_false, if_false]
        rw [slashRun_eq]
        have he : erase (p ++ '/' :: r) p.length
            (p.length + (List.takeWhile (· == '/') ('/' :: r)).length - p.length - 1) =
            (p ++ ['/']) ++ r.dropWhile (· == '/') := by
          have e1 : p.length + (List.takeWhile (· == '/') ('/' :: r)).length - p.length - 1 =
              (r.takeWhile (· == '/')).length := by simp
          have e2 : ('/' :: r : Str) = List.replicate (r.takeWhile (· == '/')).length '/' ++
              ('/' :: r.dropWhile (· == '/')) := by
            have h1 : r.takeWhile (· == '/') = List.replicate (r.takeWhile (· == '/')).length '/' := by
              apply List.eq_replicate_of_mem
              intro b hb
              have := List.all_eq_true.1 (List.all_takeWhile (p := (· == '/')) (l := r)) b hb
              simpa using this
            have h2 : ∀ n (t : Str), '/' :: (List.replicate n '/' ++ t) = List.replicate n '/' ++ '/' :: t := by
              intro n t
              induction n with
              | zero => rfl
              | succ n ih => rw [List.replicate_succ, List.cons_append, ih, List.cons_append]
            conv_lhs => rw [← List.takeWhile_append_dropWhile (p := (· == '/')) (l := r), h1]
            exact h2 _ _
          rw [e1]
          unfold erase
          rw [List.take_left' rfl, ← List.drop_drop, List.drop_left' rfl]
          conv_lhs => rw [e2]
          rw [List.drop_left' (by simp)]
          simp
        rw [he]
        have := ih (r.dropWhile (· == '/')).length (by
          have h1 : (r.dropWhile (· == '/')).length ≤ r.length := (List.dropWhile_sublist _).length_le
          simp only [List.length_cons] at h; omega) (p ++ ['/']) (r.dropWhile (· == '/')) rfl
        rw [show p.length + 1 = (p ++ ['/']).length by simp, this, List.append_assoc, ← coll_true_dropWhile]
        simp [coll]
      · have := ih r.length (by simp only [List.length_cons] at h; omega) (p ++ [c]) r rfl
        rw [if_pos hc]
        simp only [List.append_assoc, List.singleton_append, List.length_append, List.length_singleton] at this
        rw [this]
        simp [coll, hc]

theorem collapse_zero (s : Str) : collapse s 0 = coll false s := collapse_eq [] s

theorem coll_mem (b : Bool) (s : Str) (c : Char) (h : c ∈ coll b s) : c ∈ s := by
  induction s generalizing b with
  | nil => simpa [coll] using h
  | cons d s ih =>
    by_cases hd : d = '/'
    · subst hd
      cases b
      · simp only [coll, if_true, Bool.false_eq_true, if_false, List.mem_cons] at h ⊢
        rcases h with h | h
        · exact .inl h
        · exact .inr (ih _ h)
      · simp only [coll, if_true, List.mem_cons] at h ⊢
        exact .inr (ih _ h)
    · simp only [coll, if_neg hd, List.mem_cons] at h ⊢
      rcases h with h | h
      · exact .inl h
      · exact .inr (ih _ h)

theorem coll_head (s : Str) : (coll false s).head? = s.head? := by
  cases s with
  | nil => rfl
  | cons c s => by_cases h : c = '/' <;> simp [coll, h]

theorem coll_true_head (s : Str) : (coll true s).head? ≠ some '/' := by
  induction s with
  | nil => simp [coll]
  | cons c s ih => by_cases h : c = '/' <;> simp [coll, h, ih]

theorem infix_double (c : Char) (s : Str) : ['/', '/'] <:+: c :: s ↔ (c = '/' ∧ s.head? = some '/') ∨ ['/', '/'] <:+: s := by
  rw [List.infix_cons_iff]
  apply or_congr _ Iff.rfl
  cases s with
  | nil => simp
  | cons d s => simp [List.cons_prefix_cons, eq_comm]

theorem coll_no_double (b : Bool) (s : Str) : ¬ ['/', '/'] <:+: coll b s := by
  induction s generalizing b with
  | nil => simp [coll]
  | cons c s ih =>
    by_cases h : c = '/'
    · subst h
      cases b
      · simp only [coll, if_true, Bool.false_eq_true, if_false, infix_double]
        rintro (⟨_, h⟩ | h)
        · exact coll_true_head s h
        · exact ih _ h
      · simpa [coll] using ih true
    · simp only [coll, if_neg h, infix_double]
      rintro (⟨h', _⟩ | h')
      · exact h h'
      · exact ih _ h'

theorem coll_id (b : Bool) (s : Str) (h : ¬ ['/', '/'] <:+: s) (hb : b = true → s.head? ≠ some '/') : coll b s = s := by
  induction s generalizing b with
  | nil => rfl
  | cons c s ih =>
    rw [infix_double] at h
    by_cases hc : c = '/'
    · subst hc
      cases b
      · simp only [coll, if_true, Bool.false_eq_true, if_false]
        rw [ih true (fun h' => h (.inr h')) (fun _ h' => h (.inl ⟨rfl, h'⟩))]
      · exact absurd rfl (hb rfl)
    · simp only [coll, if_neg hc]
      rw [ih false (fun h' => h (.inr h')) (by simp)]

theorem getLast?_cons_congr {α : Type} (x : α) {l l' : List α} (h : l.getLast? = l'.getLast?) :
    (x :: l).getLast? = (x :: l').getLast? := by
  rw [List.getLast?_cons, List.getLast?_cons, h]

theorem coll_getLast (s : Str) : (coll false s).getLast? = s.getLast? ∧
    ('/' :: coll true s).getLast? = ('/' :: s).getLast? := by
  induction s with
  | nil => exact ⟨rfl, rfl⟩
  | cons c s ih =>
    by_cases h : c = '/'
    · subst h
      refine ⟨by simpa [coll] using ih.2, ?_⟩
      simp only [coll, if_true]
      rw [ih.2, List.getLast?_cons_cons]
    · simp only [coll, if_neg h]
      refine ⟨getLast?_cons_congr _ ih.1, ?_⟩
      rw [List.getLast?_cons_cons, List.getLast?_cons_cons]
      exact getLast?_cons_congr _ ih.1

theorem components_sep (c : Char) (s : Str) (h : isSep c = true) : components (c :: s) = components s := by
  simp [components, List.splitOnP_cons_eq_if_modifyHead, h]

theorem components_cons (c : Char) (s : Str) (h : isSep c = false) :
    components (c :: s) = (c :: (s.splitOnP isSep).headD []) :: ((s.splitOnP isSep).tail).filter (fun n => !n.isEmpty) := by
  simp only [components, List.splitOnP_cons_eq_if_modifyHead, h, Bool.false_eq_true, if_false]
  cases hs : s.splitOnP isSep with
  | nil => exact absurd hs (List.splitOnP_ne_nil _ _)
  | cons x t => simp

theorem components_tail {s t : Str} (h1 : components s = components t)
    (h2 : (s.splitOnP isSep).headD [] = (t.splitOnP isSep).headD []) :
    ((s.splitOnP isSep).tail).filter (fun n => !n.isEmpty) = ((t.splitOnP isSep).tail).filter (fun n => !n.isEmpty) := by
  unfold components at h1
  cases hs : s.splitOnP isSep with
  | nil => exact absurd hs (List.splitOnP_ne_nil _ _)
  | cons x s' =>
    cases ht : t.splitOnP isSep with
    | nil => exact absurd ht (List.splitOnP_ne_nil _ _)
    | cons y t' =>
      rw [hs, ht] at h1 h2
      simp only [List.headD_cons] at h2
      subst h2
      cases x
      · simpa using h1
      · simpa using h1

theorem coll_components (s : Str) : (∀ b, components (coll b s) = components s) ∧
    ((coll false s).splitOnP isSep).headD [] = (s.splitOnP isSep).headD [] := by
  induction s with
  | nil => exact ⟨fun _ => rfl, rfl⟩
  | cons c s ih =>
    have hs : ∀ c, isSep c = false → components (c :: coll false s) = components (c :: s) := by
      intro c hc
      rw [components_cons _ _ hc, components_cons _ _ hc, ih.2, components_tail (ih.1 false) ih.2]
    have hh : ∀ t : Str, ((c :: t).splitOnP isSep).headD [] = if isSep c then [] else c :: (t.splitOnP isSep).headD [] := by
      intro t
      rw [List.splitOnP_cons_eq_if_modifyHead]
      split
      · rfl
      · cases ht : t.splitOnP isSep with
        | nil => exact absurd ht (List.splitOnP_ne_nil _ _)
        | cons x t' => rfl
    by_cases hc : c = '/'
    · subst hc
      have hsep : isSep '/' = true := rfl
      refine ⟨fun b => ?_, ?_⟩
      · cases b
        · simp only [coll, if_true, Bool.false_eq_true, if_false]
          rw [components_sep _ _ hsep, components_sep _ _ hsep, ih.1]
        · simp only [coll, if_true]
          rw [components_sep _ _ hsep, ih.1]
      · simp only [coll, if_true, Bool.false_eq_true, if_false]
        rw [hh, hh]; rfl
    · have e : ∀ b, coll b (c :: s) = c :: coll false s := fun b => by simp [coll, hc]
      refine ⟨fun b => ?_, ?_⟩
      · rw [e]
        cases hsep : isSep c
        · exact hs c hsep
        · rw [components_sep _ _ hsep, components_sep _ _ hsep, ih.1]
      · rw [e, hh, hh, ih.2]

/-- Replacing backslashes. -/
def unback (c : Char) : Char := if c = '\\' then '/' else c

theorem isSep_unback (c : Char) : isSep (unback c) = isSep c := by
  unfold unback
  split
  · subst_vars; rfl
  · rfl

theorem splitOnP_unback (s : Str) : (s.map unback).splitOnP isSep = s.splitOnP isSep := by
  induction s with
  | nil => rfl
  | cons c s ih =>
    rw [List.map_cons, List.splitOnP_cons_eq_if_modifyHead, List.splitOnP_cons_eq_if_modifyHead, ih, isSep_unback]
    split
    · rfl
    · rename_i h
      have : unback c = c := by
        unfold unback
        split
        · subst_vars; exact absurd rfl h
        · rfl
      rw [this]

theorem components_unback (s : Str) : components (s.map unback) = components s := by
  rw [components, splitOnP_unback]; rfl

theorem unback_id (s : Str) (h : '\\' ∉ s) : s.map unback = s := by
  conv_rhs => rw [← List.map_id s]
  apply List.map_congr_left
  intro c hc
  unfold unback
  have : c ≠ '\\' := by rintro rfl; exact h hc
  rw [if_neg this]; rfl

theorem not_mem_unback (s : Str) : '\\' ∉ s.map unback := by
  simp only [List.mem_map, not_exists, not_and]
  intro c _ h
  unfold unback at h
  split at h
  · exact absurd h (by decide)
  · contradiction

theorem endsWith_ok (s n : Str) : endsWith s n = .ok (decide (n <:+ s)) := (C35_prefix_suffix s n).2

theorem suffix_singleton (c : Char) (s : Str) : [c] <:+ s ↔ s.getLast? = some c := by
  rw [List.getLast?_eq_some_iff]
  constructor
  · rintro ⟨t, rfl⟩; exact ⟨t, rfl⟩
  · rintro ⟨t, rfl⟩; exact ⟨t, rfl⟩

/-- The result of a normalisation. -/
theorem normalize_of (fs : FS) (s : Str) :
    normalize fs (PathObj.of s) = .ok ⟨(fun u => if ¬ ['/'] <:+ u ∧ isFolder fs u = true then u ++ ['/'] else u)
      (coll false (s.map unback)), false⟩ := by
  simp only [normalize, PathObj.of, Bool.not_true, Bool.false_eq_true, if_false, collapse_zero, endsWith_ok,
    Outcome.bind_ok]
  have : (fun c => if c = '\\' then '/' else c) = unback := rfl
  rw [this]
  congr 2
  by_cases h : ['/'] <:+ coll false (s.map unback) <;>
    cases h' : isFolder fs (coll false (s.map unback)) <;> simp [h]

theorem getStr_of (fs : FS) (s : Str) :
    getStr fs (PathObj.of s) = .ok ((fun u => if ¬ ['/'] <:+ u ∧ isFolder fs u = true then u ++ ['/'] else u)
      (coll false (s.map unback))) := by
  simp only [getStr, normalize_of, Outcome.bind_ok, Outcome.pure_eq]

theorem no_double_append (u : Str) (h : ¬ ['/', '/'] <:+: u) (h' : ¬ ['/'] <:+ u) : ¬ ['/', '/'] <:+: u ++ ['/'] := by
  induction u with
  | nil => decide
  | cons c u ih =>
    rw [infix_double] at h
    rw [List.cons_append, infix_double]
    rintro (⟨hc, hd⟩ | hd)
    · cases u with
      | nil => subst hc; exact h' ⟨[], rfl⟩
      | cons d u => exact h (.inl ⟨hc, by simpa using hd⟩)
    · refine ih (fun h'' => h (.inr h'')) ?_ hd
      rintro ⟨t, rfl⟩
      exact h' ⟨c :: t, rfl⟩

/-- A canonical path is only changed by a missing trailing slash. -/
theorem getStr_canonical (fs : FS) (s : Str) (h : Canonical s) :
    getStr fs (PathObj.of s) = .ok (if ¬ ['/'] <:+ s ∧ isFolder fs s = true then s ++ ['/'] else s) := by
  rw [getStr_of, unback_id s h.1, coll_id false s h.2 (by simp)]

theorem normalize_canonical (fs : FS) (s : Str) (h : Canonical s) :
    normalize fs (PathObj.of s) = .ok ⟨if ¬ ['/'] <:+ s ∧ isFolder fs s = true then s ++ ['/'] else s, false⟩ := by
  rw [normalize_of, unback_id s h.1, coll_id false s h.2 (by simp)]

end Verif.Path
