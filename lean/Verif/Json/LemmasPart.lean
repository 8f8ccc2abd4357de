import Verif.Json.Part

/-! # Lemmas about the parts of JSON values -/

namespace Verif.Json.Part

open Verif Spec

variable {R : Type}

/-! ## One level -/

/-- The step that leads to index `i`. -/
def nm : Val R → Nat → Option Step
  | .obj kvs, i => kvs[i]?.map (fun x => .key x.1)
  | .arr vs, i => if i < vs.length then some (.idx i) else none
  | _, _ => none

def kid : Val R → Step → Option (Val R)
  | .obj kvs, .key k => (kvs.find? (fun x => decide (x.1 = k))).map (·.2)
  | .arr vs, .idx n => vs[n]?
  | _, _ => none

theorem look_cons (v : Val R) (s : Step) (p : List Step) : look v (s :: p) = (kid v s).bind (fun w => look w p) := by
  cases v <;> cases s <;> simp [look, kid]
  case obj.key kvs k => cases h : kvs.find? (fun x => decide (x.1 = k)) <;> simp

theorem toMap_kid (kvs : List (List Char × Val R)) (k : List Char) : Container.toMap kvs k = kid (.obj kvs) (.key k) := rfl

theorem Sorted.inc {kvs : List (List Char × Val R)} (h : Sorted (.obj kvs)) : Container.Increasing strLt kvs := by
  cases h with | obj _ h => exact h

theorem Sorted.mem {kvs : List (List Char × Val R)} (h : Sorted (.obj kvs)) : ∀ p ∈ kvs, Sorted p.2 := by
  cases h with | obj h _ => exact h

theorem Sorted.amem {vs : List (Val R)} (h : Sorted (.arr vs)) : ∀ p ∈ vs, Sorted p := by
  cases h with | arr h => exact h

theorem child_sorted {v c : Val R} (h : Sorted v) {i : Nat} (hc : child v i = some c) : Sorted c := by
  cases v <;> simp [child] at hc
  case obj kvs =>
    obtain ⟨k, hk⟩ := hc
    exact Sorted.mem h _ (List.mem_of_getElem? hk)
  case arr vs => exact Sorted.amem h _ (List.mem_of_getElem? hc)

theorem inc_lt {kvs : List (List Char × Val R)} (h : Container.Increasing strLt kvs) {i j : Nat} {x y : List Char × Val R}
    (hi : kvs[i]? = some x) (hj : kvs[j]? = some y) : i < j ↔ strLt x.1 y.1 = true := by
  have hi' := List.getElem?_eq_some_iff.1 hi
  have hj' := List.getElem?_eq_some_iff.1 hj
  obtain ⟨h1, h2⟩ := hi'
  obtain ⟨h3, h4⟩ := hj'
  have hp := List.pairwise_iff_getElem.1 h
  constructor
  · intro hlt
    have := hp i j h1 h3 hlt
    rwa [h2, h4] at this
  · intro hlt
    rcases Nat.lt_trichotomy i j with h5 | h5 | h5
    · exact h5
    · subst h5
      rw [hi] at hj
      cases hj
      rw [strLt_irrefl] at hlt; cases hlt
    · have := hp j i h3 h1 h5
      rw [h2, h4] at this
      rw [strLt_strictTotal.antisymm this] at hlt; cases hlt

theorem nm_inj {v : Val R} (h : Sorted v) {i j : Nat} {s : Step} (hi : nm v i = some s) (hj : nm v j = some s) : i = j := by
  cases v <;> simp [nm] at hi hj
  case obj kvs =>
    obtain ⟨k1, ⟨w1, h1⟩, rfl⟩ := hi
    obtain ⟨k2, ⟨w2, h2⟩, h3⟩ := hj
    cases h3
    rcases Nat.lt_trichotomy i j with h5 | h5 | h5
    · have := (inc_lt (Sorted.inc h) h1 h2).1 h5
      rw [strLt_irrefl] at this; cases this
    · exact h5
    · have := (inc_lt (Sorted.inc h) h2 h1).1 h5
      rw [strLt_irrefl] at this; cases this
  case arr vs =>
    obtain ⟨_, rfl⟩ := hi
    obtain ⟨_, h3⟩ := hj
    cases h3; rfl

theorem kid_iff {v : Val R} (h : Sorted v) {s : Step} {w : Val R} :
    kid v s = some w ↔ ∃ i, nm v i = some s ∧ child v i = some w := by
  cases v <;> simp [kid, nm, child]
  case obj kvs =>
    cases s with
    | idx n => simp
    | key k =>
      have := Container.mem_toMap strLt_strictTotal (Sorted.inc h) (k := k) (v := w)
      rw [toMap_kid] at this
      simp only [kid, Option.map_eq_some_iff] at this
      simp only [Option.map_eq_some_iff]
      rw [this, List.mem_iff_getElem?]
      constructor
      · rintro ⟨i, hi⟩
        exact ⟨i, ⟨k, ⟨w, hi⟩, rfl⟩, k, hi⟩
      · rintro ⟨i, ⟨k2, ⟨w2, hx⟩, hx'⟩, k', h'⟩
        rw [h'] at hx
        cases hx; cases hx'
        exact ⟨i, h'⟩
  case arr vs =>
    cases s with
    | key k => simp
    | idx n =>
      constructor
      · intro h1
        refine ⟨n, ⟨?_, rfl⟩, h1⟩
        exact (List.getElem?_eq_some_iff.1 h1).1
      · rintro ⟨i, ⟨h1, h2⟩, h3⟩
        cases h2; exact h3

theorem nm_child {v : Val R} {i : Nat} : (nm v i).isSome = (child v i).isSome := by
  cases v <;> simp [nm, child]
  case arr vs => by_cases h : i < vs.length <;> simp [h]

theorem nm_setChild (v : Val R) (i : Nat) (w : Val R) (j : Nat) : nm (setChild v i w) j = nm v j := by
  cases v <;> simp [setChild]
  case obj kvs =>
    cases h : kvs[i]? with
    | none => rfl
    | some x =>
      simp only [nm, List.getElem?_set]
      by_cases hij : i = j
      · subst hij
        have := (List.getElem?_eq_some_iff.1 h).1
        simp only [if_true, if_pos this, h, Option.map_some]
      · simp [hij]
  case arr vs => simp [nm]

theorem child_setChild {v : Val R} {i : Nat} {c : Val R} (hc : child v i = some c) (w : Val R) (j : Nat) :
    child (setChild v i w) j = if j = i then some w else child v j := by
  cases v <;> simp [child] at hc
  case obj kvs =>
    obtain ⟨k, hk⟩ := hc
    have := (List.getElem?_eq_some_iff.1 hk).1
    simp only [setChild, hk, child, List.getElem?_set]
    by_cases hij : i = j
    · subst hij; simp [this]
    · simp [hij, Ne.symm hij]
  case arr vs =>
    have := (List.getElem?_eq_some_iff.1 hc).1
    simp only [setChild, child, List.getElem?_set]
    by_cases hij : i = j
    · subst hij; simp [this]
    · simp [hij, Ne.symm hij]

theorem setChild_self {v : Val R} {i : Nat} {c : Val R} (hc : child v i = some c) : setChild v i c = v := by
  cases v <;> simp [child] at hc
  case obj kvs =>
    obtain ⟨k, hk⟩ := hc
    obtain ⟨h1, h2⟩ := List.getElem?_eq_some_iff.1 hk
    simp only [setChild, hk]
    congr 1
    rw [← h2, List.set_getElem_self]
  case arr vs =>
    obtain ⟨h1, h2⟩ := List.getElem?_eq_some_iff.1 hc
    simp only [setChild]
    rw [← h2, List.set_getElem_self]

theorem node_setChild (v : Val R) (i : Nat) (w : Val R) : node (setChild v i w) = node v := by
  cases v <;> simp [setChild, node]
  case obj kvs => cases kvs[i]? <;> rfl

theorem sorted_setChild {v : Val R} (h : Sorted v) {i : Nat} {w : Val R} (hw : Sorted w) : Sorted (setChild v i w) := by
  cases v
  case obj kvs =>
    simp only [setChild]
    cases hk : kvs[i]? with
    | none => exact h
    | some x =>
      obtain ⟨h1, h2⟩ := List.getElem?_eq_some_iff.1 hk
      refine .obj ?_ ?_
      · intro p hp
        rcases List.mem_or_eq_of_mem_set hp with hp | rfl
        · exact Sorted.mem h p hp
        · exact hw
      · have hinc := Sorted.inc h
        have : (kvs.map (·.1)).Pairwise (fun x y => strLt x y = true) := by
          rw [List.pairwise_map]; exact hinc
        have h3 : (kvs.set i (x.1, w)).map (·.1) = kvs.map (·.1) := by
          rw [List.map_set]
          have : x.1 = (kvs.map (·.1))[i]'(by simpa using h1) := by simp [h2]
          rw [this, List.set_getElem_self]
        rw [← h3, List.pairwise_map] at this
        exact this
  case arr vs =>
    simp only [setChild]
    refine .arr ?_
    intro p hp
    rcases List.mem_or_eq_of_mem_set hp with hp | rfl
    · exact Sorted.amem h p hp
    · exact hw
  all_goals exact h

theorem kid_setChild {v : Val R} (h : Sorted v) {i : Nat} {s : Step} {c : Val R} (hn : nm v i = some s) (hc : child v i = some c)
    {w : Val R} (hw : Sorted w) (s' : Step) : kid (setChild v i w) s' = if s' = s then some w else kid v s' := by
  have h' := sorted_setChild h (i := i) hw
  ext u
  rw [kid_iff h']
  simp only [nm_setChild, child_setChild hc]
  by_cases hs : s' = s
  · subst hs
    simp only [if_true]
    constructor
    · rintro ⟨j, h1, h2⟩
      rw [nm_inj h h1 hn, if_pos rfl] at h2
      exact h2
    · intro hu; exact ⟨i, hn, by simpa using hu⟩
  · simp only [if_neg hs]
    rw [kid_iff h]
    constructor
    · rintro ⟨j, h1, h2⟩
      rw [if_neg (by rintro rfl; rw [hn] at h1; cases h1; exact hs rfl)] at h2
      exact ⟨j, h1, h2⟩
    · rintro ⟨j, h1, h2⟩
      exact ⟨j, h1, by rw [if_neg (by rintro rfl; rw [hn] at h1; cases h1; exact hs rfl)]; exact h2⟩

/-- What `here` finds. -/
theorem here_spec {v : Val R} (h : Sorted v) (dbg : Bool) (s : Step) :
    match kid v s with
    | some w => ∃ i, here dbg v s = .ok (i, none) ∧ nm v i = some s ∧ child v i = some w
    | none => (∃ kvs k l r, v = .obj kvs ∧ s = .key k ∧ kvs = l ++ r ∧ (∀ x ∈ l, strLt x.1 k = true) ∧ (∀ x ∈ r, strLt k x.1 = true) ∧
          here dbg v s = .ok (l.length, some k)) ∨
        ((∀ k, ¬ (node v = .obj ∧ s = .key k)) ∧ (here dbg v s = .ub ∨ dbg = true ∧ here dbg v s = .assertFail)) := by
  cases v with
  | obj kvs =>
    cases s with
    | idx n =>
      simp only [kid, here, getArr]
      right
      refine ⟨by simp, ?_⟩
      cases dbg <;> simp
    | key k =>
      obtain ⟨l, r, h1, h2, h3, h4⟩ := Container.cut strLt_strictTotal (Sorted.inc h) k
      have hl := Container.lookup_ok strLt_strictTotal (Sorted.inc h) k
      rw [h3] at hl
      rcases h4 with ⟨h4, h5⟩ | ⟨w, h4, h5⟩
      · rw [toMap_kid] at h5
        simp only [h5]
        left
        refine ⟨kvs, k, l, r, rfl, rfl, h4, h1, h2, ?_⟩
        have : Container.isAt kvs l.length k = false := by
          subst h4
          simp only [Container.isAt, List.getElem?_append_right (Nat.le_refl _), Nat.sub_self]
          cases r with
          | nil => rfl
          | cons y r =>
            simp only [List.getElem?_cons_zero, beq_eq_false_iff_ne]
            rintro rfl
            have := h2 y (List.mem_cons_self ..)
            rw [strLt_irrefl] at this; cases this
        simp [here, getObj, hl, this]
      · rw [toMap_kid] at h5
        simp only [h5]
        have hx : kvs[l.length]? = some (k, w) := by
          rw [h4, List.getElem?_append_right (Nat.le_refl _)]; simp
        refine ⟨l.length, ?_, by simp [nm, hx], by simp [child, hx]⟩
        have : Container.isAt kvs l.length k = true := by simp [Container.isAt, hx]
        simp [here, getObj, hl, this]
  | arr vs =>
    cases s with
    | key k =>
      simp only [kid, here, getObj]
      right
      refine ⟨by simp [node], ?_⟩
      cases dbg <;> simp
    | idx n =>
      simp only [kid, here, getArr]
      cases hn : vs[n]? with
      | none =>
        right
        have := List.getElem?_eq_none_iff.1 hn
        refine ⟨by simp, .inl ?_⟩
        rw [Outcome.bind_ok, if_neg (by omega)]
      | some w =>
        have := (List.getElem?_eq_some_iff.1 hn).1
        exact ⟨n, by simp [this], by simp [nm, this], by simp [child, hn]⟩
  | _ =>
    cases s <;> simp only [kid, here, getObj, getArr] <;> right <;> refine ⟨by simp [node], ?_⟩ <;> cases dbg <;> simp

theorem child_insert {l r : List (List Char × Val R)} {k : List Char} {w : Val R} (j : Nat) :
    child (insertChild (.obj (l ++ r)) k l.length w) j =
      if j < l.length then child (.obj (l ++ r)) j else if j = l.length then some w else child (.obj (l ++ r)) (j - 1) := by
  simp only [insertChild, Container.emplace, List.take_left, List.drop_left, child]
  rcases Nat.lt_trichotomy j l.length with h | h | h
  · simp [h, List.getElem?_append_left]
  · subst h; simp
  · rw [if_neg (by omega), if_neg (by omega), List.getElem?_append_right (by omega), List.getElem?_append_right (by omega)]
    obtain ⟨n, hn⟩ : ∃ n, j - l.length = n + 1 := ⟨j - l.length - 1, by omega⟩
    rw [hn, List.getElem?_cons_succ]
    congr 2; omega

theorem nm_insert {l r : List (List Char × Val R)} {k : List Char} {w : Val R} (j : Nat) :
    nm (insertChild (.obj (l ++ r)) k l.length w) j =
      if j < l.length then nm (.obj (l ++ r)) j else if j = l.length then some (.key k) else nm (.obj (l ++ r)) (j - 1) := by
  simp only [insertChild, Container.emplace, List.take_left, List.drop_left, nm]
  rcases Nat.lt_trichotomy j l.length with h | h | h
  · simp [h, List.getElem?_append_left]
  · subst h; simp
  · rw [if_neg (by omega), if_neg (by omega), List.getElem?_append_right (by omega), List.getElem?_append_right (by omega)]
    obtain ⟨n, hn⟩ : ∃ n, j - l.length = n + 1 := ⟨j - l.length - 1, by omega⟩
    rw [hn, List.getElem?_cons_succ]
    congr 2; omega

theorem sorted_insert {l r : List (List Char × Val R)} {k : List Char} {w : Val R} (h : Sorted (.obj (l ++ r)))
    (hl : ∀ x ∈ l, strLt x.1 k = true) (hr : ∀ x ∈ r, strLt k x.1 = true) (hw : Sorted w) :
    Sorted (insertChild (.obj (l ++ r)) k l.length w) := by
  simp only [insertChild, Container.emplace, List.take_left, List.drop_left]
  refine .obj ?_ ?_
  · intro p hp
    rcases List.mem_append.1 hp with hp | hp
    · exact Sorted.mem h p (by simp [hp])
    · rcases List.mem_cons.1 hp with rfl | hp
      · exact hw
      · exact Sorted.mem h p (by simp [hp])
  · have := Sorted.inc h
    rw [Container.Increasing, List.pairwise_append] at this
    rw [List.pairwise_append, List.pairwise_cons]
    refine ⟨this.1, ⟨hr, this.2.1⟩, ?_⟩
    intro x hx y hy
    rcases List.mem_cons.1 hy with rfl | hy
    · exact hl x hx
    · exact this.2.2 x hx y hy

theorem kid_insert {l r : List (List Char × Val R)} {k : List Char} {w : Val R} (h : Sorted (.obj (l ++ r)))
    (hl : ∀ x ∈ l, strLt x.1 k = true) (hr : ∀ x ∈ r, strLt k x.1 = true) (hw : Sorted w) (s : Step) :
    kid (insertChild (.obj (l ++ r)) k l.length w) s = if s = .key k then some w else kid (.obj (l ++ r)) s := by
  have h' := sorted_insert h hl hr hw
  ext u
  rw [kid_iff h']
  have hk : ∀ j, nm (.obj (l ++ r)) j ≠ some (.key k) := by
    intro j hj
    simp only [nm, Option.map_eq_some_iff] at hj
    obtain ⟨x, hx, hx'⟩ := hj
    cases hx'
    rcases List.mem_append.1 (List.mem_of_getElem? hx) with hx | hx
    · have := hl _ hx; rw [strLt_irrefl] at this; cases this
    · have := hr _ hx; rw [strLt_irrefl] at this; cases this
  simp only [nm_insert, child_insert]
  by_cases hs : s = .key k
  · subst hs
    simp only [if_true]
    constructor
    · rintro ⟨j, h1, h2⟩
      by_cases h3 : j < l.length
      · rw [if_pos h3] at h1; exact absurd h1 (hk j)
      · rw [if_neg h3] at h1 h2
        by_cases h4 : j = l.length
        · rw [if_pos h4] at h2; exact h2
        · rw [if_neg h4] at h1; exact absurd h1 (hk _)
    · intro hu; exact ⟨l.length, by simp, by simpa using hu⟩
  · rw [if_neg hs, kid_iff h]
    constructor
    · rintro ⟨j, h1, h2⟩
      by_cases h3 : j < l.length
      · rw [if_pos h3] at h1 h2; exact ⟨j, h1, h2⟩
      · rw [if_neg h3] at h1 h2
        by_cases h4 : j = l.length
        · rw [if_pos h4] at h1; cases h1; exact absurd rfl hs
        · rw [if_neg h4] at h1 h2; exact ⟨j - 1, h1, h2⟩
    · rintro ⟨j, h1, h2⟩
      by_cases h3 : j < l.length
      · exact ⟨j, by rw [if_pos h3]; exact h1, by rw [if_pos h3]; exact h2⟩
      · refine ⟨j + 1, ?_, ?_⟩
        · rw [if_neg (by omega), if_neg (by omega)]; exact h1
        · rw [if_neg (by omega), if_neg (by omega)]; exact h2

/-! ## Paths -/

/-- The indices `a` lead to the same place as the path. -/
def At : Val R → List Step → List Nat → Prop
  | _, [], [] => True
  | v, s :: p, i :: a => nm v i = some s ∧ ∃ w, child v i = some w ∧ At w p a
  | _, _, _ => False

theorem At.kid {v : Val R} (h : Sorted v) {s : Step} {i : Nat} {w : Val R} (h1 : nm v i = some s) (h2 : child v i = some w) :
    kid v s = some w := (kid_iff h).2 ⟨i, h1, h2⟩

theorem at_look {v : Val R} {p : List Step} {a : List Nat} (h : Sorted v) (hp : At v p a) :
    ∃ w, copyOut.whole v a = .ok w ∧ Sorted w ∧ ∀ t, look v (p ++ t) = look w t := by
  induction p generalizing v a with
  | nil =>
    cases a with
    | cons => exact hp.elim
    | nil => exact ⟨v, rfl, h, fun t => rfl⟩
  | cons s p ih =>
    cases a with
    | nil => exact hp.elim
    | cons i a =>
      obtain ⟨h1, c, h2, h3⟩ := hp
      obtain ⟨w, h4, h5, h6⟩ := ih (child_sorted h h2) h3
      refine ⟨w, by rw [copyOut.whole, h2]; exact h4, h5, fun t => ?_⟩
      rw [List.cons_append, look_cons, At.kid h h1 h2, ← h6]; rfl

theorem at_of_look {v : Val R} {p : List Step} (h : Sorted v) (hp : look v p ≠ none) : ∃ a, At v p a := by
  induction p generalizing v with
  | nil => exact ⟨[], trivial⟩
  | cons s p ih =>
    rw [look_cons] at hp
    cases hk : kid v s with
    | none => rw [hk] at hp; exact absurd rfl hp
    | some w =>
      obtain ⟨i, h1, h2⟩ := (kid_iff h).1 hk
      rw [hk] at hp
      obtain ⟨a, ha⟩ := ih (child_sorted h h2) hp
      exact ⟨i :: a, h1, w, h2, ha⟩

/-- Copying one part while another part is being overwritten. -/
theorem copyOut_spec {v : Val R} {p q : List Step} {l r : List Nat} (h : Sorted v) (hp : At v p l) (hq : At v q r) :
    (p = q → ∃ w, look v p = some (node w) ∧ copyOut v r l = if owning w then .ub else .ok w) ∧
    (p ≠ q → (p <+: q ∨ q <+: p) → copyOut v r l = .ub) ∧
    (p ≠ q → ¬ (p <+: q ∨ q <+: p) → ∃ w, copyOut v r l = .ok w ∧ Sorted w ∧ ∀ t, look v (q ++ t) = look w t) := by
  induction p generalizing v q l r with
  | nil =>
    cases l with
    | cons => exact hp.elim
    | nil =>
      cases q with
      | nil =>
        cases r with
        | cons => exact hq.elim
        | nil => exact ⟨fun _ => ⟨v, rfl, rfl⟩, fun hn => absurd rfl hn, fun hn => absurd rfl hn⟩
      | cons s q =>
        cases r with
        | nil => exact hq.elim
        | cons i r => exact ⟨fun hn => (by cases hn), fun _ _ => rfl, fun _ hn => absurd (.inl List.nil_prefix) hn⟩
  | cons s p ih =>
    cases l with
    | nil => exact hp.elim
    | cons i l =>
      cases q with
      | nil =>
        cases r with
        | cons => exact hq.elim
        | nil => exact ⟨fun hn => (by cases hn), fun _ _ => rfl, fun _ hn => absurd (.inr List.nil_prefix) hn⟩
      | cons s' q =>
        cases r with
        | nil => exact hq.elim
        | cons j r =>
          obtain ⟨h1, c, h2, h3⟩ := hp
          obtain ⟨h4, c', h5, h6⟩ := hq
          have hcons : copyOut v (j :: r) (i :: l) = if j = i then copyOut c' r l else copyOut.whole c' r := by
            rw [copyOut]; simp only [h5]
          rw [hcons]
          by_cases hs : s' = s
          · subst hs
            have hji : j = i := nm_inj h h4 h1
            subst hji
            rw [h2] at h5
            cases h5
            rw [if_pos rfl]
            have := ih (child_sorted h h2) h3 h6
            simp only [List.cons.injEq, true_and, ne_eq, List.cons_prefix_cons, look_cons, At.kid h h1 h2, Option.bind_some,
              List.cons_append]
            exact this
          · have hji : j ≠ i := by
              rintro rfl
              rw [h1] at h4
              cases h4; exact hs rfl
            rw [if_neg hji]
            refine ⟨fun hn => by cases hn; exact absurd rfl hs, fun _ hn => ?_, fun _ _ => ?_⟩
            · rcases hn with hn | hn
              · exact absurd (List.cons_prefix_cons.1 hn).1.symm hs
              · exact absurd (List.cons_prefix_cons.1 hn).1 hs
            · obtain ⟨w, hw1, hw2, hw3⟩ := at_look (child_sorted h h5) h6
              refine ⟨w, hw1, hw2, fun t => ?_⟩
              rw [List.cons_append, look_cons, At.kid h h4 h5, ← hw3]; rfl

theorem setAt_spec {v : Val R} {p : List Step} {l : List Nat} (h : Sorted v) (hp : At v p l) {w : Val R} (hw : Sorted w) :
    ∃ v', setAt v l w = .ok v' ∧ Sorted v' ∧ (∀ t, look v' (p ++ t) = look w t) ∧ ∀ s, ¬ p <+: s → look v' s = look v s := by
  induction p generalizing v l with
  | nil =>
    cases l with
    | cons => exact hp.elim
    | nil => exact ⟨w, rfl, hw, fun t => rfl, fun s hs => absurd List.nil_prefix hs⟩
  | cons s p ih =>
    cases l with
    | nil => exact hp.elim
    | cons i l =>
      obtain ⟨h1, c, h2, h3⟩ := hp
      obtain ⟨c', h4, h5, h6, h7⟩ := ih (child_sorted h h2) h3
      refine ⟨setChild v i c', by simp [setAt, h2, h4], sorted_setChild h h5, fun t => ?_, fun s' hs' => ?_⟩
      · rw [List.cons_append, look_cons, kid_setChild h h1 h2 h5, if_pos rfl, ← h6]; rfl
      · cases s' with
        | nil => simp [look, node_setChild]
        | cons u s' =>
          rw [look_cons, look_cons, kid_setChild h h1 h2 h5]
          by_cases hu : u = s
          · subst hu
            rw [if_pos rfl, At.kid h h1 h2]
            exact h7 s' (fun hn => hs' (List.cons_prefix_cons.2 ⟨rfl, hn⟩))
          · rw [if_neg hu]

/-! ## Forming a reference -/

/-- The whole path exists: nothing changes. -/
theorem walk_there {v : Val R} {p : List Step} (h : Sorted v) (hp : look v p ≠ none) (dbg : Bool) (full : List Step → Bool)
    (done : List Step) : ∃ a, walk dbg full done v p = .ok (v, a, none) ∧ At v p a := by
  induction p generalizing v done with
  | nil => exact ⟨[], rfl, trivial⟩
  | cons s p ih =>
    rw [look_cons] at hp
    have hh := here_spec h dbg s
    cases hk : kid v s with
    | none => rw [hk] at hp; exact absurd rfl hp
    | some w =>
      rw [hk] at hp hh
      obtain ⟨i, h1, h2, h3⟩ := hh
      obtain ⟨a, h4, h5⟩ := ih (child_sorted h h3) hp (done ++ [s])
      exact ⟨i :: a, by simp [walk, h1, h3, h4, setChild_self h3], h2, w, h3, h5⟩

/-- The path neither exists nor can be made by an insertion. -/
theorem walk_bad {v : Val R} {p : List Step} (h : Sorted v) (hp : ¬ Reach v p) (dbg : Bool) (full : List Step → Bool)
    (done : List Step) : walk dbg full done v p = .ub ∨ dbg = true ∧ walk dbg full done v p = .assertFail := by
  induction p generalizing v done with
  | nil => exact absurd (.inl (by simp [look])) hp
  | cons s p ih =>
    have hh := here_spec h dbg s
    cases hk : kid v s with
    | some w =>
      rw [hk] at hh
      obtain ⟨i, h1, h2, h3⟩ := hh
      have hb : ¬ Reach w p := by
        rintro (hr | ⟨p', k, rfl, hr⟩)
        · exact hp (.inl (by rw [look_cons, hk]; exact hr))
        · exact hp (.inr ⟨s :: p', k, rfl, by rw [look_cons, hk]; exact hr⟩)
      rcases ih (child_sorted h h3) hb (done ++ [s]) with h4 | ⟨hd, h4⟩
      · left; simp [walk, h1, h3, h4]
      · right; exact ⟨hd, by simp [walk, h1, h3, h4]⟩
    | none =>
      rw [hk] at hh
      rcases hh with ⟨kvs, k, l, r, rfl, rfl, rfl, h1, h2, h3⟩ | ⟨h1, h2 | ⟨hd, h2⟩⟩
      · cases p with
        | nil => exact absurd (.inr ⟨[], k, rfl, rfl⟩) hp
        | cons s' p =>
          rcases ih (v := .nll) .nll (by
            rintro (hr | ⟨p', k', he, hr⟩)
            · cases s' <;> exact hr rfl
            · cases p' with
              | nil => simp [look, node] at hr
              | cons u p' => cases u <;> simp [look] at hr) (done ++ [.key k]) with h4 | ⟨hd, h4⟩
          · left; rw [walk, h3]; simp only [Outcome.bind_ok, h4]; rfl
          · right; refine ⟨hd, ?_⟩; rw [walk, h3]; simp only [Outcome.bind_ok, h4]; rfl
      · left; simp [walk, h2]
      · right; exact ⟨hd, by simp [walk, h2]⟩

/-- The last key is inserted; what becomes of other references. -/
theorem walk_new {v : Val R} {o : List Step} {k : List Char} (h : Sorted v) (ho : look v o = some .obj)
    (hp : look v (o ++ [.key k]) = none) (dbg : Bool) (full : List Step → Bool) (done : List Step) :
    ∃ v' a i, walk dbg full done v (o ++ [.key k]) = .ok (v', a ++ [i], some (a, i, full (done ++ o))) ∧ Sorted v' ∧
      At v' (o ++ [.key k]) (a ++ [i]) ∧ (∀ s, look v' s = if s = o ++ [.key k] then some .nll else look v s) ∧
      ∀ x b, At v x b → ∀ f : Bool,
        ((∃ j rest, x = o ++ .key j :: rest ∧ (f = true ∨ (rest = [] ∧ strLt k j = true))) → afterInsert f i a b = none) ∧
        (¬ (∃ j rest, x = o ++ .key j :: rest ∧ (f = true ∨ (rest = [] ∧ strLt k j = true))) →
          ∃ b', afterInsert f i a b = some b' ∧ At v' x b') := by
  induction o generalizing v done with
  | nil =>
    have hh := here_spec h dbg (.key k)
    rw [List.nil_append, look_cons] at hp
    have hk : kid v (.key k) = none := by
      cases hk : kid v (.key k) with
      | none => rfl
      | some w => rw [hk] at hp; simp [look] at hp
    rw [hk] at hh
    rcases hh with ⟨kvs, k', l, r, rfl, hk', rfl, h1, h2, h3⟩ | ⟨h1, _⟩
    swap
    · simp only [look, Option.some.injEq] at ho
      exact absurd ⟨ho, rfl⟩ (h1 k)
    cases hk'
    refine ⟨insertChild (.obj (l ++ r)) k l.length .nll, [], l.length, by simp [walk, h3], sorted_insert h h1 h2 .nll, ?_, ?_, ?_⟩
    · exact ⟨by rw [nm_insert]; simp, .nll, by rw [child_insert]; simp, trivial⟩
    · intro s
      cases s with
      | nil => rfl
      | cons u s =>
        rw [look_cons, kid_insert h h1 h2 .nll, look_cons]
        by_cases hu : u = .key k
        · subst hu
          simp only [List.nil_append, if_true, Option.bind_some, hk, Option.bind_none]
          cases s with
          | nil => simp [look, node]
          | cons u' s => cases u' <;> simp [look]
        · simp [hu]
    · intro x b hx f
      cases x with
      | nil =>
        cases b with
        | cons => exact hx.elim
        | nil => exact ⟨fun ⟨j, rest, he, _⟩ => by simp at he, fun _ => ⟨[], by simp [afterInsert], trivial⟩⟩
      | cons s x =>
        cases b with
        | nil => exact hx.elim
        | cons j b =>
          obtain ⟨h4, c, h5, h6⟩ := hx
          -- the name of the step
          have hj : ∃ kj, s = .key kj ∧ (l ++ r)[j]? = some (kj, c) := by
            simp only [nm, child, Option.map_eq_some_iff] at h4 h5
            obtain ⟨y, hy, rfl⟩ := h4
            obtain ⟨z, hz, rfl⟩ := h5
            rw [hy] at hz
            cases hz
            exact ⟨y.1, rfl, hy⟩
          obtain ⟨kj, rfl, hj⟩ := hj
          have hlt : j < l.length ↔ strLt kj k = true := by
            constructor
            · intro hlt
              rw [List.getElem?_append_left hlt] at hj
              exact h1 _ (List.mem_of_getElem? hj)
            · intro hlt
              rcases Nat.lt_or_ge j l.length with h' | h'
              · exact h'
              · rw [List.getElem?_append_right h'] at hj
                have := h2 _ (List.mem_of_getElem? hj)
                rw [strLt_strictTotal.antisymm this] at hlt; cases hlt
          have hgt : ¬ j < l.length → strLt k kj = true := by
            intro hn
            rw [List.getElem?_append_right (by omega)] at hj
            exact h2 _ (List.mem_of_getElem? hj)
          have hx0 : (b = []) ↔ (x = []) := by
            cases b <;> cases x <;> simp [At] at h6 ⊢
          constructor
          · rintro ⟨kj', rest, he, hc⟩
            simp only [List.nil_append, List.cons.injEq, Step.key.injEq] at he
            obtain ⟨rfl, rfl⟩ := he
            rcases hc with rfl | ⟨hc, hc'⟩
            · simp [afterInsert]
            · have : ¬ j < l.length := fun h' => by
                have := hlt.1 h'
                rw [strLt_strictTotal.antisymm this] at hc'; cases hc'
              rw [afterInsert, if_neg this, if_pos (hx0.2 hc)]
              cases f <;> rfl
          · intro hn
            have hf : f = false := by
              cases f with
              | false => rfl
              | true => exact absurd ⟨kj, x, rfl, .inl rfl⟩ hn
            subst hf
            by_cases hjl : j < l.length
            · refine ⟨j :: b, by simp [afterInsert, hjl], ?_, c, ?_, h6⟩
              · rw [nm_insert, if_pos hjl]; exact h4
              · rw [child_insert, if_pos hjl]; exact h5
            · have hbx : b ≠ [] := fun hb => hn ⟨kj, x, rfl, .inr ⟨hx0.1 hb, hgt hjl⟩⟩
              refine ⟨(j + 1) :: b, by simp [afterInsert, hjl, hbx], ?_, c, ?_, h6⟩
              · rw [nm_insert, if_neg (by omega), if_neg (by omega)]; exact h4
              · rw [child_insert, if_neg (by omega), if_neg (by omega)]; exact h5
  | cons s o ih =>
    have hh := here_spec h dbg s
    rw [look_cons] at ho
    rw [List.cons_append, look_cons] at hp
    cases hk : kid v s with
    | none => rw [hk] at ho; cases ho
    | some w =>
      rw [hk] at hh ho hp
      obtain ⟨i, h1, h2, h3⟩ := hh
      obtain ⟨w', a, n, h4, h5, h6, h7, h8⟩ := ih (child_sorted h h3) ho hp (done ++ [s])
      refine ⟨setChild v i w', i :: a, n, ?_, sorted_setChild h h5, ?_, ?_, ?_⟩
      · simp [walk, h1, h3, h4]
      · exact ⟨by rw [nm_setChild]; exact h2, w', by rw [child_setChild h3, if_pos rfl], h6⟩
      · intro u
        cases u with
        | nil => simp [look, node_setChild]
        | cons u us =>
          rw [look_cons, kid_setChild h h2 h3 h5, look_cons]
          by_cases hu : u = s
          · subst hu
            simp only [if_true, Option.bind_some, h7, hk, List.cons_append, List.cons.injEq, true_and]
          · simp [hu]
      · intro x b hx f
        cases x with
        | nil =>
          cases b with
          | cons => exact hx.elim
          | nil => exact ⟨fun ⟨j, rest, he, _⟩ => by simp at he, fun _ => ⟨[], by simp [afterInsert], trivial⟩⟩
        | cons s' x =>
          cases b with
          | nil => exact hx.elim
          | cons j b =>
            obtain ⟨g1, c, g2, g3⟩ := hx
            by_cases hs : s' = s
            · subst hs
              have hij : j = i := nm_inj h g1 h2
              subst hij
              rw [h3] at g2
              cases g2
              obtain ⟨k1, k2⟩ := h8 x b g3 f
              constructor
              · rintro ⟨kj, rest, he, hc⟩
                simp only [List.cons_append, List.cons.injEq, true_and] at he
                rw [afterInsert, if_pos rfl, k1 ⟨kj, rest, he, hc⟩]; rfl
              · intro hn
                obtain ⟨b', hb1, hb2⟩ := k2 (fun ⟨kj, rest, he, hc⟩ => hn ⟨kj, rest, by rw [he]; rfl, hc⟩)
                refine ⟨j :: b', by rw [afterInsert, if_pos rfl, hb1]; rfl, ?_, w', ?_, hb2⟩
                · rw [nm_setChild]; exact g1
                · rw [child_setChild h3, if_pos rfl]
            · have hij : j ≠ i := by
                rintro rfl
                rw [g1] at h2
                cases h2; exact hs rfl
              constructor
              · rintro ⟨kj, rest, he, hc⟩
                simp only [List.cons_append, List.cons.injEq] at he
                exact absurd he.1 hs
              · intro hn
                refine ⟨j :: b, by rw [afterInsert, if_neg (Ne.symm hij)], ?_, c, ?_, g3⟩
                · rw [nm_setChild]; exact g1
                · rw [child_setChild h3, if_neg hij]; exact g2

end Verif.Json.Part
