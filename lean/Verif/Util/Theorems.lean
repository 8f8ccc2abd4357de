import Verif.Util.Model
import Verif.Util.Spec
import Verif.Args.Theorems

/-!
# Container utilities: theorems
-/

namespace Verif.Util

open Spec

variable {α β κ τ : Type}

/-! ## C103 — erasing by value or predicate -/

/-- The elements before the new end. -/
def cut (o : List α × Nat) : List α := o.1.take o.2

theorem findIf_split (p : α → Bool) (c : List α) :
    (findIf p c = c.length ∧ ∀ x ∈ c, p x = false) ∨
    ∃ a x b, c = a ++ x :: b ∧ findIf p c = a.length ∧ p x = true ∧ ∀ y ∈ a, p y = false := by
  induction c with
  | nil => left; simp [findIf]
  | cons x xs ih =>
    cases hx : p x with
    | true => right; exact ⟨[], x, xs, rfl, by simp [findIf, hx], hx, by simp⟩
    | false =>
      rcases ih with ⟨h1, h2⟩ | ⟨a, y, b, h1, h2, h3, h4⟩
      · left; simpa [findIf, hx, h1] using h2
      · right
        refine ⟨x :: a, y, b, by simp [h1], by simp [findIf, hx, h2], h3, ?_⟩
        simpa [hx] using h4

/-- One round of the loop, with the container split into the elements kept, the gap and the rest. -/
theorem removeLoop_nil (p : List α → α → Bool) (moved : α → α) (a g : List α) :
    removeLoop p moved (a ++ g) a.length (a.length + g.length) = (a ++ g, a.length) := by
  unfold removeLoop
  split
  · rfl
  · rename_i x h
    have := (List.getElem?_eq_some_iff.mp h).1
    simp at this

theorem removeLoop_cons (p : List α → α → Bool) (moved : α → α) (a g : List α) (e x : α) (r : List α) :
    removeLoop p moved (a ++ (e :: g) ++ x :: r) a.length (a.length + (e :: g).length) =
      if p (a ++ (e :: g) ++ x :: r) x then
        removeLoop p moved (a ++ (e :: g ++ [x]) ++ r) a.length (a.length + (e :: g ++ [x]).length)
      else removeLoop p moved ((a ++ [x]) ++ (g ++ [moved x]) ++ r) (a ++ [x]).length
        ((a ++ [x]).length + (g ++ [moved x]).length) := by
  have h0 : (a ++ (e :: g) ++ x :: r)[a.length + (e :: g).length]? = some x := by
    rw [List.getElem?_append_right (by simp), List.length_append, Nat.sub_self]
    rfl
  rw [removeLoop]
  split
  · rename_i h; rw [h0] at h; cases h
  · rename_i y h
    rw [h0] at h
    cases h
    split
    · congr 1
      · simp
      · simp; omega
    · have e1 : ((a ++ (e :: g) ++ x :: r).set a.length x).set (a.length + (e :: g).length) (moved x) =
          (a ++ [x]) ++ (g ++ [moved x]) ++ r := by
        have h1 : (a ++ (e :: g) ++ x :: r).set a.length x = a ++ (x :: g) ++ x :: r := by
          rw [List.append_assoc, List.set_append_right _ _ (Nat.le_refl _), Nat.sub_self]
          simp
        rw [h1, List.set_append_right _ _ (by simp)]
        simp
      rw [e1]
      congr 1
      · simp
      · simp; omega

/-- What is kept when the predicate does not look at the container. -/
theorem removeLoop_pure (p : α → Bool) (moved : α → α) (r : List α) : ∀ (a g : List α) (e : α),
    cut (removeLoop (fun _ => p) moved (a ++ (e :: g) ++ r) a.length
      (a.length + (e :: g).length)) = a ++ r.filter (fun x => !p x) := by
  induction r with
  | nil => intro a g e; rw [List.append_nil, removeLoop_nil]; simp [cut]
  | cons x r ih =>
    intro a g e
    rw [removeLoop_cons]
    cases hx : p x with
    | true =>
      simp only [if_true]
      have := ih a (g ++ [x]) e
      rw [← List.cons_append] at this
      rw [this]
      simp [hx]
    | false =>
      simp only [Bool.false_eq_true, if_false]
      cases g with
      | nil =>
        have := ih (a ++ [x]) [] (moved x)
        rw [List.nil_append, this]
        simp [hx]
      | cons y g =>
        have := ih (a ++ [x]) (g ++ [moved x]) y
        rw [List.cons_append, this]
        simp [hx]

theorem removeIf_pure (p : α → Bool) (moved : α → α) (c : List α) :
    cut (removeIf (fun _ => p) moved c) = c.filter (fun x => !p x) := by
  unfold removeIf
  rcases findIf_split p c with ⟨h1, h2⟩ | ⟨a, x, b, h1, h2, h3, h4⟩
  · simp only [h1, if_true, cut, List.take_length]
    rw [List.filter_eq_self.mpr]
    intro y hy
    simp [h2 y hy]
  · have hne : findIf p c ≠ c.length := by rw [h2, h1]; simp
    simp only [hne, if_false]
    have := removeLoop_pure p moved b a [] x
    rw [h2]
    rw [h1]
    rw [List.append_assoc] at this
    have e : a ++ ([x] ++ b) = a ++ x :: b := rfl
    rw [e] at this
    rw [show a.length + [x].length = a.length + 1 from rfl] at this
    rw [this, List.filter_append, List.filter_cons_of_neg (by simp [h3])]
    congr 1
    rw [List.filter_eq_self.mpr]
    intro y hy
    simp [h4 y hy]

theorem without_filter (p : α → Bool) (c : List α) :
    Without (fun x => p x = true) c (c.filter (fun x => !p x)) := by
  induction c with
  | nil => exact .nil
  | cons x c ih =>
    cases hx : p x with
    | true => rw [List.filter_cons_of_neg (by simp [hx])]; exact .drop hx ih
    | false => rw [List.filter_cons_of_pos (by simp [hx])]; exact .keep (by simp [hx]) ih

/-- **C103.** `eraseRemoveIf` leaves exactly the elements that do not satisfy the predicate, in their order,
for every container and whatever moving leaves behind. -/
theorem C103_eraseRemoveIf (p : α → Bool) (moved : α → α) (c : List α) :
    Without (fun x => p x = true) c (eraseRemoveIf p moved c) := by
  have h := removeIf_pure p moved c
  have e : eraseRemoveIf p moved c = c.filter (fun x => !p x) := h
  rw [e]
  exact without_filter p c

/-- **C103.** `eraseRemove` with a value outside the container leaves exactly the elements that are not equal
to it, in their order. -/
theorem C103_eraseRemove (eq : α → β → Bool) (moved : α → α) (c : List α) (v : β) :
    Without (fun x => eq x v = true) c (eraseRemove eq moved c v) :=
  C103_eraseRemoveIf (fun x => eq x v) moved c

theorem without_unique {P : α → Prop} {c r s : List α} (h : Without P c r) (h' : Without P c s) : r = s := by
  induction h generalizing s with
  | nil => cases h'; rfl
  | drop hx _ ih =>
    cases h' with
    | drop _ h2 => exact ih h2
    | keep hn _ => exact absurd hx hn
  | keep hn _ ih =>
    cases h' with
    | drop hx _ => exact absurd hx hn
    | keep _ h2 => rw [ih h2]

/-! ### A value inside the container -/

section Alias
variable [BEq α] [LawfulBEq α]

/-- The predicate when the value is the element number `i`. -/
def isElem (i : Nat) (c : List α) (x : α) : Bool := some x == c[i]?

/-- The element compared with lies among those already written. -/
theorem removeLoop_after (moved : α → α) (i : Nat) (v : α) (r : List α) : ∀ (a g : List α) (e : α),
    a[i]? = some v →
    cut (removeLoop (isElem i) moved (a ++ (e :: g) ++ r) a.length
      (a.length + (e :: g).length)) = a ++ r.filter (fun x => !(x == v)) := by
  induction r with
  | nil => intro a g e _; rw [List.append_nil, removeLoop_nil]; simp [cut]
  | cons x r ih =>
    intro a g e ha
    have hlt : i < a.length := (List.getElem?_eq_some_iff.mp ha).1
    rw [removeLoop_cons]
    have hp : isElem i (a ++ (e :: g) ++ x :: r) x = (x == v) := by
      unfold isElem
      rw [List.append_assoc, List.getElem?_append_left hlt, ha]
      exact Option.some_beq_some
    rw [hp]
    cases hx : x == v with
    | true =>
      simp only [if_true]
      have := ih a (g ++ [x]) e ha
      rw [← List.cons_append] at this
      rw [this]
      simp [hx]
    | false =>
      simp only [Bool.false_eq_true, if_false]
      have ha' : (a ++ [x])[i]? = some v := by rw [List.getElem?_append_left hlt, ha]
      cases g with
      | nil =>
        have := ih (a ++ [x]) [] (moved x) ha'
        rw [List.nil_append, this]
        simp [hx]
      | cons y g =>
        have := ih (a ++ [x]) (g ++ [moved x]) y ha'
        rw [List.cons_append, this]
        simp [hx]

/-- The element compared with is not yet overwritten, and never will be. -/
theorem removeLoop_enough (moved : α → α) (i : Nat) (v : α) (r : List α) : ∀ (a g : List α) (e : α),
    a.length ≤ i → (a ++ (e :: g) ++ r)[i]? = some v →
    a.length + (r.filter (fun x => !(x == v))).length ≤ i →
    cut (removeLoop (isElem i) moved (a ++ (e :: g) ++ r) a.length
      (a.length + (e :: g).length)) = a ++ r.filter (fun x => !(x == v)) := by
  induction r with
  | nil => intro a g e _ _ _; rw [List.append_nil, removeLoop_nil]; simp [cut]
  | cons x r ih =>
    intro a g e hi hv hl
    rw [removeLoop_cons]
    have hp : isElem i (a ++ (e :: g) ++ x :: r) x = (x == v) := by
      unfold isElem
      rw [hv]
      exact Option.some_beq_some
    rw [hp]
    cases hx : x == v with
    | true =>
      simp only [if_true]
      have := ih a (g ++ [x]) e hi (by simpa using hv) (by simpa [hx] using hl)
      rw [← List.cons_append] at this
      rw [this]
      simp [hx]
    | false =>
      simp only [Bool.false_eq_true, if_false]
      rw [List.filter_cons_of_pos (by simp [hx]), List.length_cons] at hl
      have hnext : ((a ++ [x]) ++ (g ++ [moved x]) ++ r)[i]? = some v := by
        have hi' : a.length < i := by omega
        have hne : i ≠ a.length + (e :: g).length := by
          rintro rfl
          rw [List.getElem?_append_right (by simp), List.length_append, Nat.sub_self] at hv
          simp only [List.getElem?_cons_zero, Option.some.injEq] at hv
          subst hv
          simp at hx
        have e1 : (a ++ [x]) ++ (g ++ [moved x]) ++ r =
            ((a ++ (e :: g) ++ x :: r).set a.length x).set (a.length + (e :: g).length) (moved x) := by
          have h1 : (a ++ (e :: g) ++ x :: r).set a.length x = a ++ (x :: g) ++ x :: r := by
            rw [List.append_assoc, List.set_append_right _ _ (Nat.le_refl _), Nat.sub_self]
            simp
          rw [h1, List.set_append_right _ _ (by simp)]
          simp
        rw [e1, List.getElem?_set_ne (Ne.symm hne), List.getElem?_set_ne (by omega), hv]
      have hla : (a ++ [x]).length ≤ i := by rw [List.length_append, List.length_singleton]; omega
      have hlb : (a ++ [x]).length + (r.filter (fun x => !(x == v))).length ≤ i := by
        rw [List.length_append, List.length_singleton]; omega
      cases g with
      | nil =>
        have := ih (a ++ [x]) [] (moved x) hla hnext hlb
        rw [List.nil_append, this]
        simp [hx]
      | cons y g =>
        have := ih (a ++ [x]) (g ++ [moved x]) y hla hnext hlb
        rw [List.cons_append, this]
        simp [hx]

/-- The element compared with is overwritten by `x`. -/
theorem removeLoop_split (moved : α → α) (i : Nat) (v x : α) (post : List α) (pre : List α) :
    ∀ (a g : List α) (e : α), a.length ≤ i → (a ++ (e :: g) ++ (pre ++ x :: post))[i]? = some v →
    a.length + (pre.filter (fun x => !(x == v))).length = i → (x == v) = false →
    cut (removeLoop (isElem i) moved
      (a ++ (e :: g) ++ (pre ++ x :: post)) a.length (a.length + (e :: g).length)) =
      a ++ pre.filter (fun x => !(x == v)) ++ x :: post.filter (fun y => !(y == x)) := by
  induction pre with
  | nil =>
    intro a g e hi hv hl hx
    simp only [List.filter_nil, List.length_nil, Nat.add_zero] at hl
    rw [List.nil_append] at hv ⊢
    rw [removeLoop_cons]
    have hp : isElem i (a ++ (e :: g) ++ x :: post) x = false := by
      unfold isElem
      rw [hv, ← hx]
      exact Option.some_beq_some
    rw [hp]
    simp only [Bool.false_eq_true, if_false]
    have ha : (a ++ [x])[i]? = some x := by rw [← hl]; simp
    cases g with
    | nil =>
      have := removeLoop_after moved i x post (a ++ [x]) [] (moved x) ha
      rw [List.nil_append, this]
      simp
    | cons y g =>
      have := removeLoop_after moved i x post (a ++ [x]) (g ++ [moved x]) y ha
      rw [List.cons_append, this]
      simp
  | cons z pre ih =>
    intro a g e hi hv hl hx
    rw [List.cons_append] at hv ⊢
    rw [removeLoop_cons]
    have hp : isElem i (a ++ (e :: g) ++ z :: (pre ++ x :: post)) z = (z == v) := by
      unfold isElem
      rw [hv]
      exact Option.some_beq_some
    rw [hp]
    cases hz : z == v with
    | true =>
      simp only [if_true]
      have := ih a (g ++ [z]) e hi (by simpa using hv) (by simpa [hz] using hl) hx
      rw [← List.cons_append] at this
      rw [this]
      simp [hz]
    | false =>
      simp only [Bool.false_eq_true, if_false]
      rw [List.filter_cons_of_pos (by simp [hz]), List.length_cons] at hl
      have hnext : ((a ++ [z]) ++ (g ++ [moved z]) ++ (pre ++ x :: post))[i]? = some v := by
        have hi' : a.length < i := by omega
        have hne : i ≠ a.length + (e :: g).length := by
          rintro rfl
          rw [List.getElem?_append_right (by simp), List.length_append, Nat.sub_self] at hv
          simp only [List.getElem?_cons_zero, Option.some.injEq] at hv
          subst hv
          simp at hz
        have e1 : (a ++ [z]) ++ (g ++ [moved z]) ++ (pre ++ x :: post) =
            ((a ++ (e :: g) ++ z :: (pre ++ x :: post)).set a.length z).set (a.length + (e :: g).length)
              (moved z) := by
          have h1 : (a ++ (e :: g) ++ z :: (pre ++ x :: post)).set a.length z =
              a ++ (z :: g) ++ z :: (pre ++ x :: post) := by
            rw [List.append_assoc, List.set_append_right _ _ (Nat.le_refl _), Nat.sub_self]
            simp
          rw [h1, List.set_append_right _ _ (by simp)]
          simp
        rw [e1, List.getElem?_set_ne (Ne.symm hne), List.getElem?_set_ne (by omega), hv]
      have hla : (a ++ [z]).length ≤ i := by rw [List.length_append, List.length_singleton]; omega
      have hlb : (a ++ [z]).length + (pre.filter (fun x => !(x == v))).length = i := by
        rw [List.length_append, List.length_singleton]; omega
      cases g with
      | nil =>
        have := ih (a ++ [z]) [] (moved z) hla hnext hlb hx
        rw [List.nil_append, this]
        simp [hz]
      | cons y g =>
        have := ih (a ++ [z]) (g ++ [moved z]) y hla hnext hlb hx
        rw [List.cons_append, this]
        simp [hz]

/-- The first occurrence of the element compared with. -/
theorem alias_start (moved : α → α) (c : List α) (i : Nat) (v : α) (h : c[i]? = some v) :
    ∃ a b, c = a ++ v :: b ∧ (∀ y ∈ a, (y == v) = false) ∧ a.length ≤ i ∧
      eraseRemoveElem moved c i = .ok (cut
        (removeLoop (isElem i) moved (a ++ [v] ++ b) a.length (a.length + [v].length))) := by
  have hlt := (List.getElem?_eq_some_iff.mp h).1
  have hfun : isElem i c = fun x => x == v := by
    funext x
    unfold isElem
    rw [h]
    exact Option.some_beq_some
  rcases findIf_split (isElem i c) c with ⟨_, h2⟩ | ⟨a, x, b, h1, h2, h3, h4⟩
  · have := h2 v (List.mem_of_getElem? h)
    rw [hfun] at this
    simp at this
  · rw [hfun] at h3 h4
    have hxv : x = v := by simpa using h3
    subst hxv
    refine ⟨a, b, h1, h4, ?_, ?_⟩
    · refine Nat.le_of_not_lt fun hc => ?_
      have : a[i]? = some x := by
        rw [h1, List.getElem?_append_left (by omega)] at h
        exact h
      have := h4 x (List.mem_of_getElem? this)
      simp at this
    · have hne : findIf (isElem i c) c ≠ c.length := by rw [h2, h1]; simp
      unfold eraseRemoveElem removeIf
      rw [if_pos hlt]
      have hne' : findIf ((fun c x => some x == c[i]?) c) c ≠ c.length := hne
      simp only [hne', if_false]
      have e2 : findIf ((fun c x => some x == c[i]?) c) c = a.length := h2
      rw [e2]
      have e3 : a ++ [x] ++ b = c := by rw [h1]; simp
      rw [e3]
      rfl

/-- **C103, a value inside the container.** `eraseRemove(c, c[i])` is right if at most `i` elements are
kept: the element compared with is then never overwritten. -/
theorem C103_alias_partial (moved : α → α) (c : List α) (i : Nat) (v : α) (h : c[i]? = some v)
    (hk : (c.filter (fun x => !(x == v))).length ≤ i) :
    ∃ r, eraseRemoveElem moved c i = .ok r ∧ Without (fun x => x = v) c r := by
  obtain ⟨a, b, h1, h2, h3, h4⟩ := alias_start moved c i v h
  have hfa : a.filter (fun x => !(x == v)) = a := List.filter_eq_self.mpr (fun y hy => by simp [h2 y hy])
  have hc : c.filter (fun x => !(x == v)) = a ++ b.filter (fun x => !(x == v)) := by
    rw [h1, List.filter_append, hfa, List.filter_cons_of_neg (by simp)]
  refine ⟨_, h4, ?_⟩
  rw [hc, List.length_append] at hk
  rw [removeLoop_enough moved i v b a [] v h3 (by rw [h1] at h; simpa using h) hk, ← hc]
  have := without_filter (fun x => x == v) c
  simpa using this

/-- **C103, a value inside the container.** Otherwise the element number `i` is overwritten by the `i`-th
element kept, `x`, and behind it the elements equal to `x` are removed and those equal to the
value are kept. -/
theorem C103_alias_overwritten (moved : α → α) (pre post : List α) (x v : α) (i : Nat)
    (h : (pre ++ x :: post)[i]? = some v) (hx : x ≠ v)
    (hk : (pre.filter (fun x => !(x == v))).length = i) :
    eraseRemoveElem moved (pre ++ x :: post) i =
      .ok (pre.filter (fun x => !(x == v)) ++ x :: post.filter (fun y => !(y == x))) := by
  have hxv : (x == v) = false := by simpa using hx
  obtain ⟨a, b, h1, h2, h3, h4⟩ := alias_start moved _ i v h
  have hfa : a.filter (fun x => !(x == v)) = a := List.filter_eq_self.mpr (fun y hy => by simp [h2 y hy])
  -- the first occurrence lies in `pre`
  have hpre : ∃ b', pre = a ++ v :: b' ∧ b = b' ++ x :: post := by
    rcases List.append_eq_append_iff.mp h1 with ⟨m, hm1, hm2⟩ | ⟨m, hm1, hm2⟩
    · exfalso
      cases m with
      | nil =>
        simp only [List.nil_append, List.cons.injEq] at hm2
        exact hx hm2.1
      | cons y m =>
        simp only [List.cons_append, List.cons.injEq] at hm2
        have hxa : x ∈ a := by rw [hm1, ← hm2.1]; simp
        have : pre.filter (fun x => !(x == v)) = pre :=
          List.filter_eq_self.mpr (fun y hy => by simp [h2 y (by rw [hm1]; simp [hy])])
        rw [this] at hk
        rw [← hk, List.getElem?_append_right (Nat.le_refl _), Nat.sub_self] at h
        simp only [List.getElem?_cons_zero, Option.some.injEq] at h
        exact hx h
    · cases m with
      | nil =>
        simp only [List.nil_append, List.cons.injEq] at hm2
        exact absurd hm2.1.symm hx
      | cons y m =>
        simp only [List.cons_append, List.cons.injEq] at hm2
        exact ⟨m, by rw [hm1, hm2.1], hm2.2⟩
  obtain ⟨b', hp1, hp2⟩ := hpre
  rw [h4, hp2]
  rw [hp1, List.filter_append, hfa, List.filter_cons_of_neg (by simp), List.length_append] at hk
  rw [removeLoop_split moved i v x post b' a [] v h3 (by rw [hp1] at h; simpa using h) hk hxv, hp1,
    List.filter_append, hfa, List.filter_cons_of_neg (by simp)]

/-- **C103 fails** for a value inside the container: `eraseRemove(v, v[0])` on `1, 2, 1` leaves `2, 1`. -/
theorem C103_alias_witness :
    eraseRemoveElem (α := Nat) id [1, 2, 1] 0 = .ok [2, 1] ∧
      ¬ Without (fun x => x = 1) [1, 2, 1] [2, 1] := by
  refine ⟨by simpa using C103_alias_overwritten (α := Nat) id [1] [1] 2 1 0 rfl (by decide) (by decide), ?_⟩
  intro h
  have h2 : Without (fun x => x = 1) [1, 2, 1] [2] := .drop rfl (.keep (by decide) (.drop rfl .nil))
  exact absurd (without_unique h h2) (by decide)

end Alias

/-- A case that is right although the value lies in the container. -/
example : ∃ r, eraseRemoveElem (α := Nat) id [1, 2, 1, 1] 3 = .ok r ∧ Without (fun x => x = 1) [1, 2, 1, 1] r :=
  C103_alias_partial id _ 3 1 rfl (by decide)

/-! ## C104 — searching -/

theorem findIf_first (p : α → Bool) (c : List α) :
    (findIf p c = c.length ∧ ∀ x ∈ c, p x = false) ∨ FirstAt (fun x => p x = true) c (findIf p c) := by
  rcases findIf_split p c with h | ⟨a, x, b, h1, h2, h3, h4⟩
  · exact .inl h
  · right
    rw [h2, h1]
    refine ⟨⟨x, by simp, h3⟩, ?_⟩
    intro j y hj hy
    rw [List.getElem?_append_left hj] at hy
    simp [h4 y (List.mem_of_getElem? hy)]

/-- **C104.** `idxOf` is the position of the first equal element, or the size if there is none. -/
theorem C104_idxOf (eq : α → β → Bool) (c : List α) (v : β) :
    (∀ i, FirstAt (fun x => eq x v = true) c i → idxOf eq c v = i) ∧
    ((∀ x ∈ c, eq x v = false) → idxOf eq c v = c.length) := by
  have huniq : ∀ (P : α → Prop) (i j : Nat), FirstAt P c i → FirstAt P c j → i = j := by
    rintro P i j ⟨⟨x, hx, hpx⟩, hi⟩ ⟨⟨y, hy, hpy⟩, hj⟩
    rcases Nat.lt_trichotomy i j with h | h | h
    · exact absurd hpx (hj i x h hx)
    · exact h
    · exact absurd hpy (hi j y h hy)
  constructor
  · intro i hi
    rcases findIf_first (fun x => eq x v) c with ⟨_, h⟩ | h
    · obtain ⟨⟨x, hx, hp⟩, _⟩ := hi
      have hp' : eq x v = true := hp
      rw [h x (List.mem_of_getElem? hx)] at hp'
      cases hp'
    · exact huniq _ _ _ h hi
  · intro h
    rcases findIf_first (fun x => eq x v) c with ⟨h1, _⟩ | ⟨⟨x, hx, hp⟩, _⟩
    · exact h1
    · have hp' : eq x v = true := hp
      rw [h x (List.mem_of_getElem? hx)] at hp'
      cases hp'

theorem findIf_ne (p : α → Bool) (c : List α) : (findIf p c != c.length) = true ↔ ∃ x ∈ c, p x = true := by
  rcases findIf_split p c with ⟨h1, h2⟩ | ⟨a, x, b, h1, h2, h3, _⟩
  · rw [h1]
    simp only [bne_self_eq_false, Bool.false_eq_true, false_iff, not_exists, not_and]
    intro x hx
    simp [h2 x hx]
  · refine ⟨fun _ => ⟨x, by simp [h1], h3⟩, fun _ => ?_⟩
    rw [h2, h1]
    simp

/-- **C104.** `contains` tells whether there is an equal element. -/
theorem C104_contains (eq : α → β → Bool) (c : List α) (v : β) :
    contains eq c v = true ↔ ∃ x ∈ c, eq x v = true := findIf_ne _ c

/-- **C104.** `containsAnyIf` tells whether an element satisfies the predicate. -/
theorem C104_containsAnyIf (p : α → Bool) (c : List α) :
    containsAnyIf p c = true ↔ ∃ x ∈ c, p x = true := findIf_ne _ c

/-- **C104.** `containsAnyOf` tells whether one of the values is in the container. -/
theorem C104_containsAnyOf (eq : α → β → Bool) (c : List α) (vs : List β) :
    containsAnyOf eq c vs = true ↔ ∃ v ∈ vs, ∃ x ∈ c, eq x v = true := by
  induction vs with
  | nil => simp [containsAnyOf]
  | cons v vs ih =>
    rw [containsAnyOf]
    by_cases h : contains eq c v = true
    · simp only [h, if_true, true_iff]
      exact ⟨v, by simp, (C104_contains eq c v).mp h⟩
    · rw [if_neg h, ih]
      constructor
      · rintro ⟨u, hu, hx⟩; exact ⟨u, by simp [hu], hx⟩
      · rintro ⟨u, hu, hx⟩
        rcases List.mem_cons.mp hu with rfl | hu
        · exact absurd ((C104_contains eq c u).mpr hx) h
        · exact ⟨u, hu, hx⟩

/-- **C104.** `containsAllOf` tells whether all the values are in the container. -/
theorem C104_containsAllOf (eq : α → β → Bool) (c : List α) (vs : List β) :
    containsAllOf eq c vs = true ↔ ∀ v ∈ vs, ∃ x ∈ c, eq x v = true := by
  induction vs with
  | nil => simp [containsAllOf]
  | cons v vs ih =>
    rw [containsAllOf]
    cases h : contains eq c v with
    | true =>
      simp only [Bool.not_true, Bool.false_eq_true, if_false, List.forall_mem_cons]
      rw [ih]
      exact ⟨fun h2 => ⟨(C104_contains eq c v).mp h, h2⟩, fun h2 => h2.2⟩
    | false =>
      simp only [Bool.not_false, if_true, Bool.false_eq_true, false_iff]
      intro hall
      have := (C104_contains eq c v).mpr (hall v (by simp))
      rw [h] at this
      cases this

theorem foldl_push {γ : Type} (f : α → γ) (l : List α) (acc : List γ) :
    l.foldl (fun r p => r ++ [f p]) acc = acc ++ l.map f := by
  induction l generalizing acc with
  | nil => simp
  | cons x l ih => simp [ih]

/-- **C104.** `getKeys` delivers the keys in the order of the map; `mkVector` its arguments in their
order. -/
theorem C104_getKeys (m : List (κ × β)) (xs : List α) :
    getKeys m = m.map Prod.fst ∧ mkVector xs = xs := by
  refine ⟨by simpa [getKeys] using foldl_push Prod.fst m [], ?_⟩
  have := foldl_push (fun x : α => x) xs []
  simpa [mkVector] using this

example : FirstAt (fun x => (x == 3) = true) [1, 3, 2, 3] 1 := by
  refine ⟨⟨3, rfl, rfl⟩, ?_⟩
  intro j x hj hx
  have : j = 0 := by omega
  subst this
  cases hx
  decide

/-! ## C105 — emplacing into maps -/

section Maps
variable [BEq κ] [LawfulBEq κ] [DecidableEq τ]

theorem find_none {m : List (κ × β)} {k : κ} (h : ∀ v, (k, v) ∉ m) :
    m.find? (fun p => p.1 == k) = none := by
  rw [List.find?_eq_none]
  intro p hp
  simp only [beq_iff_eq]
  rintro rfl
  exact h p.2 hp

/-- **C105.** If the key is new, `getEmplaceUPtrMap` returns the new object, which is the one stored under
the key; nothing is destroyed. -/
theorem C105_new (t : τ) (o : Owner κ τ) (k : κ) (h : ∀ i, (k, i) ∉ o.entries) :
    ∃ o', getEmplaceUPtrMap t o k = .ok (o.next, o') ∧ o'.entries = o.entries ++ [(k, o.next)] ∧
      o'.typeOf o.next = some t ∧ o'.destroyed = o.destroyed := by
  unfold getEmplaceUPtrMap emplace
  rw [find_none h]
  simp

/-- **C105, what fails.** If the key is in use, the new object is destroyed at once and the reference is
to the old object, which stays; if that is not of the type asked for, the behaviour is undefined. -/
theorem C105_used (t : τ) (o : Owner κ τ) (k : κ) (i : Nat) (h : (k, i) ∈ o.entries)
    (hu : ∀ j, (k, j) ∈ o.entries → j = i) (hlt : i < o.next) :
    (o.typeOf i = some t → ∃ o', getEmplaceUPtrMap t o k = .ok (i, o') ∧ o'.entries = o.entries ∧
      o'.destroyed = o.next :: o.destroyed) ∧
    (o.typeOf i ≠ some t → getEmplaceUPtrMap t o k = .ub) := by
  have hf : ∃ p, o.entries.find? (fun p => p.1 == k) = some p ∧ p.2 = i := by
    cases hfd : o.entries.find? (fun p => p.1 == k) with
    | none =>
      rw [List.find?_eq_none] at hfd
      exact absurd (hfd _ h) (by simp)
    | some p =>
      refine ⟨p, rfl, ?_⟩
      have h1 := List.mem_of_find?_eq_some hfd
      have h2 := List.find?_some hfd
      simp only [beq_iff_eq] at h2
      apply hu
      rw [← h2]
      exact h1
  obtain ⟨p, hp, rfl⟩ := hf
  have hne : p.2 ≠ o.next := by omega
  unfold getEmplaceUPtrMap emplace
  rw [hp]
  simp only [hne, if_false]
  constructor
  · intro ht
    simp [ht]
  · intro ht
    simp [ht]

/-- **C105.** `mkUnorderedMap` compiles for an even number of arguments; each key is mapped to the value that
follows its first occurrence at a key position. -/
theorem C105_mkUnorderedMap [BEq α] [LawfulBEq α] (ps : List (α × α)) :
    ∃ m, mkUnorderedMap (ps.flatMap (fun p => [p.1, p.2])) = some (.ok m) ∧
      ∀ k, m.find? (fun p => p.1 == k) = ps.find? (fun p => p.1 == k) := by
  obtain ⟨gs, hg, hf⟩ := (Args.C58_groups 2 emplacePair (ps.flatMap (fun p => [p.1, p.2]))).2
    ⟨by decide, by
      induction ps with
      | nil => simp
      | cons p ps ih =>
        rw [List.flatMap_cons, List.length_append]
        simp only [List.length_cons, List.length_nil]
        omega⟩
  have hgs : gs = ps.map (fun p => [p.1, p.2]) := by
    refine Args.C58_groups_unique 2 (by decide) _ _ _ hg ⟨?_, ?_⟩
    · rw [List.flatMap_def]
    · intro g hgm
      obtain ⟨p, _, rfl⟩ := List.mem_map.mp hgm
      rfl
  subst hgs
  have hrun : ∀ (ps m : List (α × α)), ∃ m', Args.Spec.inOrder emplacePair
      (ps.map (fun p => [p.1, p.2])) m = .ok m' ∧
      ∀ k, m'.find? (fun p => p.1 == k) = (m ++ ps).find? (fun p => p.1 == k) := by
    intro ps
    induction ps with
    | nil => intro m; exact ⟨m, rfl, by simp⟩
    | cons p ps ih =>
      intro m
      obtain ⟨m', h1, h2⟩ := ih (emplace m p.1 p.2).1
      refine ⟨m', ?_, ?_⟩
      · rw [List.map_cons, Args.Spec.inOrder]
        exact h1
      · intro k
        rw [h2]
        unfold emplace
        cases hfd : m.find? (fun q => q.1 == p.1) with
        | none => simp
        | some q =>
          simp only []
          rw [List.find?_append, List.find?_append]
          cases hk : m.find? (fun q => q.1 == k) with
          | some _ => simp
          | none =>
            have hne : (p.1 == k) = false := by
              cases hpk : p.1 == k with
              | false => rfl
              | true =>
                have : p.1 = k := by simpa using hpk
                rw [this, hk] at hfd
                cases hfd
            simp [List.find?_cons, hne]
  obtain ⟨m, h1, h2⟩ := hrun ps []
  refine ⟨m, ?_, h2⟩
  unfold mkUnorderedMap
  rw [hf]
  simp only [Option.map_some, h1]

/-- **C105.** With an odd number of arguments it does not compile. -/
theorem C105_odd [BEq α] (xs : List α) (h : xs.length % 2 = 1) : mkUnorderedMap xs = none := by
  unfold mkUnorderedMap
  rw [(Args.C58_groups 2 emplacePair xs).1 (by rintro ⟨_, h2⟩; omega)]
  rfl

end Maps

/-- The first value of a key counts. -/
example : ∃ m, mkUnorderedMap [1, 10, 2, 20, 1, 30] = some (.ok m) ∧
    m.find? (fun p => p.1 == 1) = some (1, 10) := ⟨[(1, 10), (2, 20)], by decide, by decide⟩

/-- A map of objects of two types; the key in use refers to an object of the other type. -/
example : getEmplaceUPtrMap "A" (⟨[(7, 0)], fun i => if i = 0 then some "B" else none, [], 1⟩ : Owner Nat String) 7
    = .ub := by
  refine (C105_used "A" _ 7 0 (by simp) (by simp) (by decide)).2 ?_
  simp

end Verif.Util
