import Verif.Util.Stateful
import Verif.Util.Theorems

/-! # Predicates with a state -/

namespace Verif.Util

variable {α σ : Type}

namespace Spec

/-- One pass over the elements in order, each asked once: what is kept of `c` and the state at the end. -/
inductive Pass (p : σ → α → Bool × σ) : σ → List α → List α → σ → Prop
  | nil {s} : Pass p s [] [] s
  | drop {s s' s'' x c r} : p s x = (true, s') → Pass p s' c r s'' → Pass p s (x :: c) r s''
  | keep {s s' s'' x c r} : p s x = (false, s') → Pass p s' c r s'' → Pass p s (x :: c) (x :: r) s''

/-- The predicate says `b` of all these elements, asked in order. -/
inductive Run (p : σ → α → Bool × σ) (b : Bool) : σ → List α → σ → Prop
  | nil {s} : Run p b s [] s
  | cons {s s' s'' x c} : p s x = (b, s') → Run p b s' c s'' → Run p b s (x :: c) s''

end Spec

open Spec

theorem findIfS_split (p : SPred σ α) (c : List α) : ∀ s : σ,
    (∃ s', findIfS p s c = (c.length, s') ∧ Run p false s c s') ∨
    ∃ a x b s1 s2, c = a ++ x :: b ∧ findIfS p s c = (a.length, s2) ∧ Run p false s a s1 ∧ p s1 x = (true, s2) := by
  induction c with
  | nil => intro s; exact .inl ⟨s, rfl, .nil⟩
  | cons x xs ih =>
    intro s
    rcases hx : p s x with ⟨a, s1⟩
    cases a with
    | true => exact .inr ⟨[], x, xs, s, s1, rfl, by simp [findIfS, hx], .nil, hx⟩
    | false =>
      rcases ih s1 with ⟨s', h1, h2⟩ | ⟨a, y, b, t1, t2, h1, h2, h3, h4⟩
      · exact .inl ⟨s', by simp [findIfS, hx, h1], .cons hx h2⟩
      · exact .inr ⟨x :: a, y, b, t1, t2, by rw [h1]; rfl, by simp [findIfS, hx, h2], .cons hx h3, h4⟩

theorem removeLoopS_nil (p : SPred σ α) (moved : α → α) (s : σ) (a g : List α) :
    removeLoopS p moved s (a ++ g) a.length (a.length + g.length) = (a ++ g, a.length, s) := by
  unfold removeLoopS
  split
  · rfl
  · rename_i x h
    have := (List.getElem?_eq_some_iff.mp h).1
    simp at this

theorem removeLoopS_cons (p : SPred σ α) (moved : α → α) (s : σ) (a g : List α) (e x : α) (r : List α) :
    removeLoopS p moved s (a ++ (e :: g) ++ x :: r) a.length (a.length + (e :: g).length) =
      if (p s x).1 then
        removeLoopS p moved (p s x).2 (a ++ (e :: g ++ [x]) ++ r) a.length (a.length + (e :: g ++ [x]).length)
      else removeLoopS p moved (p s x).2 ((a ++ [x]) ++ (g ++ [moved x]) ++ r) (a ++ [x]).length
        ((a ++ [x]).length + (g ++ [moved x]).length) := by
  have h0 : (a ++ (e :: g) ++ x :: r)[a.length + (e :: g).length]? = some x := by
    rw [List.getElem?_append_right (by simp), List.length_append, Nat.sub_self]
    rfl
  rw [removeLoopS]
  split
  · rename_i h; rw [h0] at h; cases h
  · rename_i y h
    rw [h0] at h
    cases h
    split
    · congr 1
      · simp
      · simp; omega
    · have e1 : ((a ++ (e :: g) ++ x :: r).set a.length x).set (a.length + (e :: g).length) (moved x) =
          (a ++ [x]) ++ (g ++ [moved x]) ++ r := by
        have h1 : (a ++ (e :: g) ++ x :: r).set a.length x = a ++ (x :: g) ++ x :: r := by
          rw [List.append_assoc, List.set_append_right _ _ (Nat.le_refl _), Nat.sub_self]
          simp
        rw [h1, List.set_append_right _ _ (by simp)]
        simp
      rw [e1]
      congr 1
      · simp
      · simp; omega

theorem removeLoopS_pass (p : SPred σ α) (moved : α → α) (r : List α) : ∀ (s : σ) (a g : List α) (e : α),
    ∃ c' n s' q, removeLoopS p moved s (a ++ (e :: g) ++ r) a.length (a.length + (e :: g).length) = (c', n, s') ∧
      c'.take n = a ++ q ∧ Pass p s r q s' := by
  induction r with
  | nil =>
    intro s a g e
    exact ⟨_, _, _, [], by rw [List.append_nil, removeLoopS_nil], by simp, .nil⟩
  | cons x r ih =>
    intro s a g e
    rw [removeLoopS_cons]
    rcases hx : p s x with ⟨b, s1⟩
    cases b with
    | true =>
      obtain ⟨c', n, s', q, h1, h2, h3⟩ := ih s1 a (g ++ [x]) e
      exact ⟨c', n, s', q, by rw [if_pos rfl]; exact h1, h2, .drop hx h3⟩
    | false =>
      rw [if_neg (by simp)]
      cases g with
      | nil =>
        obtain ⟨c', n, s', q, h1, h2, h3⟩ := ih s1 (a ++ [x]) [] (moved x)
        exact ⟨c', n, s', x :: q, h1, by simpa using h2, .keep hx h3⟩
      | cons y g =>
        obtain ⟨c', n, s', q, h1, h2, h3⟩ := ih s1 (a ++ [x]) (g ++ [moved x]) y
        exact ⟨c', n, s', x :: q, h1, by simpa using h2, .keep hx h3⟩

theorem Spec.Run.pass {p : SPred σ α} {s s1 s2 : σ} {a b r : List α} (h : Run p false s a s1) (hb : Pass p s1 b r s2) :
    Pass p s (a ++ b) (a ++ r) s2 := by
  induction h with
  | nil => exact hb
  | cons hx _ ih => exact .keep hx (ih hb)

/-- **C163 (state outside).** With a predicate that keeps its state elsewhere, `eraseRemoveIf` makes exactly one pass: every element is asked
once, in order, and those refused are removed. -/
theorem C163_shared (p : SPred σ α) (moved : α → α) (s : σ) (c : List α) :
    ∃ r s', eraseRemoveIfS false p moved s c = (r, s') ∧ Pass p s c r s' := by
  rcases findIfS_split p c s with ⟨s', h1, h2⟩ | ⟨a, x, b, s1, s2, h1, h2, h3, h4⟩
  · refine ⟨c, s', ?_, ?_⟩
    · simp [eraseRemoveIfS, removeIfS, h1, after]
    · have := h2.pass (b := []) .nil
      simpa using this
  · obtain ⟨c', n, s', q, g1, g2, g3⟩ := removeLoopS_pass p moved b s2 a [] x
    have hne : a.length ≠ c.length := by rw [h1]; simp
    refine ⟨a ++ q, s', ?_, ?_⟩
    · have e : removeLoopS p moved s2 c a.length (a.length + 1) = (c', n, s') := by
        rw [h1, show a ++ x :: b = a ++ [x] ++ b by simp]; exact g1
      simp [eraseRemoveIfS, removeIfS, h2, after, hne, e, g2]
    · rw [h1]; exact h3.pass (.drop h4 g3)

/-- **C163 (state inside).** With a predicate that carries its state, nothing is removed if a pass refuses nothing; otherwise the elements up to
the first one refused are dealt with as expected, and the elements behind it are asked as if no call had been made before. The caller's
predicate is as before. -/
theorem C163_own (p : SPred σ α) (moved : α → α) (s : σ) (c : List α) :
    (∃ s', Run p false s c s' ∧ eraseRemoveIfS true p moved s c = (c, s)) ∨
    ∃ a x b s1 s2 r s3, c = a ++ x :: b ∧ Run p false s a s1 ∧ p s1 x = (true, s2) ∧ Pass p s b r s3 ∧
      eraseRemoveIfS true p moved s c = (a ++ r, s) := by
  rcases findIfS_split p c s with ⟨s', h1, h2⟩ | ⟨a, x, b, s1, s2, h1, h2, h3, h4⟩
  · exact .inl ⟨s', h2, by simp [eraseRemoveIfS, removeIfS, h1, after]⟩
  · obtain ⟨c', n, s', q, g1, g2, g3⟩ := removeLoopS_pass p moved b s a [] x
    have hne : a.length ≠ c.length := by rw [h1]; simp
    refine .inr ⟨a, x, b, s1, s2, q, s', h1, h3, h4, g3, ?_⟩
    have e : removeLoopS p moved s c a.length (a.length + 1) = (c', n, s') := by
      rw [h1, show a ++ x :: b = a ++ [x] ++ b by simp]; exact g1
    simp [eraseRemoveIfS, removeIfS, h2, after, hne, e, g2]

/-! ## The n-th call -/

/-- `[n, k = 0](auto&&) mutable { return ++k == n; }`. -/
def nth (n : Nat) : SPred Nat α := fun k _ => (k + 1 == n, k + 1)

theorem pass_unique {p : SPred σ α} {s s1 s2 : σ} {c r1 r2 : List α} (h1 : Pass p s c r1 s1) (h2 : Pass p s c r2 s2) : r1 = r2 ∧ s1 = s2 := by
  induction h1 generalizing r2 s2 with
  | nil => cases h2; exact ⟨rfl, rfl⟩
  | drop hx _ ih =>
    cases h2 with
    | drop hy h => rw [hx] at hy; cases hy; exact ih h
    | keep hy _ => rw [hx] at hy; cases hy
  | keep hx _ ih =>
    cases h2 with
    | drop hy _ => rw [hx] at hy; cases hy
    | keep hy h => rw [hx] at hy; cases hy; have := ih h; exact ⟨by rw [this.1], this.2⟩

theorem nth_past (n k : Nat) (h : n ≤ k) (c : List α) : Pass (nth n) k c c (k + c.length) := by
  induction c generalizing k with
  | nil => exact .nil
  | cons x c ih =>
    have := ih (k + 1) (by omega)
    rw [show k + 1 + c.length = k + (x :: c).length by simp; omega] at this
    exact .keep (by simp [nth]; omega) this

theorem nth_pass (n k : Nat) (h : k < n) (c : List α) : Pass (nth n) k c (c.eraseIdx (n - k - 1)) (k + c.length) := by
  induction c generalizing k with
  | nil => exact .nil
  | cons x c ih =>
    by_cases hk : k + 1 = n
    · have := nth_past n (k + 1) (by omega) c
      rw [show k + 1 + c.length = k + (x :: c).length by simp; omega] at this
      rw [show n - k - 1 = 0 by omega, List.eraseIdx_cons_zero]
      exact .drop (by simp [nth, hk]) this
    · have := ih (k + 1) (by omega)
      rw [show k + 1 + c.length = k + (x :: c).length by simp; omega] at this
      rw [show n - k - 1 = (n - (k + 1) - 1) + 1 by omega, List.eraseIdx_cons_succ]
      exact .keep (by simp [nth, hk]) this

theorem nth_run (n k : Nat) (h : k < n) (a : List α) {s : Nat} (hr : Run (nth n) false k a s) : s = k + a.length ∧ k + a.length < n := by
  induction a generalizing k with
  | nil => cases hr; exact ⟨rfl, h⟩
  | cons x a ih =>
    cases hr with
    | cons hx hr =>
      simp only [nth, Prod.mk.injEq, beq_eq_false_iff_ne] at hx
      obtain ⟨hx, rfl⟩ := hx
      have := ih (k + 1) (by omega) hr
      simp only [List.length_cons]
      omega

/-- **C163 (the n-th call).** A predicate that is true in its n-th call removes the n-th element if it counts in a variable outside. If it
carries the counter, the element number 2n is removed too. -/
theorem C163_nth (n : Nat) (hn : 0 < n) (moved : α → α) (c : List α) :
    (eraseRemoveIfS false (nth n) moved 0 c).1 = c.eraseIdx (n - 1) ∧
    (eraseRemoveIfS true (nth n) moved 0 c).1 = (c.eraseIdx (2 * n - 1)).eraseIdx (n - 1) := by
  constructor
  · obtain ⟨r, s', h1, h2⟩ := C163_shared (nth n) moved 0 c
    rw [h1]
    have := pass_unique h2 (nth_pass n 0 hn c)
    simpa using this.1
  · rcases C163_own (nth n) moved 0 c with ⟨s', h1, h2⟩ | ⟨a, x, b, s1, s2, r, s3, h1, h2, h3, h4, h5⟩
    · rw [h2]
      have := nth_run n 0 hn c h1
      rw [List.eraseIdx_of_length_le (l := c) (by omega), List.eraseIdx_of_length_le (by omega)]
    · rw [h5]
      have hr := nth_run n 0 hn a h2
      simp only [nth, Prod.mk.injEq, beq_iff_eq] at h3
      have ha : a.length = n - 1 := by omega
      have := (pass_unique h4 (nth_pass n 0 hn b)).1
      rw [this, h1]
      rw [List.eraseIdx_append_of_length_le (by omega), show 2 * n - 1 - a.length = (n - 1) + 1 by omega, List.eraseIdx_cons_succ,
        List.eraseIdx_append_of_length_le (by omega), ha, Nat.sub_self, List.eraseIdx_cons_zero]
      simp

/-- With eight elements and the third call: the elements 3 and 6 are removed. -/
example : (eraseRemoveIfS true (nth 3) id 0 [1, 2, 3, 4, 5, 6, 7, 8]).1 = [1, 2, 4, 5, 7, 8] := by
  rw [(C163_nth 3 (by decide) id _).2]; rfl

/-! ## Searching and trimming -/

/-- **C163 (searching).** `findIf` asks each element once, in order, and stops at the first one accepted. -/
theorem C163_find (p : SPred σ α) (s : σ) (c : List α) :
    (∃ s', findIfS p s c = (c.length, s') ∧ Run p false s c s') ∨
    ∃ a x b s1 s2, c = a ++ x :: b ∧ findIfS p s c = (a.length, s2) ∧ Run p false s a s1 ∧ p s1 x = (true, s2) :=
  findIfS_split p c s

theorem run_not {p : SPred σ α} {b : Bool} {s s' : σ} {c : List α} (h : Run (fun s x => let (a, s') := p s x; (!a, s')) b s c s') :
    Run p (!b) s c s' := by
  induction h with
  | nil => exact .nil
  | cons hx _ ih =>
    simp only [Prod.mk.injEq] at hx
    exact .cons (by rw [← hx.1, ← hx.2]; simp) ih

/-- What `find_if_not` finds. -/
theorem findIfNotS_split (p : SPred σ α) (s : σ) (c : List α) :
    ∃ a b s1 s2, c = a ++ b ∧ findIfNotS p s c = (a.length, s2) ∧ Run p true s a s1 ∧
      ((b = [] ∧ s2 = s1) ∨ ∃ x b', b = x :: b' ∧ p s1 x = (false, s2)) := by
  rcases findIfS_split (fun s x => let (a, s') := p s x; (!a, s')) c s with ⟨s', h1, h2⟩ | ⟨a, x, b, s1, s2, h1, h2, h3, h4⟩
  · exact ⟨c, [], s', s', by simp, h1, run_not h2, .inl ⟨rfl, rfl⟩⟩
  · refine ⟨a, x :: b, s1, s2, h1, h2, run_not h3, .inr ⟨x, b, rfl, ?_⟩⟩
    simp only [Prod.mk.injEq, Bool.not_eq_true'] at h4
    rw [← h4.1, ← h4.2]

namespace Spec

/-- `t` is `c` without the longest beginning whose elements are all accepted, when asked in order from the state `s`; `s'` is the state after
the first element that was refused, or the last one. -/
def Left (p : σ → α → Bool × σ) (s : σ) (c t : List α) (s' : σ) : Prop :=
  ∃ a s1, c = a ++ t ∧ Run p true s a s1 ∧ ((t = [] ∧ s' = s1) ∨ ∃ x t', t = x :: t' ∧ p s1 x = (false, s'))

end Spec

/-- **C163 (trimming).** `trimLR` drops from the left what the predicate accepts, then from the right. If the predicate carries its state, the
right side is asked as if the left side had not been; otherwise it goes on in the state the left side has left. -/
theorem C163_trim (own : Bool) (p : SPred σ α) (s : σ) (c : List α) :
    ∃ t r s1 s2, Left p s c t s1 ∧ Left p (if own then s else s1) t.reverse r.reverse s2 ∧
      trimLRS own p s c = (r, if own then s else s2) := by
  obtain ⟨a, b, s1, s2, h1, h2, h3, h4⟩ := findIfNotS_split p s c
  obtain ⟨a', b', s1', s2', g1, g2, g3, g4⟩ := findIfNotS_split p (if own then s else s2) b.reverse
  refine ⟨b, b'.reverse, s2, s2', ⟨a, s1, h1, h3, h4⟩, ⟨a', s1', by simpa using g1, g3, by simpa using g4⟩, ?_⟩
  have e1 : trimLS own p s c = (b, if own then s else s2) := by
    simp only [trimLS, h2, after]
    rw [h1]; simp
  have hb : b = b'.reverse ++ a'.reverse := by rw [← List.reverse_append, ← g1, List.reverse_reverse]
  have e2 : b.take (b.length - a'.length) = b'.reverse := by
    have : b.length - a'.length = b'.reverse.length := by rw [hb]; simp
    rw [this, hb]; simp
  simp only [trimLRS, e1, trimRS, g2, e2, after]
  cases own <;> simp

/-- **C163 (no state).** With a predicate without state it does not matter where the state is. -/
theorem C163_stateless (q : α → Bool) (moved : α → α) (c : List α) (own : Bool) :
    Without (fun x => q x = true) c (eraseRemoveIfS own (fun (s : Unit) x => (q x, s)) moved () c).1 := by
  have w : ∀ {s c r s'}, Pass (fun (s : Unit) x => (q x, s)) s c r s' → Without (fun x => q x = true) c r := by
    intro s c r s' h
    induction h with
    | nil => exact .nil
    | drop hx _ ih => exact .drop (by simpa using hx) ih
    | keep hx _ ih => exact .keep (by simpa using hx) ih
  cases own with
  | false =>
    obtain ⟨r, s', h1, h2⟩ := C163_shared (fun (s : Unit) x => (q x, s)) moved () c
    rw [h1]
    exact w h2
  | true =>
    rcases C163_own (fun (s : Unit) x => (q x, s)) moved () c with ⟨s', h1, h2⟩ | ⟨a, x, b, s1, s2, r, s3, h1, h2, h3, h4, h5⟩
    · rw [h2]
      have := w (h1.pass (b := []) .nil)
      simpa using this
    · rw [h5, h1]
      exact w (h2.pass (.drop h3 h4))

end Verif.Util
