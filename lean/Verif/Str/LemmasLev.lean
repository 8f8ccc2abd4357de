import Verif.Str.Lemmas

/-! # Levenshtein distance -/

namespace Verif.Str

open Verif Spec

/-- Alignments of two strings and their cost. -/
inductive Align : Str → Str → Nat → Prop
  | nil : Align [] [] 0
  | keep {a b n} (x : Char) (h : Align a b n) : Align (x :: a) (x :: b) n
  | subst {a b n} (x y : Char) (h : Align a b n) : Align (x :: a) (y :: b) (n + 1)
  | del {a b n} (x : Char) (h : Align a b n) : Align (x :: a) b (n + 1)
  | ins {a b n} (y : Char) (h : Align a b n) : Align a (y :: b) (n + 1)

theorem align_refl (a : Str) : Align a a 0 := by
  induction a with
  | nil => exact .nil
  | cons x a ih => exact .keep x ih

theorem edit_cons {a b : Str} (x : Char) (h : Edit a b) : Edit (x :: a) (x :: b) := by
  cases h with
  | insert l r y => exact .insert (x :: l) r y
  | delete l r y => exact .delete (x :: l) r y
  | subst l r y z => exact .subst (x :: l) r y z

theorem edits_cons {n : Nat} {a b : Str} (x : Char) (h : Edits n a b) : Edits n (x :: a) (x :: b) := by
  induction h with
  | refl => exact .refl _
  | step h _ ih => exact .step (edit_cons x h) ih

theorem edits_trans {n m : Nat} {a b c : Str} (h₁ : Edits n a b) (h₂ : Edits m b c) : Edits (n + m) a c := by
  induction h₁ with
  | refl => simpa using h₂
  | @step n a b c' h _ ih => rw [Nat.add_right_comm]; exact .step h (ih h₂)

theorem edit_symm {a b : Str} (h : Edit a b) : Edit b a := by
  cases h with
  | insert l r x => exact .delete l r x
  | delete l r x => exact .insert l r x
  | subst l r x y => exact .subst l r y x

theorem edits_symm {n : Nat} {a b : Str} (h : Edits n a b) : Edits n b a := by
  induction h with
  | refl => exact .refl _
  | step h _ ih => exact edits_trans ih (.step (edit_symm h) (.refl _))

theorem edits_of_align {a b : Str} {n : Nat} (h : Align a b n) : Edits n a b := by
  induction h with
  | nil => exact .refl _
  | keep x _ ih => exact edits_cons x ih
  | @subst a b n x y _ ih => exact .step (.subst [] a x y) (edits_cons y ih)
  | @del a b n x _ ih => exact .step (.delete [] a x) ih
  | @ins a b n y _ ih => exact edits_trans ih (.step (.insert [] b y) (.refl _))

theorem align_insert {a' b : Str} {n : Nat} (h : Align a' b n) : ∀ (l r : Str) (x : Char), a' = l ++ x :: r →
    ∃ m ≤ n + 1, Align (l ++ r) b m := by
  induction h with
  | nil => intro l r x h; simp at h
  | @keep a b n y h ih =>
    intro l r x he
    cases l with
    | nil =>
      simp only [List.nil_append, List.cons.injEq] at he
      obtain ⟨rfl, rfl⟩ := he
      exact ⟨n + 1, Nat.le_refl _, .ins y h⟩
    | cons c l =>
      simp only [List.cons_append, List.cons.injEq] at he
      obtain ⟨rfl, rfl⟩ := he
      obtain ⟨m, hm, h'⟩ := ih l r x rfl
      exact ⟨m, hm, .keep y h'⟩
  | @subst a b n y z h ih =>
    intro l r x he
    cases l with
    | nil =>
      simp only [List.nil_append, List.cons.injEq] at he
      obtain ⟨rfl, rfl⟩ := he
      exact ⟨n + 1, by omega, .ins z h⟩
    | cons c l =>
      simp only [List.cons_append, List.cons.injEq] at he
      obtain ⟨rfl, rfl⟩ := he
      obtain ⟨m, hm, h'⟩ := ih l r x rfl
      exact ⟨m + 1, by omega, .subst y z h'⟩
  | @del a b n y h ih =>
    intro l r x he
    cases l with
    | nil =>
      simp only [List.nil_append, List.cons.injEq] at he
      obtain ⟨rfl, rfl⟩ := he
      exact ⟨n, by omega, h⟩
    | cons c l =>
      simp only [List.cons_append, List.cons.injEq] at he
      obtain ⟨rfl, rfl⟩ := he
      obtain ⟨m, hm, h'⟩ := ih l r x rfl
      exact ⟨m + 1, by omega, .del y h'⟩
  | @ins a b n y h ih =>
    intro l r x he
    obtain ⟨m, hm, h'⟩ := ih l r x he
    exact ⟨m + 1, by omega, .ins y h'⟩

theorem align_delete {a' b : Str} {n : Nat} (h : Align a' b n) : ∀ (l r : Str) (x : Char), a' = l ++ r →
    ∃ m ≤ n + 1, Align (l ++ x :: r) b m := by
  induction h with
  | nil =>
    intro l r x he
    obtain ⟨rfl, rfl⟩ := List.append_eq_nil_iff.1 he.symm
    exact ⟨1, Nat.le_refl _, .del x .nil⟩
  | @keep a b n y h ih =>
    intro l r x he
    cases l with
    | nil =>
      simp only [List.nil_append] at he ⊢
      subst he
      exact ⟨n + 1, Nat.le_refl _, .del x (.keep y h)⟩
    | cons c l =>
      simp only [List.cons_append, List.cons.injEq] at he
      obtain ⟨rfl, rfl⟩ := he
      obtain ⟨m, hm, h'⟩ := ih l r x rfl
      exact ⟨m, hm, .keep y h'⟩
  | @subst a b n y z h ih =>
    intro l r x he
    cases l with
    | nil =>
      simp only [List.nil_append] at he ⊢
      subst he
      exact ⟨n + 1 + 1, Nat.le_refl _, .del x (.subst y z h)⟩
    | cons c l =>
      simp only [List.cons_append, List.cons.injEq] at he
      obtain ⟨rfl, rfl⟩ := he
      obtain ⟨m, hm, h'⟩ := ih l r x rfl
      exact ⟨m + 1, by omega, .subst y z h'⟩
  | @del a b n y h ih =>
    intro l r x he
    cases l with
    | nil =>
      simp only [List.nil_append] at he ⊢
      subst he
      exact ⟨n + 1 + 1, Nat.le_refl _, .del x (.del y h)⟩
    | cons c l =>
      simp only [List.cons_append, List.cons.injEq] at he
      obtain ⟨rfl, rfl⟩ := he
      obtain ⟨m, hm, h'⟩ := ih l r x rfl
      exact ⟨m + 1, by omega, .del y h'⟩
  | @ins a b n y h ih =>
    intro l r x he
    obtain ⟨m, hm, h'⟩ := ih l r x he
    exact ⟨m + 1, by omega, .ins y h'⟩

theorem align_subst {a' b : Str} {n : Nat} (h : Align a' b n) : ∀ (l r : Str) (x y : Char), a' = l ++ y :: r →
    ∃ m ≤ n + 1, Align (l ++ x :: r) b m := by
  induction h with
  | nil => intro l r x y h; simp at h
  | @keep a b n w h ih =>
    intro l r x y he
    cases l with
    | nil =>
      simp only [List.nil_append, List.cons.injEq] at he
      obtain ⟨rfl, rfl⟩ := he
      exact ⟨n + 1, Nat.le_refl _, .subst x w h⟩
    | cons c l =>
      simp only [List.cons_append, List.cons.injEq] at he
      obtain ⟨rfl, rfl⟩ := he
      obtain ⟨m, hm, h'⟩ := ih l r x y rfl
      exact ⟨m, hm, .keep w h'⟩
  | @subst a b n w z h ih =>
    intro l r x y he
    cases l with
    | nil =>
      simp only [List.nil_append, List.cons.injEq] at he
      obtain ⟨rfl, rfl⟩ := he
      exact ⟨n + 1, by omega, .subst x z h⟩
    | cons c l =>
      simp only [List.cons_append, List.cons.injEq] at he
      obtain ⟨rfl, rfl⟩ := he
      obtain ⟨m, hm, h'⟩ := ih l r x y rfl
      exact ⟨m + 1, by omega, .subst w z h'⟩
  | @del a b n w h ih =>
    intro l r x y he
    cases l with
    | nil =>
      simp only [List.nil_append, List.cons.injEq] at he
      obtain ⟨rfl, rfl⟩ := he
      exact ⟨n + 1, by omega, .del x h⟩
    | cons c l =>
      simp only [List.cons_append, List.cons.injEq] at he
      obtain ⟨rfl, rfl⟩ := he
      obtain ⟨m, hm, h'⟩ := ih l r x y rfl
      exact ⟨m + 1, by omega, .del w h'⟩
  | @ins a b n w h ih =>
    intro l r x y he
    obtain ⟨m, hm, h'⟩ := ih l r x y he
    exact ⟨m + 1, by omega, .ins w h'⟩

theorem align_of_edits {n : Nat} {a b : Str} (h : Edits n a b) : ∃ m ≤ n, Align a b m := by
  induction h with
  | refl s => exact ⟨0, Nat.le_refl _, align_refl s⟩
  | @step n a b c h _ ih =>
    obtain ⟨m, hm, ha⟩ := ih
    obtain ⟨k, hk, ha'⟩ : ∃ k ≤ m + 1, Align a c k := by
      cases h with
      | insert l r x => exact align_insert ha l r x rfl
      | delete l r x => exact align_delete ha l r x rfl
      | subst l r x y => exact align_subst ha l r x y rfl
    exact ⟨k, by omega, ha'⟩

theorem align_append {a b c d : Str} {n m : Nat} (h₁ : Align a b n) (h₂ : Align c d m) : Align (a ++ c) (b ++ d) (n + m) := by
  induction h₁ with
  | nil => simpa using h₂
  | keep x _ ih => exact .keep x ih
  | subst x y _ ih => rw [Nat.add_right_comm]; exact .subst x y ih
  | del x _ ih => rw [Nat.add_right_comm]; exact .del x ih
  | ins x _ ih => rw [Nat.add_right_comm]; exact .ins x ih

theorem align_reverse {a b : Str} {n : Nat} (h : Align a b n) : Align a.reverse b.reverse n := by
  induction h with
  | nil => exact .nil
  | keep x _ ih =>
    rw [List.reverse_cons, List.reverse_cons]
    exact align_append ih (.keep x .nil)
  | subst x y _ ih =>
    rw [List.reverse_cons, List.reverse_cons]
    exact align_append ih (.subst x y .nil)
  | del x _ ih =>
    rw [List.reverse_cons]
    simpa using align_append ih (.del x .nil)
  | ins x _ ih =>
    rw [List.reverse_cons]
    simpa using align_append ih (.ins x .nil)

theorem align_snoc_inv {a b : Str} {x y : Char} {n : Nat} (h : Align (a ++ [x]) (b ++ [y]) n) :
    (x = y ∧ Align a b n) ∨ ∃ m, n = m + 1 ∧ (Align a b m ∨ Align a (b ++ [y]) m ∨ Align (a ++ [x]) b m) := by
  have h' := align_reverse h
  rw [List.reverse_append, List.reverse_append] at h'
  simp only [List.reverse_singleton, List.cons_append, List.nil_append] at h'
  have back : ∀ {a b : Str} {n}, Align a.reverse b.reverse n → Align a b n := fun {a b n} h => by
    simpa using align_reverse h
  cases h' with
  | keep _ h1 => exact .inl ⟨rfl, back h1⟩
  | subst _ _ h1 => exact .inr ⟨_, rfl, .inl (back h1)⟩
  | del _ h1 =>
    refine .inr ⟨_, rfl, .inr (.inl (back ?_))⟩
    simpa using h1
  | ins _ h1 =>
    refine .inr ⟨_, rfl, .inr (.inr (back ?_))⟩
    simpa using h1

/-- Least cost of an alignment. -/
def IsMin (a b : Str) (n : Nat) : Prop := Align a b n ∧ ∀ m, Align a b m → n ≤ m

theorem isDistance_of_isMin {a b : Str} {n : Nat} (h : IsMin a b n) : IsDistance a b n := by
  refine ⟨edits_of_align h.1, fun m hm => ?_⟩
  obtain ⟨k, hk, ha⟩ := align_of_edits hm
  have := h.2 k ha
  omega

theorem isMin_nil_left (b : Str) : IsMin [] b b.length := by
  constructor
  · induction b with
    | nil => exact .nil
    | cons y b ih => exact .ins y ih
  · intro m h
    generalize ha : ([] : Str) = a at h
    induction h with
    | nil => simp
    | keep => cases ha
    | subst => cases ha
    | del => cases ha
    | ins y _ ih => have := ih ha; simp; omega

theorem isMin_nil_right (a : Str) : IsMin a [] a.length := by
  constructor
  · induction a with
    | nil => exact .nil
    | cons y b ih => exact .del y ih
  · intro m h
    generalize hb : ([] : Str) = b at h
    induction h with
    | nil => simp
    | keep => cases hb
    | subst => cases hb
    | ins => cases hb
    | del y _ ih => have := ih hb; simp; omega

theorem isMin_same {a b : Str} {n : Nat} (x : Char) (h : IsMin a b n) : IsMin (a ++ [x]) (b ++ [x]) n := by
  refine ⟨by simpa using align_append h.1 (.keep x .nil), fun m hm => ?_⟩
  rcases align_snoc_inv hm with ⟨_, h1⟩ | ⟨m, rfl, h1 | h1 | h1⟩
  · exact h.2 m h1
  · have := h.2 m h1; omega
  · have e : Edits (m + 1) a b := edits_trans (edits_of_align h1) (by
      have := Edit.delete b [] x
      rw [List.append_nil] at this
      exact .step this (.refl _))
    obtain ⟨k, hk, ha⟩ := align_of_edits e
    have := h.2 k ha
    omega
  · have e : Edits (1 + m) a b := edits_trans (.step (by
      have := Edit.insert a [] x
      rw [List.append_nil] at this
      exact this) (.refl _)) (edits_of_align h1)
    obtain ⟨k, hk, ha⟩ := align_of_edits e
    have := h.2 k ha
    omega

theorem isMin_diff {a b : Str} {x y : Char} (hxy : x ≠ y) {corner upper left : Nat} (h1 : IsMin a b corner)
    (h2 : IsMin a (b ++ [y]) upper) (h3 : IsMin (a ++ [x]) b left) :
    IsMin (a ++ [x]) (b ++ [y]) (min left (min upper corner) + 1) := by
  constructor
  · have e1 : Align (a ++ [x]) (b ++ [y]) (corner + 1) := align_append h1.1 (.subst x y .nil)
    have e2 : Align (a ++ [x]) (b ++ [y]) (upper + 1) := by simpa using align_append h2.1 (.del x .nil)
    have e3 : Align (a ++ [x]) (b ++ [y]) (left + 1) := by simpa using align_append h3.1 (.ins y .nil)
    rcases Nat.le_total left (min upper corner) with h | h
    · rw [Nat.min_eq_left h]; exact e3
    · rw [Nat.min_eq_right h]
      rcases Nat.le_total upper corner with h | h
      · rw [Nat.min_eq_left h]; exact e2
      · rw [Nat.min_eq_right h]; exact e1
  · intro m hm
    rcases align_snoc_inv hm with ⟨h, _⟩ | ⟨m, rfl, h | h | h⟩
    · exact absurd h hxy
    · have := h1.2 m h; omega
    · have := h2.2 m h; omega
    · have := h3.2 m h; omega

/-! ## The loops -/

/-- After `j` steps of the inner loop for the character `x`. -/
structure Row (pa : Str) (x : Char) (b : Str) (j corner : Nat) (costs : List Nat) : Prop where
  len : costs.length = b.length + 1
  new : ∀ k ≤ j, ∃ n, costs[k]? = some n ∧ IsMin (pa ++ [x]) (b.take k) n
  old : ∀ k, j < k → k ≤ b.length → ∃ n, costs[k]? = some n ∧ IsMin pa (b.take k) n
  cor : IsMin pa (b.take j) corner

theorem levInner_ok (pa : Str) (x : Char) (b : Str) (ys : Str) (j corner : Nat) (costs : List Nat) (hj : j + ys.length = b.length)
    (hys : ys = b.drop j) (h : Row pa x b j corner costs) :
    ∃ costs', levInner x ys j corner costs = .ok costs' ∧ costs'.length = b.length + 1 ∧
      ∀ k ≤ b.length, ∃ n, costs'[k]? = some n ∧ IsMin (pa ++ [x]) (b.take k) n := by
  induction ys generalizing j corner costs with
  | nil =>
    refine ⟨costs, rfl, h.len, fun k hk => h.new k (by simp at hj; omega)⟩
  | cons y ys ih =>
    simp only [List.length_cons] at hj
    obtain ⟨upper, hu, hum⟩ := h.old (j + 1) (by omega) (by omega)
    obtain ⟨cj, hc, hcm⟩ := h.new j (Nat.le_refl _)
    have htake : b.take (j + 1) = b.take j ++ [y] := by
      rw [List.take_add_one]
      have : b[j]? = some y := by
        have := congrArg List.head? hys
        rw [List.head?_drop] at this
        simpa using this.symm
      rw [this]; rfl
    have hys' : ys = b.drop (j + 1) := by
      rw [← List.drop_drop, ← hys]; rfl
    have step : ∀ v, IsMin (pa ++ [x]) (b.take (j + 1)) v → Row pa x b (j + 1) upper (costs.set (j + 1) v) := by
      intro v hv
      refine ⟨by simp [h.len], fun k hk => ?_, fun k hk1 hk2 => ?_, hum⟩
      · rcases Nat.lt_or_ge k (j + 1) with hlt | hge
        · rw [List.getElem?_set_ne (by omega)]; exact h.new k (by omega)
        · have : k = j + 1 := by omega
          subst this
          exact ⟨v, by rw [List.getElem?_set_self (by rw [h.len]; omega)], hv⟩
      · rw [List.getElem?_set_ne (by omega)]; exact h.old k (by omega) hk2
    unfold levInner
    have hcost : cost costs (j + 1) = .ok upper := by unfold cost; rw [hu]; rfl
    have hcost' : cost costs j = .ok cj := by unfold cost; rw [hc]; rfl
    have hset : ∀ v, setCost costs (j + 1) v = .ok (costs.set (j + 1) v) := by
      intro v; unfold setCost; rw [if_pos (by rw [h.len]; omega)]
    simp only [hcost, hcost', hset, Outcome.bind_ok]
    split
    · rename_i hxy
      subst hxy
      refine ih (j + 1) upper _ (by omega) hys' (step corner ?_)
      rw [htake]
      exact isMin_same x h.cor
    · rename_i hxy
      refine ih (j + 1) upper _ (by omega) hys' (step _ ?_)
      rw [htake] at hum ⊢
      have := isMin_diff hxy h.cor hum hcm
      have e1 : (if upper < corner then upper else corner) = min upper corner := by
        split <;> omega
      have e2 : ∀ t, (if cj < t then cj else t) = min cj t := by intro t; split <;> omega
      rw [e1, e2]
      exact this

theorem levOuter_ok (b : Str) (xs pa : Str) (i : Nat) (costs : List Nat) (hi : i = pa.length) (hl : costs.length = b.length + 1)
    (h : ∀ k ≤ b.length, ∃ n, costs[k]? = some n ∧ IsMin pa (b.take k) n) :
    ∃ costs', levOuter b xs i costs = .ok costs' ∧ costs'.length = b.length + 1 ∧
      ∀ k ≤ b.length, ∃ n, costs'[k]? = some n ∧ IsMin (pa ++ xs) (b.take k) n := by
  induction xs generalizing pa i costs with
  | nil => exact ⟨costs, rfl, hl, by simpa using h⟩
  | cons x xs ih =>
    unfold levOuter
    have hset : setCost costs 0 (i + 1) = .ok (costs.set 0 (i + 1)) := by unfold setCost; rw [if_pos (by omega)]
    rw [hset]
    simp only [Outcome.bind_ok]
    obtain ⟨n0, h0, h0m⟩ := h 0 (by omega)
    have hn0 : IsMin pa (b.take 0) i := by rw [hi]; exact isMin_nil_right pa
    obtain ⟨c2, e1, e2, e3⟩ := levInner_ok pa x b b 0 i (costs.set 0 (i + 1)) (by omega) rfl ⟨by simp [hl], by
        intro k hk
        have : k = 0 := by omega
        subst this
        refine ⟨i + 1, by rw [List.getElem?_set_self (by omega)], ?_⟩
        have := isMin_nil_right (pa ++ [x])
        simpa [hi] using this,
      by
        intro k hk1 hk2
        rw [List.getElem?_set_ne (by omega)]
        exact h k hk2, hn0⟩
    rw [e1]
    simp only [Outcome.bind_ok]
    have := ih (pa ++ [x]) (i + 1) c2 (by simp [hi]) e2 e3
    simpa using this

theorem getDistLevenshtein_ok (a b : Str) : ∃ n, getDistLevenshtein a b = .ok n ∧ IsMin a b n := by
  unfold getDistLevenshtein
  split
  · rename_i h
    rw [List.length_eq_zero_iff.1 h]
    exact ⟨b.length, rfl, isMin_nil_left b⟩
  · split
    · rename_i h
      rw [List.length_eq_zero_iff.1 h]
      exact ⟨a.length, rfl, isMin_nil_right a⟩
    · obtain ⟨c, h1, h2, h3⟩ := levOuter_ok b a [] 0 (List.range (b.length + 1)) rfl (by simp) (by
        intro k hk
        refine ⟨k, by rw [List.getElem?_range (by omega)], ?_⟩
        have := isMin_nil_left (b.take k)
        simpa [Nat.min_eq_left hk] using this)
      obtain ⟨n, hn, hm⟩ := h3 b.length (Nat.le_refl _)
      refine ⟨n, ?_, by simpa using hm⟩
      rw [h1]
      simp only [Outcome.bind_ok, cost, hn]
      rfl

end Verif.Str
