import Verif.Args.Model
import Verif.Args.Spec

/-!
# Theorems about packs and tuples: C58, C76, C77, C78
-/

namespace Verif.Args

variable {α σ τ : Type}

/-! ## Lemmas -/

theorem getAll_take (xs : List α) (k base : Nat) (h : base + k ≤ xs.length) :
    getAll xs ((List.range k).map (base + ·)) = some ((xs.drop base).take k) := by
  induction k generalizing base with
  | zero => simp [getAll]
  | succ k ih =>
    rw [List.range_succ_eq_map, List.map_cons, List.map_map]
    have hf : ((base + ·) ∘ Nat.succ : Nat → Nat) = (base + 1 + ·) := by
      funext c; simp only [Function.comp]; omega
    rw [hf, getAll, ih (base + 1) (by omega)]
    have hb : base < xs.length := by omega
    rw [List.getElem?_eq_getElem (by simpa using hb)]
    simp only [Nat.add_zero, Option.bind_eq_bind, Option.bind_some]
    rw [List.drop_eq_getElem_cons hb, List.take_succ_cons]

theorem bind_match (x : Outcome σ) (f : σ → Outcome σ) :
    x.bind f = match x with
      | .ok s' => f s'
      | .throw => .throw
      | .assertFail => .assertFail
      | .ub => .ub
      | .diverge => .diverge := by
  cases x <;> rfl

/-- The groups `b, b + 1, …, b + n - 1` of `k` arguments. -/
theorem exec_groups (f : Fn α σ) (k : Nat) (xs : List α) (n b : Nat)
    (h : xs.length = (b + n) * k) :
    ∃ gs, gs.flatten = xs.drop (b * k) ∧ (∀ g ∈ gs, g.length = k) ∧
      exec f xs (List.range k) ((List.range n).map (b + ·)) = some (Spec.inOrder f gs) := by
  induction n generalizing b with
  | zero =>
    refine ⟨[], ?_, by simp, ?_⟩
    · rw [List.drop_eq_nil_of_le (by simp [h])]; rfl
    · simp only [List.range_zero, List.map_nil, exec]
      rfl
  | succ n ih =>
    obtain ⟨gs, h1, h2, h3⟩ := ih (b + 1) (by rw [h]; congr 1; omega)
    have hle : b * k + k ≤ xs.length := by
      rw [h, ← Nat.succ_mul]; exact Nat.mul_le_mul_right k (by omega)
    refine ⟨(xs.drop (b * k)).take k :: gs, ?_, ?_, ?_⟩
    · rw [List.flatten_cons, h1, Nat.succ_mul, ← List.drop_drop, List.take_append_drop]
    · intro g hg
      rcases List.mem_cons.1 hg with rfl | hg
      · simp only [List.length_take, List.length_drop]; omega
      · exact h2 g hg
    · rw [List.range_succ_eq_map, List.map_cons, List.map_map]
      have hf : ((b + ·) ∘ Nat.succ : Nat → Nat) = (b + 1 + ·) := by
        funext c; simp only [Function.comp]; omega
      rw [hf, exec, h3, execN, List.length_range, Nat.add_zero, getAll_take xs k (b * k) hle]
      simp only [Option.bind_eq_bind, Option.bind_some]
      congr 1
      funext s
      rw [bind_match]
      rfl

/-! ## C58 -/

/-- **C58.** `forArgs<k>(f, xs...)` compiles exactly when `k` is positive and divides the
number of arguments; it then calls `f` for consecutive groups of `k` arguments, in order,
and the groups together are all the arguments, each once. -/
theorem C58_groups (k : Nat) (f : Fn α σ) (xs : List α) :
    (¬ (0 < k ∧ k ∣ xs.length) → forArgs k f xs = none) ∧
    (0 < k ∧ k ∣ xs.length →
      ∃ gs, Spec.Groups k xs gs ∧ forArgs k f xs = some (Spec.inOrder f gs)) := by
  constructor
  · intro h
    unfold forArgs
    rw [if_neg]
    rintro ⟨h1, h2⟩
    exact h ⟨h1, Nat.dvd_of_mod_eq_zero h2⟩
  · rintro ⟨h1, h2⟩
    unfold forArgs
    rw [if_pos ⟨h1, Nat.mod_eq_zero_of_dvd h2⟩]
    obtain ⟨gs, g1, g2, g3⟩ := exec_groups f k xs (xs.length / k) 0
      (by rw [Nat.zero_add, Nat.div_mul_cancel h2])
    refine ⟨gs, ⟨by simpa using g1, g2⟩, ?_⟩
    rw [← g3]
    congr 1
    simp

/-- The groups are determined: C58 leaves no choice. -/
theorem C58_groups_unique (k : Nat) (hk : 0 < k) (xs : List α) (gs hs : List (List α))
    (h : Spec.Groups k xs gs) (h' : Spec.Groups k xs hs) : gs = hs := by
  induction gs generalizing xs hs with
  | nil =>
    cases hs with
    | nil => rfl
    | cons a hs =>
      exfalso
      have e : xs = [] := by simpa using h.1.symm
      have l := h'.2 a (by simp)
      have := h'.1
      rw [e, List.flatten_cons] at this
      have : a = [] := (List.append_eq_nil_iff.1 this).1
      rw [this] at l; simp at l; omega
  | cons g gs ih =>
    cases hs with
    | nil =>
      exfalso
      have e : xs = [] := by simpa using h'.1.symm
      have l := h.2 g (by simp)
      have := h.1
      rw [e, List.flatten_cons] at this
      have : g = [] := (List.append_eq_nil_iff.1 this).1
      rw [this] at l; simp at l; omega
    | cons a hs =>
      have e : g ++ gs.flatten = a ++ hs.flatten := by
        rw [← List.flatten_cons, ← List.flatten_cons, h.1, h'.1]
      have l : g.length = a.length := by rw [h.2 g (by simp), h'.2 a (by simp)]
      obtain ⟨e1, e2⟩ := List.append_inj e l
      subst e1
      rw [ih gs.flatten hs ⟨rfl, fun x hx => h.2 x (by simp [hx])⟩
        ⟨e2.symm, fun x hx => h'.2 x (by simp [hx])⟩]

/-- Six arguments in pairs: three calls; and a call that throws is the last. -/
theorem C58_example :
    ((forArgs 2 (fun g (s : List (List Nat)) => .ok (s ++ [g])) [1, 2, 3, 4, 5, 6]).map (· []) =
      some (.ok [[1, 2], [3, 4], [5, 6]])) ∧
    ((forArgs 2 (fun g (s : List (List Nat)) => if g = [3, 4] then .throw else .ok (s ++ [g]))
      [1, 2, 3, 4, 5, 6]).map (· []) = some .throw) ∧
    ((forArgs 4 (fun g (s : List (List Nat)) => .ok (s ++ [g])) [1, 2, 3, 4, 5, 6]).map (· []) =
      none) := by
  decide

/-! ## C78 -/

theorem getMin_cons (a b : Nat) (xs : List Nat) :
    getMin (a :: b :: xs) = (getMin (b :: xs)).map fun m => if a < m then a else m := by
  cases xs with
  | nil => rfl
  | cons c xs =>
    rw [getMin]
    cases getMin (b :: c :: xs) <;> rfl

theorem getMax_cons (a b : Nat) (xs : List Nat) :
    getMax (a :: b :: xs) = (getMax (b :: xs)).map fun m => if a > m then a else m := by
  cases xs with
  | nil => rfl
  | cons c xs =>
    rw [getMax]
    cases getMax (b :: c :: xs) <;> rfl

/-- **C78.** The variadic `getMin` gives the least of its arguments, however many there are
(at least one). -/
theorem C78_min (a : Nat) (xs : List Nat) :
    ∃ m, getMin (a :: xs) = some m ∧ Spec.IsMin m (a :: xs) := by
  induction xs generalizing a with
  | nil => exact ⟨a, rfl, by simp, by simp⟩
  | cons b xs ih =>
    obtain ⟨m, h1, h2, h3⟩ := ih b
    refine ⟨if a < m then a else m, by rw [getMin_cons, h1]; rfl, ?_, ?_⟩
    · split
      · simp
      · exact List.mem_cons_of_mem _ h2
    · intro x hx
      rcases List.mem_cons.1 hx with rfl | hx
      · split <;> omega
      · have := h3 x hx
        split <;> omega

/-- **C78.** The variadic `getMax` gives the greatest of its arguments. -/
theorem C78_max (a : Nat) (xs : List Nat) :
    ∃ m, getMax (a :: xs) = some m ∧ Spec.IsMax m (a :: xs) := by
  induction xs generalizing a with
  | nil => exact ⟨a, rfl, by simp, by simp⟩
  | cons b xs ih =>
    obtain ⟨m, h1, h2, h3⟩ := ih b
    refine ⟨if a > m then a else m, by rw [getMax_cons, h1]; rfl, ?_, ?_⟩
    · split
      · simp
      · exact List.mem_cons_of_mem _ h2
    · intro x hx
      rcases List.mem_cons.1 hx with rfl | hx
      · split <;> omega
      · have := h3 x hx
        split <;> omega

theorem C78_example : getMin [4, 2, 7, 2] = some 2 ∧ getMax [4, 2, 7, 2] = some 7 := by decide

/-! ## C76 -/

theorem column_row (i : Nat) (tpls : List (List α)) (h : ∀ t ∈ tpls, i < t.length) :
    ∃ r, column i tpls = some r ∧ r.map some = tpls.map (fun t => t[i]?) := by
  induction tpls with
  | nil => exact ⟨[], rfl, rfl⟩
  | cons t ts ih =>
    obtain ⟨r, h1, h2⟩ := ih fun u hu => h u (by simp [hu])
    have ht := h t (by simp)
    refine ⟨t[i] :: r, ?_, ?_⟩
    · rw [column, List.getElem?_eq_getElem ht, h1]; rfl
    · simp [h2, List.getElem?_eq_getElem ht]

theorem tplExec_rows (f : Nat → Fn α σ) (tpls : List (List α)) (n i : Nat)
    (h : ∀ t ∈ tpls, i + n ≤ t.length) :
    ∃ rows : List (List α), rows.length = n ∧
      (∀ (j : Nat) (r : List α), rows[j]? = some r →
        r.map some = tpls.map (fun t => t[i + j]?)) ∧
      tplExec f tpls i n =
        some (Spec.inOrder (fun p => f p.2 p.1) (rows.zipIdx i)) := by
  induction n generalizing i with
  | zero =>
    refine ⟨[], rfl, by simp, ?_⟩
    rw [tplExec]
    rfl
  | succ n ih =>
    obtain ⟨rows, h1, h2, h3⟩ := ih (i + 1) fun t ht => by have := h t ht; omega
    obtain ⟨r, g1, g2⟩ := column_row i tpls fun t ht => by have := h t ht; omega
    refine ⟨r :: rows, by simp [h1], ?_, ?_⟩
    · intro j q hq
      cases j with
      | zero =>
        simp only [List.getElem?_cons_zero, Option.some.injEq] at hq
        subst hq
        exact g2
      | succ j =>
        rw [List.getElem?_cons_succ] at hq
        rw [h2 j q hq]
        congr 1; funext t; congr 1; omega
    · rw [tplExec, g1, h3]
      simp only [Option.bind_eq_bind, Option.bind_some]
      congr 1
      funext s
      rw [bind_match]
      rfl

/-- **C76.** `tplForData(f, tpls...)` calls `f` with the index `i` and the elements number
`i` of all the tuples, for `i` from zero to the size of the shortest tuple, in order; it
compiles if there is a tuple and none is empty. -/
theorem C76_data_partial (f : Nat → Fn α σ) (tpls : List (List α)) (h0 : tpls ≠ [])
    (h1 : ∀ t ∈ tpls, t ≠ []) :
    ∃ rows, Spec.Rows tpls rows ∧
      tplForData f tpls = some (Spec.inOrder (fun p => f p.2 p.1) rows.zipIdx) := by
  cases tpls with
  | nil => exact absurd rfl h0
  | cons t ts =>
    obtain ⟨n, g1, g2, g3⟩ := C78_min t.length (ts.map List.length)
    rw [← List.map_cons] at g1 g2 g3
    have hle : ∀ u ∈ t :: ts, n ≤ u.length := fun u hu => g3 _ (List.mem_map_of_mem hu)
    obtain ⟨u, hu, hun⟩ := List.mem_map.1 g2
    have hn : 0 < n := by
      rw [← hun]; exact List.length_pos_iff.2 (h1 u hu)
    obtain ⟨rows, r1, r2, r3⟩ := tplExec_rows f (t :: ts) n 0 (by simpa using hle)
    refine ⟨rows, ⟨by rw [r1]; exact hle, ⟨u, hu, by rw [r1]; exact hun⟩, ?_⟩, ?_⟩
    · intro i r hr
      simpa using r2 i r hr
    · rw [tplForData, g1]
      simp only [Option.bind_eq_bind, Option.bind_some, if_pos hn]
      exact r3

theorem inOrder_fst (f : Fn α σ) (rows : List (List α)) (i : Nat) (s : σ) :
    Spec.inOrder (fun p => f p.1) (rows.zipIdx i) s = Spec.inOrder f rows s := by
  induction rows generalizing i s with
  | nil => rfl
  | cons r rows ih =>
    rw [List.zipIdx_cons, Spec.inOrder, Spec.inOrder]
    cases f r s with
    | ok s' => exact ih (i + 1) s'
    | throw => rfl
    | assertFail => rfl
    | ub => rfl
    | diverge => rfl

/-- **C76.** `tplFor(f, tpls...)` calls `f` with the elements number `i` of all the tuples,
for `i` from zero to the size of the shortest tuple, in order. -/
theorem C76_for_partial (f : Fn α σ) (tpls : List (List α)) (h0 : tpls ≠ [])
    (h1 : ∀ t ∈ tpls, t ≠ []) :
    ∃ rows, Spec.Rows tpls rows ∧ tplFor f tpls = some (Spec.inOrder f rows) := by
  obtain ⟨rows, r1, r2⟩ := C76_data_partial (fun _ => f) tpls h0 h1
  refine ⟨rows, r1, ?_⟩
  rw [tplFor, r2]
  congr 1
  funext s
  exact inOrder_fst f rows 0 s

theorem map_some_inj {a b : List α} (h : a.map some = b.map some) : a = b :=
  (List.map_inj_right (fun _ _ h => Option.some.inj h)).1 h

/-- The rows are determined: C76 leaves no choice. -/
theorem C76_rows_unique (tpls rows rows' : List (List α)) (h : Spec.Rows tpls rows)
    (h' : Spec.Rows tpls rows') : rows = rows' := by
  have hl : rows.length = rows'.length := by
    obtain ⟨t, ht, e⟩ := h.shortest
    obtain ⟨t', ht', e'⟩ := h'.shortest
    have := h.enough t' ht'
    have := h'.enough t ht
    omega
  apply List.ext_getElem hl
  intro i hi hi'
  apply map_some_inj
  rw [h.row i _ (List.getElem?_eq_getElem hi), h'.row i _ (List.getElem?_eq_getElem hi')]

/-- What is missing: a tuple without elements is not skipped, the call does not compile. -/
theorem C76_empty_tuple (f : Nat → Fn α σ) (tpls : List (List α)) (h : [] ∈ tpls) :
    tplForData f tpls = none := by
  cases tpls with
  | nil => rfl
  | cons t ts =>
    obtain ⟨n, g1, _, g3⟩ := C78_min t.length (ts.map List.length)
    rw [← List.map_cons] at g1 g3
    have : n ≤ 0 := g3 0 (List.mem_map.2 ⟨[], h, rfl⟩)
    rw [tplForData, g1]
    simp only [Option.bind_eq_bind, Option.bind_some]
    rw [if_neg (by omega)]

theorem C76_example :
    ((tplForData (fun i g (s : List (Nat × List Nat)) => .ok (s ++ [(i, g)]))
      [[1, 2, 3], [4, 5]]).map (· [])) = some (.ok [(0, [1, 4]), (1, [2, 5])]) := by
  decide

/-! ## C77 -/

theorem exploder_eq (f : List α → Ended τ) (t : List α) (n : Nat) (args : List α)
    (h : n ≤ t.length) :
    exploder f t n args =
      some (if n = 0 then f args else (f (t.take n ++ args)).noexcept) := by
  induction n generalizing args with
  | zero => rfl
  | succ n ih =>
    have hn : n < t.length := by omega
    rw [exploder, List.getElem?_eq_getElem hn, ]
    simp only [Option.bind_eq_bind, Option.bind_some]
    rw [ih _ (by omega), Option.bind_some]
    have e : t.take (n + 1) ++ args = t.take n ++ t[n] :: args := by
      rw [List.take_succ_eq_append_getElem hn, List.append_assoc]; rfl
    rw [if_neg (Nat.succ_ne_zero n), e]
    congr 1
    split
    · next h => subst h; rfl
    · cases f (t.take n ++ t[n] :: args) <;> rfl

/-- **C77.** `explode(f, t)` calls `f` once with the elements of the tuple as its arguments,
in order, and gives what the call gives. -/
theorem C77_explode_partial (f : List α → Ended τ) (t : List α) (h : f t ≠ .throws) :
    explode f t = some (f t) := by
  rw [explode, exploder_eq f t _ _ Nat.le.refl, List.take_length, List.append_nil]
  split
  · next e => rw [List.length_eq_zero_iff.1 e]
  · revert h
    cases f t with
    | returns x => intro _; rfl
    | throws => intro h; exact absurd rfl h
    | terminates => intro _; rfl

/-- What is missing: for a tuple with elements an exception of the function does not get
out of `explode`, it ends the program. -/
theorem C77_explode_throw (f : List α → Ended τ) (t : List α) (h : f t = .throws) :
    explode f t = some (if t = [] then .throws else .terminates) := by
  rw [explode, exploder_eq f t _ _ Nat.le.refl, List.take_length, List.append_nil]
  by_cases e : t = []
  · subst e
    simp [h]
  · rw [if_neg (by simpa using e), if_neg e, h]; rfl

/-- **C77.** `getTplIdxOf<T, Tpl>()` is the index of the first occurrence of the type; it
compiles exactly when there is one. -/
theorem C77_idx_of [DecidableEq α] (t : α) (us : List α) :
    (∀ i, tplIdxOf t us = some i ↔
      us[i]? = some t ∧ ∀ j, j < i → us[j]? ≠ some t) ∧
    (tplIdxOf t us = none ↔ t ∉ us) := by
  induction us with
  | nil => simp [tplIdxOf]
  | cons u us ih =>
    obtain ⟨ih1, ih2⟩ := ih
    by_cases h : u = t
    · subst h
      constructor
      · intro i
        rw [tplIdxOf, if_pos rfl]
        constructor
        · intro h; cases h
          exact ⟨rfl, fun j hj => absurd hj (Nat.not_lt_zero j)⟩
        · rintro ⟨_, h2⟩
          cases i with
          | zero => rfl
          | succ i => exact absurd rfl (h2 0 (Nat.succ_pos i))
      · simp [tplIdxOf]
    · rw [tplIdxOf, if_neg h]
      constructor
      · intro i
        cases i with
        | zero =>
          constructor
          · intro e
            cases hr : tplIdxOf t us with
            | none => rw [hr] at e; cases e
            | some r =>
              rw [hr] at e
              simp only [Option.bind_eq_bind, Option.bind_some, Option.some.injEq] at e
              omega
          · rintro ⟨e, _⟩
            exact absurd (by simpa using e) h
        | succ i =>
          have : (((tplIdxOf t us).bind fun r => some (1 + r)) = some (i + 1)) ↔
              tplIdxOf t us = some i := by
            cases tplIdxOf t us with
            | none => simp
            | some r =>
              simp only [Option.bind_some, Option.some.injEq]
              omega
          rw [Option.bind_eq_bind, this, ih1 i, List.getElem?_cons_succ]
          constructor
          · rintro ⟨e1, e2⟩
            refine ⟨e1, fun j hj => ?_⟩
            cases j with
            | zero => simpa using h
            | succ j => exact e2 j (by omega)
          · rintro ⟨e1, e2⟩
            exact ⟨e1, fun j hj => e2 (j + 1) (by omega)⟩
      · have : (((tplIdxOf t us).bind fun r => some (1 + r)) = none) ↔
            tplIdxOf t us = none := by
          cases tplIdxOf t us <;> simp
        rw [Option.bind_eq_bind, this, ih2]
        simp only [List.mem_cons, not_or]
        exact ⟨fun e => ⟨fun c => h c.symm, e⟩, fun e => e.2⟩

theorem tplRepeatHlpr_eq (t : α) (n : Nat) (args : List α) :
    tplRepeatHlpr t n args = args ++ List.replicate n t := by
  induction n generalizing args with
  | zero => simp [tplRepeatHlpr]
  | succ n ih => rw [tplRepeatHlpr, ih, List.append_assoc, List.replicate_succ]; rfl

/-- **C77.** `TplRepeat<T, n>` is the tuple with `n` elements that are all `T`. -/
theorem C77_repeat (t : α) (n : Nat) :
    (tplRepeat t n).length = n ∧ ∀ u ∈ tplRepeat t n, u = t := by
  rw [tplRepeat, tplRepeatHlpr_eq, List.nil_append]
  exact ⟨List.length_replicate, fun u hu => List.eq_of_mem_replicate hu⟩

theorem C77_example :
    explode (fun xs : List Nat => Ended.returns (xs.foldl (fun a d => 10 * a + d) 0)) [1, 2, 3] =
      some (.returns 123) ∧
    explode (fun _ : List Nat => (Ended.throws : Ended Nat)) [1] = some .terminates ∧
    tplIdxOf 5 [4, 5, 6, 5] = some 1 ∧ tplRepeat 'a' 3 = ['a', 'a', 'a'] := by
  decide

end Verif.Args
