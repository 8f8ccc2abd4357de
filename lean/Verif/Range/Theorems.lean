import Verif.Range.Spec
import Verif.JsonConv.Theorems

/-! # C106-C108: ranges, iterator adaptors, iteration over JSON values -/

namespace Verif.Range

open Verif Json JsonConv

variable {I α β S : Type}

/-! ## C106: a loop over a range visits its elements in order -/

theorem plain_deref (c : List α) (p : Nat) (h : p < c.length) : (plain c).deref p = .ok c[p] := by
  simp [plain, List.getElem?_eq_getElem h, Outcome.ofOption]

/-- A loop over positions `p` to `q` of a container, seen through `get`. -/
theorem loop_adapt (c : List α) (get : Nat → Outcome β) (f : β → S → Outcome S) :
    ∀ (n p q : Nat) (s : S), p ≤ q → q ≤ c.length → q - p ≤ n →
      forLoop (adapt (plain c) get) f ⟨q⟩ (n + 1) ⟨p⟩ s =
        visit (fun i s => (get i).bind fun x => f x s) (List.range' p (q - p)) s
  | n, p, q, s, hpq, hq, hn => by
    unfold forLoop
    by_cases h : p = q
    · subst h
      simp [adapt, plain, visit]
    · have hlt : p < q := by omega
      obtain ⟨m, rfl⟩ : ∃ m, n = m + 1 := ⟨n - 1, by omega⟩
      have hr : List.range' p (q - p) = p :: List.range' (p + 1) (q - (p + 1)) := by
        rw [show q - p = (q - (p + 1)) + 1 by omega, List.range'_succ]
      have ih := fun s => loop_adapt c get f m (p + 1) q s (by omega) hq (by omega)
      rw [hr, visit, if_pos (by simp [adapt, plain, h])]
      simp only [show (adapt (plain c) get).deref ⟨p⟩ = get p from rfl,
        show (adapt (plain c) get).inc ⟨p⟩ = .ok ⟨p + 1⟩ by simp [adapt, plain, show p < c.length by omega], Outcome.bind_ok]
      generalize get p = y
      cases y with
      | ok x =>
        simp only [Outcome.bind_ok]
        show _ = (f x s).bind _
        cases f x s with
        | ok s' => exact ih s'
        | _ => rfl
      | _ => rfl

theorem loop_plain (c : List α) (f : α → S → Outcome S) :
    ∀ (n p q : Nat) (s : S), p ≤ q → q ≤ c.length → q - p ≤ n →
      forLoop (plain c) f q (n + 1) p s = visit f ((c.take q).drop p) s
  | n, p, q, s, hpq, hq, hn => by
    unfold forLoop
    by_cases h : p = q
    · subst h
      simp [plain, visit]
    · have hlt : p < q := by omega
      obtain ⟨m, rfl⟩ : ∃ m, n = m + 1 := ⟨n - 1, by omega⟩
      have hr : (c.take q).drop p = c[p] :: (c.take q).drop (p + 1) := by
        rw [List.drop_eq_getElem_cons (by simp; omega)]
        simp
      have ih := fun s => loop_plain c f m (p + 1) q s (by omega) hq (by omega)
      rw [hr, visit, if_pos (by simp [plain, h])]
      simp only [plain_deref c p (by omega),
        show (plain c).inc p = .ok (p + 1) by simp [plain, show p < c.length by omega], Outcome.bind_ok]
      cases f c[p] s with
      | ok s' => exact ih s'
      | _ => rfl

theorem loop_reverse (c : List α) (f : α → S → Outcome S) :
    ∀ (n p : Nat) (s : S), p ≤ c.length → p ≤ n →
      forLoop (reverseIt c) f 0 (n + 1) p s = visit f (c.take p).reverse s
  | n, p, s, hp, hn => by
    unfold forLoop
    cases p with
    | zero => simp [reverseIt, visit]
    | succ p =>
      obtain ⟨m, rfl⟩ : ∃ m, n = m + 1 := ⟨n - 1, by omega⟩
      have hr : (c.take (p + 1)).reverse = c[p] :: (c.take p).reverse := by
        rw [List.take_succ_eq_append_getElem (by omega)]
        simp
      have ih := fun s => loop_reverse c f m p s (by omega) (by omega)
      rw [hr, visit, if_pos (by simp [reverseIt])]
      simp only [show (reverseIt c).deref (p + 1) = .ok c[p] by
          simp [reverseIt, List.getElem?_eq_getElem (show p < c.length by omega), Outcome.ofOption],
        show (reverseIt c).inc (p + 1) = .ok p by simp [reverseIt, plain], Outcome.bind_ok]
      cases f c[p] s with
      | ok s' => exact ih s'
      | _ => rfl

/-- **C106**, `asRange(c)`: every element once, in the order of the container. -/
theorem C106_asRange (c : List α) (f : α → S → Outcome S) (s : S) :
    forRange (plain c) c.length (asRange c) f s = visit f c s := by
  have h := loop_plain c f c.length 0 c.length s (by omega) (by omega) (by omega)
  rw [List.take_length, List.drop_zero] at h
  exact h

/-- **C106**, `asRangeReverse(c)`: every element once, in the opposite order. -/
theorem C106_reverse (c : List α) (f : α → S → Outcome S) (s : S) :
    forRange (reverseIt c) c.length (asRangeReverse c) f s = visit f c.reverse s := by
  have h := loop_reverse c f c.length c.length s (by omega) (by omega)
  rw [List.take_length] at h
  exact h

/-- **C106**, `makeRange(begin + i, begin + j)`: the elements from the one at `i` to the one before `j`. -/
theorem C106_makeRange (c : List α) (i j : Nat) (hij : i ≤ j) (hj : j ≤ c.length) (f : α → S → Outcome S) (s : S) :
    forRange (plain c) c.length (makeRange i j) f s = visit f ((c.take j).drop i) s :=
  loop_plain c f c.length i j s hij hj (by omega)

example : forRange (plain [10, 20, 30, 40]) 4 (makeRange 1 3) note [] = .ok [20, 30] := by decide
example : forRange (reverseIt [10, 20, 30]) 3 (asRangeReverse [10, 20, 30]) note [] = .ok [30, 20, 10] := by decide

/-- A range whose end comes before its beginning is left at the end of the container: the behaviour is undefined, however
far `f` gets on with the elements. -/
theorem C106_wrong_order (c : List α) (i j : Nat) (hij : j < i) (hi : i ≤ c.length) (f : α → S → Outcome S)
    (hf : ∀ x s, ∃ s', f x s = .ok s') (s : S) :
    forRange (plain c) c.length (makeRange i j) f s = .ub := by
  have key : ∀ (n p : Nat) (s : S), j < p → p ≤ c.length → c.length - p ≤ n →
      forLoop (plain c) f j (n + 1) p s = .ub := by
    intro n
    induction n with
    | zero =>
      intro p s h1 h2 h3
      have hp : p = c.length := by omega
      subst hp
      unfold forLoop
      rw [if_pos (by simp [plain]; omega)]
      simp [plain, Outcome.ofOption]
    | succ n ih =>
      intro p s h1 h2 h3
      unfold forLoop
      rw [if_pos (by simp [plain]; omega)]
      by_cases hp : p = c.length
      · subst hp; simp [plain, Outcome.ofOption]
      · obtain ⟨s', hs'⟩ := hf c[p] s
        simp only [plain_deref c p (by omega), hs',
          show (plain c).inc p = .ok (p + 1) by simp [plain, show p < c.length by omega], Outcome.bind_ok]
        exact ih (p + 1) s' (by omega) (by omega) (by omega)
  exact key c.length i s hij hi (by omega)

theorem visit_congr (l : List α) (f g : α → S → Outcome S) (h : ∀ x ∈ l, ∀ s, f x s = g x s) (s : S) :
    visit f l s = visit g l s := by
  induction l generalizing s with
  | nil => rfl
  | cons x xs ih =>
    rw [visit, visit, h x (by simp)]
    congr 1
    funext s'
    exact ih (fun y hy => h y (by simp [hy])) s'

theorem visit_map (g : α → β) (f : β → S → Outcome S) (l : List α) (s : S) :
    visit (fun x s => f (g x) s) l s = visit f (l.map g) s := by
  induction l generalizing s with
  | nil => rfl
  | cons x xs ih => simp only [visit, List.map_cons]; congr 1; funext s'; exact ih s'

theorem visit_positions (c : List α) (f : α → S → Outcome S) (k : Nat → S → Outcome S)
    (h : ∀ i (hi : i < c.length) s, k i s = f c[i] s) (s : S) : visit k (List.range c.length) s = visit f c s := by
  induction c generalizing s k with
  | nil => rfl
  | cons x xs ih =>
    rw [List.length_cons, List.range_succ_eq_map, visit, visit, h 0 (by simp), List.getElem_cons_zero]
    congr 1
    funext s'
    rw [← visit_map]
    exact ih (fun i s => k (i + 1) s) (fun i hi s => by rw [h (i + 1) (by simpa using hi), List.getElem_cons_succ]) s'

/-- A loop over a whole container, seen through `get`. -/
theorem whole_adapt (c : List α) (get : Nat → Outcome β) (g : α → Outcome β)
    (hg : ∀ i (hi : i < c.length), get i = g c[i]) (f : β → S → Outcome S) (s : S) :
    forRange (adapt (plain c) get) c.length (makeRange ⟨0⟩ ⟨c.length⟩) f s =
      visit (fun x s => (g x).bind fun y => f y s) c s := by
  have h := loop_adapt c get f c.length 0 c.length s (by omega) (by omega) (by omega)
  rw [Nat.sub_zero, ← List.range_eq_range'] at h
  exact h.trans (visit_positions c _ _ (fun i hi s => by simp only [hg i hi]) s)

/-- What `asRangeCastPtr<D&>(c)` refers to: the addresses in the container, as they are. -/
theorem C106_cast_addresses (as : List Nat) (f : Nat → S → Outcome S) (s : S) :
    forRange (adapt (plain (as.map some)) (castGet (as.map some))) as.length (asRangeCastPtr (as.map some)) f s =
      visit f as s := by
  have h := whole_adapt (as.map some) (castGet (as.map some)) (fun p => Outcome.ofOption p)
    (fun i hi => by
      simp only [castGet, plain_deref _ i hi, Outcome.bind_ok]
      rw [List.getElem_map]; rfl) f s
  rw [List.length_map] at h
  rw [asRangeCastPtr, List.length_map, h, ← visit_map some (fun p s => (Outcome.ofOption p).bind fun y => f y s)]
  exact visit_congr _ _ _ (fun x _ s => rfl) s

/-- **C106**, `asRangeCastPtr<D&>(c)`: the objects that the pointers point to, seen as objects of the derived class `D`,
provided the base is at the beginning of `D` (`ds`: the addresses of the `D` objects, `off`: where in `D` the base is). -/
theorem C106_cast_partial (ds : List Nat) (off : Nat) (h : off = 0) (f : Nat → S → Outcome S) (s : S) :
    forRange (adapt (plain (ds.map fun d => some (d + off))) (castGet (ds.map fun d => some (d + off)))) ds.length
      (asRangeCastPtr (ds.map fun d => some (d + off))) f s = visit f ds s := by
  subst h
  exact C106_cast_addresses ds f s

/-- With a base further inside, as in multiple inheritance, none of the references is to the object. -/
theorem C106_cast_shifted (ds : List Nat) (off : Nat) (h : off ≠ 0) :
    ∃ got, forRange (adapt (plain (ds.map fun d => some (d + off))) (castGet (ds.map fun d => some (d + off)))) ds.length
      (asRangeCastPtr (ds.map fun d => some (d + off))) note [] = .ok got ∧
      got.length = ds.length ∧ ∀ (i : Nat) (x y : Nat), got[i]? = some x → ds[i]? = some y → x ≠ y := by
  have notes : ∀ (l acc : List Nat), visit note l acc = .ok (acc ++ l) := by
    intro l
    induction l with
    | nil => intro acc; simp [visit]
    | cons x xs ih => intro acc; simp [visit, note, Outcome.bind, ih]
  refine ⟨ds.map (· + off), ?_, by simp, ?_⟩
  · have h := C106_cast_addresses (ds.map (· + off)) note []
    rw [notes, List.length_map, List.map_map] at h
    exact h
  · intro i x y hx hy
    rw [List.getElem?_map, hy] at hx
    simp only [Option.map_some, Option.some.injEq] at hx
    omega

/-- A null pointer among the elements is dereferenced. -/
theorem C106_cast_null (as : List Nat) (rest : List Ptr) (f : Nat → S → Outcome S) (hf : ∀ x s, ∃ s', f x s = .ok s') (s : S) :
    forRange (adapt (plain (as.map some ++ none :: rest)) (castGet (as.map some ++ none :: rest)))
      (as.map some ++ none :: rest).length (asRangeCastPtr (as.map some ++ none :: rest)) f s = .ub := by
  rw [asRangeCastPtr, whole_adapt _ _ (fun p => Outcome.ofOption p)
    (fun i hi => by
      simp only [castGet, plain_deref _ i hi, Outcome.bind_ok]
      cases (as.map some ++ none :: rest)[i] <;> rfl)]
  induction as generalizing s with
  | nil => simp [visit, Outcome.ofOption, Outcome.bind]
  | cons x xs ih =>
    obtain ⟨s', hs'⟩ := hf x s
    simp only [List.map_cons, List.cons_append, visit, Outcome.ofOption, Outcome.bind, hs']
    exact ih s'

/-! ## C107: adaptors move and compare like the iterators they are made from -/

theorem move_plain (c : List α) (op : Op) (p : Nat) (hp : p ≤ c.length) :
    move (plain c) op ⟨p⟩ =
      if 0 ≤ (p : Int) + dist op ∧ (p : Int) + dist op ≤ c.length then
        .ok (⟨((p : Int) + dist op).toNat⟩, ⟨((p : Int) + dist op).toNat⟩) else .ub := by
  have hadd : ∀ k : Int, (adapt (plain c) (plain c).deref).add ⟨p⟩ k =
      if 0 ≤ (p : Int) + k ∧ (p : Int) + k ≤ c.length then .ok ⟨((p : Int) + k).toNat⟩ else .ub := by
    intro k
    simp only [adapt, plain]
    split <;> rfl
  have hinc : (adapt (plain c) (plain c).deref).inc ⟨p⟩ =
      if 0 ≤ (p : Int) + 1 ∧ (p : Int) + 1 ≤ c.length then .ok ⟨((p : Int) + 1).toNat⟩ else .ub := by
    simp only [adapt, plain]
    by_cases h : p < c.length
    · rw [if_pos h, if_pos (by omega)]; rfl
    · rw [if_neg h, if_neg (by omega)]; rfl
  have hdec : (adapt (plain c) (plain c).deref).dec ⟨p⟩ =
      if 0 ≤ (p : Int) + -1 ∧ (p : Int) + -1 ≤ c.length then .ok ⟨((p : Int) + -1).toNat⟩ else .ub := by
    simp only [adapt, plain]
    by_cases h : 0 < p
    · rw [if_pos h, if_pos (by omega)]
      simp only [Outcome.bind_ok, Outcome.pure_eq]
      rw [show ((p : Int) + -1).toNat = p - 1 by omega]
    · rw [if_neg h, if_neg (by omega)]; rfl
  have fin : ∀ (d : Int) (r : Outcome (Ad Nat)),
      r = (if 0 ≤ (p : Int) + d ∧ (p : Int) + d ≤ c.length then .ok ⟨((p : Int) + d).toNat⟩ else .ub) →
      (do let y ← r; return (y, y)) =
        (if 0 ≤ (p : Int) + d ∧ (p : Int) + d ≤ c.length then
          .ok (⟨((p : Int) + d).toNat⟩, ⟨((p : Int) + d).toNat⟩) else .ub : Outcome (Ad Nat × Ad Nat)) := by
    rintro d r rfl
    by_cases h : 0 ≤ (p : Int) + d ∧ (p : Int) + d ≤ c.length
    · rw [if_pos h, if_pos h]; rfl
    · rw [if_neg h, if_neg h]; rfl
  cases op with
  | inc => exact fin 1 _ hinc
  | postInc => exact fin 1 _ hinc
  | dec => exact fin (-1) _ hdec
  | postDec => exact fin (-1) _ hdec
  | add k => exact fin k _ (hadd k)
  | sub k => exact fin (-k) _ (hadd (-k))

/-- **C107**, moves: a sequence of moves that stays inside of the container leads where it should. -/
theorem C107_moves (c : List α) (ops : List Op) (p : Nat) (hp : p ≤ c.length) (h : Inside c.length p ops) :
    moves (plain c) ops ⟨p⟩ = .ok ⟨((p : Int) + total ops).toNat⟩ := by
  induction ops generalizing p with
  | nil => simp [moves, total]
  | cons op ops ih =>
    have h1 := h 1 (by simp)
    simp only [List.take_succ_cons, List.take_zero, total, List.map_cons, List.map_nil, List.sum_cons, List.sum_nil,
      Int.add_zero] at h1
    rw [moves, move_plain c op p hp, if_pos h1, Outcome.bind_ok]
    have e : (((p : Int) + dist op).toNat : Int) = (p : Int) + dist op := Int.toNat_of_nonneg h1.1
    rw [ih _ (by omega)]
    · rw [e]
      simp only [total, List.map_cons, List.sum_cons, Int.add_assoc]
    · intro k hk
      have h2 := h (k + 1) (by simpa using hk)
      simp only [List.take_succ_cons, total, List.map_cons, List.sum_cons, ← Int.add_assoc] at h2
      rw [e]
      exact h2

/-- Other sequences are undefined, and nothing else happens. -/
theorem C107_moves_outside (c : List α) (ops : List Op) (p : Nat) (hp : p ≤ c.length) (h : ¬ Inside c.length p ops) :
    moves (plain c) ops ⟨p⟩ = .ub := by
  induction ops generalizing p with
  | nil =>
    refine absurd ?_ h
    intro k hk
    simp [total]
    exact_mod_cast hp
  | cons op ops ih =>
    rw [moves, move_plain c op p hp]
    by_cases h1 : 0 ≤ (p : Int) + dist op ∧ (p : Int) + dist op ≤ c.length
    · rw [if_pos h1, Outcome.bind_ok]
      have e : (((p : Int) + dist op).toNat : Int) = (p : Int) + dist op := Int.toNat_of_nonneg h1.1
      refine ih _ (by omega) (fun hi => h ?_)
      intro k hk
      cases k with
      | zero => simp [total]; exact_mod_cast hp
      | succ k =>
        have h2 := hi k (by simpa using hk)
        rw [e] at h2
        simpa only [List.take_succ_cons, total, List.map_cons, List.sum_cons, ← Int.add_assoc] using h2
    · rw [if_neg h1]; rfl

example : Inside 4 1 [.inc, .add 2, .postDec, .sub 3] := by
  intro k hk
  have : k = 0 ∨ k = 1 ∨ k = 2 ∨ k = 3 ∨ k = 4 := by simp at hk; omega
  rcases this with rfl | rfl | rfl | rfl | rfl <;> decide

example : moves (plain [10, 20, 30, 40]) [.inc, .add 2, .postDec, .sub 3] ⟨1⟩ = .ok ⟨0⟩ := by decide

/-- **C107**, comparisons are those of the positions. -/
theorem C107_compare (c : List α) (get : Nat → Outcome β) (p q : Nat) :
    ((adapt (plain c) get).eq ⟨p⟩ ⟨q⟩ = true ↔ p = q) ∧ ((adapt (plain c) get).ne ⟨p⟩ ⟨q⟩ = true ↔ p ≠ q) ∧
    ((adapt (plain c) get).lt ⟨p⟩ ⟨q⟩ = true ↔ p < q) ∧ ((adapt (plain c) get).gt ⟨p⟩ ⟨q⟩ = true ↔ q < p) ∧
    ((adapt (plain c) get).le ⟨p⟩ ⟨q⟩ = true ↔ p ≤ q) ∧ ((adapt (plain c) get).ge ⟨p⟩ ⟨q⟩ = true ↔ q ≤ p) := by
  simp [adapt, plain]

/-- **C107**, `++it`, `--it`, `+=` and `-=` designate the iterator after the move (and so do `it++` and `it--`, see below). -/
theorem C107_prefix_result (c : List α) (op : Op) (p : Nat) (r x : Ad Nat) (h : move (plain c) op ⟨p⟩ = .ok (r, x)) :
    r = x := by
  cases op <;>
  · obtain ⟨y, -, hy⟩ := Outcome.bind_eq_ok.mp h
    simp only [Outcome.pure_eq, Outcome.ok.injEq, Prod.mk.injEq] at hy
    rw [← hy.1, ← hy.2]

/-- `it++` should designate the position before the move. It never does: reading `*it++` gives the next element, and at
the last element it is undefined. -/
theorem C107_postfix_wrong (c : List α) (p : Nat) (hp : p < c.length) :
    ∃ r x, move (plain c) .postInc ⟨p⟩ = .ok (r, x) ∧ r.itr = p + 1 ∧ r.itr ≠ p ∧
      (plain c).deref r.itr = (if h : p + 1 < c.length then .ok c[p + 1] else .ub) := by
  refine ⟨⟨p + 1⟩, ⟨p + 1⟩, ?_, rfl, by simp, ?_⟩
  · rw [move_plain c _ p (by omega), if_pos (by simp only [dist]; omega)]
    rfl
  · split
    · exact plain_deref c _ ‹_›
    · rename_i h
      simp [plain, List.getElem?_eq_none (show c.length ≤ p + 1 by omega), Outcome.ofOption]

/-- The same for `it--`. -/
theorem C107_postfix_decrement_wrong (c : List α) (p : Nat) (hp : p < c.length) :
    ∃ r x, move (plain c) .postDec ⟨p + 1⟩ = .ok (r, x) ∧ r.itr = p ∧ (plain c).deref r.itr = .ok c[p] := by
  refine ⟨⟨p⟩, ⟨p⟩, ?_, rfl, plain_deref c p hp⟩
  rw [move_plain c _ (p + 1) (by omega), if_pos (by simp only [dist]; omega)]
  simp only [dist]
  rw [show (((p + 1 : Nat) : Int) + -1).toNat = p by omega]

example : move (plain [10, 20]) .postInc ⟨0⟩ = .ok (⟨1⟩, ⟨1⟩) := by decide

/-! ## C108: iteration over JSON values -/

variable {R : Type} {ops : RealOps R} {lt : X R → X R → Bool}

/-- **C108**, `forArrAs<T>()` on an array: every element once, in order, converted to `T`; an element whose conversion
throws ends the program. -/
theorem C108_forArrAs (dbg : Bool) (t : Ty) (vs : List (Val R)) (f : X R → S → Outcome S) (s : S) :
    forArrAs ops lt dbg t (.arr vs) f s =
      visit (fun v s => (noexcept (as ops lt dbg t v)).bind fun x => f x s) vs s := by
  rw [forArrAs, if_pos (by simp [chk, chkNN]), forUncheckedArrAs]
  simp only [getArr, Outcome.bind_ok]
  exact whole_adapt vs _ (fun v => noexcept (as ops lt dbg t v))
    (fun i hi => by simp only [arrGet, plain_deref vs i hi, Outcome.bind_ok]) f s

/-- **C108**, `forObjAs<T>()` on an object: every entry once, in the order of the keys it is stored in. -/
theorem C108_forObjAs (dbg : Bool) (t : Ty) (kvs : List (List Char × Val R)) (f : List Char × X R → S → Outcome S) (s : S) :
    forObjAs ops lt dbg t (.obj kvs) f s =
      visit (fun kv s => (noexcept (as ops lt dbg t kv.2)).bind fun x => f (kv.1, x) s) kvs s := by
  rw [forObjAs, if_pos (by simp [chk, chkNN]), forUncheckedObjAs]
  simp only [getObj, Outcome.bind_ok]
  rw [whole_adapt kvs _ (fun kv => noexcept (do
      let x ← as ops lt dbg t kv.2
      return (kv.1, x)))
    (fun i hi => by simp only [objGet, plain_deref kvs i hi, Outcome.bind_ok]) f s]
  refine visit_congr _ _ _ (fun kv _ s => ?_) s
  cases as ops lt dbg t kv.2 <;> rfl

/-- **C108**, on a value of another type the checked loops do nothing. -/
theorem C108_other_type (dbg : Bool) (t : Ty) (v : Val R) (f : X R → S → Outcome S) (g : List Char × X R → S → Outcome S)
    (s : S) : ((∀ vs, v ≠ .arr vs) → forArrAs ops lt dbg t v f s = .ok s) ∧
      ((∀ kvs, v ≠ .obj kvs) → forObjAs ops lt dbg t v g s = .ok s) := by
  constructor
  · intro h
    have hc : chk .arr v = false := by
      cases v <;> first | rfl | exact absurd rfl (h _)
    rw [forArrAs, hc]
    rfl
  · intro h
    have hc : chk .obj v = false := by
      cases v <;> first | rfl | exact absurd rfl (h _)
    rw [forObjAs, hc]
    rfl

/-- **C108**, the unchecked loops on a value of another type: an assertion fails, or the behaviour is undefined. -/
theorem C108_unchecked (dbg : Bool) (t : Ty) (v : Val R) (f : X R → S → Outcome S) (g : List Char × X R → S → Outcome S)
    (s : S) :
    ((∀ vs, v ≠ .arr vs) → forUncheckedArrAs ops lt dbg t v f s = if dbg then .assertFail else .ub) ∧
    ((∀ kvs, v ≠ .obj kvs) → forUncheckedObjAs ops lt dbg t v g s = if dbg then .assertFail else .ub) ∧
    (∀ vs, v = .arr vs → forUncheckedArrAs ops lt dbg t v f s = forArrAs ops lt dbg t v f s) ∧
    (∀ kvs, v = .obj kvs → forUncheckedObjAs ops lt dbg t v g s = forObjAs ops lt dbg t v g s) := by
  refine ⟨fun h => ?_, fun h => ?_, ?_, ?_⟩
  · cases v <;> first | exact absurd rfl (h _) | (cases dbg <;> rfl)
  · cases v <;> first | exact absurd rfl (h _) | (cases dbg <;> rfl)
  · rintro vs rfl; rw [forArrAs, if_pos (by simp [chk, chkNN])]
  · rintro kvs rfl; rw [forObjAs, if_pos (by simp [chk, chkNN])]

/-- **C108**, `forArr()` and `forObj()`: the values themselves, without conversion; no loop fails by itself. -/
theorem C108_plain (dbg : Bool) (vs : List (Val R)) (kvs : List (List Char × Val R)) (f : X R → S → Outcome S)
    (g : List Char × X R → S → Outcome S) (s : S) :
    forArr ops lt dbg (.arr vs) f s = visit (fun v s => f (.v v) s) vs s ∧
    forObj ops lt dbg (.obj kvs) g s = visit (fun kv s => g (kv.1, .v kv.2) s) kvs s := by
  have ha : ∀ v : Val R, noexcept (as ops lt dbg .val v) = .ok (.v v) := by
    intro v; simp [as, asserting, chkNN, extr, noexcept]
  constructor
  · rw [forArr, C108_forArrAs]
    exact visit_congr _ _ _ (fun v _ s => by rw [ha]; rfl) s
  · rw [forObj, C108_forObjAs]
    exact visit_congr _ _ _ (fun v _ s => by rw [ha]; rfl) s

/-- **C108** and C23 together: a loop over the value made from a `std::vector<T>` gets the elements of the vector. -/
theorem C108_vector_partial (hlt : ∀ a b, lt a b = true → lt b a = false) (dbg : Bool) (t : Ty) (ht : t.NoArrays)
    (xs : List (X R)) (hx : HasTy lt (.seq xs) (.vec t)) (f : X R → S → Outcome S) (s : S) :
    ∃ v, toVal (.vec t) (.seq xs) = .ok v ∧ forArrAs ops lt dbg t v f s = visit f xs s := by
  have hxs : ∀ x ∈ xs, HasTy lt x t := by cases hx; assumption
  have key : ∃ vs, mapO (toVal t) xs = .ok vs ∧ ∀ s,
      visit (fun v s => (noexcept (as ops lt dbg t v)).bind fun x => f x s) vs s = visit f xs s := by
    clear hx
    induction xs with
    | nil => exact ⟨[], rfl, fun _ => rfl⟩
    | cons x xs ih =>
      obtain ⟨vs, h1, h2⟩ := ih (fun y hy => hxs y (by simp [hy]))
      obtain ⟨v, h3, h4⟩ := C23_round_trip_partial (ops := ops) hlt dbg t ht x (hxs x (by simp))
      refine ⟨v :: vs, by simp [mapO, h1, h3], fun s => ?_⟩
      rw [visit, visit, h4]
      simp only [noexcept, Outcome.bind]
      congr 1
      funext s'
      exact h2 s'
  obtain ⟨vs, h1, h2⟩ := key
  exact ⟨.arr vs, by simp [toVal, h1], by rw [C108_forArrAs, h2]⟩

/-- An element whose conversion throws cannot be caught: `forArrAs<std::bitset<1>>()` on `["x"]`. -/
theorem C108_throwing_element (dbg : Bool) (f : X R → S → Outcome S) (s : S) :
    as ops lt dbg (.bits 1) (.str ['x']) = .throw ∧
    forArrAs ops lt dbg (.bits 1) (.arr [.str ['x']]) f s = .assertFail := by
  have h : as ops lt dbg (.bits 1) (.str ['x']) = .throw := by
    simp [as, asserting, chkNN, extr, getStr, show bitsOf 1 ['x'] = .throw by decide]
  exact ⟨h, by rw [C108_forArrAs, visit, h]; rfl⟩

theorem decide_zero (n : Nat) : (n == 0) = decide (n = 0) := by cases n <;> rfl

/-- **C108**, sizes: the number of turns of the loop. -/
theorem C108_sizes (dbg : Bool) (vs : List (Val R)) (kvs : List (List Char × Val R)) :
    (∃ n, getSizeArr dbg (.arr vs) = .ok n ∧ forArr ops lt dbg (.arr vs) (fun _ k => .ok (k + 1)) 0 = .ok n ∧
      isEmptyArr dbg (.arr vs) = .ok (decide (n = 0))) ∧
    (∃ n, getSizeObj dbg (.obj kvs) = .ok n ∧ forObj ops lt dbg (.obj kvs) (fun _ k => .ok (k + 1)) 0 = .ok n ∧
      isEmptyObj dbg (.obj kvs) = .ok (decide (n = 0))) := by
  have cnt : ∀ {γ : Type} (l : List γ) (k : Nat), visit (fun _ k => .ok (k + 1)) l k = .ok (k + l.length) := by
    intro γ l
    induction l with
    | nil => intro k; rfl
    | cons x xs ih => intro k; simp only [visit, Outcome.bind, ih, List.length_cons]; congr 1; omega
  refine ⟨⟨vs.length, by simp [getSizeArr, getArr], ?_, by simp [isEmptyArr, getSizeArr, getArr, decide_zero]⟩,
    ⟨kvs.length, by simp [getSizeObj, getObj], ?_, by simp [isEmptyObj, getSizeObj, getObj, decide_zero]⟩⟩
  · rw [(C108_plain dbg vs kvs _ (fun _ k => .ok k) 0).1, cnt]; simp
  · rw [(C108_plain dbg vs kvs (fun _ k => .ok k) _ 0).2, cnt]; simp

/-- **C108**, `mkArr(xs...)`: a loop over it gets the arguments. -/
theorem C108_mkArr (dbg : Bool) (xs : List (Val R)) (f : X R → S → Outcome S) (s : S) :
    forArr ops lt dbg (mkArr xs) f s = visit (fun v s => f (.v v) s) xs s :=
  (C108_plain dbg xs [] f (fun _ s => .ok s) s).1

end Verif.Range
