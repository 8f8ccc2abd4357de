import Verif.JsonConv.Spec

namespace Verif.JsonConv

open Verif Json

variable {R : Type} {ops : RealOps R} {lt : X R → X R → Bool}

theorem asserting_true {α : Type} (dbg : Bool) (k : Outcome α) : asserting dbg true k = k := by
  simp [asserting]

/-! ### Integers -/

theorem toS_toU {n : Int} (h1 : -9223372036854775808 ≤ n) (h2 : n ≤ 9223372036854775807) : toS (toU n) = n := by
  unfold toS toU
  split <;> omega

theorem toU_toS_toU {n : Int} (h1 : 0 ≤ n) (h2 : n ≤ 18446744073709551615) : (toU (toS (toU n)) : Int) = n := by
  unfold toS toU
  split <;> omega

theorem mkNum_as (t : IntTy) {n : Int} (h : t.Range n) : numAs ops t (mkNum t n) = .ok n := by
  cases t <;> simp only [IntTy.Range] at h <;>
    simp only [numAs, mkNum, IntTy.signed, getIntS, getIntU, IntTy.cast, IntTy.bits, if_true,
      Outcome.bind_ok, Outcome.pure_eq, Bool.false_eq_true, false_and, true_and, if_false] <;>
    first
    | (rw [toS_toU (by omega) (by omega)]; congr 1; split <;> omega)
    | (rw [toU_toS_toU (by omega) (by omega)]; congr 1; omega)

/-! ### Lists -/

theorem mapO_back {α β : Type} {f : α → Outcome β} {g : β → Outcome α} {q : β → Bool} (xs : List α)
    (h : ∀ x ∈ xs, ∃ v, f x = .ok v ∧ q v = true ∧ g v = .ok x) :
    ∃ vs, mapO f xs = .ok vs ∧ vs.length = xs.length ∧ vs.all q = true ∧ mapO g vs = .ok xs := by
  induction xs with
  | nil => exact ⟨[], rfl, rfl, rfl, rfl⟩
  | cons x xs ih =>
    obtain ⟨v, h1, h2, h3⟩ := h x List.mem_cons_self
    obtain ⟨vs, h4, h5, h6, h7⟩ := ih (fun y hy => h y (List.mem_cons_of_mem _ hy))
    exact ⟨v :: vs, by simp [mapO, h1, h4], by simp [h5], by simp [h2, h6], by simp [mapO, h3, h7]⟩

theorem mapO_congr {α β : Type} {f g : α → Outcome β} (xs : List α) (h : ∀ x ∈ xs, f x = g x) : mapO f xs = mapO g xs := by
  induction xs with
  | nil => rfl
  | cons x xs ih =>
    rw [mapO, mapO, h x List.mem_cons_self, ih (fun y hy => h y (List.mem_cons_of_mem _ hy))]

theorem mapO_map {α β γ : Type} (f : β → Outcome γ) (g : α → β) (xs : List α) :
    mapO f (xs.map g) = mapO (fun x => f (g x)) xs := by
  induction xs with
  | nil => rfl
  | cons x xs ih => rw [List.map_cons, mapO, mapO, ih]

/-- Reading by index, in order, is mapping over the list. -/
theorem mapO_idx (dbg : Bool) {β : Type} (f : Val R → Outcome β) (vs : List (Val R)) :
    mapO (fun i => do let v ← getIdx dbg (.arr vs) i; f v) (List.range vs.length) = mapO f vs := by
  have h1 : mapO (fun i => do let v ← getIdx dbg (.arr vs) i; f v) (List.range vs.length)
      = mapO (fun o => match o with | some v => f v | none => .throw) ((List.range vs.length).map (fun i => vs[i]?)) := by
    rw [mapO_map]
    apply mapO_congr
    intro i _
    simp only [getIdx, getArr, Outcome.bind_ok]
    cases vs[i]? <;> rfl
  have h2 : (List.range vs.length).map (fun i => vs[i]?) = vs.map some := by
    apply List.ext_getElem
    · simp
    · intro i h1 h2
      simp at h1
      simp [h1]
  rw [h1, h2, mapO_map]

theorem mapPut_last (hlt : ∀ a b, lt a b = true → lt b a = false) {m : List (X R × X R)} {k v : X R}
    (h : ∀ p ∈ m, lt p.1 k = true) : mapPut lt k v m = m ++ [(k, v)] := by
  induction m with
  | nil => rfl
  | cons p m ih =>
    have hp := h p List.mem_cons_self
    rw [mapPut, if_neg (by rw [hlt _ _ hp]; simp), if_pos hp, ih (fun q hq => h q (List.mem_cons_of_mem _ hq))]
    rfl

theorem mapLoop_back (hlt : ∀ a b, lt a b = true → lt b a = false) {f : Val R → Outcome (X R × X R)}
    {vs : List (Val R)} {kvs m : List (X R × X R)} (h : mapO f vs = .ok kvs)
    (ho : (m ++ kvs).Pairwise (fun p q => lt p.1 q.1 = true)) : mapLoop lt f vs m = .ok (m ++ kvs) := by
  induction vs generalizing m kvs with
  | nil => cases h; simp [mapLoop]
  | cons v vs ih =>
    rw [mapO] at h
    obtain ⟨p, hp, h⟩ := Outcome.bind_eq_ok.1 h
    obtain ⟨ps, hps, h⟩ := Outcome.bind_eq_ok.1 h
    cases h
    rw [mapLoop, hp, Outcome.bind_ok, mapPut_last hlt]
    · rw [ih hps]
      · simp
      · simpa using ho
    · intro q hq
      exact (List.pairwise_append.1 ho).2.2 q hq p List.mem_cons_self

/-! ### Bitsets and strings -/

theorem bitsOf_back (l : List Bool) :
    bitsOf l.length (l.reverse.map fun b => if b then '1' else '0') = .ok l := by
  have ht : ((l.reverse.map fun b => if b then '1' else '0') : List Char).take l.length
      = l.reverse.map fun b => if b then '1' else '0' := List.take_of_length_le (by simp)
  unfold bitsOf
  simp only [ht]
  have h1 : (l.reverse.map fun b => if b then '1' else '0').all (fun c => c == '0' || c == '1') = true := by
    rw [List.all_eq_true]
    intro c hc
    obtain ⟨b, _, rfl⟩ := List.mem_map.1 hc
    cases b <;> rfl
  rw [if_pos h1]
  congr 1
  simp only [List.map_reverse, List.reverse_reverse, List.map_map, List.length_reverse, List.length_map, Nat.sub_self]
  rw [show List.replicate 0 false = [] from rfl, List.append_nil]
  have : ((fun x => x == '1') ∘ fun b : Bool => if b = true then '1' else '0') = id := by
    funext b; cases b <;> rfl
  rw [this, List.map_id]

theorem charsOf_back (t : List Char) : charsOf (t.length + 1) t = .ok (t ++ [Char.ofNat 0]) := by
  have key : ∀ (l : List Nat) (f : Nat → Outcome Char) (g : Nat → Char), (∀ i ∈ l, f i = .ok (g i)) →
      mapO f l = .ok (l.map g) := by
    intro l f g h
    induction l with
    | nil => rfl
    | cons i l ih =>
      rw [mapO, h i List.mem_cons_self, ih (fun j hj => h j (List.mem_cons_of_mem _ hj))]; rfl
  unfold charsOf
  rw [key _ _ (fun i => (t ++ [Char.ofNat 0])[i]?.getD (Char.ofNat 0))]
  · congr 1
    apply List.ext_getElem
    · simp
    · intro i h1 h2
      simp [List.getElem?_eq_getElem h2]
  · intro i hi
    simp only [List.mem_range] at hi
    by_cases h : i < t.length
    · simp [List.getElem?_append_left h, h]
    · have : i = t.length := by omega
      subst this
      simp

/-! ### The round trip -/

theorem extrPair_back (dbg : Bool) {f g : Val R → Outcome (X R)} {v w : Val R} {x y : X R} (hf : f v = .ok x)
    (hg : g w = .ok y) : extrPair dbg f g (.arr [v, w]) = .ok (x, y) := by
  simp [extrPair, getIdx, getArr, hf, hg]

mutual
theorem conv_back (hlt : ∀ a b, lt a b = true → lt b a = false) (dbg : Bool) (t : Ty) (ht : t.NoArrays) (x : X R)
    (h : HasTy lt x t) :
    ∃ v, toVal t x = .ok v ∧ chkNN t v = true ∧ ∀ old, (t.IsMap → old = .m []) → extr ops lt dbg t v old = .ok x := by
  match t, x, h with
  | .val, _, .val w => exact ⟨w, by simp [toVal], by simp [chkNN], by simp [extr]⟩
  | .obj, _, .obj kvs => exact ⟨.obj kvs, by simp [toVal], by simp [chkNN], by simp [extr, getObj]⟩
  | .arr, _, .arr vs => exact ⟨.arr vs, by simp [toVal], by simp [chkNN], by simp [extr, getArr]⟩
  | .str, _, .str s => exact ⟨.str s, by simp [toVal], by simp [chkNN], by simp [extr, getStr]⟩
  | .bln, _, .bln b => exact ⟨.bln b, by simp [toVal], by simp [chkNN], by simp [extr, getBln]⟩
  | .nll, _, .nll => exact ⟨.nll, by simp [toVal], by simp [chkNN], by simp [extr, getNll]⟩
  | .int t, _, .int (n := n) h =>
    exact ⟨.num (mkNum t n), by simp [toVal], by simp [chkNN, isNum], by simp [extr, getNum, mkNum_as t h]⟩
  | .real, _, .real r => exact ⟨.num (.real r), by simp [toVal], by simp [chkNN, isNum], by simp [extr, getNum, getReal]⟩
  | .enum t, _, .enum (n := n) h =>
    exact ⟨.num (mkNum t n), by simp [toVal], by simp [chkNN], by
      simp [extr, isNum, asserting_true, getNum, mkNum_as t h]⟩
  | .pair a b, _, .pair (x := x) (y := y) hx hy =>
    simp only [Ty.NoArrays] at ht
    obtain ⟨v, h1, h2, h3⟩ := conv_back hlt dbg a ht.1 x hx
    obtain ⟨w, h4, h5, h6⟩ := conv_back hlt dbg b ht.2 y hy
    refine ⟨.arr [v, w], by simp [toVal, h1, h4], by simp [chkNN, h2, h5], ?_⟩
    intro old _
    rw [extr, extrPair_back dbg (x := x) (y := y)]
    · rfl
    · simp only [h2, asserting_true]; exact h3 _ (fun _ => rfl)
    · simp only [h5, asserting_true]; exact h6 _ (fun _ => rfl)
  | .tuple ts, _, .tuple (xs := xs) h =>
    simp only [Ty.NoArrays] at ht
    obtain ⟨vs, h1, h2, h3, h4⟩ := convs_back hlt dbg ts ht xs h
    refine ⟨.arr vs, by simp [toVal, h1], by simp [chkNN, h2, h3], ?_⟩
    intro old _
    have := h4 []
    simp only [List.nil_append, List.length_nil] at this
    simp [extr, this]
  | .vec t, _, .vec (xs := xs) h =>
    simp only [Ty.NoArrays] at ht
    obtain ⟨vs, h1, h2, h3, h4⟩ := mapO_back (f := toVal t) (q := chkNN t)
      (g := fun v => asserting dbg (chkNN t v) (extr ops lt dbg t v (.m []))) xs (fun x hx => by
        obtain ⟨v, h1, h2, h3⟩ := conv_back hlt dbg t ht x (h x hx)
        exact ⟨v, h1, h2, by simp only [h2, asserting_true]; exact h3 _ (fun _ => rfl)⟩)
    refine ⟨.arr vs, by simp [toVal, h1], by simpa [chkNN] using h3, ?_⟩
    intro old _
    simp [extr, getArr, h4]
  | .map k v, _, .map (kvs := kvs) hk hv ho =>
    simp only [Ty.NoArrays] at ht
    obtain ⟨vs, h1, h2, h3, h4⟩ := mapO_back (q := chkNN (.pair k v))
      (f := fun p : X R × X R => do
        let a ← toVal k p.1
        let b ← toVal v p.2
        return (.arr [a, b] : Val R))
      (g := fun w => asserting dbg (chkNN (.pair k v) w)
        (extrPair dbg (fun u => asserting dbg (chkNN k u) (extr ops lt dbg k u (.m [])))
          (fun u => asserting dbg (chkNN v u) (extr ops lt dbg v u (.m []))) w)) kvs (fun p hp => by
        obtain ⟨a, ha1, ha2, ha3⟩ := conv_back hlt dbg k ht.1 p.1 (hk p hp)
        obtain ⟨b, hb1, hb2, hb3⟩ := conv_back hlt dbg v ht.2 p.2 (hv p hp)
        have hc : chkNN (.pair k v) (.arr [a, b]) = true := by simp [chkNN, ha2, hb2]
        refine ⟨.arr [a, b], by simp [ha1, hb1], hc, ?_⟩
        simp only [hc, asserting_true]
        rw [extrPair_back dbg (x := p.1) (y := p.2)]
        · simp only [ha2, asserting_true]; exact ha3 _ (fun _ => rfl)
        · simp only [hb2, asserting_true]; exact hb3 _ (fun _ => rfl))
    refine ⟨.arr vs, by rw [toVal, h1]; rfl, by simp [chkNN], ?_⟩
    intro old hold
    rw [hold trivial, extr, mapLoop_back hlt h4 (by simpa using ho)]
    rfl
  | .bits n, _, .bits (l := l) h =>
    subst h
    refine ⟨.str (l.reverse.map fun b => if b then '1' else '0'), by simp [toVal], by simp [chkNN], ?_⟩
    intro old _
    have := bitsOf_back l
    rw [extr]
    simp only [chkNN, asserting_true, getStr, Outcome.bind_ok]
    rw [this]; rfl

theorem convs_back (hlt : ∀ a b, lt a b = true → lt b a = false) (dbg : Bool) (ts : List Ty) (ht : NoArraysAll ts)
    (xs : List (X R)) (h : HasTys lt xs ts) :
    ∃ vs, toVals ts xs = .ok vs ∧ vs.length = ts.length ∧ chkAll ts vs = true ∧
      ∀ us, extrs ops lt dbg ts (.arr (us ++ vs)) us.length = .ok xs := by
  match ts, xs, h with
  | [], _, .nil => exact ⟨[], by simp [toVals], rfl, by simp [chkAll], by simp [extrs]⟩
  | t :: ts, _, .cons (x := x) (xs := xs) h hs =>
    simp only [NoArraysAll] at ht
    obtain ⟨v, h1, h2, h3⟩ := conv_back hlt dbg t ht.1 x h
    obtain ⟨vs, h4, h5, h6, h7⟩ := convs_back hlt dbg ts ht.2 xs hs
    refine ⟨v :: vs, by simp [toVals, h1, h4], by simp [h5], by simp [chkAll, h2, h6], ?_⟩
    intro us
    have h8 := h7 (us ++ [v])
    simp only [List.append_assoc, List.singleton_append, List.length_append, List.length_singleton] at h8
    simp [extrs, getArr, getIdx, asserting_true, h2, h3 (.m []) (fun _ => rfl), h8]
end

end Verif.JsonConv
