import Verif.Json.LemmasWrite
import Verif.Json.LemmasSafe
import Verif.Json.Access

namespace Verif.Json

open Verif

variable {R : Type} {ops : RealOps R}

theorem toU_natCast {n : Nat} (h : n < 2 ^ 64) : toU (n : Int) = n := by
  unfold toU; omega

/-! ### The compact text is a layout of itself -/

theorem layout_cons {c : Char} {k s : List Char} (h : Layout k s)
    (hc : c ≠ '"' ∧ c ≠ '/' ∧ blank c = false) : Layout (c :: k) (c :: s) := .chr hc.1 hc.2.1 hc.2.2 h

mutual
theorem layout_self {d : Doc} {v : Val R} (h : Denotes ops d v) : Layout d.render d.render := by
  match d, v, h with
  | _, _, .nul => rw [Doc.render]; exact layout_chars _ (by decide)
  | _, _, .bln true => rw [Doc.render]; exact layout_chars _ (by decide)
  | _, _, .bln false => rw [Doc.render]; exact layout_chars _ (by decide)
  | _, _, .num h hn => rw [Doc.render]; exact layout_chars _ h.chars
  | _, _, .str h he => rw [Doc.render]; exact layout_lit h he
  | _, _, .arr h =>
    rw [Doc.render]
    exact Layout.append (layout_cons (layout_selfArr h) (by decide)) (layout_cons .nil (by decide))
  | _, _, .obj h =>
    rw [Doc.render]
    exact Layout.append (layout_cons (layout_selfObj h) (by decide)) (layout_cons .nil (by decide))

theorem layout_selfArr {ds : List Doc} {vs : List (Val R)} (h : DenotesArr ops ds vs) :
    Layout (renderArr ds) (renderArr ds) := by
  match ds, vs, h with
  | _, _, .nil => exact .nil
  | [d], _, .cons h hs => rw [renderArr]; exact layout_self h
  | d :: d' :: ds, _, .cons h hs =>
    rw [renderArr]
    · exact Layout.append (layout_self h) (layout_cons (layout_selfArr hs) (by decide))
    · simp

theorem layout_selfObj {m : List (List Char × Val R)} {kvs : List (List Item × Doc)} {m' : List (List Char × Val R)}
    (h : DenotesObj ops m kvs m') : Layout (renderObj kvs) (renderObj kvs) := by
  match kvs, h with
  | _, .nil => exact .nil
  | [(k, d)], .cons hk he h hs =>
    rw [renderObj]
    exact Layout.append (layout_lit hk he) (layout_cons (layout_self h) (by decide))
  | (k, d) :: p :: kvs, .cons hk he h hs =>
    rw [renderObj]
    · exact Layout.append (layout_lit hk he) (layout_cons (Layout.append (layout_self h)
        (layout_cons (layout_selfObj hs) (by decide))) (by decide))
    · simp
end

/-! ### A value that comes back is equal to the original -/

theorem numBack_eq (laws : IntLaws ops) {n m : Num R} (h : NumBack ops n m) : numEq ops n m = .ok true := by
  cases h with
  | intS n h => simp [numEq, getIntS]
  | intU n h => simp [numEq, getIntU, toU_natCast (n := n) (by omega)]
  | @real r m h he hm =>
    cases hm with
    | @int i h1 h2 => simp only [numEq, getReal]; rw [laws.eq_symm, h2]
    | @real i h1 h2 => simp only [numEq, getReal]; rw [he]

theorem backArr_length {vs vs' : List (Val R)} (h : BackArr ops vs vs') : vs.length = vs'.length := by
  match vs, vs', h with
  | _, _, .nil => rfl
  | _, _, .cons _ hs => simp [backArr_length hs]

theorem backObj_length {vs vs' : List (List Char × Val R)} (h : BackObj ops vs vs') : vs.length = vs'.length := by
  match vs, vs', h with
  | _, _, .nil => rfl
  | _, _, .cons _ _ hs => simp [backObj_length hs]

mutual
theorem back_eq (laws : IntLaws ops) {v v' : Val R} (h : Back ops v v') : valEq ops v v' = .ok true := by
  match v, v', h with
  | _, _, .nll => simp [valEq]
  | _, _, .bln b => simp [valEq]
  | _, _, .num h => rw [valEq]; exact numBack_eq laws h
  | _, _, .str h => simp [valEq]
  | _, _, .arr h => rw [valEq, if_pos (backArr_length h)]; exact backArr_eq laws h
  | _, _, .obj h _ => rw [valEq, if_pos (backObj_length h)]; exact backObj_eq laws h

theorem backArr_eq (laws : IntLaws ops) {vs vs' : List (Val R)} (h : BackArr ops vs vs') :
    eqArr ops vs vs' = .ok true := by
  match vs, vs', h with
  | _, _, .nil => simp [eqArr]
  | _, _, .cons h hs => rw [eqArr, back_eq laws h]; simp [backArr_eq laws hs]

theorem backObj_eq (laws : IntLaws ops) {vs vs' : List (List Char × Val R)} (h : BackObj ops vs vs') :
    eqObj ops vs vs' = .ok true := by
  match vs, vs', h with
  | _, _, .nil => simp [eqObj]
  | _, _, .cons _ h hs => rw [eqObj]; simp [back_eq laws h, backObj_eq laws hs]
end

/-! ### Objects that were read are sorted -/

mutual
/-- In every object inside the value the keys are strictly increasing. -/
inductive Sorted {R : Type} : Val R → Prop
  | nll : Sorted .nll
  | bln {b} : Sorted (.bln b)
  | num {n} : Sorted (.num n)
  | str {s} : Sorted (.str s)
  | arr {vs} (h : ∀ v ∈ vs, Sorted v) : Sorted (.arr vs)
  | obj {kvs} (h : ∀ p ∈ kvs, Sorted p.2) (hk : kvs.Pairwise (fun x y => strLt x.1 y.1 = true)) : Sorted (.obj kvs)
end

theorem put_mem {V : Type} {d : List (List Char × V)} (k : List Char) (w : V) {p : List Char × V}
    (h : p ∈ put d k w) : p = (k, w) ∨ p ∈ d := by
  induction d with
  | nil => simp [put] at h; exact .inl h
  | cons x d ih =>
    simp only [put] at h
    split at h
    · rcases List.mem_cons.1 h with h | h
      · exact .inl h
      · exact .inr (List.mem_cons_of_mem _ h)
    · split at h
      · rcases List.mem_cons.1 h with h | h
        · exact .inl h
        · exact .inr h
      · rcases List.mem_cons.1 h with h | h
        · rw [h]; exact .inr List.mem_cons_self
        · rcases ih h with h | h
          · exact .inl h
          · exact .inr (List.mem_cons_of_mem _ h)

mutual

theorem parseVal_sorted (x : Ctx) (fuel : Nat) (rest : List Char) {v : Val R} {r : List Char}
    (h : parseVal ops x fuel rest = .ok (v, r)) : Sorted v := by
  match fuel with
  | 0 => simp [parseVal] at h
  | fuel + 1 =>
    rw [parseVal] at h
    obtain ⟨c, hc, h⟩ := Outcome.bind_eq_ok.1 h
    split at h
    · obtain ⟨d, hd, h⟩ := Outcome.bind_eq_ok.1 h
      split at h
      · cases h; exact .obj (by simp) List.Pairwise.nil
      · exact objLoop_sorted x fuel _ [] (by simp) List.Pairwise.nil h
    · split at h
      · obtain ⟨d, hd, h⟩ := Outcome.bind_eq_ok.1 h
        split at h
        · cases h; exact .arr (by simp)
        · exact arrLoop_sorted x fuel _ [] (by simp) h
      · split at h
        · obtain ⟨d, hd, h⟩ := Outcome.bind_eq_ok.1 h
          cases h; exact .str
        · split at h
          · obtain ⟨d, hd, h⟩ := Outcome.bind_eq_ok.1 h
            cases h; exact .bln
          · split at h
            · obtain ⟨d, hd, h⟩ := Outcome.bind_eq_ok.1 h
              cases h; exact .bln
            · split at h
              · obtain ⟨d, hd, h⟩ := Outcome.bind_eq_ok.1 h
                cases h; exact .nll
              · obtain ⟨b, _, h⟩ := Outcome.bind_eq_ok.1 h
                split at h
                · unfold parseNum at h
                  simp only [] at h
                  split at h
                  · cases h
                  · cases h; exact .num
                · unfold Json.throwError at h
                  split at h <;> cases h

theorem arrLoop_sorted (x : Ctx) (fuel : Nat) (rest : List Char) (acc : List (Val R))
    (ha : ∀ v ∈ acc, Sorted v) {v : Val R} {r : List Char}
    (h : arrLoop ops x fuel rest acc = .ok (v, r)) : Sorted v := by
  match fuel with
  | 0 => simp [arrLoop] at h
  | fuel + 1 =>
    rw [arrLoop] at h
    obtain ⟨⟨w, r'⟩, hw, h⟩ := Outcome.bind_eq_ok.1 h
    obtain ⟨c, hc, h⟩ := Outcome.bind_eq_ok.1 h
    have hw' := parseVal_sorted x fuel rest hw
    have hacc : ∀ u ∈ acc ++ [w], Sorted u := by
      intro u hu
      rcases List.mem_append.1 hu with hu | hu
      · exact ha u hu
      · rw [List.mem_singleton.1 hu]; exact hw'
    split at h
    · exact arrLoop_sorted x fuel _ _ hacc h
    · split at h
      · cases h; exact .arr hacc
      · unfold Json.throwError at h
        split at h <;> cases h

theorem objLoop_sorted (x : Ctx) (fuel : Nat) (rest : List Char) (acc : List (List Char × Val R))
    (ha : ∀ p ∈ acc, Sorted p.2) (hi : Container.Increasing strLt acc) {v : Val R} {r : List Char}
    (h : objLoop ops x fuel rest acc = .ok (v, r)) : Sorted v := by
  match fuel with
  | 0 => simp [objLoop] at h
  | fuel + 1 =>
    rw [objLoop] at h
    obtain ⟨c, hc, h⟩ := Outcome.bind_eq_ok.1 h
    split at h
    · unfold Json.throwError at h
      split at h <;> cases h
    · obtain ⟨⟨k, r1⟩, hk, h⟩ := Outcome.bind_eq_ok.1 h
      obtain ⟨c2, hc2, h⟩ := Outcome.bind_eq_ok.1 h
      split at h
      · unfold Json.throwError at h
        split at h <;> cases h
      · obtain ⟨⟨w, r2⟩, hw, h⟩ := Outcome.bind_eq_ok.1 h
        have hw' := parseVal_sorted x fuel _ hw
        dsimp only at h
        rw [setIndex_eq_put _ hi] at h
        simp only [Outcome.bind_ok] at h
        obtain ⟨c3, hc3, h⟩ := Outcome.bind_eq_ok.1 h
        have hacc : ∀ p ∈ put acc k w, Sorted p.2 := by
          intro p hp
          rcases put_mem k w hp with hp | hp
          · rw [hp]; exact hw'
          · exact ha p hp
        split at h
        · exact objLoop_sorted x fuel _ _ hacc (put_increasing hi k w) h
        · split at h
          · cases h; exact .obj hacc (put_increasing hi k w)
          · unfold Json.throwError at h
            split at h <;> cases h

end

theorem read_sorted {dbg : Bool} {s : List Char} {v : Val R} (h : read ops dbg s = .ok v) : Sorted v := by
  rw [read] at h
  obtain ⟨p, hp, h⟩ := Outcome.bind_eq_ok.1 h
  obtain ⟨⟨w, r⟩, hw, h⟩ := Outcome.bind_eq_ok.1 h
  cases h
  exact parseVal_sorted _ _ _ hw

/-! ### Equality as an equivalence -/

mutual
/-- All numbers inside the value satisfy `p`. -/
inductive AllNums {R : Type} (p : Num R → Prop) : Val R → Prop
  | nll : AllNums p .nll
  | bln {b} : AllNums p (.bln b)
  | num {n} (h : p n) : AllNums p (.num n)
  | str {s} : AllNums p (.str s)
  | arr {vs} (h : AllNumsArr p vs) : AllNums p (.arr vs)
  | obj {kvs} (h : AllNumsObj p kvs) : AllNums p (.obj kvs)

inductive AllNumsArr {R : Type} (p : Num R → Prop) : List (Val R) → Prop
  | nil : AllNumsArr p []
  | cons {v vs} (h : AllNums p v) (hs : AllNumsArr p vs) : AllNumsArr p (v :: vs)

inductive AllNumsObj {R : Type} (p : Num R → Prop) : List (List Char × Val R) → Prop
  | nil : AllNumsObj p []
  | cons {k v vs} (h : AllNums p v) (hs : AllNumsObj p vs) : AllNumsObj p ((k, v) :: vs)
end

mutual
/-- The two values have the same shape, keys, strings and booleans, and their numbers are related by `e`. -/
inductive Same {R : Type} (e : Num R → Num R → Prop) : Val R → Val R → Prop
  | nll : Same e .nll .nll
  | bln {b} : Same e (.bln b) (.bln b)
  | num {n m} (h : e n m) : Same e (.num n) (.num m)
  | str {s} : Same e (.str s) (.str s)
  | arr {vs ws} (h : SameArr e vs ws) : Same e (.arr vs) (.arr ws)
  | obj {vs ws} (h : SameObj e vs ws) : Same e (.obj vs) (.obj ws)

inductive SameArr {R : Type} (e : Num R → Num R → Prop) : List (Val R) → List (Val R) → Prop
  | nil : SameArr e [] []
  | cons {v w vs ws} (h : Same e v w) (hs : SameArr e vs ws) : SameArr e (v :: vs) (w :: ws)

inductive SameObj {R : Type} (e : Num R → Num R → Prop) : List (List Char × Val R) → List (List Char × Val R) → Prop
  | nil : SameObj e [] []
  | cons {k v w vs ws} (h : Same e v w) (hs : SameObj e vs ws) : SameObj e ((k, v) :: vs) ((k, w) :: ws)
end

section
variable {p : Num R → Prop} {e : Num R → Num R → Prop}

theorem sameArr_length {vs ws : List (Val R)} (h : SameArr e vs ws) : vs.length = ws.length := by
  match vs, ws, h with
  | _, _, .nil => rfl
  | _, _, .cons _ hs => simp [sameArr_length hs]

theorem sameObj_length {vs ws : List (List Char × Val R)} (h : SameObj e vs ws) : vs.length = ws.length := by
  match vs, ws, h with
  | _, _, .nil => rfl
  | _, _, .cons _ hs => simp [sameObj_length hs]

mutual
/-- If number comparison decides `e` on numbers satisfying `p`, value comparison decides `Same e`. -/
theorem valEq_iff (hnum : ∀ n m, p n → p m → ∃ b, numEq ops n m = .ok b ∧ (b = true ↔ e n m))
    {v w : Val R} (hv : AllNums p v) (hw : AllNums p w) : ∃ b, valEq ops v w = .ok b ∧ (b = true ↔ Same e v w) := by
  match v, w, hv, hw with
  | .nll, .nll, _, _ => exact ⟨true, by simp [valEq], by simp; exact .nll⟩
  | .bln a, .bln b, _, _ =>
    refine ⟨a == b, by simp [valEq], ?_⟩
    constructor
    · intro h; rw [beq_iff_eq.1 h]; exact .bln
    · intro h; cases h; simp
  | .str a, .str b, _, _ =>
    refine ⟨a == b, by simp [valEq], ?_⟩
    constructor
    · intro h; rw [beq_iff_eq.1 h]; exact .str
    · intro h; cases h; simp
  | .num a, .num b, .num ha, .num hb =>
    obtain ⟨r, h1, h2⟩ := hnum a b ha hb
    refine ⟨r, by rw [valEq, h1], ?_⟩
    rw [h2]
    exact ⟨fun h => .num h, fun h => by cases h; assumption⟩
  | .arr a, .arr b, .arr ha, .arr hb =>
    by_cases hl : a.length = b.length
    · obtain ⟨r, h1, h2⟩ := eqArr_iff hnum ha hb hl
      refine ⟨r, by rw [valEq, if_pos hl, h1], ?_⟩
      rw [h2]
      exact ⟨fun h => .arr h, fun h => by cases h; assumption⟩
    · refine ⟨false, by rw [valEq, if_neg hl], ?_⟩
      constructor
      · intro h; cases h
      · intro h; cases h with
        | arr h => exact absurd (sameArr_length h) hl
  | .obj a, .obj b, .obj ha, .obj hb =>
    by_cases hl : a.length = b.length
    · obtain ⟨r, h1, h2⟩ := eqObj_iff hnum ha hb hl
      refine ⟨r, by rw [valEq, if_pos hl, h1], ?_⟩
      rw [h2]
      exact ⟨fun h => .obj h, fun h => by cases h; assumption⟩
    · refine ⟨false, by rw [valEq, if_neg hl], ?_⟩
      constructor
      · intro h; cases h
      · intro h; cases h with
        | obj h => exact absurd (sameObj_length h) hl
  | .nll, .bln _, _, _ | .nll, .str _, _, _ | .nll, .num _, _, _ | .nll, .arr _, _, _ | .nll, .obj _, _, _
  | .bln _, .nll, _, _ | .bln _, .str _, _, _ | .bln _, .num _, _, _ | .bln _, .arr _, _, _ | .bln _, .obj _, _, _
  | .str _, .nll, _, _ | .str _, .bln _, _, _ | .str _, .num _, _, _ | .str _, .arr _, _, _ | .str _, .obj _, _, _
  | .num _, .nll, _, _ | .num _, .bln _, _, _ | .num _, .str _, _, _ | .num _, .arr _, _, _ | .num _, .obj _, _, _
  | .arr _, .nll, _, _ | .arr _, .bln _, _, _ | .arr _, .str _, _, _ | .arr _, .num _, _, _ | .arr _, .obj _, _, _
  | .obj _, .nll, _, _ | .obj _, .bln _, _, _ | .obj _, .str _, _, _ | .obj _, .num _, _, _ | .obj _, .arr _, _, _ =>
    exact ⟨false, by simp [valEq], by constructor <;> intro h <;> cases h⟩

theorem eqArr_iff (hnum : ∀ n m, p n → p m → ∃ b, numEq ops n m = .ok b ∧ (b = true ↔ e n m))
    {vs ws : List (Val R)} (hv : AllNumsArr p vs) (hw : AllNumsArr p ws) (hl : vs.length = ws.length) :
    ∃ b, eqArr ops vs ws = .ok b ∧ (b = true ↔ SameArr e vs ws) := by
  match vs, ws, hv, hw with
  | [], [], _, _ => exact ⟨true, by simp [eqArr], by simp; exact .nil⟩
  | [], _ :: _, _, _ => simp at hl
  | _ :: _, [], _, _ => simp at hl
  | v :: vs, w :: ws, .cons hv hvs, .cons hw hws =>
    obtain ⟨b, h1, h2⟩ := valEq_iff hnum hv hw
    rw [eqArr, h1]
    cases b with
    | false =>
      refine ⟨false, by simp, ?_⟩
      constructor
      · intro h; cases h
      · intro h; cases h with
        | cons h _ => exact absurd (h2.2 h) (by simp)
    | true =>
      obtain ⟨b', h3, h4⟩ := eqArr_iff hnum hvs hws (by simpa using hl)
      refine ⟨b', by simp [h3], ?_⟩
      rw [h4]
      exact ⟨fun h => .cons (h2.1 rfl) h, fun h => by cases h; assumption⟩

theorem eqObj_iff (hnum : ∀ n m, p n → p m → ∃ b, numEq ops n m = .ok b ∧ (b = true ↔ e n m))
    {vs ws : List (List Char × Val R)} (hv : AllNumsObj p vs) (hw : AllNumsObj p ws) (hl : vs.length = ws.length) :
    ∃ b, eqObj ops vs ws = .ok b ∧ (b = true ↔ SameObj e vs ws) := by
  match vs, ws, hv, hw with
  | [], [], _, _ => exact ⟨true, by simp [eqObj], by simp; exact .nil⟩
  | [], _ :: _, _, _ => simp at hl
  | _ :: _, [], _, _ => simp at hl
  | (k, v) :: vs, (k', w) :: ws, .cons hv hvs, .cons hw hws =>
    obtain ⟨b, h1, h2⟩ := valEq_iff hnum hv hw
    rw [eqObj]
    by_cases hk : k = k'
    · subst hk
      cases b with
      | false =>
        refine ⟨false, by simp [h1], ?_⟩
        constructor
        · intro h; cases h
        · intro h; cases h with
          | cons h _ => exact absurd (h2.2 h) (by simp)
      | true =>
        obtain ⟨b', h3, h4⟩ := eqObj_iff hnum hvs hws (by simpa using hl)
        refine ⟨b', by simp [h1, h3], ?_⟩
        rw [h4]
        exact ⟨fun h => .cons (h2.1 rfl) h, fun h => by cases h; assumption⟩
    · refine ⟨false, by simp [hk], ?_⟩
      constructor
      · intro h; cases h
      · intro h; cases h with
        | cons h _ => exact absurd rfl hk
end

mutual
theorem Same.refl (hr : ∀ n, p n → e n n) {v : Val R} (hv : AllNums p v) : Same e v v := by
  match v, hv with
  | _, .nll => exact .nll
  | _, .bln => exact .bln
  | _, .num h => exact .num (hr _ h)
  | _, .str => exact .str
  | _, .arr h => exact .arr (SameArr.refl hr h)
  | _, .obj h => exact .obj (SameObj.refl hr h)

theorem SameArr.refl (hr : ∀ n, p n → e n n) {v : List (Val R)} (hv : AllNumsArr p v) : SameArr e v v := by
  match v, hv with
  | _, .nil => exact .nil
  | _, .cons h hs => exact .cons (Same.refl hr h) (SameArr.refl hr hs)

theorem SameObj.refl (hr : ∀ n, p n → e n n) {v : List (List Char × Val R)} (hv : AllNumsObj p v) : SameObj e v v := by
  match v, hv with
  | _, .nil => exact .nil
  | _, .cons h hs => exact .cons (Same.refl hr h) (SameObj.refl hr hs)
end

mutual
theorem Same.symm (hs : ∀ n m, e n m → e m n) {v w : Val R} (h : Same e v w) : Same e w v := by
  match v, w, h with
  | _, _, .nll => exact .nll
  | _, _, .bln => exact .bln
  | _, _, .num h => exact .num (hs _ _ h)
  | _, _, .str => exact .str
  | _, _, .arr h => exact .arr (SameArr.symm hs h)
  | _, _, .obj h => exact .obj (SameObj.symm hs h)

theorem SameArr.symm (hs : ∀ n m, e n m → e m n) {v w : List (Val R)} (h : SameArr e v w) : SameArr e w v := by
  match v, w, h with
  | _, _, .nil => exact .nil
  | _, _, .cons h h' => exact .cons (Same.symm hs h) (SameArr.symm hs h')

theorem SameObj.symm (hs : ∀ n m, e n m → e m n) {v w : List (List Char × Val R)} (h : SameObj e v w) :
    SameObj e w v := by
  match v, w, h with
  | _, _, .nil => exact .nil
  | _, _, .cons h h' => exact .cons (Same.symm hs h) (SameObj.symm hs h')
end

mutual
theorem Same.trans (ht : ∀ a b c, e a b → e b c → e a c) {u v w : Val R} (h : Same e u v) (h' : Same e v w) :
    Same e u w := by
  match u, v, w, h, h' with
  | _, _, _, .nll, .nll => exact .nll
  | _, _, _, .bln, .bln => exact .bln
  | _, _, _, .num h, .num h' => exact .num (ht _ _ _ h h')
  | _, _, _, .str, .str => exact .str
  | _, _, _, .arr h, .arr h' => exact .arr (SameArr.trans ht h h')
  | _, _, _, .obj h, .obj h' => exact .obj (SameObj.trans ht h h')

theorem SameArr.trans (ht : ∀ a b c, e a b → e b c → e a c) {u v w : List (Val R)} (h : SameArr e u v)
    (h' : SameArr e v w) : SameArr e u w := by
  match u, v, w, h, h' with
  | _, _, _, .nil, .nil => exact .nil
  | _, _, _, .cons h hs, .cons h' hs' => exact .cons (Same.trans ht h h') (SameArr.trans ht hs hs')

theorem SameObj.trans (ht : ∀ a b c, e a b → e b c → e a c) {u v w : List (List Char × Val R)} (h : SameObj e u v)
    (h' : SameObj e v w) : SameObj e u w := by
  match u, v, w, h, h' with
  | _, _, _, .nil, .nil => exact .nil
  | _, _, _, .cons h hs, .cons h' hs' => exact .cons (Same.trans ht h h') (SameObj.trans ht hs hs')
end

theorem equivalence_of_num (hnum : ∀ n m, p n → p m → ∃ b, numEq ops n m = .ok b ∧ (b = true ↔ e n m))
    (hr : ∀ n, p n → e n n) (hs : ∀ n m, e n m → e m n) (ht : ∀ a b c, e a b → e b c → e a c) :
    (∀ v : Val R, AllNums p v → valEq ops v v = .ok true) ∧
    (∀ v w : Val R, AllNums p v → AllNums p w → valEq ops v w = valEq ops w v ∧
      ∃ b, valEq ops v w = .ok b ∧ (b = true ↔ Same e v w)) ∧
    (∀ u v w : Val R, AllNums p u → AllNums p v → AllNums p w →
      valEq ops u v = .ok true → valEq ops v w = .ok true → valEq ops u w = .ok true) := by
  refine ⟨?_, ?_, ?_⟩
  · intro v hv
    obtain ⟨b, h1, h2⟩ := valEq_iff hnum hv hv
    rw [h1, h2.2 (Same.refl hr hv)]
  · intro v w hv hw
    obtain ⟨b, h1, h2⟩ := valEq_iff hnum hv hw
    obtain ⟨b', h1', h2'⟩ := valEq_iff hnum hw hv
    refine ⟨?_, b, h1, h2⟩
    rw [h1, h1']
    congr 1
    rw [Bool.eq_iff_iff, h2, h2']
    exact ⟨Same.symm hs, Same.symm hs⟩
  · intro u v w hu hv hw h h'
    obtain ⟨b, h1, h2⟩ := valEq_iff hnum hu hv
    obtain ⟨b', h1', h2'⟩ := valEq_iff hnum hv hw
    obtain ⟨b'', h1'', h2''⟩ := valEq_iff hnum hu hw
    rw [h] at h1; rw [h'] at h1'
    cases h1; cases h1'
    rw [h1'', h2''.2 (Same.trans ht (h2.1 rfl) (h2'.1 rfl))]

end

mutual
theorem same_eq {v w : Val R} (h : Same (fun _ _ => False) v w) : v = w := by
  match v, w, h with
  | _, _, .nll => rfl
  | _, _, .bln => rfl
  | _, _, .num h => exact h.elim
  | _, _, .str => rfl
  | _, _, .arr h => rw [sameArr_eq h]
  | _, _, .obj h => rw [sameObj_eq h]

theorem sameArr_eq {v w : List (Val R)} (h : SameArr (fun _ _ => False) v w) : v = w := by
  match v, w, h with
  | _, _, .nil => rfl
  | _, _, .cons h hs => rw [same_eq h, sameArr_eq hs]

theorem sameObj_eq {v w : List (List Char × Val R)} (h : SameObj (fun _ _ => False) v w) : v = w := by
  match v, w, h with
  | _, _, .nil => rfl
  | _, _, .cons h hs => rw [same_eq h, sameObj_eq hs]
end

/-! ### Key order -/

theorem strLt_lex (a b : List Char) : strLt a b = true ↔ List.Lex (fun c d => c.toNat < d.toNat) a b := by
  induction a generalizing b with
  | nil => cases b with
    | nil => simp [strLt]
    | cons d b => simp [strLt]
  | cons c a ih =>
    cases b with
    | nil => simp [strLt]
    | cons d b =>
      rw [strLt]
      by_cases h : c = d
      · subst h
        rw [if_pos rfl, ih]
        constructor
        · exact .cons
        · intro h
          cases h with
          | cons h => exact h
          | rel h => omega
      · rw [if_neg h, decide_eq_true_iff]
        constructor
        · intro h'; exact List.Lex.rel h'
        · intro h'
          cases h' with
          | cons h' => exact absurd rfl h
          | rel h' => exact h'

/-! ### Access -/

theorem getKey_map (dbg : Bool) {kvs : List (List Char × Val R)} (hd : Container.Increasing strLt kvs) (k : List Char) :
    getKey dbg (.obj kvs) k = .ok ((Container.toMap kvs k).getD .nll) := by
  obtain ⟨i, h4, h5, h6⟩ := Container.isAt_lookup strLt_strictTotal hd k
  cases hk : Container.toMap kvs k with
  | some v =>
    rw [hk] at h6
    simp only at h6
    simp [getKey, getObj, Container.atOrDefault, h4, h6.1, Container.secondAt, h6.2]
  | none =>
    rw [hk] at h6
    simp only at h6
    simp [getKey, getObj, Container.atOrDefault, h4, h6]

theorem hasKey_map (dbg : Bool) {kvs : List (List Char × Val R)} (hd : Container.Increasing strLt kvs) (k : List Char) :
    hasKey dbg (.obj kvs) k = .ok (Container.toMap kvs k).isSome := by
  obtain ⟨i, h4, h5, h6⟩ := Container.isAt_lookup strLt_strictTotal hd k
  cases hk : Container.toMap kvs k with
  | some v =>
    rw [hk] at h6
    simp only at h6
    simp [hasKey, getObj, Container.has, h4, h6.1]
  | none =>
    rw [hk] at h6
    simp only at h6
    simp [hasKey, getObj, Container.has, h4, h6]

/-- Writing pairs one after the other. -/
def puts {V : Type} (d : List (List Char × V)) : List (List Char × V) → List (List Char × V)
  | [] => d
  | (k, v) :: kvs => puts (put d k v) kvs

theorem puts_increasing {V : Type} {d : List (List Char × V)} (hd : Container.Increasing strLt d)
    (kvs : List (List Char × V)) : Container.Increasing strLt (puts d kvs) := by
  induction kvs generalizing d with
  | nil => exact hd
  | cons p kvs ih => exact ih (put_increasing hd p.1 p.2)

theorem puts_toMap {V : Type} {d : List (List Char × V)} (hd : Container.Increasing strLt d)
    (kvs : List (List Char × V)) (k : List Char) : Container.toMap (puts d kvs) k
      = ((kvs.reverse.find? (fun p => p.1 == k)).map (·.2)).or (Container.toMap d k) := by
  induction kvs generalizing d with
  | nil => simp [puts]
  | cons p kvs ih =>
    rw [puts, ih (put_increasing hd p.1 p.2), put_toMap hd, List.reverse_cons, List.find?_append]
    cases kvs.reverse.find? (fun p => p.1 == k) with
    | some q => simp
    | none =>
      by_cases h : p.1 = k
      · simp [h]
      · simp [h, Ne.symm h]

theorem mkObjLoop_puts {d : List (List Char × Val R)} (hd : Container.Increasing strLt d)
    (kvs : List (List Char × Val R)) : mkObjLoop d kvs = .ok (.obj (puts d kvs)) := by
  induction kvs generalizing d with
  | nil => rfl
  | cons p kvs ih =>
    rw [mkObjLoop, setIndex_eq_put _ hd]
    exact ih (put_increasing hd p.1 p.2)

theorem mkObj_puts (kvs : List (List Char × Val R)) : mkObj kvs = .ok (.obj (puts [] kvs)) :=
  mkObjLoop_puts List.Pairwise.nil kvs

end Verif.Json
