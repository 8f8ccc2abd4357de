import Verif.JsonConv.Lemmas
import Verif.Json.Demo

/-! # C23, C24, C25: conversions between C++ objects and JSON values -/

namespace Verif.JsonConv

open Verif Json

variable {R : Type} {ops : RealOps R} {lt : X R → X R → Bool}

/-! ## C23: conversions round-trip -/

/-- **C23.** Storing an object of a type built from the basic types, integers, reals, enums, pairs, tuples, vectors, maps and
bitsets, nested to any depth, and converting the result back gives the object, in debug and in release builds. -/
theorem C23_round_trip_partial (hlt : ∀ a b, lt a b = true → lt b a = false) (dbg : Bool) (t : Ty) (ht : t.NoArrays) (x : X R)
    (h : HasTy lt x t) : ∃ v, toVal t x = .ok v ∧ as ops lt dbg t v = .ok x := by
  obtain ⟨v, h1, h2, h3⟩ := conv_back (ops := ops) hlt dbg t ht x h
  exact ⟨v, h1, by simp only [as, h2, asserting_true]; exact h3 _ (fun _ => rfl)⟩

/-- **C23** for C arrays, which can be extracted into an existing array only. -/
theorem C23_array_round_trip_partial (hlt : ∀ a b, lt a b = true → lt b a = false) (dbg : Bool) (t : Ty) (n : Nat)
    (ht : t.NoArrays) (x old : X R) (h : HasTy lt x (.carr t n)) :
    ∃ v, toVal (.carr t n) x = .ok v ∧ extr ops lt dbg (.carr t n) v old = .ok x := by
  cases h with
  | @carr _ _ xs h hn =>
    subst hn
    obtain ⟨vs, h1, h2, h3, h4⟩ := mapO_back (f := toVal t) (q := chkNN t)
      (g := fun v => asserting dbg (chkNN t v) (extr ops lt dbg t v (.m []))) xs (fun x hx => by
        obtain ⟨v, h1, h2, h3⟩ := conv_back (ops := ops) hlt dbg t ht x (h x hx)
        exact ⟨v, h1, h2, by simp only [h2, asserting_true]; exact h3 _ (fun _ => rfl)⟩)
    refine ⟨.arr vs, by simp [toVal, h1], ?_⟩
    have h5 := mapO_idx dbg (fun v => asserting dbg (chkNN t v) (extr ops lt dbg t v (.m []))) vs
    rw [h4, h2] at h5
    simp only [extr, getArr, Outcome.bind_ok, h2, decide_true, Nat.le_refl, asserting_true]
    rw [h5]; rfl

/-- **C23** for `char` arrays: a C string that fills its array round-trips. -/
theorem C23_char_array_partial (dbg : Bool) (t : List Char) (old : X R) (ht : Char.ofNat 0 ∉ t) :
    ∃ v, toVal (.chars (t.length + 1)) (.s (t ++ [Char.ofNat 0])) = .ok v ∧
      extr ops lt dbg (.chars (t.length + 1)) v old = .ok (.s (t ++ [Char.ofNat 0])) := by
  refine ⟨.str t, ?_, by simp [extr, getStr, charsOf_back]⟩
  have : (t ++ [Char.ofNat 0]).takeWhile (· ≠ Char.ofNat 0) = t := by
    rw [List.takeWhile_append_of_pos]
    · simp
    · intro c hc; simp only [decide_eq_true_eq]; rintro rfl; exact ht hc
  simp only [toVal]
  rw [if_pos (by simp), this]

/-- The string in a `char` array shorter than the array: extracting it reads past the end of the stored string.
Without terminator, storing it reads past the end of the array. -/
theorem C23_char_array_fails (dbg : Bool) (old : X R) :
    (∃ v, toVal (.chars 4) (.s ['a', Char.ofNat 0, 'b', 'c']) = .ok v ∧ extr ops lt dbg (.chars 4) v old = .ub) ∧
    toVal (R := R) (.chars 2) (.s ['a', 'b']) = .ub := by
  refine ⟨⟨.str ['a'], by simp [toVal], ?_⟩, by simp [toVal]⟩
  rw [extr, getStr, Outcome.bind_ok, show charsOf 4 ['a'] = .ub by decide, Outcome.bind_ub]

/-- A nested type and an object of it: `map<int, pair<string, vector<tuple<bool, unsigned char>>>>`. -/
def demoTy : Ty := .map (.int .int) (.pair .str (.vec (.tuple [.bln, .int .uchar, .bits 3])))

def demoX : X Rat :=
  .m [(.i (-3), .seq [.s ['a'], .seq [.seq [.b true, .i 255, .bs [true, false, false]]]]), (.i 7, .seq [.s [], .seq []])]

def demoLt : X R → X R → Bool
  | .i a, .i b => decide (a < b)
  | _, _ => false

theorem demoLt_asymm (a b : X R) (h : demoLt a b = true) : demoLt b a = false := by
  cases a <;> cases b <;> simp_all [demoLt]
  omega

theorem demo_hasTy : HasTy demoLt demoX demoTy := by
  refine .map ?_ ?_ ?_
  · intro p hp
    simp at hp
    rcases hp with rfl | rfl <;> exact .int (by simp [IntTy.Range])
  · intro p hp
    simp at hp
    rcases hp with rfl | rfl
    · refine .pair (.str _) (.vec ?_)
      intro x hx
      simp at hx
      subst hx
      exact .tuple (.cons (.bln _) (.cons (.int (by simp [IntTy.Range])) (.cons (.bits rfl) .nil)))
    · exact .pair (.str _) (.vec (by simp))
  · simp [demoLt]

example : ∃ v, toVal demoTy demoX = .ok v ∧ as demoOps demoLt true demoTy v = .ok demoX :=
  C23_round_trip_partial demoLt_asymm true demoTy (by simp [demoTy, Ty.NoArrays, NoArraysAll]) demoX demo_hasTy

/-! ## C24: type checks -/

/-- **C24**, second half: what was stored from a `T` satisfies `is<T>()`. `is` does not compile for other number types than
`long`, `unsigned long` and `double`. -/
theorem C24_stored_passes_check_partial (ops : RealOps R) (hlt : ∀ a b, lt a b = true → lt b a = false) (t : Ty) (ht : t.Extractable) (x : X R)
    (h : HasTy lt x t) (v : Val R) (hv : toVal t x = .ok v) : chkNN t v = true ∧ chk t v = true := by
  have key : chkNN t v = true := by
    cases t with
    | carr t n =>
      cases h with
      | @carr _ _ xs h hn =>
        subst hn
        obtain ⟨vs, h1, h2, h3, -⟩ := mapO_back (f := toVal t) (q := chkNN t) (g := fun v => extr ops lt true t v (.m []))
          xs (fun x hx => by
            obtain ⟨v, h1, h2, h3⟩ := conv_back (ops := ops) hlt true t ht x (h x hx)
            exact ⟨v, h1, h2, h3 _ (fun _ => rfl)⟩)
        rw [toVal, h1] at hv
        cases hv
        simp [chkNN, h2]
        simpa using h3
    | chars n => exact absurd ht (by simp [Ty.Extractable])
    | _ =>
      obtain ⟨w, h1, h2, -⟩ := conv_back (ops := ops) hlt true _ ht x h
      rw [h1] at hv
      cases hv
      exact h2
  refine ⟨key, ?_⟩
  cases t <;> try exact key
  case int t =>
    cases h
    simp only [toVal] at hv
    cases hv
    cases t <;> first | exact key | simp [mkNum, IntTy.signed, chk]
  case real =>
    cases h
    simp only [toVal] at hv
    cases hv
    rfl

/-- A stored `char` array does not satisfy the check for its own type: the terminator is counted on one side only. -/
theorem C24_char_array_fails : ∃ (v : Val R),
    toVal (.chars 3) (.s ['a', 'b', Char.ofNat 0]) = .ok v ∧ chk (.chars 3) v = false :=
  ⟨.str ['a', 'b'], by simp [toVal], by simp [chk, chkNN]⟩

/-! ### Soundness -/

theorem cast_range (t : IntTy) (n : Int) : t.Range (t.cast n) := by
  cases t <;> simp only [IntTy.Range, IntTy.cast, IntTy.bits, IntTy.signed, Bool.false_eq_true, false_and, true_and,
    if_false] <;> (try split) <;> omega

theorem numAs_ok {v : Num R} (t : IntTy) (h : SmallReals ops (.num v)) : ∃ n, numAs ops t v = .ok n ∧ t.Range n := by
  cases v with
  | intS m =>
    unfold numAs
    split <;> exact ⟨_, rfl, cast_range _ _⟩
  | intU m =>
    unfold numAs
    split <;> exact ⟨_, rfl, cast_range _ _⟩
  | real r =>
    cases h with
    | real h hu =>
      obtain ⟨i, hi⟩ := Option.isSome_iff_exists.1 h
      obtain ⟨u, hu⟩ := Option.isSome_iff_exists.1 hu
      unfold numAs
      split
      · simp only [getIntS, hi, Outcome.ofOption, Outcome.bind_ok]; exact ⟨_, rfl, cast_range _ _⟩
      · simp only [getIntU, hu, Outcome.ofOption, Outcome.bind_ok]; exact ⟨_, rfl, cast_range _ _⟩

theorem mapO_ok {α β : Type} {f : α → Outcome β} {p : β → Prop} (xs : List α) (h : ∀ x ∈ xs, ∃ y, f x = .ok y ∧ p y) :
    ∃ ys, mapO f xs = .ok ys ∧ ys.length = xs.length ∧ ∀ y ∈ ys, p y := by
  induction xs with
  | nil => exact ⟨[], rfl, rfl, by simp⟩
  | cons x xs ih =>
    obtain ⟨y, h1, h2⟩ := h x List.mem_cons_self
    obtain ⟨ys, h3, h4, h5⟩ := ih (fun z hz => h z (List.mem_cons_of_mem _ hz))
    refine ⟨y :: ys, by simp [mapO, h1, h3], by simp [h4], ?_⟩
    intro z hz
    rcases List.mem_cons.1 hz with rfl | hz
    · exact h2
    · exact h5 z hz

mutual
theorem sound (dbg : Bool) (t : Ty) (ht : t.Checked) (v : Val R) (hr : SmallReals ops v) (h : chkNN t v = true) (old : X R) :
    ∃ x, extr ops lt dbg t v old = .ok x ∧ HasTy lt x t := by
  match t with
  | .val => exact ⟨_, by simp only [extr], .val v⟩
  | .obj => cases v <;> simp [chkNN] at h; exact ⟨_, by rw [extr, getObj]; rfl, .obj _⟩
  | .arr => cases v <;> simp [chkNN] at h; exact ⟨_, by rw [extr, getArr]; rfl, .arr _⟩
  | .str => cases v <;> simp [chkNN] at h; exact ⟨_, by rw [extr, getStr]; rfl, .str _⟩
  | .bln => cases v <;> simp [chkNN] at h; exact ⟨_, by rw [extr, getBln]; rfl, .bln _⟩
  | .nll => cases v <;> simp [chkNN] at h; exact ⟨_, by rw [extr, getNll]; rfl, .nll⟩
  | .int t =>
    cases v <;> simp [chkNN, isNum] at h
    obtain ⟨n, h1, h2⟩ := numAs_ok t hr
    exact ⟨.i n, by simp [extr, getNum, h1], .int h2⟩
  | .real => cases v <;> simp [chkNN, isNum] at h; exact ⟨_, by rw [extr, getNum]; rfl, .real _⟩
  | .pair a b =>
    simp only [Ty.Checked] at ht
    match v, hr, h with
    | .arr [v, w], hr, h =>
      cases hr with
      | arr hr =>
        simp only [chkNN, Bool.and_eq_true] at h
        obtain ⟨x, h1, h2⟩ := sound dbg a ht.1 v (hr v (by simp)) h.1 (.m [])
        obtain ⟨y, h3, h4⟩ := sound dbg b ht.2 w (hr w (by simp)) h.2 (.m [])
        refine ⟨.seq [x, y], ?_, .pair h2 h4⟩
        rw [extr, extrPair_back dbg (x := x) (y := y)]
        · rfl
        · simp only [h.1, asserting_true]; exact h1
        · simp only [h.2, asserting_true]; exact h3
  | .tuple ts =>
    simp only [Ty.Checked] at ht
    match v, hr, h with
    | .arr vs, hr, h =>
      cases hr with
      | arr hr =>
        simp only [chkNN, Bool.and_eq_true, beq_iff_eq] at h
        obtain ⟨xs, h1, h2⟩ := sounds dbg ts ht [] vs hr h.1 h.2
        exact ⟨.seq xs, by simp only [List.nil_append, List.length_nil] at h1; simp [extr, h1], .tuple h2⟩
  | .vec t =>
    simp only [Ty.Checked] at ht
    match v, hr, h with
    | .arr vs, hr, h =>
      cases hr with
      | arr hr =>
        simp only [chkNN, List.all_eq_true] at h
        obtain ⟨xs, h1, -, h2⟩ := mapO_ok (f := fun v => asserting dbg (chkNN t v) (extr ops lt dbg t v (.m [])))
          (p := fun x => HasTy lt x t) vs (fun v hv => by
            simp only [h v hv, asserting_true]
            exact sound dbg t ht v (hr v hv) (h v hv) _)
        exact ⟨.seq xs, by simp [extr, getArr, h1], .vec h2⟩
  | .map _ _ => simp [Ty.Checked] at ht
  | .enum _ => simp [Ty.Checked] at ht
  | .bits _ => simp [Ty.Checked] at ht
  | .carr _ _ => simp [Ty.Checked] at ht
  | .chars _ => simp [Ty.Checked] at ht

theorem sounds (dbg : Bool) (ts : List Ty) (ht : CheckedAll ts) (us vs : List (Val R)) (hr : ∀ v ∈ vs, SmallReals ops v)
    (hl : vs.length = ts.length) (h : chkAll ts vs = true) :
    ∃ xs, extrs ops lt dbg ts (.arr (us ++ vs)) us.length = .ok xs ∧ HasTys lt xs ts := by
  match ts, vs, hl with
  | [], [], _ => exact ⟨[], by simp [extrs], .nil⟩
  | t :: ts, v :: vs, hl =>
    simp only [CheckedAll] at ht
    simp only [chkAll, Bool.and_eq_true] at h
    obtain ⟨x, h1, h2⟩ := sound dbg t ht.1 v (hr v (by simp)) h.1 (.m [])
    obtain ⟨xs, h3, h4⟩ := sounds dbg ts ht.2 (us ++ [v]) vs (fun w hw => hr w (by simp [hw])) (by simpa using hl) h.2
    refine ⟨x :: xs, ?_, .cons h2 h4⟩
    simp only [List.append_assoc, List.singleton_append, List.length_append, List.length_singleton] at h3
    simp [extrs, getArr, getIdx, asserting_true, h.1, h1, h3]
end

/-- **C24**, first half: if the check for `T` succeeds, so does the conversion to `T`, with an object of type `T` as result,
for types without enums, maps, bitsets and `char` arrays and values whose real numbers fit into 64-bit integers. -/
theorem C24_check_sound_partial (dbg : Bool) (t : Ty) (ht : t.Checked) (v : Val R) (hr : SmallReals ops v)
    (h : chk t v = true) : ∃ x, as ops lt dbg t v = .ok x ∧ HasTy lt x t := by
  have h' : chkNN t v = true := by
    cases t <;> try exact h
    case int t => cases t <;> cases v <;> first | exact h | rfl | simp [chk] at h
    case real => cases v <;> first | exact h | rfl | simp [chk] at h
  obtain ⟨x, h1, h2⟩ := sound (lt := lt) dbg t ht v hr h' (.m [])
  exact ⟨x, by simp only [as, h', asserting_true]; exact h1, h2⟩

/-- **C24** for C arrays. -/
theorem C24_array_check_sound_partial (dbg : Bool) (t : Ty) (n : Nat) (ht : t.Checked) (v : Val R) (hr : SmallReals ops v)
    (h : chk (.carr t n) v = true) (old : X R) :
    ∃ x, extr ops lt dbg (.carr t n) v old = .ok x ∧ HasTy lt x (.carr t n) := by
  match v, hr, h with
  | .arr vs, hr, h =>
    cases hr with
    | arr hr =>
      simp only [chk, chkNN, Bool.and_eq_true, beq_iff_eq, List.all_eq_true] at h
      obtain ⟨h0, hc⟩ := h
      subst h0
      obtain ⟨xs, h1, h3, h2⟩ := mapO_ok (f := fun v => asserting dbg (chkNN t v) (extr ops lt dbg t v (.m [])))
        (p := fun x => HasTy lt x t) vs (fun v hv => by
          simp only [hc v hv, asserting_true]
          exact sound dbg t ht v (hr v hv) (hc v hv) _)
      refine ⟨.seq xs, ?_, .carr h2 h3⟩
      have h5 := mapO_idx dbg (fun v => asserting dbg (chkNN t v) (extr ops lt dbg t v (.m []))) vs
      rw [h1] at h5
      simp only [extr, getArr, Outcome.bind_ok, decide_true, Nat.le_refl, asserting_true]
      rw [h5]; rfl

/-- A mixed value that passes the check. -/
example : ∃ x, as demoOps demoLt true (.pair .str (.vec (.int .int))) (.arr [.str ['k'], .arr [.num (.intS 5), .num (.real 3)]])
    = .ok x ∧ HasTy demoLt x (.pair .str (.vec (.int .int))) :=
  C24_check_sound_partial true _ (by simp [Ty.Checked]) _
    (.arr (by
      intro v hv
      simp at hv
      rcases hv with rfl | rfl
      · exact .str
      · refine .arr ?_
        intro v hv
        simp at hv
        rcases hv with rfl | rfl
        · exact .intS
        · exact .real (by decide) (by decide))) (by decide)

/-- For enums and maps every value passes the check; the conversion of a string then fails: an assertion in debug builds, an
access of the wrong union member in release builds. -/
theorem C24_enum_and_map_fail :
    chk (R := R) (.enum .int) (.str ['a']) = true ∧ as ops lt true (.enum .int) (.str ['a']) = .assertFail ∧
    as ops lt false (.enum .int) (.str ['a']) = .ub ∧
    chk (R := R) (.map .str .str) (.arr [.nll]) = true ∧ as ops lt true (.map .str .str) (.arr [.nll]) = .assertFail ∧
    as ops lt false (.map .str .str) (.arr [.nll]) = .ub := by
  refine ⟨?_, ?_, ?_, ?_, ?_, ?_⟩ <;>
    simp [chk, chkNN, as, asserting, extr, isNum, getNum, mapLoop, extrPair, getIdx, getArr]

/-- A string of the right length passes the check for a bitset whatever its characters are; the conversion throws. -/
theorem C24_bitset_fails (dbg : Bool) :
    chk (R := R) (.bits 2) (.str ['a', 'b']) = true ∧ as ops lt dbg (.bits 2) (.str ['a', 'b']) = .throw := by
  refine ⟨by simp [chk, chkNN], ?_⟩
  simp [as, asserting, chkNN, extr, getStr, show bitsOf 2 ['a', 'b'] = .throw by decide]

/-- A vector of integers may hold a real number that is too large for the conversion. -/
theorem C24_large_real_fails (dbg : Bool) (r : R) (hr : ops.toInt r = none) :
    chk (.vec (.int .int)) (.arr [.num (.real r)]) = true ∧
    as ops lt dbg (.vec (.int .int)) (.arr [.num (.real r)]) = .ub := by
  refine ⟨by simp [chk, chkNN, isNum], ?_⟩
  simp [as, asserting, chkNN, isNum, extr, getArr, mapO, getNum, numAs, IntTy.signed, getIntS, hr, Outcome.ofOption]

/-! ## C25: extraction overwrites the target -/

/-- **C25.** Except for maps, extraction gives the stored object whatever the target held before. -/
theorem C25_target_is_overwritten_partial (hlt : ∀ a b, lt a b = true → lt b a = false) (dbg : Bool) (t : Ty)
    (ht : t.Extractable) (hm : ¬t.IsMap) (x old : X R) (h : HasTy lt x t) (v : Val R) (hv : toVal t x = .ok v) :
    extr ops lt dbg t v old = .ok x := by
  cases t with
  | carr t n =>
    obtain ⟨w, h1, h2⟩ := C23_array_round_trip_partial (ops := ops) hlt dbg t n ht x old h
    rw [h1] at hv; cases hv; exact h2
  | chars n => exact absurd ht (by simp [Ty.Extractable])
  | map a b => exact absurd trivial hm
  | _ =>
    obtain ⟨w, h1, -, h2⟩ := conv_back (ops := ops) hlt dbg _ ht x h
    rw [h1] at hv
    cases hv
    exact h2 old (fun hm' => absurd hm' hm)

/-- **C25** for arbitrary values, stored or not: the outcome of an extraction does not depend on the target, except for
maps. -/
theorem C25_outcome_independent_partial (dbg : Bool) (t : Ty) (hm : ¬t.IsMap) (v : Val R) (old old' : X R) :
    extr ops lt dbg t v old = extr ops lt dbg t v old' := by
  cases t <;> first | exact absurd trivial hm | simp only [extr]

/-- Entry `k` of an ordered map. -/
def Holds (m : X R) (k v : X R) : Prop := ∃ kvs, m = .m kvs ∧ (k, v) ∈ kvs

/-- Extraction into a map keeps the entries the target had: extracting `{1: 2}` into `{5: 6}` gives both. -/
theorem C25_map_is_merged : ∃ (v : Val R) (x : X R),
    toVal (.map (.int .int) (.int .int)) (.m [(.i 1, .i 2)]) = .ok v ∧
    extr ops demoLt true (.map (.int .int) (.int .int)) v (.m [(.i 5, .i 6)]) = .ok x ∧
    Holds x (.i 1) (.i 2) ∧ Holds x (.i 5) (.i 6) := by
  refine ⟨.arr [.arr [.num (.intS 1), .num (.intS 2)]], .m [(.i 1, .i 2), (.i 5, .i 6)], ?_, ?_, ?_, ?_⟩
  · simp [toVal, mapO, mkNum, IntTy.signed, toS, toU]
  · simp [extr, mapLoop, asserting, chkNN, isNum, extrPair, getIdx, getArr, getNum, numAs, IntTy.signed, getIntS, IntTy.cast,
      IntTy.bits, mapPut, demoLt]
  · exact ⟨_, rfl, by simp⟩
  · exact ⟨_, rfl, by simp⟩

end Verif.JsonConv
