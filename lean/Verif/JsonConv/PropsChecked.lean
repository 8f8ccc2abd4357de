import Verif.JsonConv.Theorems
import Verif.JsonConv.PropsUser

/-! # Extraction in checked builds (C122), and into maps that are not empty (C25) -/

namespace Verif.JsonConv

open Verif Json

variable {R : Type} {ops : RealOps R} {lt : X R → X R → Bool}

/-! ## C122 -/

/-- The call returned, threw an exception or stopped at an assertion. -/
def Caught {α : Type} (o : Outcome α) : Prop := o ≠ .ub ∧ o ≠ .diverge

theorem Caught.ok {α : Type} (x : α) : Caught (.ok x) := ⟨by simp, by simp⟩
theorem Caught.throw {α : Type} : Caught (.throw : Outcome α) := ⟨by simp, by simp⟩
theorem Caught.fail {α : Type} : Caught (.assertFail : Outcome α) := ⟨by simp, by simp⟩

theorem Caught.bind {α β : Type} {o : Outcome α} {f : α → Outcome β} (h : Caught o) (hf : ∀ x, o = .ok x → Caught (f x)) :
    Caught (o >>= f) := by
  cases o with
  | ok x => exact hf x rfl
  | throw => exact .throw
  | assertFail => exact .fail
  | ub => exact absurd rfl h.1
  | diverge => exact absurd rfl h.2

theorem Caught.asserting {α : Type} {dbg c : Bool} {o : Outcome α} (h : (dbg = true → c = true) → Caught o) :
    Caught (asserting dbg c o) := by
  rw [JsonConv.asserting]
  split
  · exact .fail
  · rename_i hc
    refine h fun hd => ?_
    cases c <;> simp_all

theorem asserting_ok {α : Type} {dbg c : Bool} {o : Outcome α} {x : α} (h : asserting dbg c o = .ok x) : o = .ok x := by
  rw [JsonConv.asserting] at h
  split at h
  · simp at h
  · exact h

theorem caught_mapO {α β : Type} {f : α → Outcome β} (xs : List α) (h : ∀ x ∈ xs, Caught (f x)) : Caught (mapO f xs) := by
  induction xs with
  | nil => exact .ok _
  | cons x xs ih =>
    refine (h x List.mem_cons_self).bind fun y _ => ?_
    exact (ih fun z hz => h z (List.mem_cons_of_mem _ hz)).bind fun ys _ => .ok _

theorem caught_getArr (v : Val R) : Caught (getArr true v) := by cases v <;> first | exact .ok _ | exact .fail
theorem caught_getObj (v : Val R) : Caught (getObj true v) := by cases v <;> first | exact .ok _ | exact .fail
theorem caught_getStr (v : Val R) : Caught (getStr true v) := by cases v <;> first | exact .ok _ | exact .fail
theorem caught_getBln (v : Val R) : Caught (getBln true v) := by cases v <;> first | exact .ok _ | exact .fail
theorem caught_getNll (v : Val R) : Caught (getNll true v) := by cases v <;> first | exact .ok _ | exact .fail
theorem caught_getNum (v : Val R) : Caught (getNum true v) := by cases v <;> first | exact .ok _ | exact .fail

theorem caught_getIdx (v : Val R) (i : Nat) : Caught (getIdx true v i) := by
  refine (caught_getArr v).bind fun d _ => ?_
  split
  · exact .ok _
  · exact .throw

theorem getArr_eq {dbg : Bool} {v : Val R} {d : List (Val R)} (h : getArr dbg v = .ok d) : v = .arr d := by
  cases v <;> simp only [getArr] at h <;> first | (cases dbg <;> simp at h; done) | (cases h; rfl)

theorem getNum_eq {dbg : Bool} {v : Val R} {n : Num R} (h : getNum dbg v = .ok n) : v = .num n := by
  cases v <;> simp only [getNum] at h <;> first | (cases dbg <;> simp at h; done) | (cases h; rfl)

theorem getIdx_mem {dbg : Bool} {v w : Val R} {i : Nat} (h : getIdx dbg v i = .ok w) : ∃ d, v = .arr d ∧ w ∈ d := by
  rw [getIdx] at h
  obtain ⟨d, h1, h2⟩ := Outcome.bind_eq_ok.1 h
  refine ⟨d, getArr_eq h1, ?_⟩
  split at h2
  · rename_i x hx
    cases h2
    exact List.mem_of_getElem? hx
  · simp at h2

theorem small_idx {dbg : Bool} {v w : Val R} {i : Nat} (hv : SmallReals ops v) (h : getIdx dbg v i = .ok w) : SmallReals ops w := by
  obtain ⟨d, rfl, hm⟩ := getIdx_mem h
  cases hv with
  | arr h => exact h w hm

theorem caught_numAs {v : Val R} {n : Num R} (hv : SmallReals ops v) (h : getNum true v = .ok n) (t : IntTy) :
    Caught (numAs ops t n) := by
  rw [getNum_eq h] at hv
  obtain ⟨m, h1, _⟩ := numAs_ok t hv
  rw [h1]; exact .ok _

mutual
/-- No `char` arrays anywhere. -/
def Ty.NoChars : Ty → Prop
  | .pair a b => a.NoChars ∧ b.NoChars
  | .tuple ts => NoCharsAll ts
  | .vec t => t.NoChars
  | .carr t _ => t.NoChars
  | .map k v => k.NoChars ∧ v.NoChars
  | .chars _ => False
  | _ => True

def NoCharsAll : List Ty → Prop
  | [] => True
  | t :: ts => t.NoChars ∧ NoCharsAll ts
end

theorem caught_pair {f g : Val R → Outcome (X R)} {w : Val R} (hw : SmallReals ops w)
    (hf : ∀ v, SmallReals ops v → Caught (f v)) (hg : ∀ v, SmallReals ops v → Caught (g v)) : Caught (extrPair true f g w) := by
  refine (caught_getIdx w 0).bind fun v0 h0 => (hf v0 (small_idx hw h0)).bind fun x _ => ?_
  exact (caught_getIdx w 1).bind fun v1 h1 => (hg v1 (small_idx hw h1)).bind fun y _ => .ok _

theorem caught_mapLoop {f : Val R → Outcome (X R × X R)} (vs : List (Val R)) (h : ∀ v ∈ vs, Caught (f v)) (m : List (X R × X R)) :
    Caught (mapLoop lt f vs m) := by
  induction vs generalizing m with
  | nil => exact .ok _
  | cons v vs ih =>
    exact (h v List.mem_cons_self).bind fun p _ => ih (fun w hw => h w (List.mem_cons_of_mem _ hw)) _

mutual
theorem caught_extr (t : Ty) (ht : t.NoChars) (v : Val R) (hv : SmallReals ops v) (old : X R)
    (ho : t.IsMap → ∃ kvs, old = .m kvs) : Caught (extr ops lt true t v old) := by
  match t, ht with
  | .val, _ => rw [extr]; exact .ok _
  | .obj, _ => rw [extr]; exact (caught_getObj v).bind fun _ _ => .ok _
  | .arr, _ => rw [extr]; exact (caught_getArr v).bind fun _ _ => .ok _
  | .str, _ => rw [extr]; exact (caught_getStr v).bind fun _ _ => .ok _
  | .bln, _ => rw [extr]; exact (caught_getBln v).bind fun _ _ => .ok _
  | .nll, _ => rw [extr]; exact (caught_getNll v).bind fun _ _ => .ok _
  | .int t, _ =>
    rw [extr]
    exact (caught_getNum v).bind fun n hn => (caught_numAs hv hn t).bind fun _ _ => .ok _
  | .real, _ => rw [extr]; exact (caught_getNum v).bind fun _ _ => .ok _
  | .enum t, _ =>
    rw [extr]
    exact .asserting fun _ => (caught_getNum v).bind fun n hn => (caught_numAs hv hn t).bind fun _ _ => .ok _
  | .pair a b, ht =>
    simp only [Ty.NoChars] at ht
    rw [extr]
    refine (caught_pair hv (fun w hw => ?_) (fun w hw => ?_)).bind fun _ _ => .ok _
    · exact .asserting fun _ => caught_extr a ht.1 w hw _ (fun _ => ⟨[], rfl⟩)
    · exact .asserting fun _ => caught_extr b ht.2 w hw _ (fun _ => ⟨[], rfl⟩)
  | .tuple ts, ht =>
    simp only [Ty.NoChars] at ht
    rw [extr]
    exact (caught_extrs ts ht v hv 0).bind fun _ _ => .ok _
  | .vec t, ht =>
    simp only [Ty.NoChars] at ht
    rw [extr]
    refine (caught_getArr v).bind fun d hd => ?_
    rw [getArr_eq hd] at hv
    cases hv with
    | arr hv =>
      refine (caught_mapO _ fun w hw => ?_).bind fun _ _ => .ok _
      exact .asserting fun _ => caught_extr t ht w (hv w hw) _ (fun _ => ⟨[], rfl⟩)
  | .carr t n, ht =>
    simp only [Ty.NoChars] at ht
    rw [extr]
    refine (caught_getArr v).bind fun d hd => .asserting fun _ => ?_
    refine (caught_mapO _ fun i _ => ?_).bind fun _ _ => .ok _
    exact (caught_getIdx v i).bind fun w hw => .asserting fun _ => caught_extr t ht w (small_idx hv hw) _ (fun _ => ⟨[], rfl⟩)
  | .map a b, ht =>
    simp only [Ty.NoChars] at ht
    obtain ⟨kvs, rfl⟩ := ho trivial
    match v, hv with
    | .arr vs, hv =>
      rw [extr]
      cases hv with
      | arr hv =>
        refine (caught_mapLoop vs (fun w hw => ?_) _).bind fun _ _ => .ok _
        refine .asserting fun _ => caught_pair (hv w hw) (fun w hw => ?_) (fun w hw => ?_)
        · exact .asserting fun _ => caught_extr a ht.1 w hw _ (fun _ => ⟨[], rfl⟩)
        · exact .asserting fun _ => caught_extr b ht.2 w hw _ (fun _ => ⟨[], rfl⟩)
    | .obj _, _ => simp only [extr]; exact .ok _
    | .str _, _ => simp only [extr]; exact .ok _
    | .num _, _ => simp only [extr]; exact .ok _
    | .bln _, _ => simp only [extr]; exact .ok _
    | .nll, _ => simp only [extr]; exact .ok _
  | .bits n, _ =>
    rw [extr]
    refine .asserting fun _ => (caught_getStr v).bind fun s _ => ?_
    refine Caught.bind ?_ fun _ _ => .ok _
    rw [bitsOf]
    split
    · exact .ok _
    · exact .throw
  | .chars _, ht => exact absurd ht (by simp [Ty.NoChars])

theorem caught_extrs (ts : List Ty) (ht : NoCharsAll ts) (v : Val R) (hv : SmallReals ops v) (i : Nat) :
    Caught (extrs ops lt true ts v i) := by
  match ts, ht with
  | [], _ => rw [extrs]; exact .ok _
  | t :: ts, ht =>
    simp only [NoCharsAll] at ht
    rw [extrs]
    refine (caught_getArr v).bind fun d _ => ?_
    refine Caught.bind (.asserting fun _ => caught_getIdx v i) fun w hw => ?_
    replace hw := asserting_ok hw
    refine Caught.bind (.asserting fun _ => caught_extr t ht.1 w (small_idx hv hw) _ (fun _ => ⟨[], rfl⟩)) fun _ _ => ?_
    exact (caught_extrs ts ht.2 v hv (i + 1)).bind fun _ _ => .ok _
end

/-- **C122 (partial: no `char` arrays, reals within the range of 64-bit integers).** In a build with assertions, `extr` of a
value of any shape into an object of any type ends with a result, an exception or a failed assertion; never with
undefined behaviour. Missing: `char` arrays and large reals, for which it is false, see below. -/
theorem C122_mismatch_is_caught_partial (t : Ty) (ht : t.NoChars) (v : Val R) (hv : SmallReals ops v) (old : X R)
    (ho : t.IsMap → ∃ kvs, old = .m kvs) :
    (∃ x, extr ops lt true t v old = .ok x) ∨ extr ops lt true t v old = .throw ∨ extr ops lt true t v old = .assertFail := by
  obtain ⟨h1, h2⟩ := caught_extr (ops := ops) (lt := lt) t ht v hv old ho
  generalize extr ops lt true t v old = o at h1 h2
  cases o <;> simp_all

/-- The same for `as`. -/
theorem C122_as_is_caught_partial (t : Ty) (ht : t.NoChars) (v : Val R) (hv : SmallReals ops v) :
    (∃ x, as ops lt true t v = .ok x) ∨ as ops lt true t v = .throw ∨ as ops lt true t v = .assertFail := by
  obtain ⟨h1, h2⟩ : Caught (as ops lt true t v) :=
    .asserting fun _ => caught_extr t ht v hv _ fun _ => ⟨[], rfl⟩
  generalize as ops lt true t v = o at h1 h2
  cases o <;> simp_all

/-- **C122.** For the basic types the assertion fails exactly when the value is of another kind. -/
theorem C122_basic_kinds (v : Val R) (old : X R) :
    (extr ops lt true .str v old = .assertFail ↔ ∀ s, v ≠ .str s) ∧
    (extr ops lt true .bln v old = .assertFail ↔ ∀ b, v ≠ .bln b) ∧
    (extr ops lt true .nll v old = .assertFail ↔ v ≠ .nll) ∧
    (extr ops lt true .real v old = .assertFail ↔ ∀ n, v ≠ .num n) ∧
    (extr ops lt true .obj v old = .assertFail ↔ ∀ d, v ≠ .obj d) ∧
    (extr ops lt true .arr v old = .assertFail ↔ ∀ d, v ≠ .arr d) := by
  cases v <;> simp [extr, getStr, getBln, getNll, getNum, getObj, getArr]

/-- The same for integers. -/
theorem C122_integer_kind (v : Val R) (hv : SmallReals ops v) (t : IntTy) (old : X R) :
    extr ops lt true (.int t) v old = .assertFail ↔ ∀ n, v ≠ .num n := by
  cases v with
  | num n =>
    obtain ⟨m, h, _⟩ := numAs_ok t hv
    simp [extr, getNum, h]
  | _ => simp [extr, getNum]

/-- **C122 fails** for `char` arrays: characters beyond the end of the string are read, and for reals outside the range of
`long`. -/
theorem C122_not_caught (r : R) (hr : ops.toInt r = none) (old : X R) :
    extr ops lt true (.chars 4) (.str ['a']) old = .ub ∧ extr ops lt true (.int .int) (.num (.real r)) old = .ub := by
  refine ⟨by rw [extr, getStr, Outcome.bind_ok, show charsOf 4 ['a'] = .ub by decide, Outcome.bind_ub], ?_⟩
  simp [extr, getNum, numAs, IntTy.signed, getIntS, hr, Outcome.ofOption]

/-- Without assertions a mismatch is undefined behaviour, except that anything can be taken for a null. -/
theorem C122_unchecked_mismatch (v : Val R) (old : X R) :
    ((∀ s, v ≠ .str s) → extr ops lt false .str v old = .ub) ∧
    ((∀ b, v ≠ .bln b) → extr ops lt false .bln v old = .ub) ∧
    ((∀ n, v ≠ .num n) → extr ops lt false .real v old = .ub) ∧
    extr ops lt false .nll v old = .ok .u := by
  cases v <;> simp [extr, getStr, getBln, getNll, getNum]

/-- A mismatch deep inside a nested value. -/
example : as demoOps demoLt true (.vec (.pair .str (.int .int))) (.arr [.arr [.str ['a'], .num (.intS 1)], .arr [.nll]])
    = .assertFail := by rfl

example : (Ty.vec (.pair .str (.int .int))).NoChars := by simp [Ty.NoChars]

example : SmallReals demoOps (.arr [.arr [.str ['a'], .num (.real 3)], .arr [.nll]]) := by
  refine .arr ?_
  intro v hv
  simp only [List.mem_cons, List.not_mem_nil, or_false] at hv
  rcases hv with rfl | rfl
  · refine .arr ?_
    intro v hv
    simp only [List.mem_cons, List.not_mem_nil, or_false] at hv
    rcases hv with rfl | rfl
    · exact .str
    · exact .real (by decide +kernel) (by decide +kernel)
  · refine .arr ?_
    intro v hv
    simp only [List.mem_cons, List.not_mem_nil, or_false] at hv
    subst hv; exact .nll

/-! ### User-defined converters -/

mutual
theorem noArrays_noChars (t : Ty) (h : t.NoArrays) : t.NoChars := by
  match t, h with
  | .val, _ | .obj, _ | .arr, _ | .str, _ | .bln, _ | .nll, _ | .int _, _ | .real, _ | .enum _, _ | .bits _, _ => simp [Ty.NoChars]
  | .pair a b, h =>
    simp only [Ty.NoArrays, Ty.NoChars] at h ⊢
    exact ⟨noArrays_noChars a h.1, noArrays_noChars b h.2⟩
  | .map a b, h =>
    simp only [Ty.NoArrays, Ty.NoChars] at h ⊢
    exact ⟨noArrays_noChars a h.1, noArrays_noChars b h.2⟩
  | .vec t, h =>
    simp only [Ty.NoArrays, Ty.NoChars] at h ⊢
    exact noArrays_noChars t h
  | .tuple ts, h =>
    simp only [Ty.NoArrays, Ty.NoChars] at h ⊢
    exact noArrays_noCharsAll ts h
  | .carr _ _, h => simp [Ty.NoArrays] at h
  | .chars _, h => simp [Ty.NoArrays] at h

theorem noArrays_noCharsAll (ts : List Ty) (h : NoArraysAll ts) : NoCharsAll ts := by
  match ts, h with
  | [], _ => simp [NoCharsAll]
  | t :: ts, h =>
    simp only [NoArraysAll, NoCharsAll] at h ⊢
    exact ⟨noArrays_noChars t h.1, noArrays_noCharsAll ts h.2⟩
end

theorem extractable_noChars (t : Ty) (h : t.Extractable) : t.NoChars := by
  cases t with
  | carr t n => simp only [Ty.Extractable] at h; simp only [Ty.NoChars]; exact noArrays_noChars t h
  | chars n => simp [Ty.Extractable] at h
  | _ => exact noArrays_noChars _ h

theorem caught_key (v : Val R) (hs : Sorted v) (hv : SmallReals ops v) (k : List Char) {β : Type} {f : Val R → Outcome β}
    (hf : ∀ w, Sorted w → SmallReals ops w → Caught (f w)) :
    Caught (asserting true (isObj v) (do
      let b ← hasKey true v k
      asserting true b (do
        let w ← getKey true v k
        f w))) := by
  refine .asserting fun ho => ?_
  match v, hs, hv with
  | .obj kvs, hs, hv =>
    cases hs with
    | obj hs hk =>
    cases hv with
    | obj hv =>
      rw [hasKey_map true hk, getKey_map true hk, Outcome.bind_ok]
      refine .asserting fun _ => ?_
      rw [Outcome.bind_ok]
      cases e : Container.toMap kvs k with
      | none => exact hf _ .nll .nll
      | some w =>
        have hm : (k, w) ∈ kvs := (Container.toMap_mem (Container.increasing_nodup strLt_strictTotal hk)).1 e
        exact hf _ (hs _ hm) (hv _ hm)
  | .arr _, _, _ => simp [isObj] at ho
  | .str _, _, _ => simp [isObj] at ho
  | .num _, _, _ => simp [isObj] at ho
  | .bln _, _, _ => simp [isObj] at ho
  | .nll, _, _ => simp [isObj] at ho

theorem sorted_idx {dbg : Bool} {v w : Val R} {i : Nat} (hv : Sorted v) (h : getIdx dbg v i = .ok w) : Sorted w := by
  obtain ⟨d, rfl, hm⟩ := getIdx_mem h
  cases hv with
  | arr h => exact h w hm

mutual
theorem caught_extrU (t : UTy) (ht : t.Fine) (v : Val R) (hs : Sorted v) (hv : SmallReals ops v) (old : U R) (ho : Target t old) :
    Caught (extrU ops lt true t v old) := by
  match t, old, ht, ho with
  | .base t, .leaf x, ht, ho =>
    simp only [UTy.Fine] at ht
    simp only [Target] at ho
    rw [extrU]
    exact (caught_extr t (extractable_noChars t ht) v hv x fun h => ⟨[], ho h⟩).bind fun _ _ => .ok _
  | .one m, .node [x], ht, ho =>
    simp only [UTy.Fine] at ht
    simp only [Target] at ho
    rw [extrU]
    exact (caught_extrU m ht v hs hv x ho).bind fun _ _ => .ok _
  | .arr (m :: ms), .node xs, ht, ho =>
    simp only [UTy.Fine] at ht
    simp only [Target] at ho
    rw [extrU]
    exact (caught_extrArr (m :: ms) ht.2 v hs hv 0 xs ho).bind fun _ _ => .ok _
  | .obj ks (m :: ms), .node xs, ht, ho =>
    simp only [UTy.Fine] at ht
    simp only [Target] at ho
    rw [extrU]
    exact (caught_extrObj ks (m :: ms) ht.2.2.1 ht.2.2.2 v hs hv xs ho).bind fun _ _ => .ok _
  | .vec t, .node _, ht, _ =>
    rw [extrU]
    refine (caught_getArr v).bind fun d hd => ?_
    rw [getArr_eq hd] at hv hs
    cases hv with
    | arr hv =>
    cases hs with
    | arr hs =>
      refine (caught_mapO _ fun w hw => ?_).bind fun _ _ => .ok _
      exact .asserting fun _ => caught_extrU t (fine_of_vec t ht) w (hs w hw) (hv w hw) _ (target_fresh t)
  | .arr [], .node _, ht, _ => simp [UTy.Fine] at ht
  | .obj _ [], .node _, ht, _ => simp [UTy.Fine] at ht
termination_by sizeOf t

theorem caught_extrArr (ms : List UTy) (ht : FineAll ms) (v : Val R) (hs : Sorted v) (hv : SmallReals ops v) (i : Nat)
    (olds : List (U R)) (ho : Targets ms olds) : Caught (extrArr ops lt true ms v i olds) := by
  match ms, olds, ht, ho with
  | [], [], _, _ => rw [extrArr]; exact .ok _
  | m :: ms, x :: xs, ht, ho =>
    simp only [FineAll] at ht
    simp only [Targets] at ho
    rw [extrArr]
    refine .asserting fun _ => (caught_getArr v).bind fun d _ => .asserting fun _ => ?_
    refine (caught_getIdx v i).bind fun w hw => .asserting fun _ => ?_
    refine (caught_extrU m ht.1 w (sorted_idx hs hw) (small_idx hv hw) x ho.1).bind fun _ _ => ?_
    exact (caught_extrArr ms ht.2 v hs hv (i + 1) xs ho.2).bind fun _ _ => .ok _
termination_by sizeOf ms

theorem caught_extrObj (ks : List (List Char)) (ms : List UTy) (hl : ks.length = ms.length) (ht : FineAll ms) (v : Val R)
    (hs : Sorted v) (hv : SmallReals ops v) (olds : List (U R)) (ho : Targets ms olds) :
    Caught (extrObj ops lt true ks ms v olds) := by
  match ks, ms, olds, hl, ht, ho with
  | [], [], [], _, _, _ => rw [extrObj]; exact .ok _
  | k :: ks, m :: ms, x :: xs, hl, ht, ho =>
    simp only [FineAll] at ht
    simp only [Targets] at ho
    rw [extrObj]
    refine caught_key v hs hv k fun w hs' hv' => ?_
    refine (caught_extrU m ht.1 w hs' hv' x ho.1).bind fun _ _ => ?_
    exact (caught_extrObj ks ms (by simpa using hl) ht.2 v hs hv xs ho.2).bind fun _ _ => .ok _
termination_by sizeOf ms
end

/-- **C122 (partial, as above; user-defined converters).** Extracting a class with user-defined converters of any nesting from
any value whose objects have their keys in order (as the reader leaves them, C20) is caught likewise. -/
theorem C122_user_types_are_caught_partial (t : UTy) (ht : t.Fine) (v : Val R) (hs : Sorted v) (hv : SmallReals ops v) :
    (∃ x, getExtr ops lt true t v = .ok x) ∨ getExtr ops lt true t v = .throw ∨ getExtr ops lt true t v = .assertFail := by
  obtain ⟨h1, h2⟩ := caught_extrU (ops := ops) (lt := lt) t ht v hs hv _ (target_fresh t)
  rw [getExtr]
  generalize extrU ops lt true t v (fresh t) = o at h1 h2
  cases o <;> simp_all

/-- **C122.** The check of a vector of such objects: an array, all of whose elements pass the check. -/
theorem C122_vector_check (t : UTy) (v : Val R) :
    chkU (.vec t) v = true ↔ ∃ vs, v = .arr vs ∧ ∀ w ∈ vs, chkU t w = true := by
  cases v <;> simp [chkU]

/-! ## C25: maps that are not empty -/

/-- What the map held after the pairs `ps` have been written to it one after the other: the last pair with a key wins. -/
def LastWrite (ps old : List (X R × X R)) (k y : X R) : Prop :=
  (∃ i : Nat, ps[i]? = some (k, y) ∧ ∀ j : Nat, i < j → ∀ q : X R × X R, ps[j]? = some q → q.1 ≠ k) ∨ ((∀ q : X R × X R, q ∈ ps → q.1 ≠ k) ∧ (k, y) ∈ old)

/-- `lt` orders the objects in `S`. -/
structure KeyOrder (S : X R → Prop) (lt : X R → X R → Bool) : Prop where
  irrefl : ∀ a, S a → lt a a = false
  trans : ∀ a b c, S a → S b → S c → lt a b = true → lt b c = true → lt a c = true
  total : ∀ a b, S a → S b → lt a b = false → lt b a = false → a = b

variable {S : X R → Prop}

theorem mapPut_spec (ho : KeyOrder S lt) (k v : X R) (m : List (X R × X R)) (hsk : S k) (hsm : ∀ p ∈ m, S p.1) (hm : m.Pairwise (fun p q => lt p.1 q.1 = true)) :
    (mapPut lt k v m).Pairwise (fun p q => lt p.1 q.1 = true) ∧
    ∀ k' y, (k', y) ∈ mapPut lt k v m ↔ (k' = k ∧ y = v) ∨ (k' ≠ k ∧ (k', y) ∈ m) := by
  induction m with
  | nil => simp [mapPut]
  | cons p m ih =>
    obtain ⟨k0, v0⟩ := p
    obtain ⟨h1, h2⟩ := List.pairwise_cons.1 hm
    have hs0 : S k0 := hsm _ List.mem_cons_self
    have hsm' : ∀ p ∈ m, S p.1 := fun p hp => hsm p (List.mem_cons_of_mem _ hp)
    obtain ⟨i1, i2⟩ := ih hsm' h2
    have hne : ∀ a b, S a → lt a b = true → a ≠ b := by
      rintro a b hs h rfl; rw [ho.irrefl _ hs] at h; simp at h
    rw [mapPut]
    split
    · rename_i hk
      refine ⟨List.pairwise_cons.2 ⟨?_, hm⟩, ?_⟩
      · intro q hq
        rcases List.mem_cons.1 hq with rfl | hq
        · exact hk
        · exact ho.trans _ _ _ hsk hs0 (hsm' _ hq) hk (h1 q hq)
      · intro k' y
        have : ∀ q ∈ (k0, v0) :: m, q.1 ≠ k := by
          intro q hq
          rcases List.mem_cons.1 hq with rfl | hq
          · exact (hne _ _ hsk hk).symm
          · exact (hne _ _ hsk (ho.trans _ _ _ hsk hs0 (hsm' _ hq) hk (h1 q hq))).symm
        rw [List.mem_cons, Prod.mk.injEq]
        constructor
        · rintro (h | h)
          · exact .inl h
          · exact .inr ⟨this _ h, h⟩
        · rintro (h | h)
          · exact .inl h
          · exact .inr h.2
    · rename_i hk
      split
      · rename_i hk'
        refine ⟨List.pairwise_cons.2 ⟨?_, i1⟩, ?_⟩
        · rintro ⟨a, b⟩ hq
          rcases (i2 a b).1 hq with ⟨rfl, rfl⟩ | ⟨_, hq⟩
          · exact hk'
          · exact h1 _ hq
        · intro k' y
          rw [List.mem_cons, i2, List.mem_cons, Prod.mk.injEq]
          constructor
          · rintro (⟨rfl, rfl⟩ | h | h)
            · exact .inr ⟨hne _ _ hs0 hk', .inl ⟨rfl, rfl⟩⟩
            · exact .inl h
            · exact .inr ⟨h.1, .inr h.2⟩
          · rintro (h | ⟨h, h' | h'⟩)
            · exact .inr (.inl h)
            · exact .inl h'
            · exact .inr (.inr ⟨h, h'⟩)
      · rename_i hk'
        have e : k0 = k := ho.total _ _ hs0 hsk (by simpa using hk') (by simpa using hk)
        subst e
        refine ⟨List.pairwise_cons.2 ⟨h1, h2⟩, ?_⟩
        intro k' y
        rw [List.mem_cons, List.mem_cons, Prod.mk.injEq, Prod.mk.injEq]
        have : (k', y) ∈ m → k' ≠ k0 := fun h => (hne _ _ hs0 (h1 _ h)).symm
        constructor
        · rintro (h | h)
          · exact .inl h
          · exact .inr ⟨this h, .inr h⟩
        · rintro (h | ⟨h, h' | h'⟩)
          · exact .inl h
          · exact absurd h'.1 h
          · exact .inr h'

theorem mapLoop_spec (ho : KeyOrder S lt) (f : Val R → Outcome (X R × X R)) (vs : List (Val R)) (old new : List (X R × X R))
    (hsv : ∀ v ∈ vs, ∀ p, f v = .ok p → S p.1) (hso : ∀ p ∈ old, S p.1) (hm : old.Pairwise (fun p q => lt p.1 q.1 = true)) (h : mapLoop lt f vs old = .ok new) :
    new.Pairwise (fun p q => lt p.1 q.1 = true) ∧ ∃ ps, mapO f vs = .ok ps ∧ ∀ k y, (k, y) ∈ new ↔ LastWrite ps old k y := by
  induction vs generalizing old with
  | nil =>
    cases h
    exact ⟨hm, [], rfl, fun k y => by simp [LastWrite]⟩
  | cons v vs ih =>
    rw [mapLoop] at h
    obtain ⟨p, h1, h2⟩ := Outcome.bind_eq_ok.1 h
    have hsp := hsv v List.mem_cons_self p h1
    obtain ⟨s1, s2⟩ := mapPut_spec ho p.1 p.2 old hsp hso hm
    obtain ⟨i1, ps, i2, i3⟩ := ih _ (fun v hv => hsv v (List.mem_cons_of_mem _ hv)) (by
      rintro ⟨k, y⟩ hq
      rcases (s2 k y).1 hq with ⟨rfl, _⟩ | ⟨_, hq⟩
      · exact hsp
      · exact hso _ hq) s1 h2
    refine ⟨i1, p :: ps, by simp [mapO, h1, i2], fun k y => ?_⟩
    rw [i3, LastWrite, LastWrite, s2]
    constructor
    · rintro (⟨i, h, hl⟩ | ⟨hn, ⟨rfl, rfl⟩ | ⟨hk, hy⟩⟩)
      · refine .inl ⟨i + 1, by simpa using h, fun j hj q hq => ?_⟩
        cases j with
        | zero => omega
        | succ j => exact hl j (by omega) q (by simpa using hq)
      · refine .inl ⟨0, by simp, fun j hj q hq => ?_⟩
        cases j with
        | zero => omega
        | succ j => exact hn q (List.mem_of_getElem? (by simpa using hq))
      · refine .inr ⟨fun q hq => ?_, hy⟩
        rcases List.mem_cons.1 hq with rfl | hq
        · exact Ne.symm hk
        · exact hn q hq
    · rintro (⟨i, h, hl⟩ | ⟨hn, hy⟩)
      · cases i with
        | zero =>
          have e : p = (k, y) := by simpa using h
          refine .inr ⟨fun q hq => ?_, .inl (by rw [e]; exact ⟨rfl, rfl⟩)⟩
          obtain ⟨j, hj, rfl⟩ := List.getElem_of_mem hq
          exact hl (j + 1) (by omega) _ (by simp [hj])
        | succ i =>
          refine .inl ⟨i, by simpa using h, fun j hj q hq => hl (j + 1) (by omega) q (by simpa using hq)⟩
      · exact .inr ⟨fun q hq => hn q (List.mem_cons_of_mem _ hq), .inr ⟨Ne.symm (hn p List.mem_cons_self), hy⟩⟩

/-- **C25 (maps).** Extracting an array of pairs into a map that holds entries already: for every key the last pair of the
array with that key wins, entries with other keys stay. -/
theorem C25_map_merge (ho : KeyOrder S lt) (dbg : Bool) (a b : Ty) (vs : List (Val R)) (old : List (X R × X R)) (x : X R)
    (hsv : ∀ v ∈ vs, ∀ k y, as ops lt dbg (.pair a b) v = .ok (.seq [k, y]) → S k) (hso : ∀ p ∈ old, S p.1)
    (hm : old.Pairwise (fun p q => lt p.1 q.1 = true)) (h : extr ops lt dbg (.map a b) (.arr vs) (.m old) = .ok x) :
    ∃ new ps, x = .m new ∧ new.Pairwise (fun p q => lt p.1 q.1 = true) ∧
      mapO (fun w => as ops lt dbg (.pair a b) w) vs = .ok (ps.map fun p => .seq [p.1, p.2]) ∧
      ∀ k y, (k, y) ∈ new ↔ LastWrite ps old k y := by
  have has : ∀ v p, asserting dbg (chkNN (.pair a b) v)
        (extrPair dbg (fun v => asserting dbg (chkNN a v) (extr ops lt dbg a v (.m [])))
          (fun v => asserting dbg (chkNN b v) (extr ops lt dbg b v (.m []))) v) = .ok p →
      as ops lt dbg (.pair a b) v = .ok (.seq [p.1, p.2]) := by
    intro v p e1
    rw [as, extr]
    rw [asserting] at e1 ⊢
    split at e1
    · simp at e1
    · rename_i hc; rw [if_neg hc, e1]; rfl
  rw [extr] at h
  obtain ⟨m, h1, h2⟩ := Outcome.bind_eq_ok.1 h
  cases h2
  obtain ⟨s1, ps, s2, s3⟩ := mapLoop_spec ho _ vs old m (fun v hv p hp => hsv v hv _ _ (has v p hp)) hso hm h1
  refine ⟨m, ps, rfl, s1, ?_, s3⟩
  clear h h1 s1 s3 hsv
  induction vs generalizing ps with
  | nil => cases s2; rfl
  | cons v vs ih =>
    rw [mapO] at s2 ⊢
    obtain ⟨p, e1, e2⟩ := Outcome.bind_eq_ok.1 s2
    obtain ⟨qs, e3, e4⟩ := Outcome.bind_eq_ok.1 e2
    cases e4
    rw [ih qs e3]
    rw [has v p e1]; rfl

theorem demo_keyOrder : KeyOrder (R := R) (fun x => ∃ n, x = .i n) demoLt where
  irrefl := by rintro _ ⟨n, rfl⟩; simp [demoLt]
  trans := by
    rintro _ _ _ ⟨a, rfl⟩ ⟨b, rfl⟩ ⟨c, rfl⟩ h1 h2
    simp only [demoLt, decide_eq_true_eq] at h1 h2 ⊢
    omega
  total := by
    rintro _ _ ⟨a, rfl⟩ ⟨b, rfl⟩ h1 h2
    simp only [demoLt, decide_eq_false_iff_not] at h1 h2
    rw [show a = b by omega]

/-- Hypotheses met: integer keys, a key occurring twice and one present before. -/
example : extr (R := Rat) demoOps demoLt true (.map (.int .int) (.int .int))
    (.arr [.arr [.num (.intS 1), .num (.intS 2)], .arr [.num (.intS 5), .num (.intS 8)], .arr [.num (.intS 1), .num (.intS 9)]])
    (.m [(.i 5, .i 6), (.i 7, .i 7)]) = .ok (.m [(.i 1, .i 9), (.i 5, .i 8), (.i 7, .i 7)]) := by rfl

end Verif.JsonConv
