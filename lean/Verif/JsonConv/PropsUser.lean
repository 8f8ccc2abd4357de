import Verif.JsonConv.SpecUser
import Verif.JsonConv.Theorems
import Verif.Json.Theorems

/-! # C112: user-defined conversions -/

namespace Verif.JsonConv

open Verif Json

variable {R : Type} {ops : RealOps R} {lt : X R → X R → Bool}

mutual
/-- What is extracted into: maps are empty. -/
def Target : UTy → U R → Prop
  | .base t, .leaf x => t.IsMap → x = .m []
  | .one m, .node [x] => Target m x
  | .arr ms, .node xs => Targets ms xs
  | .obj _ ms, .node xs => Targets ms xs
  | .vec _, .node _ => True
  | _, _ => False

def Targets : List UTy → List (U R) → Prop
  | [], [] => True
  | m :: ms, x :: xs => Target m x ∧ Targets ms xs
  | _, _ => False
end

mutual
theorem target_fresh : (t : UTy) → Target (R := R) t (fresh t)
  | .base t => by simp [fresh, Target]
  | .one m => by simp only [fresh, Target]; exact target_fresh m
  | .arr ms => by simp only [fresh, Target]; exact targets_fresh ms
  | .obj _ ms => by simp only [fresh, Target]; exact targets_fresh ms
  | .vec _ => by simp [fresh, Target]

theorem targets_fresh : (ms : List UTy) → Targets (R := R) ms (freshs ms)
  | [] => by simp [freshs, Targets]
  | m :: ms => by simp only [freshs, Targets]; exact ⟨target_fresh m, targets_fresh ms⟩
end

mutual
theorem target_noMaps (t : UTy) (x : U R) (ht : t.NoMaps) (h : HasU lt x t) : Target t x := by
  match t, x, h with
  | .base t, _, .base h => simp only [UTy.NoMaps] at ht; simp [Target, ht]
  | .one m, _, .one h => simp only [UTy.NoMaps] at ht; simp only [Target]; exact target_noMaps m _ ht h
  | .arr ms, _, .arr h => simp only [UTy.NoMaps] at ht; simp only [Target]; exact targets_noMaps ms _ ht h
  | .obj _ ms, _, .obj h => simp only [UTy.NoMaps] at ht; simp only [Target]; exact targets_noMaps ms _ ht h
  | .vec _, _, .vec h => simp [Target]

theorem targets_noMaps (ms : List UTy) (xs : List (U R)) (ht : NoMapsAll ms) (h : HasUs lt xs ms) : Targets ms xs := by
  match ms, xs, h with
  | [], _, .nil => simp [Targets]
  | m :: ms, _, .cons h hs =>
    simp only [NoMapsAll] at ht
    simp only [Targets]
    exact ⟨target_noMaps m _ ht.1 h, targets_noMaps ms _ ht.2 hs⟩
end

theorem asserting_true' {α : Type} (dbg : Bool) (k : Outcome α) : asserting dbg true k = k := by simp [asserting]

/-- The base case of the round trip. -/
theorem base_back (hlt : ∀ a b, lt a b = true → lt b a = false) (dbg : Bool) (t : Ty) (ht : t.Extractable) (x : X R)
    (h : HasTy lt x t) :
    ∃ v, toVal t x = .ok v ∧ chkNN t v = true ∧ ∀ old, (t.IsMap → old = .m []) → extr ops lt dbg t v old = .ok x := by
  cases t with
  | carr t n =>
    obtain ⟨v, h1, _⟩ := C23_array_round_trip_partial (ops := ops) hlt dbg t n ht x (.m []) h
    refine ⟨v, h1, (C24_stored_passes_check_partial ops hlt _ ht x h v h1).1, fun old _ => ?_⟩
    exact C25_target_is_overwritten_partial hlt dbg _ ht (by simp [Ty.IsMap]) x old h v h1
  | chars n => exact absurd ht (by simp [Ty.Extractable])
  | _ => exact conv_back hlt dbg _ ht x h

/-- What the value archived for an object must satisfy. -/
structure Back (ops : RealOps R) (lt : X R → X R → Bool) (dbg : Bool) (t : UTy) (x : U R) (v : Val R) : Prop where
  arch : toValU dbg t x = .ok v
  chk : chkU t v = true
  extr : ∀ old, Target t old → extrU ops lt dbg t v old = .ok x

/-- The same for the members of a class. -/
inductive Backs (ops : RealOps R) (lt : X R → X R → Bool) (dbg : Bool) : List UTy → List (U R) → List (Val R) → Prop
  | nil : Backs ops lt dbg [] [] []
  | cons {m ms x xs v vs} (h : Back ops lt dbg m x v) (hs : Backs ops lt dbg ms xs vs) :
      Backs ops lt dbg (m :: ms) (x :: xs) (v :: vs)

theorem Backs.vals {dbg : Bool} {ms : List UTy} {xs : List (U R)} {vs : List (Val R)} (h : Backs ops lt dbg ms xs vs) :
    toValsU dbg ms xs = .ok vs := by
  induction h with
  | nil => simp [toValsU]
  | cons h _ ih => simp [toValsU, h.arch, ih]

theorem Backs.length {dbg : Bool} {ms : List UTy} {xs : List (U R)} {vs : List (Val R)} (h : Backs ops lt dbg ms xs vs) :
    vs.length = ms.length := by
  induction h with
  | nil => rfl
  | cons _ _ ih => simp [ih]

theorem Backs.array {dbg : Bool} {ms : List UTy} {xs : List (U R)} {vs : List (Val R)} (h : Backs ops lt dbg ms xs vs) :
    ∀ (us : List (Val R)) (olds : List (U R)), Targets ms olds →
      extrArr ops lt dbg ms (.arr (us ++ vs)) us.length olds = .ok xs := by
  induction h with
  | nil =>
    intro us olds ho
    cases olds with
    | nil => simp [extrArr]
    | cons _ _ => simp [Targets] at ho
  | @cons m ms x xs v vs h _ ih =>
    intro us olds ho
    cases olds with
    | nil => simp [Targets] at ho
    | cons old olds =>
      simp only [Targets] at ho
      have e : us ++ v :: vs = (us ++ [v]) ++ vs := by simp
      have hi := ih (us ++ [v]) olds ho.2
      rw [extrArr]
      simp only [isArr, asserting_true', getArr, Outcome.bind_ok]
      rw [show decide ((us ++ v :: vs).length > us.length) = true by simp, asserting_true']
      rw [show getIdx dbg (.arr (us ++ v :: vs)) us.length = .ok v by simp [getIdx, getArr], Outcome.bind_ok, h.chk,
        asserting_true', h.extr old ho.1, Outcome.bind_ok, e]
      simp only [List.length_append, List.length_cons, List.length_nil] at hi
      rw [hi]
      rfl

theorem Backs.object {dbg : Bool} {ms : List UTy} {xs : List (U R)} {vs : List (Val R)} (h : Backs ops lt dbg ms xs vs)
    (v : Val R) (hv : isObj v = true) :
    ∀ (ks : List (List Char)) (olds : List (U R)), ks.length = ms.length → Targets ms olds →
      (∀ p ∈ ks.zip vs, getKey dbg v p.1 = .ok p.2 ∧ hasKey dbg v p.1 = .ok true) →
      extrObj ops lt dbg ks ms v olds = .ok xs := by
  induction h with
  | nil =>
    intro ks olds hk ho _
    cases ks with
    | cons _ _ => simp at hk
    | nil =>
      cases olds with
      | nil => simp [extrObj]
      | cons _ _ => simp [Targets] at ho
  | @cons m ms x xs w vs h _ ih =>
    intro ks olds hk ho hp
    cases ks with
    | nil => simp at hk
    | cons k ks =>
      cases olds with
      | nil => simp [Targets] at ho
      | cons old olds =>
        simp only [Targets] at ho
        obtain ⟨h1, h2⟩ := hp (k, w) (by simp)
        simp only at h1 h2
        rw [extrObj, hv, asserting_true', h2, Outcome.bind_ok, asserting_true', h1, Outcome.bind_ok, h.extr old ho.1,
          Outcome.bind_ok, ih ks olds (by simpa using hk) ho.2 (fun p hq => hp p (by simp [hq]))]
        rfl

/-- Archiving into an object: the keys of the members hold their values, the others are as before. -/
theorem archObj_spec {dbg : Bool} {ms : List UTy} {xs : List (U R)} {vs : List (Val R)} (h : toValsU dbg ms xs = .ok vs) :
    ∀ (ks : List (List Char)) (v : Val R), KeysIncreasing v → ks.Nodup → ks.length = ms.length →
      ∃ v', archObj dbg ks ms xs v = .ok v' ∧ KeysIncreasing v' ∧
        (∀ p ∈ ks.zip vs, getKey dbg v' p.1 = .ok p.2 ∧ hasKey dbg v' p.1 = .ok true) ∧
        ∀ k, k ∉ ks → getKey dbg v' k = getKey dbg v k ∧ hasKey dbg v' k = hasKey dbg v k := by
  induction ms generalizing xs vs with
  | nil =>
    intro ks v hv _ hk
    cases xs with
    | cons _ _ => simp [toValsU] at h
    | nil =>
      cases ks with
      | cons _ _ => simp at hk
      | nil => exact ⟨v, by simp [archObj], hv, by simp, by simp⟩
  | cons m ms ih =>
    intro ks v hv hn hk
    cases xs with
    | nil => simp [toValsU] at h
    | cons x xs =>
      cases ks with
      | nil => simp at hk
      | cons k ks =>
        simp only [List.nodup_cons] at hn
        rw [toValsU] at h
        obtain ⟨y, hy, h⟩ := Outcome.bind_eq_ok.mp h
        obtain ⟨ys, hys, h⟩ := Outcome.bind_eq_ok.mp h
        simp only [Outcome.pure_eq, Outcome.ok.injEq] at h
        subst h
        obtain ⟨v1, h1, h2, h3, h4, h5⟩ := C20_set_then_get dbg v hv k y
        obtain ⟨v2, g1, g2, g3, g4⟩ := ih hys ks v1 h2 hn.2 (by simpa using hk)
        refine ⟨v2, ?_, g2, ?_, ?_⟩
        · rw [archObj, hy, Outcome.bind_ok, h1, Outcome.bind_ok, g1]
        · intro p hp
          simp only [List.zip_cons_cons, List.mem_cons] at hp
          rcases hp with rfl | hp
          · obtain ⟨e1, e2⟩ := g4 k hn.1
            exact ⟨e1.trans h3, e2.trans h4⟩
          · exact g3 p hp
        · intro j hj
          simp only [List.mem_cons, not_or] at hj
          obtain ⟨e1, e2⟩ := g4 j hj.2
          obtain ⟨f1, f2⟩ := h5 j hj.1
          exact ⟨e1.trans f1, e2.trans f2⟩

theorem keysIncreasing_empty : KeysIncreasing (.obj [] : Val R) := ⟨[], rfl, List.Pairwise.nil⟩

theorem _root_.Verif.Json.KeysIncreasing.isObj {v : Val R} (h : KeysIncreasing v) : JsonConv.isObj v = true := by
  obtain ⟨_, rfl, _⟩ := h; rfl

theorem fine_of_vec (t : UTy) (h : (UTy.vec t).Fine) : t.Fine := by
  cases t with
  | base t =>
    simp only [UTy.Fine] at h ⊢
    cases t <;> first | exact h | simp [Ty.NoArrays] at h
  | _ => simpa only [UTy.Fine] using h

mutual
theorem back (hlt : ∀ a b, lt a b = true → lt b a = false) (dbg : Bool) (t : UTy) (x : U R) (ht : t.Fine) (h : HasU lt x t) :
    ∃ v, Back ops lt dbg t x v := by
  match t, x, h with
  | .base t, _, .base (x := x) h =>
    simp only [UTy.Fine] at ht
    obtain ⟨v, h1, h2, h3⟩ := base_back (ops := ops) hlt dbg t ht x h
    refine ⟨v, by simp [toValU, h1], by simp [chkU, h2], fun old ho => ?_⟩
    cases old with
    | node _ => simp [Target] at ho
    | leaf y => simp only [Target] at ho; simp [extrU, h3 y ho]
  | .one m, _, .one (x := x) h =>
    simp only [UTy.Fine] at ht
    obtain ⟨v, h1⟩ := back hlt dbg m x ht h
    refine ⟨v, by simp [toValU, h1.arch], by simp [chkU], fun old ho => ?_⟩
    match old, ho with
    | .node [y], ho => simp only [Target] at ho; simp [extrU, h1.extr y ho]
  | .arr ms, _, .arr (xs := xs) h =>
    simp only [UTy.Fine] at ht
    obtain ⟨vs, h1⟩ := backs hlt dbg ms xs ht.2 h
    match ms, ht.1, h1 with
    | m :: ms, _, h1 =>
    refine ⟨.arr vs, by simp [toValU, h1.vals], by simp [chkU], fun old ho => ?_⟩
    match old, ho with
    | .node olds, ho =>
      simp only [Target] at ho
      have := h1.array [] olds ho
      simp only [List.nil_append, List.length_nil] at this
      rw [extrU, this]; rfl
  | .obj ks ms, _, .obj (xs := xs) h =>
    simp only [UTy.Fine] at ht
    obtain ⟨hm, hn, hl, hf⟩ := ht
    obtain ⟨vs, h1⟩ := backs hlt dbg ms xs hf h
    match ms, hm, hl, h1 with
    | m :: ms, _, hl, h1 =>
    obtain ⟨v, g1, g2, g3, _⟩ := archObj_spec h1.vals ks (.obj []) keysIncreasing_empty hn hl
    refine ⟨v, by simp [toValU, g1], by simp [chkU], fun old ho => ?_⟩
    match old, ho with
    | .node olds, ho =>
      simp only [Target] at ho
      rw [extrU, h1.object v g2.isObj ks olds hl ho g3]; rfl
  | .vec t, _, .vec (xs := xs) h =>
    obtain ⟨vs, h1, h2, h3, h4⟩ := mapO_back (f := toValU dbg t) (q := chkU t)
      (g := fun w => asserting dbg (chkU t w) (extrU ops lt dbg t w (fresh t))) xs (fun x hx => by
        obtain ⟨v, hv⟩ := back hlt dbg t x (fine_of_vec t ht) (h x hx)
        exact ⟨v, hv.arch, hv.chk, by rw [hv.chk, asserting_true']; exact hv.extr _ (target_fresh t)⟩)
    refine ⟨.arr vs, by simp [toValU, h1], by simpa [chkU] using h3, fun old ho => ?_⟩
    simp [extrU, getArr, h4]
termination_by sizeOf t

theorem backs (hlt : ∀ a b, lt a b = true → lt b a = false) (dbg : Bool) (ms : List UTy) (xs : List (U R)) (ht : FineAll ms)
    (h : HasUs lt xs ms) : ∃ vs, Backs ops lt dbg ms xs vs := by
  match ms, xs, h with
  | [], _, .nil => exact ⟨[], .nil⟩
  | m :: ms, _, .cons (x := x) (xs := xs) h hs =>
    simp only [FineAll] at ht
    obtain ⟨v, hv⟩ := back hlt dbg m x ht.1 h
    obtain ⟨vs, hvs⟩ := backs hlt dbg ms xs ht.2 hs
    exact ⟨v :: vs, .cons hv hvs⟩
termination_by sizeOf ms
end

/-- **C112 (round trip).** For every class whose converters are written with the macros, of any nesting, an object archived
with `getArch` comes back from `getExtr`. Partial like C23: character arrays, and objects moved from (does not compile). -/
theorem C112_round_trip_partial (hlt : ∀ a b, lt a b = true → lt b a = false) (dbg : Bool) (t : UTy) (x : U R) (ht : t.Fine)
    (h : HasU lt x t) : ∃ v, getArch dbg t x = .ok v ∧ getExtr ops lt dbg t v = .ok x := by
  obtain ⟨v, hv⟩ := back (ops := ops) hlt dbg t x ht h
  exact ⟨v, hv.arch, hv.extr _ (target_fresh t)⟩

/-- **C112 (overwriting).** Extracting into an existing object of the type replaces all of it, if no member is a map (see
C25). -/
theorem C112_overwrites_partial (hlt : ∀ a b, lt a b = true → lt b a = false) (dbg : Bool) (t : UTy) (x old : U R) (ht : t.Fine)
    (hm : t.NoMaps) (h : HasU lt x t) (ho : HasU lt old t) (v : Val R) (hv : getArch dbg t x = .ok v) :
    extrU ops lt dbg t v old = .ok x := by
  obtain ⟨w, hw⟩ := back (ops := ops) hlt dbg t x ht h
  have := hw.arch
  rw [getArch] at hv
  rw [hv] at this
  cases this
  exact hw.extr old (target_noMaps t old hm ho)

theorem hasUs_get {ms : List UTy} {xs : List (U R)} (h : HasUs lt xs ms) : xs.length = ms.length := by
  match ms, xs, h with
  | [], _, .nil => rfl
  | m :: ms, _, .cons h hs => simp [hasUs_get hs]

theorem toValsU_get {dbg : Bool} {ms : List UTy} {xs : List (U R)} {vs : List (Val R)} (h : toValsU dbg ms xs = .ok vs) :
    vs.length = ms.length ∧ xs.length = ms.length ∧ ∀ (i : Nat) m x v, ms[i]? = some m → xs[i]? = some x → vs[i]? = some v → toValU dbg m x = .ok v := by
  induction ms generalizing xs vs with
  | nil =>
    cases xs with
    | nil => simp [toValsU] at h; subst h; simp
    | cons _ _ => simp [toValsU] at h
  | cons m ms ih =>
    cases xs with
    | nil => simp [toValsU] at h
    | cons x xs =>
      rw [toValsU] at h
      obtain ⟨y, hy, h⟩ := Outcome.bind_eq_ok.mp h
      obtain ⟨ys, hys, h⟩ := Outcome.bind_eq_ok.mp h
      simp only [Outcome.pure_eq, Outcome.ok.injEq] at h
      subst h
      obtain ⟨a, b, c⟩ := ih hys
      refine ⟨by simp [a], by simp [b], ?_⟩
      intro i m' x' v' h1 h2 h3
      cases i with
      | zero => simp at h1 h2 h3; subst h1 h2 h3; exact hy
      | succ i => simp at h1 h2 h3; exact c i _ _ _ h1 h2 h3

/-- **C112 (layout of arrays).** `SSVJ_CNV_ARR` gives an array with the value of member `i` at index `i`. -/
theorem C112_array_layout (hlt : ∀ a b, lt a b = true → lt b a = false) (ops : RealOps R) (dbg : Bool) (ms : List UTy) (xs : List (U R))
    (ht : (UTy.arr ms).Fine) (h : HasUs lt xs ms) :
    ∃ vs, getArch dbg (.arr ms) (.node xs) = .ok (.arr vs) ∧ vs.length = ms.length ∧
      ∀ (i : Nat) m x, ms[i]? = some m → xs[i]? = some x → ∃ v, vs[i]? = some v ∧ getArch dbg m x = .ok v := by
  simp only [UTy.Fine] at ht
  obtain ⟨vs, h1⟩ := backs (ops := ops) hlt dbg ms xs ht.2 h
  obtain ⟨hl, _, hg⟩ := toValsU_get h1.vals
  match ms, ht.1, h1, hl, hg with
  | m :: ms, _, h1, hl, hg =>
  refine ⟨vs, by simp [getArch, toValU, h1.vals], hl, ?_⟩
  intro i m' x' hm hx
  have hi : i < (m :: ms).length := (List.getElem?_eq_some_iff.mp hm).1
  refine ⟨vs[i]'(by omega), by simp, hg i m' x' _ hm hx (by simp)⟩

/-- **C112 (layout of objects).** `SSVJ_CNV_OBJ_AUTO` gives an object whose keys are the names of the members, each with the
value of that member. -/
theorem C112_object_layout (hlt : ∀ a b, lt a b = true → lt b a = false) (ops : RealOps R) (dbg : Bool) (ks : List (List Char))
    (ms : List UTy) (xs : List (U R)) (ht : (UTy.obj ks ms).Fine) (h : HasUs lt xs ms) :
    ∃ v, getArch dbg (.obj ks ms) (.node xs) = .ok v ∧ (∀ k, hasKey dbg v k = .ok (decide (k ∈ ks))) ∧
      ∀ (i : Nat) k m x, ks[i]? = some k → ms[i]? = some m → xs[i]? = some x →
        ∃ w, getArch dbg m x = .ok w ∧ getKey dbg v k = .ok w := by
  simp only [UTy.Fine] at ht
  obtain ⟨hm, hn, hl, hf⟩ := ht
  obtain ⟨vs, h1⟩ := backs (ops := ops) hlt dbg ms xs hf h
  obtain ⟨hvl, _, hg⟩ := toValsU_get h1.vals
  obtain ⟨v, g1, g2, g3, g4⟩ := archObj_spec h1.vals ks (.obj []) keysIncreasing_empty hn hl
  have hz : ∀ (i : Nat) k w, ks[i]? = some k → vs[i]? = some w → (k, w) ∈ ks.zip vs := by
    intro i k w hk hw
    apply List.mem_iff_getElem?.mpr
    refine ⟨i, ?_⟩
    rw [List.getElem?_zip_eq_some]
    exact ⟨hk, hw⟩
  refine ⟨v, ?_, ?_, ?_⟩
  · match ms, hm with
    | m :: ms, _ => simp [getArch, toValU, g1]
  · intro k
    by_cases hk : k ∈ ks
    · obtain ⟨i, hi⟩ := List.mem_iff_getElem?.mp hk
      have hi' : i < ks.length := (List.getElem?_eq_some_iff.mp hi).1
      rw [(g3 (k, vs[i]'(by omega)) (hz i k _ hi (by simp))).2]; simp [hk]
    · rw [(g4 k hk).2]; rw [hasKey_map dbg List.Pairwise.nil]; simp [hk, Container.toMap]
  · intro i k m x hk hm' hx
    have hi' : i < ms.length := (List.getElem?_eq_some_iff.mp hm').1
    have hw : vs[i]? = some (vs[i]'(by omega)) := by simp
    exact ⟨_, hg i m x _ hm' hx hw, (g3 _ (hz i k _ hk hw)).1⟩

/-- **C112 (reading objects).** Extracting a class from any JSON object succeeds exactly if every member can be extracted from
the value under its name; in the debug build the name must be present, in the release build a missing name counts as null. -/
theorem C112_object_read (dbg : Bool) (v : Val R) (hv : KeysIncreasing v) (ks : List (List Char)) (ms : List UTy)
    (olds xs : List (U R)) (hk : ks.length = ms.length) (ho : olds.length = ms.length) (hx : xs.length = ms.length)
    (hm : ms ≠ []) :
    extrU ops lt dbg (.obj ks ms) v (.node olds) = .ok (.node xs) ↔
      ∀ (i : Nat) k m old x, ks[i]? = some k → ms[i]? = some m → olds[i]? = some old → xs[i]? = some x →
        (dbg = true → hasKey dbg v k = .ok true) ∧
        ((hasKey dbg v k = .ok true ∧ ∃ w, getKey dbg v k = .ok w ∧ extrU ops lt dbg m w old = .ok x) ∨
          (hasKey dbg v k = .ok false ∧ extrU ops lt dbg m .nll old = .ok x)) := by
  have key : ∀ (ms : List UTy) (ks : List (List Char)) (olds xs : List (U R)), ks.length = ms.length →
      olds.length = ms.length → xs.length = ms.length → (extrObj ops lt dbg ks ms v olds = .ok xs ↔
      ∀ (i : Nat) k m old x, ks[i]? = some k → ms[i]? = some m → olds[i]? = some old → xs[i]? = some x →
        (dbg = true → hasKey dbg v k = .ok true) ∧
        ((hasKey dbg v k = .ok true ∧ ∃ w, getKey dbg v k = .ok w ∧ extrU ops lt dbg m w old = .ok x) ∨
          (hasKey dbg v k = .ok false ∧ extrU ops lt dbg m .nll old = .ok x))) := by
    intro ms
    induction ms with
    | nil =>
      intro ks olds xs h1 h2 h3
      simp only [List.length_nil, List.length_eq_zero_iff] at h1 h2 h3
      subst h1 h2 h3
      simp [extrObj]
    | cons m ms ih =>
      intro ks olds xs h1 h2 h3
      match ks, olds, xs, h1, h2, h3 with
      | k :: ks, old :: olds, x :: xs, h1, h2, h3 =>
      have hi := ih ks olds xs (by simpa using h1) (by simpa using h2) (by simpa using h3)
      have hh : (hasKey dbg v k = .ok true ∧ ∃ w, getKey dbg v k = .ok w) ∨
          (hasKey dbg v k = .ok false ∧ getKey dbg v k = .ok .nll) := by
        obtain ⟨kvs, rfl, hp⟩ := hv
        rw [hasKey_map dbg hp, getKey_map dbg hp]
        cases Container.toMap kvs k <;> simp
      have hs : extrObj ops lt dbg (k :: ks) (m :: ms) v (old :: olds) = .ok (x :: xs) ↔
          ((dbg = true → hasKey dbg v k = .ok true) ∧
          ((hasKey dbg v k = .ok true ∧ ∃ w, getKey dbg v k = .ok w ∧ extrU ops lt dbg m w old = .ok x) ∨
          (hasKey dbg v k = .ok false ∧ extrU ops lt dbg m .nll old = .ok x))) ∧ extrObj ops lt dbg ks ms v olds = .ok xs := by
        rw [extrObj, hv.isObj, asserting_true']
        rcases hh with ⟨a, w, b⟩ | ⟨a, b⟩
        · rw [a, b, Outcome.bind_ok, asserting_true', Outcome.bind_ok]
          simp only [Outcome.bind_eq_ok, Outcome.pure_eq, Outcome.ok.injEq, List.cons.injEq]
          simp
        · rw [a, b, Outcome.bind_ok, Outcome.bind_ok]
          cases dbg with
          | true => simp [asserting]
          | false =>
            simp only [asserting, Bool.false_and, Bool.false_eq_true, if_false, Outcome.bind_eq_ok, Outcome.pure_eq,
              Outcome.ok.injEq, List.cons.injEq]
            simp
      rw [hs, hi]
      constructor
      · rintro ⟨h0, hr⟩ i k' m' old' x' e1 e2 e3 e4
        cases i with
        | zero =>
          simp only [List.getElem?_cons_zero, Option.some.injEq] at e1 e2 e3 e4
          subst e1 e2 e3 e4
          exact h0
        | succ i =>
          simp only [List.getElem?_cons_succ] at e1 e2 e3 e4
          exact hr i _ _ _ _ e1 e2 e3 e4
      · intro h
        refine ⟨h 0 k m old x rfl rfl rfl rfl, fun i k' m' old' x' e1 e2 e3 e4 => ?_⟩
        exact h (i + 1) k' m' old' x' (by simpa using e1) (by simpa using e2) (by simpa using e3) (by simpa using e4)
  match ms, hm with
  | m :: ms, _ =>
    rw [← key (m :: ms) ks olds xs hk ho hx, extrU]
    simp only [Outcome.bind_eq_ok, Outcome.pure_eq, Outcome.ok.injEq, U.node.injEq, exists_eq_right]

/-- **C112 (reading arrays).** Extracting a class from a JSON array succeeds exactly if every member can be extracted from the
element with its index; the debug build also asserts the type of the element. Elements beyond the members are ignored. -/
theorem C112_array_read (dbg : Bool) (vs : List (Val R)) (ms : List UTy) (olds xs : List (U R))
    (ho : olds.length = ms.length) (hx : xs.length = ms.length) (hm : ms ≠ []) :
    extrU ops lt dbg (.arr ms) (.arr vs) (.node olds) = .ok (.node xs) ↔
      ∀ (i : Nat) m old x, ms[i]? = some m → olds[i]? = some old → xs[i]? = some x →
        ∃ w, vs[i]? = some w ∧ (dbg = true → chkU m w = true) ∧ extrU ops lt dbg m w old = .ok x := by
  have key : ∀ (ms : List UTy) (j : Nat) (olds xs : List (U R)), olds.length = ms.length → xs.length = ms.length →
      (extrArr ops lt dbg ms (.arr vs) j olds = .ok xs ↔
      ∀ (i : Nat) m old x, ms[i]? = some m → olds[i]? = some old → xs[i]? = some x →
        ∃ w, vs[j + i]? = some w ∧ (dbg = true → chkU m w = true) ∧ extrU ops lt dbg m w old = .ok x) := by
    intro ms
    induction ms with
    | nil =>
      intro j olds xs h2 h3
      simp only [List.length_nil, List.length_eq_zero_iff] at h2 h3
      subst h2 h3
      simp [extrArr]
    | cons m ms ih =>
      intro j olds xs h2 h3
      match olds, xs, h2, h3 with
      | old :: olds, x :: xs, h2, h3 =>
      have hi := ih (j + 1) olds xs (by simpa using h2) (by simpa using h3)
      have hs : extrArr ops lt dbg (m :: ms) (.arr vs) j (old :: olds) = .ok (x :: xs) ↔
          (∃ w, vs[j]? = some w ∧ (dbg = true → chkU m w = true) ∧ extrU ops lt dbg m w old = .ok x) ∧
          extrArr ops lt dbg ms (.arr vs) (j + 1) olds = .ok xs := by
        rw [extrArr]
        simp only [isArr, asserting_true', getArr, Outcome.bind_ok]
        by_cases hj : j < vs.length
        · rw [show decide (vs.length > j) = true by simpa using hj, asserting_true',
            show getIdx dbg (.arr vs) j = .ok vs[j] by simp [getIdx, getArr, hj], Outcome.bind_ok]
          by_cases hc : dbg = true → chkU m vs[j] = true
          · have : ∀ k : Outcome (List (U R)), asserting dbg (chkU m vs[j]) k = k := by
              intro k; cases dbg <;> simp_all [asserting]
            rw [this]
            simp only [Outcome.bind_eq_ok, Outcome.pure_eq, Outcome.ok.injEq, List.cons.injEq]
            simp only [exists_eq_right_right, List.getElem?_eq_getElem hj, Option.some.injEq, exists_eq_left']
            constructor
            · rintro ⟨h1, h2⟩; exact ⟨⟨hc, h1⟩, h2⟩
            · rintro ⟨⟨_, h1⟩, h2⟩; exact ⟨h1, h2⟩
          · have : ∀ k : Outcome (List (U R)), asserting dbg (chkU m vs[j]) k = .assertFail := by
              intro k; cases dbg <;> simp_all [asserting]
            rw [this]
            simp only [reduceCtorEq, false_iff]
            rintro ⟨⟨w, e, c, _⟩, _⟩
            rw [List.getElem?_eq_getElem hj] at e
            cases e
            exact hc c
        · have e : vs[j]? = none := by simp; omega
          rw [e]
          simp only [reduceCtorEq, false_and, exists_false, false_and, iff_false]
          cases dbg with
          | true => simp [asserting, hj]
          | false => simp [asserting, getIdx, getArr, e]
      rw [hs, hi]
      constructor
      · rintro ⟨h0, hr⟩ i m' old' x' e2 e3 e4
        cases i with
        | zero =>
          simp only [List.getElem?_cons_zero, Option.some.injEq] at e2 e3 e4
          subst e2 e3 e4
          exact h0
        | succ i =>
          simp only [List.getElem?_cons_succ] at e2 e3 e4
          have := hr i _ _ _ e2 e3 e4
          rwa [show j + 1 + i = j + (i + 1) by omega] at this
      · intro h
        refine ⟨h 0 m old x rfl rfl rfl, fun i m' old' x' e2 e3 e4 => ?_⟩
        have := h (i + 1) m' old' x' (by simpa using e2) (by simpa using e3) (by simpa using e4)
        rwa [show j + (i + 1) = j + 1 + i by omega] at this
  match ms, hm with
  | m :: ms, _ =>
    have := key (m :: ms) 0 olds xs ho hx
    simp only [Nat.zero_add] at this
    rw [← this, extrU]
    simp only [Outcome.bind_eq_ok, Outcome.pure_eq, Outcome.ok.injEq, U.node.injEq, exists_eq_right]

/-- **C112 (same name).** With the same name for two members both come back with what the second had. -/
theorem C112_same_name (hlt : ∀ a b, lt a b = true → lt b a = false) (dbg : Bool) (k : List Char) (m : UTy) (x y : U R)
    (hm : m.Fine) (hx : HasU lt x m) (hy : HasU lt y m) :
    ∃ v, getArch dbg (.obj [k, k] [m, m]) (.node [x, y]) = .ok v ∧
      getExtr ops lt dbg (.obj [k, k] [m, m]) v = .ok (.node [y, y]) := by
  obtain ⟨a, ha⟩ := back (ops := ops) hlt dbg m x hm hx
  obtain ⟨b, hb⟩ := back (ops := ops) hlt dbg m y hm hy
  obtain ⟨v1, h1, h2, _⟩ := C20_set_then_get dbg (.obj []) keysIncreasing_empty k a
  obtain ⟨v2, g1, g2, g3, g4, _⟩ := C20_set_then_get dbg v1 h2 k b
  refine ⟨v2, ?_, ?_⟩
  · simp [getArch, toValU, archObj, ha.arch, hb.arch, h1, g1]
  · simp [getExtr, fresh, freshs, extrU, extrObj, g2.isObj, asserting_true', g3, g4, hb.extr _ (target_fresh m)]

/-- A class with members of many kinds: `struct A {int x; vector<B> ys; map<int, int> m;}`, `struct B {string s; C c;}`,
`struct C {bool b[2];}`. -/
def demoC : UTy := .one (.base (.carr .bln 2))

def demoB : UTy := .arr [.base .str, demoC]

def demoA : UTy := .obj [['x'], ['y', 's'], ['m']] [.base (.int .int), .vec demoB, .base (.map (.int .int) (.int .int))]

def demoObj : U Rat :=
  .node [.leaf (.i (-7)), .node [.node [.leaf (.s ['q']), .node [.leaf (.seq [.b true, .b false])]]],
    .leaf (.m [(.i 1, .i 2)])]

theorem demoObj_hasU : HasU demoLt demoObj demoA := by
  refine .obj (.cons (.base (.int (by simp [IntTy.Range]))) (.cons (.vec ?_) (.cons (.base (.map ?_ ?_ ?_)) .nil)))
  · intro x hx
    simp at hx
    subst hx
    refine .arr (.cons (.base (.str _)) (.cons (.one (.base (.carr ?_ rfl))) .nil))
    intro x hx
    simp at hx
    rcases hx with rfl | rfl <;> exact .bln _
  · intro p hp; simp at hp; subst hp; exact .int (by simp [IntTy.Range])
  · intro p hp; simp at hp; subst hp; exact .int (by simp [IntTy.Range])
  · simp

example : ∃ v, getArch true demoA demoObj = .ok v ∧ getExtr demoOps demoLt true demoA v = .ok demoObj :=
  C112_round_trip_partial demoLt_asymm true demoA demoObj
    (by simp [demoA, demoB, demoC, UTy.Fine, FineAll, Ty.Extractable, Ty.NoArrays]) demoObj_hasU

end Verif.JsonConv
