import Verif.Tmpl.LemmasPass

/-! # The end of a section, and one pass over a well-formed template -/

namespace Verif.Tmpl

open Verif Spec

theorem last_close (p : Str) : (p ++ ['}', '}']).getLast? ≠ some '\\' := by
  rw [List.getLast?_append]
  simp

theorem skips_text {dbg : Bool} {key : Str} (s : Str) : ∀ (pre post : Str), pre ≠ [] → TextOk s →
    Skips dbg (pre ++ (s ++ post)) key pre.length (pre.length + s.length) := by
  induction s with
  | nil => intro pre post _ _; exact .refl _ _ _ _
  | cons c s ih =>
    intro pre post hne h
    have h1 : Skips dbg (pre ++ ((c :: s) ++ post)) key pre.length (pre.length + 1) := by
      refine Skips.one ?_
      by_cases hc : c = '{'
      · subst hc
        obtain ⟨d, t, rfl, hd⟩ := textOk_brace_next h
        exact isClose_lone hne hd
      · exact isClose_no (c := c) (by rw [at_pre0]; rfl) hc
    have h2 := ih (pre ++ [c]) post (by simp) (textOk_tail h)
    have e1 : (pre ++ [c]) ++ (s ++ post) = pre ++ ((c :: s) ++ post) := by simp
    have e2 : (pre ++ [c]).length = pre.length + 1 := by simp
    rw [e1, e2] at h2
    have e3 : pre.length + 1 + s.length = pre.length + (c :: s).length := by simp; omega
    rw [e3] at h2
    exact h1.trans h2

/-- The positions of a decomposed text. -/
theorem skips_of {dbg : Bool} {key src pre s post : Str} {i j : Nat} (h : Skips dbg (pre ++ (s ++ post)) key pre.length (pre.length + s.length))
    (e : src = pre ++ (s ++ post)) (hi : i = pre.length) (hj : j = pre.length + s.length) : Skips dbg src key i j := by
  subst e hi hj; exact h

theorem skips_source {dbg : Bool} {key : Str} (hk : '}' ∉ key) (b : Tmpl) : ∀ (pre post : Str), pre ≠ [] → pre.getLast? ≠ some '\\' → Wf b →
    (∀ t ∈ sectKeys b, ¬ key <+: t) → Skips dbg (pre ++ (source b ++ post)) key pre.length (pre.length + (source b).length) := by
  induction b with
  | nil => intro pre post _ _ _ _; exact .refl _ _ _ _
  | text s r ih =>
    intro pre post hne hl hw hs
    have h1 := skips_text (dbg := dbg) (key := key) s pre (source r ++ post) hne hw.1
    have h2 := ih (pre ++ s) post (by simp [hne]) (getLast?_append_textOk hl hw.1) hw.2 hs
    have e : pre ++ (source (.text s r) ++ post) = pre ++ (s ++ (source r ++ post)) := by simp [source]
    rw [e]
    exact h1.trans (skips_of h2 (by simp) (by simp) (by simp [source]; omega))
  | brace r ih =>
    intro pre post hne hl hw hs
    have e : pre ++ (source (.brace r) ++ post) = pre ++ ('\\' :: '{' :: (source r ++ post)) := by simp [source]
    rw [e]
    have h1 : Skips dbg (pre ++ ('\\' :: '{' :: (source r ++ post))) key pre.length (pre.length + 1) :=
      Skips.one (isClose_no (c := '\\') (by rw [at_pre0]; rfl) (by decide))
    have h2 : Skips dbg (pre ++ ('\\' :: '{' :: (source r ++ post))) key (pre.length + 1) (pre.length + 2) := by
      have := isClose_escaped (dbg := dbg) (pre := pre ++ ['\\']) (l := source r ++ post) (by simp)
      refine Skips.one ?_
      have e1 : (pre ++ ['\\']) ++ ('{' :: (source r ++ post)) = pre ++ ('\\' :: '{' :: (source r ++ post)) := by simp
      rw [e1] at this
      simpa using this
    have h3 := ih (pre ++ ['\\', '{']) post (by simp) (by simp) hw hs
    exact h1.trans (h2.trans (skips_of h3 (by simp) (by simp) (by simp [source]; omega)))
  | key k r ih =>
    intro pre post hne hl hw hs
    have e : pre ++ (source (.key k r) ++ post) = pre ++ ('{' :: '{' :: (k ++ '}' :: '}' :: (source r ++ post))) := by simp [source]
    rw [e]
    -- the first brace
    obtain ⟨d, l, hd, hd1, hd2⟩ : ∃ d l, k ++ '}' :: '}' :: (source r ++ post) = d :: l ∧ d ≠ '/' ∧ d ≠ '{' := by
      cases k with
      | nil => exact ⟨'}', _, rfl, by decide, by decide⟩
      | cons a k =>
        refine ⟨a, _, rfl, ?_, ?_⟩
        · intro ha; exact hw.2.1.2.2 (by simp [ha])
        · intro ha; exact hw.1.1 (by simp [ha])
    have h1 : Skips dbg (pre ++ ('{' :: '{' :: (k ++ '}' :: '}' :: (source r ++ post)))) key pre.length (pre.length + 1) := by
      rw [hd]; exact Skips.one (isClose_open hne hd1)
    have h2 : Skips dbg (pre ++ ('{' :: '{' :: (k ++ '}' :: '}' :: (source r ++ post)))) key (pre.length + 1) (pre.length + 2) := by
      rw [hd]
      refine Skips.one ?_
      have := isClose_lone (dbg := dbg) (pre := pre ++ ['{']) (l := l) (d := d) (by simp) hd2
      have e1 : (pre ++ ['{']) ++ ('{' :: d :: l) = pre ++ ('{' :: '{' :: d :: l) := by simp
      rw [e1] at this
      simpa using this
    have h3 := skips_plain (dbg := dbg) (key := key) (k ++ ['}', '}']) (pre ++ ['{', '{']) (source r ++ post) (by simp [hw.1.1])
    have h4 := ih (pre ++ ['{', '{'] ++ k ++ ['}', '}']) post (by simp) (last_close _) hw.2.2 hs
    exact h1.trans (h2.trans ((skips_of (j := pre.length + 2 + k.length + 2) h3 (by simp) (by simp) (by simp; omega)).trans
      (skips_of h4 (by simp) (by simp; omega) (by simp [source]; omega))))
  | sep s r ih =>
    intro pre post hne hl hw hs
    have e : pre ++ (source (.sep s r) ++ post) = pre ++ ('{' :: '{' :: '*' :: (s ++ '}' :: '}' :: (source r ++ post))) := by simp [source]
    rw [e]
    have h1 : Skips dbg (pre ++ ('{' :: '{' :: '*' :: (s ++ '}' :: '}' :: (source r ++ post)))) key pre.length (pre.length + 1) :=
      Skips.one (isClose_open hne (by decide))
    have h2 : Skips dbg (pre ++ ('{' :: '{' :: '*' :: (s ++ '}' :: '}' :: (source r ++ post)))) key (pre.length + 1) (pre.length + 2) := by
      refine Skips.one ?_
      have := isClose_lone (dbg := dbg) (pre := pre ++ ['{']) (l := (s ++ '}' :: '}' :: (source r ++ post))) (d := '*') (by simp) (by decide)
      have e1 : (pre ++ ['{']) ++ ('{' :: '*' :: (s ++ '}' :: '}' :: (source r ++ post))) = pre ++ ('{' :: '{' :: '*' :: (s ++ '}' :: '}' :: (source r ++ post))) := by simp
      rw [e1] at this
      simpa using this
    have h2' := skips_plain (dbg := dbg) (key := key) ['*'] (pre ++ ['{', '{']) (s ++ '}' :: '}' :: (source r ++ post)) (by simp)
    have h3 := skips_text (dbg := dbg) (key := key) s (pre ++ ['{', '{', '*']) ('}' :: '}' :: (source r ++ post)) (by simp) hw.1
    have h3' := skips_plain (dbg := dbg) (key := key) ['}', '}'] (pre ++ ['{', '{', '*'] ++ s) (source r ++ post) (by simp)
    have h4 := ih (pre ++ ['{', '{', '*'] ++ s ++ ['}', '}']) post (by simp) (last_close _) hw.2.2 hs
    exact h1.trans (h2.trans ((skips_of (j := pre.length + 3) h2' (by simp) (by simp) (by simp)).trans
      ((skips_of (j := pre.length + 3 + s.length) h3 (by simp) (by simp) (by simp)).trans
      ((skips_of (j := pre.length + 3 + s.length + 2) h3' (by simp) (by simp; omega) (by simp; omega)).trans
      (skips_of h4 (by simp) (by simp; omega) (by simp [source]; omega))))))
  | sect k b r ihb ihr =>
    intro pre post hne hl hw hs
    obtain ⟨⟨hw1, hw1'⟩, hw2, hw3, hw4, hw5⟩ := hw
    have hkk : ¬ key <+: k := hs k (by simp [sectKeys])
    obtain ⟨src, hsrc⟩ : ∃ src, src = pre ++ (source (.sect k b r) ++ post) := ⟨_, rfl⟩
    rw [← hsrc]
    have e1 : src = pre ++ ('{' :: '{' :: '#' :: (k ++ '}' :: '}' :: (source b ++ ('{' :: '{' :: '/' :: (k ++ '}' :: '}' :: (source r ++ post)))))) := by
      simp [hsrc, source]
    have h1 : Skips dbg src key pre.length (pre.length + 1) := by
      rw [e1]; exact Skips.one (isClose_open hne (by decide))
    have h2 : Skips dbg src key (pre.length + 1) (pre.length + 2) := by
      refine Skips.one ?_
      have := isClose_lone (dbg := dbg) (pre := pre ++ ['{']) (l := (k ++ '}' :: '}' :: (source b ++ ('{' :: '{' :: '/' :: (k ++ '}' :: '}' :: (source r ++ post)))))) (d := '#') (by simp) (by decide)
      rw [show (pre ++ ['{']).length = pre.length + 1 by simp] at this
      rw [e1]
      simpa using this
    have h3 := skips_plain (dbg := dbg) (key := key) ('#' :: k ++ ['}', '}']) (pre ++ ['{', '{']) (source b ++ ('{' :: '{' :: '/' :: (k ++ '}' :: '}' :: (source r ++ post)))) (by simp [hw1])
    have h4 := ihb (pre ++ ['{', '{', '#'] ++ k ++ ['}', '}']) ('{' :: '{' :: '/' :: (k ++ '}' :: '}' :: (source r ++ post))) (by simp) (last_close _) hw4
      (fun t ht => hs t (by simp [sectKeys, ht]))
    -- the closing tag of the inner section
    obtain ⟨q, hq⟩ : ∃ q, q = pre ++ ['{', '{', '#'] ++ k ++ ['}', '}'] ++ source b := ⟨_, rfl⟩
    have hqne : q ≠ [] := by simp [hq]
    have hqlen : q.length = pre.length + 3 + k.length + 2 + (source b).length := by simp [hq]; omega
    have e2 : src = q ++ ('{' :: '{' :: '/' :: (k ++ '}' :: '}' :: (source r ++ post))) := by rw [e1, hq]; simp
    obtain ⟨j, hj, hm⟩ := matchKey_other (dbg := dbg) key k (q ++ ['{', '{', '/']) ('}' :: (source r ++ post)) hk hkk
    have hm' : matchKey dbg src key (q.length + 3) = .ok (false, q.length + 3 + j) := by
      rw [e2]
      simpa using hm
    have hcl : ∃ cl, isClose dbg src q.length = .ok cl := by
      obtain ⟨c, hc, hp⟩ := prev_total (dbg := dbg) (l := ('{' :: '{' :: '/' :: (k ++ '}' :: '}' :: (source r ++ post)))) hqne
      have g0 : getC dbg src q.length = .ok '{' := getC_ok (by rw [e2, at_pre0]; rfl)
      have g1 : getC dbg src (q.length + 1) = .ok '{' := getC_ok (by rw [e2, at_pre]; rfl)
      have g2 : getC dbg src (q.length + 2) = .ok '/' := getC_ok (by rw [e2, at_pre]; rfl)
      rw [← e2] at hp
      rw [isClose, g0, Outcome.bind_ok, if_neg (by simp), hp, Outcome.bind_ok]
      split
      · exact ⟨_, rfl⟩
      · rw [g1, Outcome.bind_ok, if_neg (by simp), g2, Outcome.bind_ok]; exact ⟨_, rfl⟩
    -- from the closing tag to after it
    have h5 : Skips dbg src key q.length (q.length + 3 + k.length + 2) := by
      obtain ⟨cl, hcl⟩ := hcl
      cases cl with
      | true =>
        have s1 : Skips dbg src key q.length (q.length + 3 + j + 1) :=
          ⟨1, fun f => by rw [findEnd, hcl, Outcome.bind_ok, if_pos rfl, hm', Outcome.bind_ok]; rfl⟩
        have hsplit : k ++ ['}', '}'] = (k ++ ['}', '}']).take (j + 1) ++ (k ++ ['}', '}']).drop (j + 1) := (List.take_append_drop _ _).symm
        have hlen : ((k ++ ['}', '}']).take (j + 1)).length = j + 1 := by simp; omega
        have s2 := skips_plain (dbg := dbg) (key := key) ((k ++ ['}', '}']).drop (j + 1)) (q ++ ['{', '{', '/'] ++ (k ++ ['}', '}']).take (j + 1)) (source r ++ post)
          (by
            intro hmem
            have := List.mem_of_mem_drop hmem
            simp [hw1] at this)
        refine s1.trans (skips_of s2 ?_ ?_ ?_)
        · rw [e2]
          have : k ++ '}' :: '}' :: (source r ++ post) = (k ++ ['}', '}']) ++ (source r ++ post) := by simp
          rw [this, List.append_assoc (q ++ _), ← List.append_assoc (List.take _ _), List.take_append_drop]
          simp
        · simp only [List.length_append, hlen]; simp; omega
        · simp only [List.length_append, hlen, List.length_drop]; simp; omega
      | false =>
        have s1 : Skips dbg src key q.length (q.length + 1) := Skips.one hcl
        have s2 : Skips dbg src key (q.length + 1) (q.length + 2) := by
          refine Skips.one ?_
          have := isClose_lone (dbg := dbg) (pre := q ++ ['{']) (l := (k ++ '}' :: '}' :: (source r ++ post))) (d := '/') (by simp) (by decide)
          rw [show (q ++ ['{']).length = q.length + 1 by simp] at this
          rw [e2]
          simpa using this
        have s3 := skips_plain (dbg := dbg) (key := key) ('/' :: k ++ ['}', '}']) (q ++ ['{', '{']) (source r ++ post) (by simp [hw1])
        exact s1.trans (s2.trans (skips_of s3 (by rw [e2]; simp) (by simp) (by simp; omega)))
    have h6 := ihr (q ++ ['{', '{', '/'] ++ k ++ ['}', '}']) post (by simp) (last_close _) hw5 (fun t ht => hs t (by simp [sectKeys, ht]))
    refine h1.trans (h2.trans ((skips_of (j := pre.length + 3 + k.length + 2) h3 (by rw [e1]; simp) (by simp) (by simp; omega)).trans
      ((skips_of (j := q.length) h4 (by rw [e1]; simp) (by simp; omega) (by rw [hqlen]; simp; omega)).trans
      (h5.trans (skips_of h6 (by rw [e2]; simp) (by simp; omega) (by simp [source, hqlen]; omega))))))

/-- The search finds the closing tag. -/
theorem findEnd_ok {dbg : Bool} {key : Str} (hk : '}' ∉ key) (b : Tmpl) (pre post : Str) (hne : pre ≠ []) (hl : pre.getLast? ≠ some '\\') (hw : Wf b)
    (hs : ∀ t ∈ sectKeys b, ¬ key <+: t) (hend : (pre ++ source b).getLast? ≠ some '\\') :
    Ev (fun f => findEnd dbg (pre ++ (source b ++ ('{' :: '{' :: '/' :: (key ++ '}' :: '}' :: post)))) key f pre.length
      = .ok (pre.length + (source b).length, pre.length + (source b).length + 3 + key.length + 1)) := by
  obtain ⟨n, hn⟩ := skips_source (dbg := dbg) hk b pre ('{' :: '{' :: '/' :: (key ++ '}' :: '}' :: post)) hne hl hw hs
  refine ⟨n + 1, fun f hf => ?_⟩
  obtain ⟨g, rfl⟩ : ∃ g, f = (g + 1) + n := ⟨f - n - 1, by omega⟩
  rw [hn]
  have hc := isClose_close (dbg := dbg) (pre := pre ++ source b) (l := (key ++ '}' :: '}' :: post)) (by simp [hne]) hend
  have hm := matchKey_same (dbg := dbg) key (pre ++ source b ++ ['{', '{', '/']) ('}' :: '}' :: post)
  obtain ⟨src, hsrc⟩ : ∃ src, src = pre ++ (source b ++ ('{' :: '{' :: '/' :: (key ++ '}' :: '}' :: post))) := ⟨_, rfl⟩
  rw [← hsrc]
  have e1 : (pre ++ source b) ++ ('{' :: '{' :: '/' :: (key ++ '}' :: '}' :: post)) = src := by rw [hsrc]; simp
  have e2 : (pre ++ source b ++ ['{', '{', '/']) ++ (key ++ '}' :: '}' :: post) = src := by rw [hsrc]; simp
  have e3 : (pre ++ source b ++ ['{', '{', '/'] ++ key) ++ ('}' :: '}' :: post) = src := by rw [hsrc]; simp
  rw [e1] at hc
  rw [e2] at hm
  have l1 : (pre ++ source b).length = pre.length + (source b).length := by simp
  have l2 : (pre ++ source b ++ ['{', '{', '/']).length = pre.length + (source b).length + 3 := by simp; omega
  have l3 : (pre ++ source b ++ ['{', '{', '/'] ++ key).length = pre.length + (source b).length + 3 + key.length := by simp; omega
  rw [l1] at hc
  rw [l2] at hm
  have g1 : getC dbg src (pre.length + (source b).length + 3 + key.length) = .ok '}' := getC_ok (by rw [← e3, ← l3, at_pre0]; rfl)
  have g2 : getC dbg src (pre.length + (source b).length + 3 + key.length + 1) = .ok '}' := getC_ok (by rw [← e3, ← l3, at_pre]; rfl)
  rw [findEnd, hc, Outcome.bind_ok, if_pos rfl, hm, Outcome.bind_ok]
  simp only [if_true, g1, g2, Outcome.bind_ok, Outcome.pure_eq]
  rw [show (('}' : Char) == '}' && ('}' : Char) == '}') = true by decide, checkC_true, Outcome.bind_ok]

theorem last_source (b : Tmpl) : ∀ pre : Str, pre.getLast? ≠ some '\\' → Wf b → (pre ++ source b).getLast? ≠ some '\\' := by
  induction b with
  | nil => intro pre h _; simpa [source] using h
  | text s r ih =>
    intro pre h hw
    have := ih (pre ++ s) (getLast?_append_textOk h hw.1) hw.2
    simpa [source] using this
  | brace r ih =>
    intro pre h hw
    have := ih (pre ++ ['\\', '{']) (by simp) hw
    simpa [source] using this
  | key k r ih =>
    intro pre h hw
    have := ih (pre ++ ['{', '{'] ++ k ++ ['}', '}']) (last_close _) hw.2.2
    simpa [source] using this
  | sep s r ih =>
    intro pre h hw
    have := ih (pre ++ ['{', '{', '*'] ++ s ++ ['}', '}']) (last_close _) hw.2.2
    simpa [source] using this
  | sect k b r _ ih =>
    intro pre h hw
    have := ih (pre ++ ['{', '{', '#'] ++ k ++ ['}', '}'] ++ source b ++ ['{', '{', '/'] ++ k ++ ['}', '}']) (last_close _) hw.2.2.2.2
    simpa [source] using this

/-! ## One pass -/

/-- The values of the dictionaries are the texts of the templates `val`. -/
def ValOk (val : Str → Tmpl) (d : Dict) : Prop := AllValues (fun _ v => source (val v) = v) d

theorem lookupKey_mem {ch : List Dict} {k v : Str} (h : lookupKey ch k = some v) : ∃ d ∈ ch, d.repls.lookup k = some v := by
  induction ch with
  | nil => cases h
  | cons d up ih =>
    rw [lookupKey] at h
    cases hd : d.repls.lookup k with
    | some w => rw [hd] at h; exact ⟨d, by simp, by rw [hd]; exact h⟩
    | none =>
      rw [hd] at h
      obtain ⟨e, he, h'⟩ := ih h
      exact ⟨e, by simp [he], h'⟩

theorem lookupSect_mem {ch : List Dict} {k : Str} {ds up : List Dict} (h : lookupSect ch k = some (ds, up)) :
    ds ≠ [] ∧ up <:+ ch ∧ ∃ d ∈ ch, d.sects.lookup k = some ds := by
  induction ch with
  | nil => cases h
  | cons d ch ih =>
    rw [lookupSect] at h
    split at h
    · next e es he =>
      cases h
      exact ⟨by simp, List.suffix_refl _, d, by simp, he⟩
    · obtain ⟨h1, h2, e, he, h3⟩ := ih h
      exact ⟨h1, h2.trans (List.suffix_cons _ _), e, by simp [he], h3⟩

/-- Properties of all values pass on to the dictionaries of a section. -/
theorem allValues_sect {P : Str → Str → Prop} {ch : List Dict} {k : Str} {ds up : List Dict} (hv : ∀ d ∈ ch, AllValues P d)
    (h : lookupSect ch k = some (ds, up)) {d : Dict} (hd : d ∈ ds) : ∀ e ∈ d :: up, AllValues P e := by
  obtain ⟨_, hs, e, he, hl⟩ := lookupSect_mem h
  intro f hf
  rcases List.mem_cons.1 hf with rfl | hf
  · intro g hg
    exact hv e he g (.step hl hd hg)
  · exact hv f (hs.subset hf)

theorem allValues_key {P : Str → Str → Prop} {ch : List Dict} {k v : Str} (hv : ∀ d ∈ ch, AllValues P d) (h : lookupKey ch k = some v) : P k v := by
  obtain ⟨d, hd, hl⟩ := lookupKey_mem h
  exact hv d hd d (.refl d) k v hl

theorem copy_ok {dbg : Bool} (s : Str) : ∀ pre post : Str, copy dbg (pre ++ (s ++ post)) pre.length s.length = .ok s := by
  induction s with
  | nil => intro pre post; rfl
  | cons c s ih =>
    intro pre post
    have h := ih (pre ++ [c]) post
    have e1 : (pre ++ [c]) ++ (s ++ post) = pre ++ ((c :: s) ++ post) := by simp
    have e2 : (pre ++ [c]).length = pre.length + 1 := by simp
    rw [e1, e2] at h
    have : getC dbg (pre ++ ((c :: s) ++ post)) pre.length = .ok c := getC_ok (by rw [at_pre0]; rfl)
    rw [List.length_cons, copy, this, Outcome.bind_ok, h]; rfl

theorem forDicts_ok {g : Nat → Dict → Bool → Outcome (Str × Bool)} {h : Dict → Bool → Tmpl} (ds : List Dict)
    (H : ∀ d ∈ ds, ∀ sp, ∃ b, Ev (fun f => g f d sp = .ok (source (h d sp), b))) :
    Ev (fun f => forDicts (g f) ds = .ok (source (joinDicts h ds))) := by
  induction ds with
  | nil => exact .true (fun _ => rfl)
  | cons d ds ih =>
    cases ds with
    | nil =>
      obtain ⟨b, hb⟩ := H d (by simp) false
      refine hb.mp (fun f hf => ?_)
      rw [forDicts, hf]; rfl
    | cons e ds =>
      obtain ⟨b, hb⟩ := H d (by simp) true
      refine hb.mp2 (ih (fun x hx => H x (by simp [hx]))) (fun f hf hf' => ?_)
      rw [forDicts, hf, Outcome.bind_ok]
      · simp only [hf', Outcome.bind_ok, joinDicts, source_append]; rfl
      · simp

/-- The start of a tag: a symbol and a key. -/
theorem expand_tag {dbg : Bool} {set : Settings} {ch : List Dict} {sep : Bool} {src pre k post sy : Str} {kind : Kind} {e : Nat} {res : Outcome (Str × Bool)}
    (hsrc : src = pre ++ ('{' :: '{' :: (sy ++ (k ++ '}' :: '}' :: post))))
    (hl : pre.getLast? ≠ some '\\') (hk : '}' ∉ k) (he : pre.length < e)
    (hsym : symbol dbg src (pre.length + 2) = .ok (kind, pre.length + 2 + sy.length))
    (h : Ev (fun f => (match (generalizing := false) kind with
        | .normal => (do
          let (o', r') := replace set ch k
          let (o, r) ← expand dbg set src f ch (pre.length + 2 + sy.length + k.length + 2) e sep
          pure (o' ++ o, r' || r) : Outcome (Str × Bool))
        | .separator => do
          let (o, r) ← expand dbg set src f ch (pre.length + 2 + sy.length + k.length + 2) e sep
          pure ((if sep then k else []) ++ o, r)
        | .sect => do
          checkC dbg (do
            let a ← getC dbg src (pre.length + 2 + sy.length + k.length + 1)
            let b ← getC dbg src (pre.length + 2 + sy.length + k.length + 2)
            pure (a == '}' && b != '}'))
          let (cntEnd, last) ← findEnd dbg src k f (pre.length + 2 + sy.length + k.length + 2)
          let (o', r') ← replaceSection dbg set src
            (fun ch a b s => expand dbg set src f ch a b s) ch k pre.length
            (pre.length + 2 + sy.length + k.length + 2) cntEnd (last + 1)
          let (o, r) ← expand dbg set src f ch (last + 1) e sep
          pure (o' ++ o, r' || r)) = res)) :
    Ev (fun f => expand dbg set src f ch pre.length e sep = res) := by
  have hr := readKey_ok (dbg := dbg) k (pre ++ ['{', '{'] ++ sy) ('}' :: post) hk
  have e1 : (pre ++ ['{', '{'] ++ sy) ++ (k ++ '}' :: '}' :: post) = src := by rw [hsrc]; simp
  have l1 : (pre ++ ['{', '{'] ++ sy).length = pre.length + 2 + sy.length := by simp; omega
  rw [e1, l1] at hr
  have e2 : (pre ++ ['{', '{'] ++ sy ++ k) ++ ('}' :: '}' :: post) = src := by rw [hsrc]; simp
  have l2 : (pre ++ ['{', '{'] ++ sy ++ k).length = pre.length + 2 + sy.length + k.length := by simp; omega
  have g1 : getC dbg src (pre.length + 2 + sy.length + k.length) = .ok '}' := getC_ok (by rw [← e2, ← l2, at_pre0]; rfl)
  have g2 : getC dbg src (pre.length + 2 + sy.length + k.length + 1) = .ok '}' := getC_ok (by rw [← e2, ← l2, at_pre]; rfl)
  have g0 : getC dbg src pre.length = .ok '{' := getC_ok (by rw [hsrc, at_pre0]; rfl)
  have hp : isPlain dbg src pre.length '{' = .ok false := by rw [hsrc]; exact isPlain_tag hl
  obtain ⟨n, hn⟩ := hr
  obtain ⟨m, hm⟩ := h
  refine ⟨n + m + 1, fun f hf => ?_⟩
  obtain ⟨g, rfl⟩ : ∃ g, f = g + 1 := ⟨f - 1, by omega⟩
  rw [expand, if_pos he, g0, Outcome.bind_ok, hp, Outcome.bind_ok, if_neg (by simp), hsym, Outcome.bind_ok]
  simp only [hn g (by omega), Outcome.bind_ok, g1, g2]
  simp only [Outcome.pure_eq]
  rw [show (('}' : Char) == '}' && ('}' : Char) == '}') = true by decide, checkC_true, Outcome.bind_ok]
  have h2 := hm g (by omega)
  simp only [g2, Outcome.bind_ok, Outcome.pure_eq] at h2
  exact h2

end Verif.Tmpl
