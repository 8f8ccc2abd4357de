import Verif.Path.LemmasScan

/-!
# Paths and scans: C38, C39, C40, C69
-/

namespace Verif.Path

open Verif Str

/-! ## C38: normalisation -/

/-- C38. Whatever the file system contains, the text a path shows has no backslash and no two consecutive slashes and goes
through the same names as the original text; showing it through a new path changes nothing. -/
theorem C38_canonical (fs : FS) (s : Str) :
    ∃ t, getStr fs (PathObj.of s) = .ok t ∧ Canonical t ∧ components t = components s ∧
      getStr fs (PathObj.of t) = .ok t := by
  rw [getStr_of]
  generalize hu : coll false (s.map unback) = u
  have h1 : '\\' ∉ u := by
    rw [← hu]; intro h; exact not_mem_unback s (coll_mem _ _ _ h)
  have h2 : ¬ ['/', '/'] <:+: u := by rw [← hu]; exact coll_no_double _ _
  have h3 : components u = components s := by
    rw [← hu, (coll_components _).1, components_unback]
  refine ⟨_, rfl, ?_⟩
  simp only
  by_cases hc : ¬ ['/'] <:+ u ∧ isFolder fs u = true
  · rw [if_pos hc]
    have h4 : Canonical (u ++ ['/']) := by
      refine ⟨?_, no_double_append u h2 hc.1⟩
      simp only [List.mem_append, List.mem_singleton, not_or]
      exact ⟨h1, by decide⟩
    refine ⟨h4, ?_, ?_⟩
    · rw [← h3]
      have : u ++ ['/'] = u ++ '/' :: [] := rfl
      unfold components
      rw [this, List.splitOnP_append_cons u [] (p := isSep) (by rfl)]
      simp
    · rw [getStr_canonical fs _ h4, if_neg]
      rintro ⟨h, _⟩
      exact h ⟨u, rfl⟩
  · rw [if_neg hc]
    exact ⟨⟨h1, h2⟩, h3, by rw [getStr_canonical fs u ⟨h1, h2⟩, if_neg hc]⟩

/-- C38, both ends of the text: it is absolute exactly if the original was; it ends with a slash if the original did or if it
is the name of a folder, and for no other reason. (`""` never names anything.) -/
theorem C38_ends (fs : FS) (s : Str) (hz : '\x00' ∉ s) (he : fs.stat [] = none) :
    ∃ t, getStr fs (PathObj.of s) = .ok t ∧
      (t.head? = some '/' ↔ s.head? = some '/' ∨ s.head? = some '\\') ∧
      (s.getLast? = some '/' ∨ s.getLast? = some '\\' → t.getLast? = some '/') ∧
      (fs.stat t = some .folder → t.getLast? = some '/') ∧
      (t.getLast? = some '/' →
        (s.getLast? = some '/' ∨ s.getLast? = some '\\') ∨ fs.stat t.dropLast = some .folder) := by
  rw [getStr_of]
  generalize hu : coll false (s.map unback) = u
  have hhead : u.head? = s.head?.map unback := by rw [← hu, coll_head, List.head?_map]
  have hlast : u.getLast? = s.getLast?.map unback := by rw [← hu, (coll_getLast _).1, List.getLast?_map]
  have hub : ∀ o : Option Char, o.map unback = some '/' ↔ o = some '/' ∨ o = some '\\' := by
    intro o
    cases o with
    | none => simp
    | some c =>
      simp only [Option.map_some, Option.some.injEq, unback]
      by_cases hc : c = '\\'
      · simp [hc]
      · simp [hc]
  have hzu : '\x00' ∉ u := by
    rw [← hu]; intro h
    have := coll_mem _ _ _ h
    simp only [List.mem_map] at this
    obtain ⟨c, hc, h⟩ := this
    unfold unback at h
    split at h
    · exact absurd h (by decide)
    · subst h; exact hz hc
  have hcs : cstr u = u := by
    clear hlast hhead hu
    unfold cstr
    induction u with
    | nil => rfl
    | cons c u ih =>
      simp only [List.mem_cons, not_or] at hzu
      rw [List.takeWhile_cons_of_pos (by simpa using fun h => hzu.1 h.symm), ih hzu.2]
  have hf : isFolder fs u = true ↔ fs.stat u = some .folder := by simp [isFolder, hcs]
  refine ⟨_, rfl, ?_⟩
  simp only
  by_cases hc : ¬ ['/'] <:+ u ∧ isFolder fs u = true
  · rw [if_pos hc]
    rw [suffix_singleton] at hc
    have hne : u ≠ [] := by
      rintro rfl
      rw [hf] at hc
      rw [he] at hc
      exact absurd hc.2 (by simp)
    refine ⟨?_, by simp, by simp, fun _ => .inr ?_⟩
    · rw [← hub, ← hhead]
      cases u with
      | nil => exact absurd rfl hne
      | cons c u => simp
    · simpa using hf.1 hc.2
  · rw [if_neg hc]
    rw [suffix_singleton] at hc
    refine ⟨by rw [hhead]; exact hub _, fun h => by rw [hlast]; exact (hub _).2 h, fun h => ?_, fun h => .inl ?_⟩
    · by_contra hn
      exact hc ⟨hn, hf.2 h⟩
    · rw [hlast] at h; exact (hub _).1 h

/-- A Windows-style name of an existing folder. -/
example : getStr ⟨fun s => if s = "a/b".toList then some .folder else none, fun _ => none⟩ (PathObj.of "a\\\\b".toList) =
    .ok "a/b/".toList := by
  rw [getStr_of]; decide

/-! ## C39: the parts of a path -/

/-- As a rewriting step, so that the kernel does not try to run the loops. -/
theorem bind_of {α β : Type} {x : Outcome α} {a : α} (h : x = .ok a) (f : α → Outcome β) : (x >>= f) = f a := by
  subst h; rfl

/-- C39, folder and file name. Unless the only slash is the first character, the parent and the file name together are the
path, the file name has no slash, and the parent is empty or ends with a slash. -/
theorem C39_parent_and_name_partial (fs : FS) (p : PathObj) (s : Str) (hs : getStr fs p = .ok s)
    (hl : s.length < 2 ^ 63) (hne : s ≠ []) (hroot : s.head? = some '/' → '/' ∈ s.drop 1) :
    ∃ par name, getParent fs p = .ok par ∧ getFileName fs p = .ok name ∧ par ++ name = s ∧ '/' ∉ name ∧
      (par = [] ∨ par.getLast? = some '/') := by
  obtain ⟨pre, name, rfl, h1, h2⟩ := split_last '/' s
  have hn := getFileName_eq fs p pre name hs h1 h2 hl
  have hpos : 0 < (pre ++ name).length := List.length_pos_iff.2 hne
  refine ⟨pre, name, ?_, hn, rfl, h1, ?_⟩
  · rw [getParent, bind_of hs]
    rw [sizeSub_eq (by omega) (by omega)]
    rcases h2 with rfl | ⟨q, rfl⟩
    · simp only [List.nil_append] at hpos ⊢
      exact parentLoop_none name h1 (name.length - 1) (by omega)
    · have hq : q ≠ [] := by
        rintro rfl
        have := hroot rfl
        simp at this
        exact h1 this
      have := parentLoop_down (q ++ ['/']) name h1 (by simp) name.length (Nat.le_refl _)
      rw [show (q ++ ['/'] ++ name).length - 1 = (q ++ ['/']).length - 1 + name.length by simp, this]
      have hql : 0 < q.length := List.length_pos_iff.2 hq
      rw [show (q ++ ['/']).length - 1 = (q.length - 1) + 1 by simp; omega, parentLoop]
      have hg : (q ++ ['/'] ++ name)[q.length - 1 + 1]? = some '/' := by
        rw [show q.length - 1 + 1 = q.length by omega]; simp
      rw [hg]
      simp only [if_true]
      have := substr_eq [] (q ++ ['/']) name (q.length - 1 + 2) (by simp; omega)
      simpa using this
  · rcases h2 with rfl | ⟨q, rfl⟩
    · exact .inl rfl
    · exact .inr (by simp)

/-- C39 fails for the entries of the root folder: the parent of `/name` is empty, so `parent + name` has lost the slash. -/
theorem C39_root_entry (fs : FS) (p : PathObj) (name : Str) (hs : getStr fs p = .ok ('/' :: name))
    (hl : name.length + 1 < 2 ^ 63) (h : '/' ∉ name) : getParent fs p = .ok [] ∧ getFileName fs p = .ok name := by
  refine ⟨?_, getFileName_eq fs p ['/'] name hs h (.inr ⟨[], rfl⟩) (by simpa using hl)⟩
  rw [getParent, bind_of hs]
  simp only [List.length_cons]
  rw [sizeSub_eq (by omega) (by omega)]
  have := parentLoop_down ['/'] name h (by simp) name.length (Nat.le_refl _)
  simp only [List.singleton_append, List.length_singleton, Nat.sub_self, Nat.zero_add, parentLoop] at this
  exact this

/-- C39: the parent of the empty path reads before the start of the text. -/
theorem C39_empty_parent (fs : FS) (p : PathObj) (hs : getStr fs p = .ok []) : getParent fs p = .ub := by
  rw [getParent, bind_of hs]
  obtain ⟨n, hn⟩ : ∃ n, sizeSub ([] : Str).length 1 = n + 1 := ⟨sizeSub 0 1 - 1, by simp [sizeSub]⟩
  rw [hn, parentLoop]
  simp

/-- The two extension functions on a name with first character `c`. -/
theorem name_parts (fs : FS) (p : PathObj) (pre : Str) (c : Char) (t : Str)
    (hs : getStr fs p = .ok (pre ++ c :: t)) (h1 : '/' ∉ c :: t) (h2 : pre = [] ∨ ∃ q, pre = q ++ ['/'])
    (hl : (pre ++ c :: t).length < 2 ^ 63) :
    ('.' ∉ t → getFileNameNoExtensions fs p = .ok (c :: t) ∧ getExtension fs p = .ok [] ∧
      getAllExtensions fs p = .ok []) ∧
    (∀ q e, t = q ++ '.' :: e → '.' ∉ e → getFileNameNoExtensions fs p = .ok (c :: q) ∧
      getExtension fs p = .ok ('.' :: e)) ∧
    (∀ q e, t = q ++ '.' :: e → '.' ∉ q → getAllExtensions fs p = .ok ('.' :: e)) := by
  have hn := getFileName_eq fs p pre (c :: t) hs h1 h2 hl
  have hnb := nameBegin_eq pre (c :: t) h1 h2 hl
  have hnp : npos = 2 ^ 64 - 1 := rfl
  have hlen : pre.length + (t.length + 1) < 2 ^ 63 := by simpa using hl
  refine ⟨fun hd => ⟨?_, ?_, ?_⟩, fun q e ht he => ⟨?_, ?_⟩, fun q e ht hq => ?_⟩
  · unfold getFileNameNoExtensions
    rw [hs]
    simp only [Outcome.bind_ok, hnb]
    by_cases hc : c = '.'
    · subst hc
      rw [findLastOf_some '.' pre t hd, if_pos rfl]
      exact substr_to_end pre _ npos (by simp only [List.length_cons]; omega)
    · have hd' : '.' ∉ c :: t := by
        simp only [List.mem_cons, not_or]; exact ⟨fun h => hc h.symm, hd⟩
      obtain ⟨pre', r, rfl, hr1, hr2⟩ := split_last '.' pre
      rcases hr2 with rfl | ⟨q', rfl⟩
      · simp only [List.nil_append] at *
        rw [findLastOf_none '.' (r ++ c :: t) (by
          simp only [List.mem_append, not_or]; exact ⟨hr1, hd'⟩), if_neg (by omega)]
        refine substr_to_end r _ _ ?_
        rw [sizeSub_eq (by omega) (by omega)]
        simp only [List.length_cons]; omega
      · have e : (q' ++ ['.']) ++ r ++ c :: t = q' ++ '.' :: (r ++ c :: t) := by simp
        have hlast : findLastOf ((q' ++ ['.']) ++ r ++ c :: t) '.' = q'.length := by
          rw [e, findLastOf_some '.' q' (r ++ c :: t)]
          simp only [List.mem_append, not_or]; exact ⟨hr1, hd'⟩
        have hlp : ((q' ++ ['.']) ++ r).length = q'.length + 1 + r.length := by simp; omega
        rw [hlast, if_neg (by omega)]
        refine substr_to_end (q' ++ ['.'] ++ r) _ _ ?_
        unfold sizeSub
        rw [hlp] at hlen ⊢
        rw [Nat.mod_eq_of_lt (by omega)]
        simp only [List.length_cons]; omega
  · unfold getExtension
    rw [hn]
    simp only [Outcome.bind_ok]
    by_cases hc : c = '.'
    · subst hc
      simp only [beginsWithChar, beq_self_eq_true, if_true, List.drop_succ_cons, List.drop_zero]
      rw [findLastOf_none '.' t hd, if_pos rfl]; rfl
    · have hb : beginsWithChar (c :: t) '.' = false := by simpa [beginsWithChar] using hc
      rw [hb]
      simp only [Bool.false_eq_true, if_false]
      rw [findLastOf_none '.' (c :: t) (by
        simp only [List.mem_cons, not_or]; exact ⟨fun h => hc h.symm, hd⟩), if_pos rfl]; rfl
  · unfold getAllExtensions
    rw [hn]
    simp only [Outcome.bind_ok]
    by_cases hc : c = '.'
    · subst hc
      simp only [beginsWithChar, beq_self_eq_true, if_true]
      have := findFirstOf_none '.' ['.'] t hd
      simp only [List.singleton_append, List.length_singleton] at this
      rw [this, if_pos rfl]; rfl
    · have hb : beginsWithChar (c :: t) '.' = false := by simpa [beginsWithChar] using hc
      rw [hb]
      have := findFirstOf_none '.' [] (c :: t) (by
        simp only [List.mem_cons, not_or]; exact ⟨fun h => hc h.symm, hd⟩)
      simp only [List.nil_append, List.length_nil] at this
      simp only [Bool.false_eq_true, if_false]
      rw [this, if_pos rfl]; rfl
  · subst ht
    unfold getFileNameNoExtensions
    rw [hs]
    simp only [Outcome.bind_ok, hnb]
    have e' : pre ++ c :: (q ++ '.' :: e) = (pre ++ c :: q) ++ '.' :: e := by simp
    have hlast : findLastOf (pre ++ c :: (q ++ '.' :: e)) '.' = pre.length + (q.length + 1) := by
      rw [e', findLastOf_some '.' _ e he]; simp
    simp only [List.length_append, List.length_cons] at hlen
    rw [hlast, if_neg (by omega), sizeSub_eq (by omega) (by omega)]
    have := substr_eq pre (c :: q) ('.' :: e) (pre.length + (q.length + 1) - pre.length) (by simp)
    simpa using this
  · subst ht
    simp only [List.length_append, List.length_cons] at hlen
    unfold getExtension
    rw [hn]
    simp only [Outcome.bind_ok]
    have key : ∀ l : Str, l.length < 2 ^ 63 → l.length + (e.length + 1) < 2 ^ 63 →
        (if findLastOf (l ++ '.' :: e) '.' = npos then pure []
          else substr (l ++ '.' :: e) (findLastOf (l ++ '.' :: e) '.')
            (sizeSub (l ++ '.' :: e).length (findLastOf (l ++ '.' :: e) '.'))) = Outcome.ok ('.' :: e) := by
      intro l hl1 hl2
      rw [findLastOf_some '.' l e he, if_neg (by omega), sizeSub_eq (by simp) (by simp; omega)]
      exact substr_to_end l _ _ (by simp)
    by_cases hc : c = '.'
    · subst hc
      simp only [beginsWithChar, beq_self_eq_true, if_true, List.drop_succ_cons, List.drop_zero]
      exact key q (by omega) (by omega)
    · have hb : beginsWithChar (c :: (q ++ '.' :: e)) '.' = false := by simpa [beginsWithChar] using hc
      rw [hb]
      simp only [Bool.false_eq_true, if_false]
      exact key (c :: q) (by simp only [List.length_cons]; omega) (by simp only [List.length_cons]; omega)
  · subst ht
    simp only [List.length_append, List.length_cons] at hlen
    unfold getAllExtensions
    rw [hn]
    simp only [Outcome.bind_ok]
    have key : ∀ k, k = q.length + 1 →
        (if k = npos then pure [] else substr (c :: (q ++ '.' :: e)) k
          (sizeSub (c :: (q ++ '.' :: e)).length k)) = Outcome.ok ('.' :: e) := by
      rintro k rfl
      rw [if_neg (by omega), sizeSub_eq (by simp) (by simp; omega)]
      have := substr_to_end (c :: q) ('.' :: e) ((c :: (q ++ '.' :: e)).length - (q.length + 1)) (by simp)
      simpa using this
    by_cases hc : c = '.'
    · subst hc
      simp only [beginsWithChar, beq_self_eq_true, if_true]
      have := findFirstOf_some '.' ['.'] q e hq
      simp only [List.singleton_append, List.length_singleton] at this
      exact key _ (by rw [this]; omega)
    · have hb : beginsWithChar (c :: (q ++ '.' :: e)) '.' = false := by simpa [beginsWithChar] using hc
      rw [hb]
      have := findFirstOf_some '.' [] (c :: q) e (by
        simp only [List.mem_cons, not_or]; exact ⟨fun h => hc h.symm, hq⟩)
      simp only [List.nil_append, List.length_nil, List.cons_append] at this
      simp only [Bool.false_eq_true, if_false]
      exact key _ (by rw [this]; simp)

/-- The functions on a path without a file name. -/
theorem no_name_parts (fs : FS) (p : PathObj) (pre : Str)
    (hs : getStr fs p = .ok pre) (h2 : pre = [] ∨ ∃ q, pre = q ++ ['/']) (hl : pre.length < 2 ^ 63) :
    getFileName fs p = .ok [] ∧ getFileNameNoExtensions fs p = .ok [] ∧ getExtension fs p = .ok [] ∧
      getAllExtensions fs p = .ok [] := by
  have hn := getFileName_eq fs p pre [] (by simpa using hs) (by simp) h2 (by simpa using hl)
  refine ⟨hn, ?_, ?_, ?_⟩
  · have hnb := nameBegin_eq pre [] (by simp) h2 (by simpa using hl)
    rw [List.append_nil] at hnb
    unfold getFileNameNoExtensions
    rw [hs]
    simp only [Outcome.bind_ok, hnb]
    have : ∀ n, substr pre pre.length n = .ok [] := by
      intro n
      have := substr_to_end pre [] n (by simp)
      simpa using this
    rw [this, this]; simp
  · unfold getExtension; rw [hn]; rfl
  · unfold getAllExtensions; rw [hn]; rfl

/-- C39, name and last extension: together they are the file name. The extension is empty or consists of a dot and a text
without dots; it is empty only if the file name has no dot after its first character; an extension is never the whole name. -/
theorem C39_name_and_extension (fs : FS) (p : PathObj) (s : Str) (hs : getStr fs p = .ok s) (hl : s.length < 2 ^ 63) :
    ∃ name base ext, getFileName fs p = .ok name ∧ getFileNameNoExtensions fs p = .ok base ∧
      getExtension fs p = .ok ext ∧ base ++ ext = name ∧ '.' ∉ ext.drop 1 ∧
      (ext = [] → '.' ∉ name.drop 1) ∧ (ext ≠ [] → ext.head? = some '.' ∧ base ≠ []) := by
  obtain ⟨pre, name, rfl, h1, h2⟩ := split_last '/' s
  cases name with
  | nil =>
    rw [List.append_nil] at hs hl
    obtain ⟨e1, e2, e3, _⟩ := no_name_parts fs p pre hs h2 hl
    exact ⟨[], [], [], e1, e2, e3, rfl, by simp, by simp, by simp⟩
  | cons c t =>
    have hn := getFileName_eq fs p pre (c :: t) hs h1 h2 hl
    obtain ⟨p1, p2, p3⟩ := name_parts fs p pre c t hs h1 h2 hl
    obtain ⟨a, e, ht, he, ha⟩ := split_last '.' t
    rcases ha with rfl | ⟨q, rfl⟩
    · rw [List.nil_append] at ht
      obtain ⟨e1, e2, e3⟩ := p1 (ht ▸ he)
      refine ⟨c :: t, c :: t, [], hn, e1, e2, by simp, by simp, fun _ => ?_, by simp⟩
      simpa using ht ▸ he
    · rw [List.append_assoc, List.singleton_append] at ht
      obtain ⟨e1, e2⟩ := p2 q e ht he
      exact ⟨c :: t, c :: q, '.' :: e, hn, e1, e2, by rw [ht]; rfl, by simpa using he, by simp, by simp⟩

/-- C39, all extensions: the text from the first dot after the first character on. Name-without-extension and all extensions
together are the file name exactly if the file name has at most one such dot. -/
theorem C39_all_extensions_partial (fs : FS) (p : PathObj) (s : Str) (hs : getStr fs p = .ok s) (hl : s.length < 2 ^ 63) :
    ∃ name base ext stem, getFileName fs p = .ok name ∧ getFileNameNoExtensions fs p = .ok base ∧
      getAllExtensions fs p = .ok ext ∧ stem ++ ext = name ∧ '.' ∉ stem.drop 1 ∧
      (ext ≠ [] → ext.head? = some '.' ∧ stem ≠ []) ∧
      (base ++ ext = name ↔ (name.drop 1).count '.' ≤ 1) := by
  obtain ⟨pre, name, rfl, h1, h2⟩ := split_last '/' s
  cases name with
  | nil =>
    rw [List.append_nil] at hs hl
    obtain ⟨e1, e2, e3, e4⟩ := no_name_parts fs p pre hs h2 hl
    exact ⟨[], [], [], [], e1, e2, e4, rfl, by simp, by simp, by simp⟩
  | cons c t =>
    have hn := getFileName_eq fs p pre (c :: t) hs h1 h2 hl
    obtain ⟨p1, p2, p3⟩ := name_parts fs p pre c t hs h1 h2 hl
    by_cases hd : '.' ∈ t
    · obtain ⟨q1, r1, ht1, hq1⟩ : ∃ q r, t = q ++ '.' :: r ∧ '.' ∉ q := by
        obtain ⟨q, r, h, h'⟩ := List.eq_append_cons_of_mem hd
        exact ⟨q, r, h, h'⟩
      obtain ⟨a, e, ht, he, ha⟩ := split_last '.' t
      have e3 := p3 q1 r1 ht1 hq1
      rcases ha with rfl | ⟨q, rfl⟩
      · rw [List.nil_append] at ht
        exact absurd hd (ht ▸ he)
      · rw [List.append_assoc, List.singleton_append] at ht
        obtain ⟨e1, e2⟩ := p2 q e ht he
        refine ⟨c :: t, c :: q, '.' :: r1, c :: q1, hn, e1, e3, by rw [ht1]; rfl, by simpa using hq1, by simp, ?_⟩
        simp only [List.drop_succ_cons, List.drop_zero, List.cons_append, List.cons.injEq, true_and]
        have hc0 : q1.count '.' = 0 := List.count_eq_zero.2 hq1
        have hce : e.count '.' = 0 := List.count_eq_zero.2 he
        have hcnt : t.count '.' = 1 + r1.count '.' := by rw [ht1, List.count_append, hc0, List.count_cons_self]; omega
        have hcnt' : t.count '.' = q.count '.' + 1 := by rw [ht, List.count_append, List.count_cons_self, hce]
        constructor
        · intro h
          have := congrArg (List.count '.') h
          rw [List.count_append, List.count_cons_self] at this
          omega
        · intro h
          have hq : '.' ∉ q := List.count_eq_zero.1 (by omega)
          have hr1 : '.' ∉ r1 := List.count_eq_zero.1 (by omega)
          have : q = q1 ∧ r1 = e := by
            have hh : q1 ++ '.' :: r1 = q ++ '.' :: e := by rw [← ht1, ← ht]
            have hf1 := findIdx?_first '.' q1 r1 hq1
            have hf2 := findIdx?_first '.' q e hq
            rw [hh, hf2] at hf1
            have hlen : q.length = q1.length := by simpa using hf1
            have := List.append_inj hh hlen.symm
            exact ⟨this.1.symm, by simpa using this.2⟩
          rw [this.1]; exact ht1.symm
    · obtain ⟨e1, e2, e3⟩ := p1 hd
      refine ⟨c :: t, c :: t, [], c :: t, hn, e1, e3, by simp, by simpa using hd, by simp, ?_⟩
      simp [List.count_eq_zero.2 hd]

/-- C39 fails on `a.tar.gz`: without extensions it is `a.tar`, and all extensions are `.tar.gz`. -/
theorem C39_two_extensions (fs : FS) (h : fs.stat "a.tar.gz".toList = none) :
    getFileNameNoExtensions fs (PathObj.of "a.tar.gz".toList) = .ok "a.tar".toList ∧
    getAllExtensions fs (PathObj.of "a.tar.gz".toList) = .ok ".tar.gz".toList := by
  have hs : getStr fs (PathObj.of "a.tar.gz".toList) = .ok "a.tar.gz".toList := by
    rw [getStr_of]
    have e : coll false ("a.tar.gz".toList.map unback) = "a.tar.gz".toList := by decide
    have f : isFolder fs "a.tar.gz".toList = false := by
      have : cstr "a.tar.gz".toList = "a.tar.gz".toList := by decide
      rw [isFolder, this, h]; rfl
    simp only [e, f, Bool.false_eq_true, and_false, if_false]
  obtain ⟨_, p2, p3⟩ := name_parts fs _ [] 'a' ".tar.gz".toList hs (by decide) (.inl rfl) (by decide)
  exact ⟨(p2 ".tar".toList "gz".toList rfl (by decide)).1, p3 [] "tar.gz".toList rfl (by simp)⟩

/-- C39, folder name: the last name of a path that ends with a slash, provided another slash comes before it; empty for a path
that does not end with a slash. -/
theorem C39_folder_name_partial (fs : FS) (p : PathObj) (s : Str) (hs : getStr fs p = .ok s) (hl : s.length < 2 ^ 63) :
    (s.getLast? ≠ some '/' → getFolderName fs p = .ok []) ∧
    (∀ pre name, s = pre ++ '/' :: name ++ ['/'] → '/' ∉ name → name ≠ [] → getFolderName fs p = .ok name) := by
  rw [getFolderName, bind_of hs]
  have hends : ∀ s : Str, endsWithChar s '/' = true ↔ s.getLast? = some '/' := by
    intro s
    unfold endsWithChar
    cases s.getLast? <;> simp
  constructor
  · intro h
    have : endsWithChar s '/' = false := by
      rw [← Bool.not_eq_true, hends]; exact h
    simp [this]
  · rintro pre name rfl hn hne
    have he : endsWithChar (pre ++ '/' :: name ++ ['/']) '/' = true := by rw [hends, List.getLast?_append]; rfl
    rw [he]
    simp only [Bool.not_true, Bool.false_eq_true, if_false]
    have hlen : (pre ++ '/' :: name ++ ['/']).length = pre.length + name.length + 2 := by simp; omega
    rw [hlen] at hl ⊢
    rw [sizeSub_eq (by omega) (by omega)]
    have hd := folderLoop_down (pre ++ ['/']) name ['/'] hn (by simp) name.length (Nat.le_refl _)
    have e : pre ++ ['/'] ++ name ++ ['/'] = pre ++ '/' :: name ++ ['/'] := by simp
    rw [e] at hd
    rw [show pre.length + name.length + 2 - 2 = (pre ++ ['/']).length - 1 + name.length by simp, hd]
    have hstop : folderLoop (pre ++ '/' :: name ++ ['/']) ((pre ++ ['/']).length - 1) = .ok pre.length := by
      rw [show (pre ++ ['/']).length - 1 = pre.length by simp]
      cases hp : pre.length with
      | zero => rfl
      | succ k =>
        rw [folderLoop]
        have : (pre ++ '/' :: name ++ ['/'])[k + 1]? = some '/' := by
          rw [← hp]; simp
        rw [this]; rfl
    rw [hstop]
    rw [bind_of rfl]
    rw [sizeSub_eq (by omega) (by omega)]
    have := substr_eq (pre ++ ['/']) name ['/'] (pre.length + name.length + 2 - (pre.length + 2)) (by omega)
    rw [e] at this
    simpa using this

/-- C39 fails for a relative path with a single name: its folder name has lost the first character. -/
theorem C39_single_folder_name (fs : FS) (p : PathObj) (c : Char) (name : Str) (hs : getStr fs p = .ok (c :: name ++ ['/']))
    (hl : name.length + 2 < 2 ^ 63) (hc : c ≠ '/') (h : '/' ∉ name) : getFolderName fs p = .ok name := by
  rw [getFolderName, bind_of hs]
  have he : endsWithChar (c :: name ++ ['/']) '/' = true := by
    unfold endsWithChar
    have : (c :: name ++ ['/']).getLast? = some '/' := by rw [List.getLast?_append]; rfl
    rw [this]; rfl
  rw [he]
  simp only [Bool.not_true, Bool.false_eq_true, if_false]
  have hlen : (c :: name ++ ['/']).length = name.length + 2 := by simp
  rw [hlen, sizeSub_eq (by omega) (by omega)]
  have hn : '/' ∉ c :: name := by
    simp only [List.mem_cons, not_or]; exact ⟨fun h => hc h.symm, h⟩
  rw [folderLoop_none (c :: name) ['/'] hn _ (by simp)]
  rw [bind_of rfl]
  rw [sizeSub_eq (by omega) (by omega)]
  have := substr_eq [c] name ['/'] (name.length + 2 - (0 + 2)) (by omega)
  simpa using this

/-- C39: the folder name of `/` reads before the start of the text. -/
theorem C39_root_folder_name (fs : FS) (p : PathObj) (hs : getStr fs p = .ok ['/']) : getFolderName fs p = .ub := by
  rw [getFolderName, bind_of hs]
  have he : endsWithChar ['/'] '/' = true := rfl
  rw [he]
  obtain ⟨n, hn⟩ : ∃ n, sizeSub ['/'].length 2 = n + 1 := ⟨sizeSub 1 2 - 1, by simp [sizeSub]⟩
  rw [hn, folderLoop]
  simp

/-- Concrete paths for the theorems above. -/
example : (getStr ⟨fun _ => none, fun _ => none⟩ (PathObj.of "x\\y//b.tar.gz".toList)) = .ok "x/y/b.tar.gz".toList ∧
    getStr ⟨fun _ => none, fun _ => none⟩ (PathObj.of "/usr/lib/".toList) = .ok "/usr/lib/".toList := by
  rw [getStr_of, getStr_of]; decide

/-! ## C40: scans -/

/-- C40, a single-level scan of a folder with ordinary names reports exactly its direct entries, in the order of the folder
(unsorted) or sorted, after what the target contained. Folders whose name ends with a dot are excluded by `Ordinary`. -/
theorem C40_single_partial (fs : FS) (t : EntryType) (pick : Pick) (sorted : Bool) (fuel : Nat) (left : PathObj)
    (target : List Str) (p : PathObj) (d : Str) (names : List Str) (hslash : SlashOk fs) (hp : getStr fs p = .ok d)
    (h : Ordinary fs d names) :
    ∃ r, scanPaths fs ⟨.single, t, pick, sorted⟩ (fuel + 1) left target p = .ok r ∧
      r.Perm (target ++ names.flatMap (report fs t pick d)) ∧
      (sorted = false → r = target ++ names.flatMap (report fs t pick d)) ∧
      (sorted = true → r.Pairwise (· ≤ ·)) := by
  obtain ⟨st', e, h1, h2⟩ := scan_has fs ⟨.single, t, pick, sorted⟩ fuel (.own d) d names hslash (fun _ => rfl)
    ⟨h.canonical, h.nozero, .inr h.slash⟩ h.plain ⟨left, target⟩ ((isFolder_iff fs d h.nozero).2 h.folder)
    (by simpa [argStr, cstr_id d h.nozero] using h.opened) (fun hm => absurd hm (by simp))
  have hr : names.flatMap (added fs t pick d) = names.flatMap (report fs t pick d) :=
    List.flatMap_congr fun n hn => added_report fs t pick d n (h.dots n hn) (h.nodot n hn)
  simp only [hr] at h1
  refine ⟨st'.target, ?_, h1.2, h1.1, h2⟩
  simp only [scanPaths, hp, e, Outcome.bind_ok, Outcome.pure_eq]

/-- C40: a folder whose name ends with a dot is not reported. -/
theorem C40_dotted_folder (fs : FS) (t : EntryType) (pick : Pick) (fuel : Nat) (left : PathObj)
    (target : List Str) (p : PathObj) (d n : Str) (mode : Mode) (hslash : SlashOk fs) (hp : getStr fs p = .ok d)
    (hd : Canonical d ∧ '\x00' ∉ d ∧ ['/'] <:+ d) (hf : fs.stat d = some .folder) (hopen : fs.opendir d = some [n])
    (hn : Plain n) (hdot : n.getLast? = some '.') (hfn : fs.stat (d ++ n) = some .folder) :
    scanPaths fs ⟨mode, t, pick, false⟩ (fuel + 1) left target p = .ok target := by
  obtain ⟨st', e, h1, h2⟩ := scan_has fs ⟨mode, t, pick, false⟩ fuel (.own d) d [n] hslash (fun _ => rfl)
    ⟨hd.1, hd.2.1, .inr hd.2.2⟩ (by simpa using hn) ⟨left, target⟩ ((isFolder_iff fs d hd.2.1).2 hf)
    (by simpa [argStr, cstr_id d hd.2.1] using hopen)
    (fun _ m hm _ hmd => absurd hdot ((List.mem_singleton.1 hm) ▸ hmd))
  have ha : added fs t pick d n = [] := by unfold added; rw [if_pos hfn, if_pos hdot]
  have := h1.1 rfl
  simp only [List.flatMap_cons, List.flatMap_nil, List.append_nil, ha] at this
  simp only [scanPaths, hp, e, Outcome.bind_ok, Outcome.pure_eq, this]

/-- C40, a recursive scan of a folder with ordinary names all of whose subfolders are empty reports exactly what a single-level
scan does. (`hcwd`: the current folder has its two dot entries.) -/
theorem C40_recurse_flat_partial (fs : FS) (t : EntryType) (pick : Pick) (sorted : Bool) (fuel : Nat) (left : PathObj)
    (target : List Str) (p : PathObj) (d : Str) (names : List Str) (hslash : SlashOk fs) (hp : getStr fs p = .ok d)
    (h : Ordinary fs d names) (hcwd : ∀ n, IsDots n → fs.stat n = some .folder)
    (hempty : ∀ n ∈ names, ¬ IsDots n → fs.stat (d ++ n) = some .folder →
      ∃ l, fs.opendir (d ++ n ++ ['/']) = some l ∧ ∀ m ∈ l, IsDots m) :
    ∃ r, scanPaths fs ⟨.recurse, t, pick, sorted⟩ (fuel + 2) left target p = .ok r ∧
      r.Perm (target ++ names.flatMap (report fs t pick d)) ∧
      (sorted = false → r = target ++ names.flatMap (report fs t pick d)) ∧
      (sorted = true → r.Pairwise (· ≤ ·)) := by
  obtain ⟨st', e, h1, h2⟩ := scan_has fs ⟨.recurse, t, pick, sorted⟩ (fuel + 1) (.own d) d names hslash (fun _ => rfl)
    ⟨h.canonical, h.nozero, .inr h.slash⟩ h.plain ⟨left, target⟩ ((isFolder_iff fs d h.nozero).2 h.folder)
    (by simpa [argStr, cstr_id d h.nozero] using h.opened) (by
      intro _ n hn hf hdot tt
      obtain ⟨l, hl, hl'⟩ := hempty n hn (fun hh => hdot (plain_dots hh).2) hf
      refine scan_empty fs _ fuel _ l hslash ?_ hcwd (hslash _ hf) hl hl' tt
      have := (canonical_entry ⟨h.canonical, h.nozero, .inr h.slash⟩ (h.plain n hn)).2.1
      simp only [List.mem_append, List.mem_singleton, not_or] at this ⊢
      exact ⟨this, by decide⟩)
  have hr : names.flatMap (added fs t pick d) = names.flatMap (report fs t pick d) :=
    List.flatMap_congr fun n hn => added_report fs t pick d n (h.dots n hn) (h.nodot n hn)
  simp only [hr] at h1
  refine ⟨st'.target, ?_, h1.2, h1.1, h2⟩
  simp only [scanPaths, hp, e, Outcome.bind_ok, Outcome.pure_eq]

/-- C40 fails for every deeper tree: whatever the options, no scan ever reports an entry `n` of a subfolder `f` of the scanned
folder with its full path. -/
theorem C40_nested_never_reported (fs : FS) (o : Options) (fuel : Nat) (left : PathObj) (p : PathObj) (d : Str)
    (r : List Str) (hslash : SlashOk fs) (hplain : ∀ s ns, fs.opendir s = some ns → ∀ n ∈ ns, Plain n)
    (hp : getStr fs p = .ok d) (hd : Canonical d ∧ '\x00' ∉ d ∧ ['/'] <:+ d)
    (h : scanPaths fs o fuel left [] p = .ok r) : ∀ x ∈ r, ∀ f n, components x ≠ components d ++ [f, n] := by
  simp only [scanPaths, hp, Outcome.bind_ok, Outcome.bind_eq_ok] at h
  obtain ⟨st', h1, h2⟩ := h
  simp only [Outcome.pure_eq, Outcome.ok.injEq] at h2
  subst h2
  intro x hx f n
  rcases scan_mem fs o hslash hplain fuel (.own d) d (fun _ => rfl) ⟨hd.1, hd.2.1, .inr hd.2.2⟩ _ _ h1 x hx with
    hx | ⟨m, hx⟩ | ⟨m, hx⟩
  · simp at hx
  · rw [hx]
    intro e
    have := congrArg List.length e
    simp at this
  · rw [hx]
    intro e
    have := congrArg List.length e
    simp at this

/-- C40 fails: a recursive scan need not end. If the current folder has a folder `n` whose first entry is called `n`, then the
scan of any folder whose first entry is (a link or another way to) a folder whose first entry is called `n` never ends. -/
theorem C40_endless (fs : FS) (t : EntryType) (pick : Pick) (sorted : Bool) (fuel : Nat) (left : PathObj)
    (target : List Str) (p : PathObj) (d f n : Str) (dots dots' dots'' rest rest' rest'' : List Str)
    (hslash : SlashOk fs) (hp : getStr fs p = .ok d)
    (hd : Canonical d ∧ '\x00' ∉ d ∧ ['/'] <:+ d) (hfold : fs.stat d = some .folder)
    (hdots : ∀ m ∈ dots ++ dots' ++ dots'', IsDots m)
    (hcwd : ∀ m, IsDots m → fs.stat m = some .folder ∧ fs.stat (d ++ m) = some .folder)
    (hf : Plain f ∧ f.getLast? ≠ some '.' ∧ fs.stat (d ++ f) = some .folder)
    (hn : Plain n ∧ n.getLast? ≠ some '.' ∧ fs.stat n = some .folder)
    (hopen : fs.opendir d = some (dots ++ f :: rest))
    (hopenf : fs.opendir (d ++ f ++ ['/']) = some (dots' ++ n :: rest'))
    (hopenn : fs.opendir (n ++ ['/']) = some (dots'' ++ n :: rest'')) :
    scanPaths fs ⟨.recurse, t, pick, sorted⟩ fuel left target p = .diverge := by
  have hz : '\x00' ∉ d ++ f ++ ['/'] := by
    have := (canonical_entry ⟨hd.1, hd.2.1, .inr hd.2.2⟩ hf.1).2.1
    simp only [List.mem_append, List.mem_singleton, not_or] at this ⊢
    exact ⟨this, by decide⟩
  simp only [List.mem_append] at hdots
  have key : scan fs ⟨.recurse, t, pick, sorted⟩ fuel (.own d) ⟨left, target⟩ = .diverge := by
    cases fuel with
    | zero => rfl
    | succ fuel =>
      refine scan_diverges_of fs _ rfl fuel (.own d) d f dots rest hslash (fun _ => rfl) ⟨hd.1, hd.2.1, .inr hd.2.2⟩ hf.1
        (fun m hm => hdots m (.inl (.inl hm))) (fun m hm => (hcwd m hm).2) hf.2.2 hf.2.1 _
        ((isFolder_iff fs d hd.2.1).2 hfold) (by simpa [argStr, cstr_id d hd.2.1] using hopen) (fun tt => ?_)
      cases fuel with
      | zero => rfl
      | succ fuel =>
        refine scan_diverges_of fs _ rfl fuel .buf [] n dots' rest' hslash (fun _ => rfl)
          ⟨⟨by simp, by simp⟩, by simp, .inl rfl⟩ hn.1 (fun m hm => hdots m (.inl (.inr hm)))
          (fun m hm => (hcwd m hm).1) hn.2.2 hn.2.1 _
          ((isFolder_iff fs _ hz).2 (hslash _ hf.2.2)) (by rw [argStr, cstr_id _ hz]; exact hopenf) (fun t' => ?_)
        exact scan_buf_diverges fs _ rfl n dots'' rest'' hslash hn.1 (fun m hm => hdots m (.inr hm))
          (fun m hm => (hcwd m hm).1) hn.2.2 hn.2.1 hopenn fuel t'
  simp only [scanPaths, hp, key, Outcome.bind_ok, Outcome.bind_diverge]

/-- C40: scanning something that is not a folder throws. -/
theorem C40_not_a_folder (fs : FS) (o : Options) (fuel : Nat) (left : PathObj) (target : List Str) (p : PathObj) (d : Str)
    (hp : getStr fs p = .ok d) (hz : '\x00' ∉ d) (h : fs.stat d ≠ some .folder) :
    scanPaths fs o (fuel + 1) left target p = .throw := by
  simp only [scanPaths, hp, Outcome.bind_ok, scan, argStr, (isFolder_false fs d hz).2 h, Bool.not_false, if_true,
    Outcome.bind_throw]

/-- The current folder holds a folder `a` with a file `f.txt` and a folder `a`. -/
def demo : FS where
  stat s :=
    if components s ∈ [[".".toList], ["..".toList], ["a".toList], [".".toList, ".".toList], [".".toList, "..".toList],
      ["a".toList, ".".toList], ["a".toList, "..".toList], [".".toList, "a".toList], ["a".toList, "a".toList]]
    then some .folder
    else if components s = ["a".toList, "f.txt".toList] then some .file else none
  opendir s :=
    if components s = ["a".toList] ∨ components s = [".".toList, "a".toList] then
      some [".".toList, "..".toList, "a".toList, "f.txt".toList]
    else if components s = [".".toList] then some [".".toList, "a".toList]
    else some [".".toList, "..".toList]

theorem demo_slash : SlashOk demo := by
  intro s h
  have : components (s ++ ['/']) = components s := by
    rw [components_slash]; simp [components]
  simp only [demo, this] at h ⊢
  exact h

/-- The folder `a` meets the hypotheses of `C40_single_partial` and of `C40_recurse_flat_partial`. -/
example : Ordinary demo "a/".toList [".".toList, "..".toList, "a".toList, "f.txt".toList] ∧
    (∀ n ∈ [".".toList, "..".toList, "a".toList, "f.txt".toList], ¬ IsDots n →
      demo.stat ("a/".toList ++ n) = some .folder →
      ∃ l, demo.opendir ("a/".toList ++ n ++ ['/']) = some l ∧ ∀ m ∈ l, IsDots m) ∧
    ∀ n, IsDots n → demo.stat n = some .folder := by
  refine ⟨⟨⟨by decide, by decide⟩, by decide, by decide, by decide +kernel, by decide +kernel, ?_, ?_, ?_⟩, ?_, ?_⟩
  · unfold Plain; decide
  · decide +kernel
  · decide +kernel
  · intro n hn hd hf
    simp only [List.mem_cons, List.not_mem_nil, or_false] at hn
    rcases hn with rfl | rfl | rfl | rfl
    · exact absurd (.inl rfl) hd
    · exact absurd (.inr rfl) hd
    · exact ⟨[".".toList, "..".toList], by decide +kernel, by decide⟩
    · exact absurd hf (by decide +kernel)
  · rintro n (rfl | rfl) <;> decide +kernel

/-- The scan of the current folder, which contains `a/a`, never ends. -/
example (fuel : Nat) : scanPaths demo ⟨.recurse, .all, .any, false⟩ fuel ⟨[], true⟩ [] (PathObj.of "./".toList) = .diverge := by
  refine C40_endless demo .all .any false fuel ⟨[], true⟩ [] _ "./".toList "a".toList "a".toList [".".toList]
    [".".toList, "..".toList] [".".toList, "..".toList] [] ["f.txt".toList] ["f.txt".toList] demo_slash ?_
    ⟨⟨by decide, by decide⟩, by decide, by decide⟩ (by decide +kernel) (by decide) ?_ ?_ ?_ (by decide +kernel)
    (by decide +kernel) (by decide +kernel)
  · rw [getStr_of]; decide +kernel
  · rintro m (rfl | rfl) <;> decide +kernel
  · refine ⟨by unfold Plain; decide, by decide, by decide +kernel⟩
  · refine ⟨by unfold Plain; decide, by decide, by decide +kernel⟩

/-- The current folder holds `d/f/n`. -/
def demo2 : FS where
  stat s :=
    if components s ∈ [["d".toList], ["d".toList, "f".toList]] then some .folder
    else if components s = ["d".toList, "f".toList, "n".toList] then some .file else none
  opendir s :=
    if components s = ["d".toList] then some ["f".toList]
    else if components s = ["d".toList, "f".toList] then some ["n".toList] else none

/-- A scan of a deeper tree that ends: the nested file is reported as `n`. -/
theorem C40_nested_case :
    scanPaths demo2 ⟨.recurse, .all, .any, false⟩ 2 ⟨[], true⟩ [] (PathObj.of "d/".toList) =
      .ok ["d/f/".toList, "n".toList] := by
  have hp : getStr demo2 (PathObj.of "d/".toList) = .ok "d/".toList := by rw [getStr_of]; decide +kernel
  have hs : SlashOk demo2 := by
    intro s h
    have : components (s ++ ['/']) = components s := by
      rw [components_slash]; simp [components]
    simp only [demo2, this] at h ⊢
    exact h
  have f1 : isFolder demo2 "d/".toList = true := by decide +kernel
  have f2 : isFolder demo2 "d/f/".toList = true := by decide +kernel
  have o1 : demo2.opendir (cstr "d/".toList) = some ["f".toList] := by decide +kernel
  have o2 : demo2.opendir (cstr "d/f/".toList) = some ["n".toList] := by decide +kernel
  have s1 : demo2.stat ("d/".toList ++ "f".toList) = some .folder := by decide +kernel
  have s2 : ¬ demo2.stat ([] ++ "n".toList) = some .folder := by decide +kernel
  have inner : ∀ t, scan demo2 ⟨.recurse, .all, .any, false⟩ 1 .buf ⟨⟨"d/f/".toList, false⟩, t⟩ =
      .ok ⟨⟨"n".toList, false⟩, t ++ ["n".toList]⟩ := by
    intro t
    rw [scan]
    simp only [argStr, f2, o2, Bool.not_true, Bool.false_eq_true, if_false, visitAll]
    rw [visit_eq demo2 _ _ .buf _ [] "n".toList hs rfl ⟨⟨by decide, by decide⟩, by decide, .inl rfl⟩
      (by unfold Plain; decide), if_neg s2]
    have : added demo2 .all .any [] "n".toList = ["n".toList] := by decide +kernel
    simp only [Outcome.bind_ok, Outcome.pure_eq, this]
    rfl
  simp only [scanPaths, hp, Outcome.bind_ok]
  rw [scan]
  simp only [argStr, f1, o1, Bool.not_true, Bool.false_eq_true, if_false, visitAll]
  rw [visit_eq demo2 _ _ (.own "d/".toList) _ "d/".toList "f".toList hs rfl
    ⟨⟨by decide, by decide⟩, by decide, .inr (by decide)⟩ (by unfold Plain; decide), if_pos s1, if_neg (by decide),
    if_pos rfl]
  have : added demo2 .all .any "d/".toList "f".toList = ["d/f/".toList] := by decide +kernel
  have e : "d/".toList ++ "f".toList ++ ['/'] = "d/f/".toList := by decide
  simp only [this, e, inner, Outcome.bind_ok, Outcome.pure_eq]
  rfl

/-! ## C69: comparisons of paths -/

/-- C69, `<`: the lexicographic order of the normalised texts, a strict total order on them. -/
theorem C69_less_partial (fs : FS) (p q r : PathObj) (a b c : Str) (ha : getStr fs p = .ok a) (hb : getStr fs q = .ok b)
    (hc : getStr fs r = .ok c) :
    ∃ pq qp qr pr, less fs p q = .ok pq ∧ less fs q p = .ok qp ∧ less fs q r = .ok qr ∧ less fs p r = .ok pr ∧
      (pq = true ↔ a < b) ∧ (pq = true → qp = false) ∧ (pq = false → qp = false → a = b) ∧ (a = b → pq = false) ∧
      (pq = true → qr = true → pr = true) := by
  have hlt : ∀ x y : Str, compareStr x y < 0 ↔ x < y := by
    intro x
    induction x with
    | nil => intro y; cases y <;> simp [compareStr]
    | cons c s ih =>
      intro y
      cases y with
      | nil => simp [compareStr]
      | cons d t =>
        simp only [compareStr, List.cons_lt_cons_iff]
        by_cases h1 : c < d
        · simp [h1]
        · by_cases h2 : d < c
          · have : c ≠ d := fun h => h1 (h ▸ h2)
            simp [h1, h2, this]
          · have : c = d := le_antisymm (not_lt.1 h2) (not_lt.1 h1)
            subst this
            simp [ih]
  simp only [less, ha, hb, hc, Outcome.bind_ok, Outcome.pure_eq]
  refine ⟨_, _, _, _, rfl, rfl, rfl, rfl, ?_, ?_, ?_, ?_, ?_⟩
  all_goals simp only [decide_eq_true_eq, decide_eq_false_iff_not, hlt]
  · exact fun h => List.lt_asymm h
  · exact fun h1 h2 => List.le_antisymm (List.not_lt.1 h2) (List.not_lt.1 h1)
  · rintro rfl; exact List.lt_irrefl _
  · exact fun h1 h2 => List.lt_trans h1 h2

/-- C69 fails for `==` and `!=`: they call themselves for ever, whatever the paths. -/
theorem C69_equality_never_returns (p q : PathObj) (fuel : Nat) :
    equal fuel p q = .diverge ∧ notEqual fuel p q = .diverge := by
  induction fuel with
  | zero => exact ⟨rfl, rfl⟩
  | succ n ih => exact ih

end Verif.Path
