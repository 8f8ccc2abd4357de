import Verif.Path.LemmasNames

/-!
# Lemmas about scans
-/

namespace Verif.Path

open Verif Str

theorem cstr_id (u : Str) (h : '\x00' ∉ u) : cstr u = u := by
  unfold cstr
  induction u with
  | nil => rfl
  | cons c u ih =>
    simp only [List.mem_cons, not_or] at h
    rw [List.takeWhile_cons_of_pos (by simpa using fun e => h.1 e.symm), ih h.2]

theorem isFolder_iff (fs : FS) (u : Str) (h : '\x00' ∉ u) : isFolder fs u = true ↔ fs.stat u = some .folder := by
  rw [isFolder, cstr_id u h, beq_iff_eq]

theorem isFolder_false (fs : FS) (u : Str) (h : '\x00' ∉ u) : isFolder fs u = false ↔ fs.stat u ≠ some .folder := by
  rw [← Bool.not_eq_true, isFolder_iff fs u h]

/-- A folder prefix: empty or ending with a slash. -/
def Pre (d : Str) : Prop := Canonical d ∧ '\x00' ∉ d ∧ (d = [] ∨ ['/'] <:+ d)

theorem no_double_app (d n : Str) (h : ¬ ['/', '/'] <:+: d) (hn : '/' ∉ n) : ¬ ['/', '/'] <:+: d ++ n := by
  induction d with
  | nil =>
    intro hi
    exact hn (hi.subset (by simp))
  | cons c d ih =>
    rw [infix_double] at h
    rw [List.cons_append, infix_double]
    rintro (⟨h1, h2⟩ | h1)
    · cases d with
      | nil =>
        cases n with
        | nil => simp at h2
        | cons x n =>
          simp at h2
          exact hn (by simp [h2])
      | cons x d => exact h (.inl ⟨h1, by simpa using h2⟩)
    · exact ih (fun hh => h (.inr hh)) h1

theorem canonical_entry {d n : Str} (hd : Pre d) (hn : Plain n) : Canonical (d ++ n) ∧ '\x00' ∉ d ++ n ∧ ¬ ['/'] <:+ d ++ n := by
  obtain ⟨h1, h2, h3, h4⟩ := hn
  refine ⟨⟨?_, no_double_app d n hd.1.2 h2⟩, ?_, ?_⟩
  · simp only [List.mem_append, not_or]; exact ⟨hd.1.1, h3⟩
  · simp only [List.mem_append, not_or]; exact ⟨hd.2.1, h4⟩
  · rw [suffix_singleton]
    intro h
    rw [List.getLast?_append] at h
    cases hl : n.getLast? with
    | none => exact h1 (List.getLast?_eq_none_iff.1 hl)
    | some c =>
      rw [hl] at h
      have : c = '/' := by simpa using h
      subst this
      exact h2 (List.mem_of_getLast? hl)

theorem suffix_dot_slash (u : Str) : "./".toList <:+ u ++ ['/'] ↔ u.getLast? = some '.' := by
  rw [List.getLast?_eq_some_iff]
  constructor
  · rintro ⟨t, h⟩
    refine ⟨t, ?_⟩
    have h' : (t ++ ['.']) ++ ['/'] = u ++ ['/'] := by simpa using h
    exact (List.append_cancel_right h').symm
  · rintro ⟨t, rfl⟩
    exact ⟨t, by simp⟩

theorem isRootOrParent_folder (u : Str) : isRootOrParent (u ++ ['/']) = .ok (decide (u.getLast? = some '.')) := by
  unfold isRootOrParent
  rw [endsWith_ok, endsWith_ok]
  simp only [Outcome.bind_ok, Outcome.pure_eq, suffix_dot_slash, decide_eq_true_eq]
  by_cases h : u.getLast? = some '.'
  · simp [h]
  · rw [if_neg h]
    have : ¬ "../".toList <:+ u ++ ['/'] := by
      rintro ⟨t, ht⟩
      apply h
      rw [← suffix_dot_slash]
      exact ⟨t ++ ['.'], by rw [← ht]; simp⟩
    rw [decide_eq_false this, decide_eq_false h]

theorem isRootOrParent_other (u : Str) (h : ¬ ['/'] <:+ u) : isRootOrParent u = .ok false := by
  unfold isRootOrParent
  rw [endsWith_ok, endsWith_ok]
  have h1 : ¬ "./".toList <:+ u := fun ⟨t, ht⟩ => h ⟨t ++ ['.'], by rw [← ht]; simp⟩
  have h2 : ¬ "../".toList <:+ u := fun ⟨t, ht⟩ => h ⟨t ++ ['.', '.'], by rw [← ht]; simp⟩
  rw [decide_eq_false h1, decide_eq_false h2]
  rfl

/-- What a visit adds to the target. -/
def added (fs : FS) (t : EntryType) (p : Pick) (d n : Str) : List Str :=
  if fs.stat (d ++ n) = some .folder then
    if n.getLast? = some '.' then [] else
    match t with
    | .file => []
    | _ => [d ++ n ++ ['/']]
  else
    match t with
    | .folder => []
    | _ => if Wanted p n then [d ++ n] else []

theorem picked_ok (p : Pick) (n : Str) : picked p n = .ok (decide (Wanted p n)) := by
  cases p with
  | any => simp only [picked, Wanted]; rfl
  | byExt e => simp [picked, Wanted, endsWith_ok]
  | byName x => simp [picked, Wanted, beq_eq_decide]

theorem getLast?_entry (d n : Str) (h : n ≠ []) : (d ++ n).getLast? = n.getLast? := by
  rw [List.getLast?_append]
  cases hl : n.getLast? with
  | none => exact absurd (List.getLast?_eq_none_iff.1 hl) h
  | some c => rfl

/-- One visit. -/
theorem visit_eq (fs : FS) (o : Options) (rescan : St → Outcome St) (a : Arg) (st : St) (d n : Str) (hslash : SlashOk fs)
    (ha : argStr a st.buf.clear = d) (hd : Pre d) (hn : Plain n) :
    visit fs o rescan a st n =
      if fs.stat (d ++ n) = some .folder then
        if n.getLast? = some '.' then .ok ⟨⟨d ++ n ++ ['/'], false⟩, st.target⟩
        else if o.mode = .recurse then rescan ⟨⟨d ++ n ++ ['/'], false⟩, st.target ++ added fs o.type o.pick d n⟩
        else .ok ⟨⟨d ++ n ++ ['/'], false⟩, st.target ++ added fs o.type o.pick d n⟩
      else .ok ⟨⟨d ++ n, false⟩, st.target ++ added fs o.type o.pick d n⟩ := by
  obtain ⟨hc, hz, hs⟩ := canonical_entry hd hn
  have hb : (st.buf.clear.append (argStr a st.buf.clear)).append n = PathObj.of (d ++ n) := by
    rw [ha]; simp [PathObj.append, PathObj.clear, PathObj.of]
  unfold visit
  simp only [hb, normalize_canonical fs _ hc]
  by_cases hf : fs.stat (d ++ n) = some .folder
  · rw [if_pos hf, if_pos ⟨hs, (isFolder_iff fs _ hz).2 hf⟩]
    have hz' : '\x00' ∉ d ++ n ++ ['/'] := by
      simp only [List.mem_append, List.mem_singleton, not_or]
      simp only [List.mem_append, not_or] at hz
      exact ⟨hz, by decide⟩
    have hf' : isFolder fs (d ++ n ++ ['/']) = true := (isFolder_iff fs _ hz').2 (hslash _ hf)
    simp only [Outcome.bind_ok, Outcome.pure_eq, isRootOrParent_folder, getLast?_entry d n hn.1, decide_eq_true_eq, hf',
      if_true]
    by_cases hdot : n.getLast? = some '.'
    · rw [if_pos hdot, if_pos hdot]
    · rw [if_neg hdot, if_neg hdot]
      have : (if o.type = .all ∨ o.type = .folder then st.target ++ [d ++ n ++ ['/']] else st.target) =
          st.target ++ added fs o.type o.pick d n := by
        unfold added
        rw [if_pos hf, if_neg hdot]
        cases o.type <;> simp
      rw [this]
  · rw [if_neg hf, if_neg (by rw [isFolder_iff fs _ hz]; exact fun h => hf h.2)]
    have hf' : isFolder fs (d ++ n) = false := (isFolder_false fs _ hz).2 hf
    simp only [Outcome.bind_ok, Outcome.pure_eq, isRootOrParent_other _ hs, Bool.false_eq_true, if_false, hf']
    unfold added
    rw [if_neg hf]
    cases ht : o.type with
    | folder => simp
    | all => simp [picked_ok]; split <;> simp
    | file => simp [picked_ok]; split <;> simp

theorem plain_dots {n : Str} (h : IsDots n) : Plain n ∧ n.getLast? = some '.' := by
  rcases h with rfl | rfl
  · exact ⟨⟨by decide, by decide, by decide, by decide⟩, by decide⟩
  · exact ⟨⟨by decide, by decide, by decide, by decide⟩, by decide⟩

theorem added_report (fs : FS) (t : EntryType) (p : Pick) (d n : Str)
    (h1 : IsDots n → fs.stat (d ++ n) = some .folder)
    (h2 : ¬ IsDots n → fs.stat (d ++ n) = some .folder → n.getLast? ≠ some '.') :
    added fs t p d n = report fs t p d n := by
  unfold added report
  by_cases hd : IsDots n
  · rw [if_pos (h1 hd), if_pos (plain_dots hd).2, if_pos hd]
  · rw [if_neg hd]
    by_cases hf : fs.stat (d ++ n) = some .folder
    · rw [if_pos hf, if_neg (h2 hd hf), if_pos hf]
      cases t <;> rfl
    · rw [if_neg hf, if_neg hf]
      cases t <;> rfl

theorem visitAll_append (f : St → Str → Outcome St) (st : St) (l r : List Str) :
    visitAll f st (l ++ r) = visitAll f st l >>= fun st => visitAll f st r := by
  induction l generalizing st with
  | nil => rfl
  | cons n l ih =>
    simp only [List.cons_append, visitAll]
    cases hf : f st n <;> simp [ih]

theorem compareStr_le (a b : Str) : compareStr a b ≤ 0 ↔ a ≤ b := by
  induction a generalizing b with
  | nil => cases b <;> simp [compareStr]
  | cons c s ih =>
    cases b with
    | nil => simp [compareStr]
    | cons d t =>
      simp only [compareStr, List.cons_le_cons_iff]
      by_cases h1 : c < d
      · simp [h1]
      · by_cases h2 : d < c
        · have : c ≠ d := fun h => h1 (h ▸ h2)
          simp [h1, h2, this]
        · have : c = d := le_antisymm (not_lt.1 h2) (not_lt.1 h1)
          subst this
          simp [ih]

theorem sortPaths_perm (l : List Str) : (sortPaths l).Perm l := List.mergeSort_perm _ _

theorem sortPaths_sorted (l : List Str) : (sortPaths l).Pairwise (· ≤ ·) := by
  have h := List.pairwise_mergeSort (le := fun a b : Str => decide (compareStr a b ≤ 0)) ?_ ?_ l
  · exact h.imp (by simp [compareStr_le])
  · intro a b c
    simp only [decide_eq_true_eq, compareStr_le]
    exact List.le_trans
  · intro a b
    simp only [Bool.or_eq_true, decide_eq_true_eq, compareStr_le]
    exact List.le_total a b

/-- The target has the wanted contents: exactly, or up to the order if the scan sorts. -/
def Has (o : Options) (t want : List Str) : Prop := (o.sorted = false → t = want) ∧ t.Perm want

theorem Has.refl (o : Options) (t : List Str) : Has o t t := ⟨fun _ => rfl, .refl _⟩

theorem Has.append {o : Options} {t t' : List Str} (h : Has o t t') (l : List Str) : Has o (t ++ l) (t' ++ l) :=
  ⟨fun hs => by rw [h.1 hs], h.2.append_right l⟩

theorem Has.trans {o : Options} {a b c : List Str} (h : Has o a b) (h' : Has o b c) : Has o a c :=
  ⟨fun hs => by rw [h.1 hs, h'.1 hs], h.2.trans h'.2⟩

theorem visitAll_has (fs : FS) (o : Options) (rescan : St → Outcome St) (a : Arg) (d : Str) (hslash : SlashOk fs)
    (ha : ∀ b : PathObj, argStr a b.clear = d) (hd : Pre d) (names : List Str) (hn : ∀ n ∈ names, Plain n)
    (hr : o.mode = .recurse → ∀ n ∈ names, fs.stat (d ++ n) = some .folder → n.getLast? ≠ some '.' →
      ∀ t, ∃ st', rescan ⟨⟨d ++ n ++ ['/'], false⟩, t⟩ = .ok st' ∧ Has o st'.target t) (st : St) :
    ∃ st', visitAll (visit fs o rescan a) st names = .ok st' ∧
      Has o st'.target (st.target ++ names.flatMap (added fs o.type o.pick d)) := by
  induction names generalizing st with
  | nil => exact ⟨st, rfl, by simpa using Has.refl o st.target⟩
  | cons n names ih =>
    have key : ∃ st', visit fs o rescan a st n = .ok st' ∧ Has o st'.target (st.target ++ added fs o.type o.pick d n) := by
      rw [visit_eq fs o rescan a st d n hslash (ha _) hd (hn n (by simp))]
      by_cases hf : fs.stat (d ++ n) = some .folder
      · rw [if_pos hf]
        by_cases hdot : n.getLast? = some '.'
        · rw [if_pos hdot]
          refine ⟨_, rfl, ?_⟩
          have : added fs o.type o.pick d n = [] := by unfold added; rw [if_pos hf, if_pos hdot]
          rw [this, List.append_nil]
          exact Has.refl _ _
        · rw [if_neg hdot]
          by_cases hm : o.mode = .recurse
          · rw [if_pos hm]
            exact hr hm n (by simp) hf hdot _
          · rw [if_neg hm]
            exact ⟨_, rfl, Has.refl _ _⟩
      · rw [if_neg hf]
        exact ⟨_, rfl, Has.refl _ _⟩
    obtain ⟨st1, e1, h1⟩ := key
    obtain ⟨st2, e2, h2⟩ := ih (fun m hm => hn m (by simp [hm])) (fun hm m hmem => hr hm m (by simp [hmem])) st1
    refine ⟨st2, ?_, ?_⟩
    · rw [visitAll, e1]
      simpa using e2
    · rw [List.flatMap_cons, ← List.append_assoc]
      exact h2.trans (h1.append _)

theorem scan_has (fs : FS) (o : Options) (fuel : Nat) (a : Arg) (d : Str) (names : List Str) (hslash : SlashOk fs)
    (ha : ∀ b : PathObj, argStr a b.clear = d) (hd : Pre d) (hn : ∀ n ∈ names, Plain n) (st : St)
    (hfold : isFolder fs (argStr a st.buf) = true) (hopen : fs.opendir (cstr (argStr a st.buf)) = some names)
    (hr : o.mode = .recurse → ∀ n ∈ names, fs.stat (d ++ n) = some .folder → n.getLast? ≠ some '.' →
      ∀ t, ∃ st', scan fs o fuel .buf ⟨⟨d ++ n ++ ['/'], false⟩, t⟩ = .ok st' ∧ Has o st'.target t) :
    ∃ st', scan fs o (fuel + 1) a st = .ok st' ∧
      Has o st'.target (st.target ++ names.flatMap (added fs o.type o.pick d)) ∧
      (o.sorted = true → st'.target.Pairwise (· ≤ ·)) := by
  obtain ⟨st1, e1, h1⟩ := visitAll_has fs o (scan fs o fuel .buf) a d hslash ha hd names hn hr st
  rw [scan, hfold, hopen]
  simp only [Bool.not_true, Bool.false_eq_true, if_false, e1, Outcome.bind_ok, Outcome.pure_eq]
  refine ⟨_, rfl, ?_, ?_⟩
  · cases hs : o.sorted with
    | false => simpa using h1
    | true =>
      refine ⟨fun h => (by rw [hs] at h; exact absurd h (by decide)), ?_⟩
      exact (sortPaths_perm _).trans h1.2
  · intro hs
    simp only [hs, if_true]
    exact sortPaths_sorted _

/-- Scanning, through the buffer, a folder without entries of its own. -/
theorem scan_empty (fs : FS) (o : Options) (fuel : Nat) (e : Str) (names : List Str) (hslash : SlashOk fs)
    (hz : '\x00' ∉ e) (hcwd : ∀ n, IsDots n → fs.stat n = some .folder) (hf : fs.stat e = some .folder)
    (hopen : fs.opendir e = some names) (hn : ∀ n ∈ names, IsDots n) (t : List Str) :
    ∃ st', scan fs o (fuel + 1) .buf ⟨⟨e, false⟩, t⟩ = .ok st' ∧ Has o st'.target t := by
  obtain ⟨st', h1, h2, _⟩ := scan_has fs o fuel .buf [] names hslash (fun _ => rfl)
    ⟨⟨by simp, by simp⟩, by simp, .inl rfl⟩ (fun n h => (plain_dots (hn n h)).1) ⟨⟨e, false⟩, t⟩
    ((isFolder_iff fs e hz).2 hf) (by simpa [argStr, cstr_id e hz] using hopen)
    (fun _ n h _ hdot => absurd (plain_dots (hn n h)).2 hdot)
  refine ⟨st', h1, ?_⟩
  have : names.flatMap (added fs o.type o.pick []) = [] := by
    rw [List.flatMap_eq_nil_iff]
    intro n h
    unfold added
    rw [if_pos (by simpa using hcwd n (hn n h)), if_pos (plain_dots (hn n h)).2]
  rw [this, List.append_nil] at h2
  exact h2

theorem components_plain {n : Str} (hn : Plain n) : components n = [n] := by
  have h : n.splitOnP isSep = [n] := by
    apply List.splitOnP_eq_singleton
    intro c hc
    have h1 : c ≠ '/' := fun e => hn.2.1 (e ▸ hc)
    have h2 : c ≠ '\\' := fun e => hn.2.2.1 (e ▸ hc)
    simp [isSep, h1, h2]
  rw [components, h]
  cases n with
  | nil => exact absurd rfl hn.1
  | cons c n => rfl

theorem components_slash (u v : Str) : components (u ++ '/' :: v) = components u ++ components v := by
  unfold components
  rw [List.splitOnP_append_cons u v (p := isSep) (by rfl), List.filter_append]

theorem components_entry {d n : Str} (hd : Pre d) (hn : Plain n) : components (d ++ n) = components d ++ [n] := by
  rcases hd.2.2 with rfl | ⟨t, rfl⟩
  · simpa [components] using components_plain hn
  · rw [List.append_assoc, List.singleton_append, components_slash, components_slash, components_plain hn]
    simp [components]

theorem added_components {fs : FS} {t : EntryType} {p : Pick} {d n x : Str} (hd : Pre d) (hn : Plain n)
    (h : x ∈ added fs t p d n) : components x = components d ++ [n] := by
  have h1 : x = d ++ n ∨ x = d ++ n ++ ['/'] := by
    unfold added at h
    split at h
    · split at h
      · simp at h
      · cases t <;> simp_all
    · cases t <;> simp_all <;> split at h <;> simp_all
  rcases h1 with rfl | rfl
  · exact components_entry hd hn
  · rw [components_slash, components_entry hd hn]; simp [components]

theorem visitAll_mem (f : St → Str → Outcome St) (P : Str → Prop) (names : List Str)
    (hf : ∀ st st' n, n ∈ names → f st n = .ok st' → ∀ x ∈ st'.target, x ∈ st.target ∨ P x) (st st' : St)
    (h : visitAll f st names = .ok st') : ∀ x ∈ st'.target, x ∈ st.target ∨ P x := by
  induction names generalizing st with
  | nil =>
    simp only [visitAll, Outcome.ok.injEq] at h
    subst h
    exact fun x hx => .inl hx
  | cons n names ih =>
    rw [visitAll, Outcome.bind_eq_ok] at h
    obtain ⟨st1, h1, h2⟩ := h
    intro x hx
    rcases ih (fun a b m hm => hf a b m (by simp [hm])) st1 h2 x hx with hx | hx
    · exact hf st st1 n (by simp) h1 x hx
    · exact .inr hx

/-- What a scan adds: entries of the scanned folder, or paths of a single name. -/
theorem scan_mem (fs : FS) (o : Options) (hslash : SlashOk fs)
    (hplain : ∀ s ns, fs.opendir s = some ns → ∀ n ∈ ns, Plain n) (fuel : Nat) (a : Arg) (d : Str)
    (ha : ∀ b : PathObj, argStr a b.clear = d) (hd : Pre d) (st st' : St) (h : scan fs o fuel a st = .ok st') :
    ∀ x ∈ st'.target, x ∈ st.target ∨ (∃ n, components x = components d ++ [n]) ∨ ∃ n, components x = [n] := by
  induction fuel generalizing a d st st' with
  | zero => simp [scan] at h
  | succ fuel ih =>
    rw [scan] at h
    split at h
    · simp at h
    · cases hopen : fs.opendir (cstr (argStr a st.buf)) with
      | none => rw [hopen] at h; simp at h
      | some names =>
        rw [hopen] at h
        simp only [Outcome.bind_eq_ok] at h
        obtain ⟨st1, h1, h2⟩ := h
        have hx : ∀ x ∈ st'.target, x ∈ st1.target := by
          intro x hx
          simp only [Outcome.pure_eq, Outcome.ok.injEq] at h2
          subst h2
          simp only at hx
          split at hx
          · exact (sortPaths_perm _).mem_iff.1 hx
          · exact hx
        intro x hx'
        refine visitAll_mem _ (fun x => (∃ n, components x = components d ++ [n]) ∨ ∃ n, components x = [n]) names ?_ st st1 h1 x (hx x hx')
        intro s1 s2 n hn hv y hy
        have hpl := hplain _ _ hopen n hn
        rw [visit_eq fs o _ a s1 d n hslash (ha _) hd hpl] at hv
        have happ : y ∈ s1.target ++ added fs o.type o.pick d n →
            y ∈ s1.target ∨ (∃ n, components y = components d ++ [n]) ∨ ∃ n, components y = [n] := by
          intro hy
          rcases List.mem_append.1 hy with hy | hy
          · exact .inl hy
          · exact .inr (.inl ⟨n, added_components hd hpl hy⟩)
        split at hv
        · split at hv
          · simp only [Outcome.ok.injEq] at hv
            subst hv
            exact .inl hy
          · split at hv
            · rcases ih .buf [] (fun _ => rfl) ⟨⟨by simp, by simp⟩, by simp, .inl rfl⟩ _ _ hv y hy with hy | ⟨m, hy⟩ | hy
              · exact happ hy
              · exact .inr (.inr ⟨m, by simpa [components] using hy⟩)
              · exact .inr (.inr hy)
            · simp only [Outcome.ok.injEq] at hv
              subst hv
              exact happ hy
        · simp only [Outcome.ok.injEq] at hv
          subst hv
          exact happ hy

theorem visitAll_dots (fs : FS) (o : Options) (rescan : St → Outcome St) (a : Arg) (d : Str) (hslash : SlashOk fs)
    (ha : ∀ b : PathObj, argStr a b.clear = d) (hd : Pre d) (names : List Str) (hn : ∀ n ∈ names, IsDots n)
    (hf : ∀ n, IsDots n → fs.stat (d ++ n) = some .folder) (st : St) :
    ∃ st', visitAll (visit fs o rescan a) st names = .ok st' := by
  obtain ⟨st', h, _⟩ := visitAll_has fs o rescan a d hslash ha hd names (fun n h => (plain_dots (hn n h)).1)
    (fun _ n h _ hdot => absurd (plain_dots (hn n h)).2 hdot) st
  exact ⟨st', h⟩

/-- A folder that comes first among the entries, scanned again without end, makes the scan endless. -/
theorem scan_diverges_of (fs : FS) (o : Options) (hm : o.mode = .recurse) (fuel : Nat) (a : Arg) (d n : Str)
    (dots rest : List Str) (hslash : SlashOk fs) (ha : ∀ b : PathObj, argStr a b.clear = d) (hd : Pre d) (hn : Plain n)
    (hdots : ∀ m ∈ dots, IsDots m) (hcwd : ∀ m, IsDots m → fs.stat (d ++ m) = some .folder)
    (hf : fs.stat (d ++ n) = some .folder) (hdot : n.getLast? ≠ some '.') (st : St)
    (hfold : isFolder fs (argStr a st.buf) = true)
    (hopen : fs.opendir (cstr (argStr a st.buf)) = some (dots ++ n :: rest))
    (hr : ∀ t, scan fs o fuel .buf ⟨⟨d ++ n ++ ['/'], false⟩, t⟩ = .diverge) :
    scan fs o (fuel + 1) a st = .diverge := by
  obtain ⟨st1, h1⟩ := visitAll_dots fs o (scan fs o fuel .buf) a d hslash ha hd dots hdots hcwd st
  rw [scan, hfold, hopen]
  simp only [Bool.not_true, Bool.false_eq_true, if_false, visitAll_append, h1, Outcome.bind_ok, visitAll]
  rw [visit_eq fs o _ a st1 d n hslash (ha _) hd hn, if_pos hf, if_neg hdot, if_pos hm, hr]
  rfl

theorem scan_buf_diverges (fs : FS) (o : Options) (hm : o.mode = .recurse) (n : Str)
    (dots rest : List Str) (hslash : SlashOk fs) (hn : Plain n)
    (hdots : ∀ m ∈ dots, IsDots m) (hcwd : ∀ m, IsDots m → fs.stat m = some .folder)
    (hf : fs.stat n = some .folder) (hdot : n.getLast? ≠ some '.')
    (hopen : fs.opendir (n ++ ['/']) = some (dots ++ n :: rest)) (fuel : Nat) (t : List Str) :
    scan fs o fuel .buf ⟨⟨n ++ ['/'], false⟩, t⟩ = .diverge := by
  induction fuel generalizing t with
  | zero => rfl
  | succ fuel ih =>
    have hz : '\x00' ∉ n ++ ['/'] := by
      simp only [List.mem_append, List.mem_singleton, not_or]; exact ⟨hn.2.2.2, by decide⟩
    refine scan_diverges_of fs o hm fuel .buf [] n dots rest hslash (fun _ => rfl)
      ⟨⟨by simp, by simp⟩, by simp, .inl rfl⟩ hn hdots (by simpa using hcwd) (by simpa using hf) hdot _ ?_ ?_ ?_
    · exact (isFolder_iff fs _ hz).2 (hslash _ hf)
    · simpa [argStr, cstr_id _ hz] using hopen
    · simpa using ih

end Verif.Path
