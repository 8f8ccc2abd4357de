import Verif.Files.Lemmas
import Verif.Json.Theorems
import Verif.Md5.Theorems
import Mathlib.Tactic.NormNum

/-!
# Files: theorems

C131 saving and reading, C132 creating folders and removing files, C133 digests of files.
-/

namespace Verif.Files

open Verif Str Path

theorem straight_of_reachable {d : Disk} {abs : Bool} {ns : List Str} (h : Reachable d (place d abs ns)) :
    Straight d abs ns := by
  intro q hq hne
  refine h _ ?_ ?_
  · exact (List.prefix_append_right_inj _).2 hq
  · intro e; exact hne (List.append_cancel_left e)

theorem reachable_of_tree {d : Disk} (ht : IsTree d) : ∀ {k : List Str}, d.get k ≠ none → Reachable d k := by
  intro k
  induction k using List.reverseRecOn with
  | nil => intro _ q hq hne; exact absurd (List.prefix_nil.1 hq) hne
  | append_singleton k n ih =>
    intro h q hq hne
    have hf := ht k n h
    rcases List.prefix_concat_iff.1 hq with e | hq
    · exact absurd e hne
    · by_cases e : q = k
      · rw [e]; exact hf
      · exact ih (by rw [hf]; simp) q hq e

theorem names_nil {s : Str} (h : names s = []) (hs : s ≠ []) : s.head? = some '/' := by
  cases s with
  | nil => exact absurd rfl hs
  | cons c s =>
    by_cases hc : c = '/'
    · rw [hc]; rfl
    · exfalso
      have hb : (c == '/') = false := by simpa using hc
      rw [names, List.splitOn_cons_eq_if_modifyHead, hb] at h
      cases hx : s.splitOn '/' with
      | nil => exact List.splitOn_ne_nil _ _ hx
      | cons a b => rw [hx] at h; simp at h

/-- Where a text leads to, the folders on the way are there. -/
theorem locate_reachable {d : Disk} (ht : IsTree d) {s : Str} {k : List Str} {b : Bool} (h : d.locate s = some (k, b)) :
    Reachable d k := by
  rw [Disk.locate] at h
  split at h
  · cases h
  · rename_i hs
    rw [Option.map_eq_some_iff] at h
    obtain ⟨k', hw, e⟩ := h
    cases e
    refine walk_reachable d _ _ _ ht hw ?_
    split
    · intro q hq hne; exact absurd (List.prefix_nil.1 hq) hne
    · rename_i hh
      rw [if_neg hh] at hw
      cases hns : names s with
      | nil => exact absurd (names_nil hns hs) hh
      | cons n ns =>
        rw [hns, Disk.walk] at hw
        split at hw
        · rename_i hf
          exact reachable_of_tree ht (by rw [hf]; simp)
        · cases hw

/-- In a tree, a place in a folder can be reached. -/
theorem straight_reach {d : Disk} (ht : IsTree d) {k : List Str} {n : Str} (h : d.get k = some .folder) :
    Reachable d (k ++ [n]) := by
  intro q hq hne
  rcases List.prefix_concat_iff.1 hq with e | hq
  · exact absurd e hne
  · by_cases e : q = k
    · rw [e]; exact h
    · exact reachable_of_tree ht (by rw [h]; simp) q hq e

theorem place_ne {d : Disk} {abs : Bool} {ns : List Str} (h : ns ≠ []) : place d abs ns ≠ [] := by
  simp [place, h]

theorem normalize_done {fs : FS} {p p' : PathObj} (h : normalize fs p = .ok p') (fs' : FS) :
    normalize fs' p' = .ok p' := by
  have : p'.mustNormalize = false := by
    rw [Path.normalize] at h
    split at h
    · rename_i hm; cases h; simpa using hm
    · obtain ⟨b, _, h⟩ := Outcome.bind_eq_ok.1 h
      cases h; rfl
  rw [Path.normalize, this]; rfl

theorem normalize_total (fs : FS) (p : PathObj) : ∃ p', normalize fs p = .ok p' := by
  rw [Path.normalize]
  split
  · exact ⟨p, rfl⟩
  · simp only [endsWith_ok]; exact ⟨_, rfl⟩

theorem walk_congr {d d' : Disk} (h : ∀ q, d'.get q = some .folder ↔ d.get q = some .folder) :
    ∀ (ns cur : List Str), d'.walk cur ns = d.walk cur ns
  | [], _ => rfl
  | n :: ns, cur => by
    rw [Disk.walk, Disk.walk]
    simp only [walk_congr h ns, h]

theorem locate_congr {d d' : Disk} (h : ∀ q, d'.get q = some .folder ↔ d.get q = some .folder) (hc : d'.cwd = d.cwd)
    (s : Str) : d'.locate s = d.locate s := by
  rw [Disk.locate, Disk.locate, hc]
  simp only [walk_congr h]

theorem onlyAt_put (d : Disk) (k : List Str) (n : Node) (hk : k ≠ []) : OnlyAt k d (d.put k n) :=
  ⟨rfl, fun q hq => by rw [get_put d k q n hk, if_neg hq]⟩

theorem onlyAt_del (d : Disk) (k : List Str) (hk : k ≠ []) : OnlyAt k d (d.del k) :=
  ⟨rfl, fun q hq => by rw [get_del d k q hk, if_neg hq]⟩

theorem ne_nil_of_get {d : Disk} {k : List Str} (h : d.get k ≠ some .folder) : k ≠ [] := by
  rintro rfl; exact h (get_nil d)

/-- Opening for writing. -/
theorem openWrite_some {d : Disk} {s : Str} {k : List Str} {d1 : Disk} (h : d.openWrite s = some (k, d1)) :
    d.locate s = some (k, false) ∧ d.get k ≠ some .folder ∧ d1 = d.put k (.file []) := by
  rw [Disk.openWrite] at h
  split at h
  · cases h
  · rename_i k' dirOnly hl
    split at h
    · cases h
    · rename_i hc
      have hc := not_or.1 hc
      cases h
      refine ⟨?_, hc.2, rfl⟩
      rw [hl]
      congr 2
      simpa using hc.1

theorem put_put_get (d : Disk) (k q : List Str) (a b : Node) (hk : k ≠ []) :
    ((d.put k a).put k b).get q = if q = k then some b else d.get q := by
  rw [get_put _ _ _ _ hk, get_put _ _ _ _ hk]
  split <;> rfl

/-! ## C131 -/

/-- **C131 (any path object).** Writing a text returns. Either nothing on the disk has changed (the file could not be opened), or
there is one place that now holds a file with exactly this text, nothing else has changed, and reading through the same
path object gives the text back, in both builds. -/
theorem C131_read_back_object (d : Disk) (p : PathObj) (t : Str) :
    ∃ d' p', writeFile d p t = .ok (d', p') ∧
      (d' = d ∨ ∃ k, d'.get k = some (.file t) ∧ OnlyAt k d d' ∧ ∀ dbg, getContents dbg d' p' = .ok (t, p')) := by
  obtain ⟨p', hp⟩ := normalize_total d.toFS p
  rw [writeFile, hp, Outcome.bind_ok]
  cases ho : d.openWrite (cstr p'.str) with
  | none => exact ⟨d, p', rfl, .inl rfl⟩
  | some x =>
    obtain ⟨k, d1⟩ := x
    obtain ⟨hl, hg, rfl⟩ := openWrite_some ho
    have hk := ne_nil_of_get hg
    refine ⟨_, p', rfl, .inr ⟨k, ?_, ⟨rfl, ?_⟩, ?_⟩⟩
    · rw [put_put_get _ _ _ _ _ hk, if_pos rfl]
    · intro q hq; rw [put_put_get _ _ _ _ _ hk, if_neg hq]
    · intro dbg
      have hf : ∀ q, ((d.put k (.file [])).put k (.file t)).get q = some .folder ↔ d.get q = some .folder := by
        intro q
        rw [put_put_get _ _ _ _ _ hk]
        by_cases hq : q = k
        · subst hq; rw [if_pos rfl]; simp [hg]
        · rw [if_neg hq]
      have hl' : ((d.put k (.file [])).put k (.file t)).locate (cstr p'.str) = some (k, false) := by
        rw [locate_congr hf rfl, hl]
      have hgk : ((d.put k (.file [])).put k (.file t)).get k = some (.file t) := by
        rw [put_put_get _ _ _ _ _ hk, if_pos rfl]
      have hs : isFile ((d.put k (.file [])).put k (.file t)).toFS p'.str = true := by
        rw [isFile]
        show (Disk.stat _ _ == some .file) = true
        rw [Disk.stat, hl']
        simp only [hgk]
        rfl
      rw [getContents, normalize_done hp, Outcome.bind_ok, hs, hl']
      simp only [hgk, Bool.not_true, Bool.and_false, Bool.false_eq_true, if_false]
      rfl

/-- **C131 (what is read).** A file is read exactly, in both builds: whoever names its place through ordinary names, from the root
or from the current folder, gets its contents. -/
theorem C131_read (d : Disk) (abs : Bool) (ns : List Str) (hn : ∀ n ∈ ns, Name n) (hne : ns ≠ []) (t : Str)
    (hr : Reachable d (place d abs ns)) (hg : d.get (place d abs ns) = some (.file t)) (dbg : Bool) :
    getContents dbg d (PathObj.of (text abs ns)) = .ok (t, ⟨text abs ns, false⟩) := by
  have hst := straight_of_reachable hr
  rw [getContents, (normalize_text hn hne abs d).1 (.inl (by rw [hg]; simp)), Outcome.bind_ok]
  have hl := (locate_text hn hne abs d).1 hst
  have hs : isFile d.toFS (text abs ns) = true := by
    rw [isFile, text_nozero hn]
    show (Disk.stat _ _ == some .file) = true
    rw [Disk.stat, hl]
    simp only [hg]
    rfl
  simp only [hs, text_nozero hn, hl, hg, Bool.not_true, Bool.and_false, Bool.false_eq_true, if_false]
  rfl

/-- **C131 (read back).** Saving a text under a path through ordinary names, where the folders exist and the place is not a folder:
the file holds exactly the text, nothing else changes, and reading the path gives the text. -/
theorem C131_read_back (d : Disk) (abs : Bool) (ns : List Str) (hn : ∀ n ∈ ns, Name n) (hne : ns ≠ []) (t : Str)
    (hr : Reachable d (place d abs ns)) (hg : d.get (place d abs ns) ≠ some .folder) (dbg : Bool) :
    ∃ d' p', writeFile d (PathObj.of (text abs ns)) t = .ok (d', p') ∧ d'.get (place d abs ns) = some (.file t) ∧
      OnlyAt (place d abs ns) d d' ∧ ∃ p'', getContents dbg d' (PathObj.of (text abs ns)) = .ok (t, p'') := by
  have hst := straight_of_reachable hr
  have hk := ne_nil_of_get hg
  have hl := (locate_text hn hne abs d).1 hst
  have ho : d.openWrite (text abs ns) = some (place d abs ns, d.put (place d abs ns) (.file [])) := by
    rw [Disk.openWrite, hl]
    simp [hg]
  have hw : writeFile d (PathObj.of (text abs ns)) t
      = .ok ((d.put (place d abs ns) (.file [])).put (place d abs ns) (.file t), ⟨text abs ns, false⟩) := by
    rw [writeFile, (normalize_text hn hne abs d).1 (.inl hg), Outcome.bind_ok]
    simp only [text_nozero hn, ho]
    rfl
  have hgk := put_put_get d (place d abs ns) (place d abs ns) (.file []) (.file t) hk
  rw [if_pos rfl] at hgk
  refine ⟨_, _, hw, hgk, ⟨rfl, fun q hq => by rw [put_put_get _ _ _ _ _ hk, if_neg hq]⟩, ?_⟩
  refine ⟨_, C131_read _ abs ns hn hne t ?_ hgk dbg⟩
  intro q hq hne'
  have hq : q <+: place d abs ns := hq
  have hne' : q ≠ place d abs ns := hne'
  rw [put_put_get _ _ _ _ _ hk, if_neg hne']
  exact hr q hq hne'

/-- **C131 fails**: that saving did not work is not reported. If the place is a folder, or one of the folders on the way does
not exist, saving returns as usual and nothing is written. -/
theorem C131_failure_is_silent (d : Disk) (abs : Bool) (ns : List Str) (hn : ∀ n ∈ ns, Name n) (hne : ns ≠ []) (t : Str)
    (ht : IsTree d)
    (h : d.get (place d abs ns) = some .folder ∨ ¬ Reachable d (place d abs ns)) :
    ∃ p', writeFile d (PathObj.of (text abs ns)) t = .ok (d, p') := by
  obtain ⟨p', hp⟩ := normalize_total d.toFS (PathObj.of (text abs ns))
  by_cases hst : Straight d abs ns
  · have hr : Reachable d (place d abs ns) := by
      exact locate_reachable ht ((locate_text hn hne abs d).1 hst)
    rcases h with h | h
    · have hp := (normalize_text hn hne abs d).2 h hst
      refine ⟨⟨text abs ns ++ ['/'], false⟩, ?_⟩
      rw [writeFile, hp, Outcome.bind_ok]
      simp only [slash_nozero hn, Disk.openWrite, locate_slash hn hne abs d hst, true_or, if_true]
      rfl
    · exact absurd hr h
  · have hp := (normalize_text hn hne abs d).1 (.inr hst)
    refine ⟨⟨text abs ns, false⟩, ?_⟩
    rw [writeFile, hp, Outcome.bind_ok]
    simp only [text_nozero hn, Disk.openWrite, (locate_text hn hne abs d).2 hst]
    rfl

/-- **C131 (missing file).** Reading where there is nothing fails an assertion, or, without assertions, throws. -/
theorem C131_missing (d : Disk) (abs : Bool) (ns : List Str) (hn : ∀ n ∈ ns, Name n) (hne : ns ≠ [])
    (hg : d.get (place d abs ns) = none) :
    getContents true d (PathObj.of (text abs ns)) = .assertFail ∧ getContents false d (PathObj.of (text abs ns)) = .throw := by
  have hp := (normalize_text hn hne abs d).1 (.inl (by rw [hg]; simp))
  have hs : isFile d.toFS (text abs ns) = false ∧
      (d.locate (text abs ns) = none ∨ d.locate (text abs ns) = some (place d abs ns, false)) := by
    by_cases hst : Straight d abs ns
    · have hl := (locate_text hn hne abs d).1 hst
      refine ⟨?_, .inr hl⟩
      rw [isFile, text_nozero hn]
      show (Disk.stat _ _ == some .file) = false
      rw [Disk.stat, hl]; simp only [hg]; rfl
    · have hl := (locate_text hn hne abs d).2 hst
      refine ⟨?_, .inl hl⟩
      rw [isFile, text_nozero hn]
      show (Disk.stat _ _ == some .file) = false
      rw [Disk.stat, hl]; rfl
  constructor
  · rw [getContents, hp, Outcome.bind_ok]; simp [hs.1]
  · rw [getContents, hp, Outcome.bind_ok]
    rcases hs.2 with hl | hl <;> simp [text_nozero hn, hl, hg]

/-- **C131 (JSON).** A JSON value saved to a file and read back is equal to the original, for the values of C16. -/
theorem C131_json {R : Type} {ops : Json.RealOps R} (laws : Json.IntLaws ops) (pretty dbg : Bool) (v v' old : Json.Val R)
    (hb : Json.Back ops v v') (d : Disk) (abs : Bool) (ns : List Str) (hn : ∀ n ∈ ns, Name n) (hne : ns ≠ [])
    (hr : Reachable d (place d abs ns)) (hg : d.get (place d abs ns) ≠ some .folder) :
    ∃ d' p', jsonWrite ops pretty v d (PathObj.of (text abs ns)) = .ok (d', p') ∧
      jsonRead ops dbg old d' (PathObj.of (text abs ns)) = .ok (true, v') ∧ Json.valEq ops v v' = .ok true ∧
      OnlyAt (place d abs ns) d d' := by
  obtain ⟨t, h1, h2, h3⟩ := Json.C16_write_then_read_partial laws pretty dbg v v' hb
  obtain ⟨d', p', hw, _, ho, p'', hc⟩ := C131_read_back d abs ns hn hne t hr hg dbg
  refine ⟨d', p', ?_, ?_, h3, ho⟩
  · rw [jsonWrite, h1, Outcome.bind_ok]; exact hw
  · rw [jsonRead, hc, Outcome.bind_ok]
    simp only [Json.readFromStr, h2]

/-- **C131 (log).** The file a log is saved to holds exactly the log. -/
theorem C131_log (s : Log.LogSt) (d : Disk) (abs : Bool) (ns : List Str) (hn : ∀ n ∈ ns, Name n) (hne : ns ≠ [])
    (hr : Reachable d (place d abs ns)) (hg : d.get (place d abs ns) ≠ some .folder) (dbg : Bool) :
    ∃ d' p', saveLog s d (PathObj.of (text abs ns)) = .ok (d', p') ∧
      ∃ p'', getContents dbg d' (PathObj.of (text abs ns)) = .ok (s.log, p'') := by
  obtain ⟨d', p', h1, _, _, h2⟩ := C131_read_back d abs ns hn hne s.log hr hg dbg
  exact ⟨d', p', h1, h2⟩

/-- **C131 (process ends while saving).** What is left is the disk as it was, or a file with a beginning of the text; nothing else
changes. -/
theorem C131_crash (d : Disk) (p : PathObj) (t : Str) :
    ∃ ds, crashStates d p t = .ok ds ∧
      ∀ d' ∈ ds, d' = d ∨ ∃ k u, u <+: t ∧ d'.get k = some (.file u) ∧ OnlyAt k d d' := by
  obtain ⟨p', hp⟩ := normalize_total d.toFS p
  rw [crashStates, hp, Outcome.bind_ok]
  cases ho : d.openWrite (cstr p'.str) with
  | none => exact ⟨[d], rfl, fun d' h => .inl (by simpa using h)⟩
  | some x =>
    obtain ⟨k, d1⟩ := x
    obtain ⟨_, hg, rfl⟩ := openWrite_some ho
    have hk := ne_nil_of_get hg
    refine ⟨_, rfl, fun d' h => ?_⟩
    rcases List.mem_cons.1 h with rfl | h
    · exact .inl rfl
    · obtain ⟨n, _, rfl⟩ := List.mem_map.1 h
      exact .inr ⟨k, t.take n, List.take_prefix _ _, by rw [put_put_get _ _ _ _ _ hk, if_pos rfl], rfl,
        fun q hq => by rw [put_put_get _ _ _ _ _ hk, if_neg hq]⟩

/-- **C131 fails**: saving is not atomic. If the process ends at the wrong moment, any beginning of the text, in particular the empty
text, is left in the place of what was there before. -/
theorem C131_crash_loses_old_text (d : Disk) (abs : Bool) (ns : List Str) (hn : ∀ n ∈ ns, Name n) (hne : ns ≠ []) (t u : Str)
    (hr : Reachable d (place d abs ns)) (hg : d.get (place d abs ns) ≠ some .folder) (hu : u <+: t) :
    ∃ ds, crashStates d (PathObj.of (text abs ns)) t = .ok ds ∧
      ∃ d' ∈ ds, ∀ dbg, ∃ p, getContents dbg d' (PathObj.of (text abs ns)) = .ok (u, p) := by
  have hst := straight_of_reachable hr
  have hk := ne_nil_of_get hg
  have hl := (locate_text hn hne abs d).1 hst
  have ho : d.openWrite (text abs ns) = some (place d abs ns, d.put (place d abs ns) (.file [])) := by
    rw [Disk.openWrite, hl]
    simp [hg]
  have hw : crashStates d (PathObj.of (text abs ns)) t
      = .ok (d :: (List.range (t.length + 1)).map fun n =>
          (d.put (place d abs ns) (.file [])).put (place d abs ns) (.file (t.take n))) := by
    rw [crashStates, (normalize_text hn hne abs d).1 (.inl hg), Outcome.bind_ok]
    simp only [text_nozero hn, ho]
    rfl
  refine ⟨_, hw, _, List.mem_cons_of_mem _ (List.mem_map_of_mem (a := u.length) ?_), fun dbg => ?_⟩
  · rw [List.mem_range]; have := hu.length_le; omega
  · rw [← List.prefix_iff_eq_take.1 hu]
    refine ⟨_, C131_read _ abs ns hn hne u ?_ ?_ dbg⟩
    · intro q hq hne'
      have hq : q <+: place d abs ns := hq
      have hne' : q ≠ place d abs ns := hne'
      rw [put_put_get _ _ _ _ _ hk, if_neg hne']
      exact hr q hq hne'
    · have := put_put_get d (place d abs ns) (place d abs ns) (.file []) (.file u) hk
      rw [if_pos rfl] at this; exact this

/-! ## C132 -/

/-- Putting a node into a folder that is there, or a file in the place of a file, keeps the tree. -/
theorem isTree_put {d : Disk} {k : List Str} {n : Node} (ht : IsTree d) (hk : k ≠ []) (hr : Reachable d k)
    (h : d.get k ≠ some .folder) : IsTree (d.put k n) := by
  intro q m hq
  rw [get_put _ _ _ _ hk] at hq ⊢
  have hqk : q ≠ k := by
    rintro rfl
    rw [if_neg (by simp)] at hq
    exact h (ht _ _ hq)
  rw [if_neg hqk]
  by_cases he : q ++ [m] = k
  · exact hr q ⟨[m], he⟩ hqk
  · rw [if_neg he] at hq
    exact ht _ _ hq

/-- So does taking away a file or an empty folder. -/
theorem isTree_del {d : Disk} {k : List Str} (ht : IsTree d) (hk : k ≠ []) (h : d.hasChild k = false) :
    IsTree (d.del k) := by
  intro q m hq
  rw [get_del _ _ _ hk] at hq ⊢
  have he : q ++ [m] ≠ k := by rintro rfl; simp at hq
  rw [if_neg he] at hq
  have hqk : q ≠ k := by
    rintro rfl
    have := (hasChild_iff d q).2 ⟨m, hq⟩
    rw [h] at this; cases this
  rw [if_neg hqk]
  exact ht _ _ hq

theorem file_no_child {d : Disk} {k : List Str} {b : Str} (ht : IsTree d) (h : d.get k = some (.file b)) :
    d.hasChild k = false := by
  rw [← Bool.not_eq_true, hasChild_iff]
  rintro ⟨n, hn⟩
  have := ht _ _ hn
  rw [h] at this; cases this

/-- **C132 (trees stay trees).** Whatever text a path object holds, creating folders, removing and writing return, leave a tree a
tree, and change at most one place. -/
theorem C132_tree (d : Disk) (ht : IsTree d) (p : PathObj) (t : Str) :
    (∃ d' p', createFolder d p = .ok (d', p') ∧ IsTree d' ∧ ∃ k, OnlyAt k d d') ∧
    (∃ b d' p', removeFile d p = .ok (b, d', p') ∧ IsTree d' ∧ ∃ k, OnlyAt k d d') ∧
    (∃ d' p', writeFile d p t = .ok (d', p') ∧ IsTree d' ∧ ∃ k, OnlyAt k d d') := by
  obtain ⟨p', hp⟩ := normalize_total d.toFS p
  have hid : ∃ k, OnlyAt k d d := ⟨[], rfl, fun _ _ => rfl⟩
  refine ⟨?_, ?_, ?_⟩
  · rw [createFolder, hp, Outcome.bind_ok]
    refine ⟨_, p', rfl, ?_⟩
    rw [Disk.mkdir]
    split
    · exact ⟨ht, hid⟩
    · rename_i k b hl
      split
      · rename_i hg
        have hk : k ≠ [] := ne_nil_of_get (by rw [hg]; simp)
        exact ⟨isTree_put ht hk (locate_reachable ht hl) (by rw [hg]; simp), k, onlyAt_put _ _ _ hk⟩
      · exact ⟨ht, hid⟩
  · rw [removeFile, hp, Outcome.bind_ok]
    refine ⟨_, _, p', rfl, ?_⟩
    rw [Disk.remove]
    split
    · exact ⟨ht, hid⟩
    · rename_i k b hl
      split
      · exact ⟨ht, hid⟩
      · rename_i bs hg
        have hk : k ≠ [] := ne_nil_of_get (by rw [hg]; simp)
        split
        · exact ⟨ht, hid⟩
        · exact ⟨isTree_del ht hk (file_no_child ht hg), k, onlyAt_del _ _ hk⟩
      · rename_i hg
        split
        · exact ⟨ht, hid⟩
        · rename_i hcnd
          simp only [not_or] at hcnd
          exact ⟨isTree_del ht hcnd.1 (by simpa using hcnd.2.1), k, onlyAt_del _ _ hcnd.1⟩
  · rw [writeFile, hp, Outcome.bind_ok]
    cases ho : d.openWrite (cstr p'.str) with
    | none => exact ⟨d, p', rfl, ht, hid⟩
    | some x =>
      obtain ⟨k, d1⟩ := x
      obtain ⟨hl, hg, rfl⟩ := openWrite_some ho
      have hk := ne_nil_of_get hg
      have hr := locate_reachable ht hl
      refine ⟨_, p', rfl, ?_, k, rfl, fun q hq => by rw [put_put_get _ _ _ _ _ hk, if_neg hq]⟩
      refine isTree_put (isTree_put ht hk hr hg) hk ?_ ?_
      · intro q hq hne; rw [get_put _ _ _ _ hk, if_neg hne]; exact hr q hq hne
      · rw [get_put _ _ _ _ hk, if_pos rfl]; simp

/-- **C132 (creating).** Where the folders on the way exist and the place is free, exactly that folder is created. -/
theorem C132_create (d : Disk) (abs : Bool) (ns : List Str) (hn : ∀ n ∈ ns, Name n) (hne : ns ≠ [])
    (hr : Reachable d (place d abs ns)) (hg : d.get (place d abs ns) = none) :
    ∃ d' p', createFolder d (PathObj.of (text abs ns)) = .ok (d', p') ∧ d'.get (place d abs ns) = some .folder ∧
      OnlyAt (place d abs ns) d d' := by
  have hst := straight_of_reachable hr
  have hk := place_ne (d := d) (abs := abs) hne
  have hl := (locate_text hn hne abs d).1 hst
  refine ⟨d.put (place d abs ns) .folder, ⟨text abs ns, false⟩, ?_, ?_, onlyAt_put _ _ _ hk⟩
  · rw [createFolder, (normalize_text hn hne abs d).1 (.inl (by rw [hg]; simp)), Outcome.bind_ok]
    simp only [text_nozero hn, Disk.mkdir, hl, hg, if_true]
    rfl
  · rw [get_put _ _ _ _ hk, if_pos rfl]

/-- **C132 fails**: that the folder could not be created is not reported. If something is at the place already, or a folder on
the way is missing (folders on the way are not created), the call returns as usual and nothing happens. -/
theorem C132_create_failure_is_silent (d : Disk) (abs : Bool) (ns : List Str) (hn : ∀ n ∈ ns, Name n) (hne : ns ≠ [])
    (ht : IsTree d)
    (h : d.get (place d abs ns) ≠ none ∨ ¬ Reachable d (place d abs ns)) :
    ∃ p', createFolder d (PathObj.of (text abs ns)) = .ok (d, p') := by
  by_cases hst : Straight d abs ns
  · have hl := (locate_text hn hne abs d).1 hst
    have hg : d.get (place d abs ns) ≠ none := by
      rcases h with h | h
      · exact h
      · exact absurd (locate_reachable ht hl) h
    by_cases hf : d.get (place d abs ns) = some .folder
    · refine ⟨⟨text abs ns ++ ['/'], false⟩, ?_⟩
      rw [createFolder, (normalize_text hn hne abs d).2 hf hst, Outcome.bind_ok]
      simp only [slash_nozero hn, Disk.mkdir, locate_slash hn hne abs d hst, if_neg hg]
      rfl
    · refine ⟨⟨text abs ns, false⟩, ?_⟩
      rw [createFolder, (normalize_text hn hne abs d).1 (.inl hf), Outcome.bind_ok]
      simp only [text_nozero hn, Disk.mkdir, hl, if_neg hg]
      rfl
  · refine ⟨⟨text abs ns, false⟩, ?_⟩
    rw [createFolder, (normalize_text hn hne abs d).1 (.inr hst), Outcome.bind_ok]
    simp only [text_nozero hn, Disk.mkdir, (locate_text hn hne abs d).2 hst]
    rfl

/-- **C132 (removing), and C132 fails**: a file or an empty folder is removed, and nothing else; the answer is then `false`. -/
theorem C132_remove_answers_false (d : Disk) (abs : Bool) (ns : List Str) (hn : ∀ n ∈ ns, Name n) (hne : ns ≠ []) (ht : IsTree d)
    (hg : d.get (place d abs ns) ≠ none) (he : ∀ n, d.get (place d abs ns ++ [n]) = none) :
    ∃ d' p', removeFile d (PathObj.of (text abs ns)) = .ok (false, d', p') ∧ d'.get (place d abs ns) = none ∧
      OnlyAt (place d abs ns) d d' := by
  have hst := straight_of_reachable (reachable_of_tree ht hg)
  have hk := place_ne (d := d) (abs := abs) hne
  have hl := (locate_text hn hne abs d).1 hst
  have hch : d.hasChild (place d abs ns) = false := by
    rw [← Bool.not_eq_true, hasChild_iff]
    rintro ⟨n, h⟩; exact h (he n)
  have hd := last_name hn
  have key : ∃ p', removeFile d (PathObj.of (text abs ns)) = .ok (false, d.del (place d abs ns), p') := by
    by_cases hf : d.get (place d abs ns) = some .folder
    · refine ⟨⟨text abs ns ++ ['/'], false⟩, ?_⟩
      rw [removeFile, (normalize_text hn hne abs d).2 hf hst, Outcome.bind_ok]
      simp [slash_nozero hn, Disk.remove, locate_slash hn hne abs d hst, hf, hch, hk, names_slash hn hne, hd]
    · obtain ⟨n, hg'⟩ := Option.ne_none_iff_exists'.1 hg
      cases n with
      | folder => exact absurd hg' hf
      | file b =>
        refine ⟨⟨text abs ns, false⟩, ?_⟩
        rw [removeFile, (normalize_text hn hne abs d).1 (.inl hf), Outcome.bind_ok]
        simp [text_nozero hn, Disk.remove, hl, hg']
  obtain ⟨p', key⟩ := key
  exact ⟨_, p', key, by rw [get_del _ _ _ hk, if_pos rfl], onlyAt_del _ _ hk⟩

/-- **C132 (removing), and C132 fails**: where nothing is, and for a folder with anything in it, nothing happens; the answer is then
`true`. -/
theorem C132_remove_failure_answers_true (d : Disk) (abs : Bool) (ns : List Str) (hn : ∀ n ∈ ns, Name n) (hne : ns ≠ [])
    (ht : IsTree d) (h : d.get (place d abs ns) = none ∨ ∃ n, d.get (place d abs ns ++ [n]) ≠ none) :
    ∃ p', removeFile d (PathObj.of (text abs ns)) = .ok (true, d, p') := by
  rcases h with hg | ⟨n, hch⟩
  · refine ⟨⟨text abs ns, false⟩, ?_⟩
    rw [removeFile, (normalize_text hn hne abs d).1 (.inl (by rw [hg]; simp)), Outcome.bind_ok]
    by_cases hst : Straight d abs ns
    · simp [text_nozero hn, Disk.remove, (locate_text hn hne abs d).1 hst, hg]
    · simp [text_nozero hn, Disk.remove, (locate_text hn hne abs d).2 hst]
  · have hf := ht _ _ hch
    have hst := straight_of_reachable (reachable_of_tree ht (k := place d abs ns) (by rw [hf]; simp))
    have hch := (hasChild_iff d _).2 ⟨n, hch⟩
    refine ⟨⟨text abs ns ++ ['/'], false⟩, ?_⟩
    rw [removeFile, (normalize_text hn hne abs d).2 hf hst, Outcome.bind_ok]
    simp [slash_nozero hn, Disk.remove, locate_slash hn hne abs d hst, hf, hch]

/-- **C131 (kept).** Saved text stays: whatever folders are created, files and folders removed and texts saved afterwards under other
paths, the file can still be read and holds the same text. -/
theorem C131_kept (ops : List FOp) (d : Disk) (ns : List Str) (t : Str) (hn : ∀ n ∈ ns, Name n) (hne : ns ≠ [])
    (ht : IsTree d) (hg : d.get ns = some (.file t))
    (hops : ∀ o ∈ ops, (∀ n ∈ o.names, Name n) ∧ o.names ≠ [] ∧ o.names ≠ ns) :
    ∃ d', runOps d ops = .ok d' ∧ d'.get ns = some (.file t) ∧
      ∀ dbg, ∃ p, getContents dbg d' (PathObj.of (text true ns)) = .ok (t, p) := by
  induction ops generalizing d with
  | nil =>
    exact ⟨d, rfl, hg, fun dbg => ⟨_, C131_read d true ns hn hne t (reachable_of_tree ht (by rw [place]; simp [hg])) hg dbg⟩⟩
  | cons o ops ih =>
    obtain ⟨hon, hone, hns⟩ := hops o List.mem_cons_self
    have hpl : place d true o.names = o.names := by simp [place]
    have T := fun t => C132_tree d ht (PathObj.of (text true o.names)) t
    have step : ∀ d1, IsTree d1 → OnlyAt (place d true o.names) d d1 →
        ∃ d', runOps d1 ops = .ok d' ∧ d'.get ns = some (.file t) ∧
          ∀ dbg, ∃ p, getContents dbg d' (PathObj.of (text true ns)) = .ok (t, p) := by
      intro d1 ht1 h1
      refine ih d1 ht1 ?_ (fun o ho => hops o (List.mem_cons_of_mem _ ho))
      rw [h1.2 ns (by rw [hpl]; exact Ne.symm hns), hg]
    have hid : OnlyAt (place d true o.names) d d := ⟨rfl, fun _ _ => rfl⟩
    cases o with
    | create ks =>
      have key : ∃ d1 p1, createFolder d (PathObj.of (text true ks)) = .ok (d1, p1) ∧ OnlyAt (place d true ks) d d1 := by
        by_cases hx : Reachable d (place d true ks) ∧ d.get (place d true ks) = none
        · obtain ⟨d1, p1, h1, _, h2⟩ := C132_create d true ks hon hone hx.1 hx.2
          exact ⟨d1, p1, h1, h2⟩
        · obtain ⟨p1, h1⟩ := C132_create_failure_is_silent d true ks hon hone ht (by
            by_cases h0 : d.get (place d true ks) = none
            · exact .inr fun hr => hx ⟨hr, h0⟩
            · exact .inl h0)
          exact ⟨d, p1, h1, hid⟩
      obtain ⟨d1, p1, h1, h2⟩ := key
      obtain ⟨⟨d2, p2, e, h3, _⟩, _⟩ := T []
      have e : createFolder d (PathObj.of (text true ks)) = .ok (d2, p2) := e
      rw [h1] at e; cases e
      rw [runOps, h1, Outcome.bind_ok]
      exact step _ h3 h2
    | remove ks =>
      have key : ∃ b d1 p1, removeFile d (PathObj.of (text true ks)) = .ok (b, d1, p1) ∧ OnlyAt (place d true ks) d d1 := by
        by_cases hx : d.get (place d true ks) ≠ none ∧ ∀ n, d.get (place d true ks ++ [n]) = none
        · obtain ⟨d1, p1, h1, _, h2⟩ := C132_remove_answers_false d true ks hon hone ht hx.1 hx.2
          exact ⟨_, d1, p1, h1, h2⟩
        · obtain ⟨p1, h1⟩ := C132_remove_failure_answers_true d true ks hon hone ht (by
            by_cases h0 : d.get (place d true ks) = none
            · exact .inl h0
            · right
              by_contra hc
              exact hx ⟨h0, fun n => by_contra fun hn => hc ⟨n, hn⟩⟩)
          exact ⟨_, d, p1, h1, hid⟩
      obtain ⟨b, d1, p1, h1, h2⟩ := key
      obtain ⟨_, ⟨b2, d2, p2, e, h3, _⟩, _⟩ := T []
      have e : removeFile d (PathObj.of (text true ks)) = .ok (b2, d2, p2) := e
      rw [h1] at e; cases e
      rw [runOps, h1, Outcome.bind_ok]
      exact step _ h3 h2
    | save ks u =>
      have key : ∃ d1 p1, writeFile d (PathObj.of (text true ks)) u = .ok (d1, p1) ∧ OnlyAt (place d true ks) d d1 := by
        by_cases hx : Reachable d (place d true ks) ∧ d.get (place d true ks) ≠ some .folder
        · obtain ⟨d1, p1, h1, _, h2, _⟩ := C131_read_back d true ks hon hone u hx.1 hx.2 true
          exact ⟨d1, p1, h1, h2⟩
        · obtain ⟨p1, h1⟩ := C131_failure_is_silent d true ks hon hone u ht (by
            by_cases h0 : d.get (place d true ks) = some .folder
            · exact .inl h0
            · exact .inr fun hr => hx ⟨hr, h0⟩)
          exact ⟨d, p1, h1, hid⟩
      obtain ⟨d1, p1, h1, h2⟩ := key
      obtain ⟨_, _, ⟨d2, p2, e, h3, _⟩⟩ := T u
      have e : writeFile d (PathObj.of (text true ks)) u = .ok (d2, p2) := e
      rw [h1] at e; cases e
      rw [runOps, h1, Outcome.bind_ok]
      exact step _ h3 h2

/-- **C132 (and back).** Creating a folder and removing it again leaves the disk as it was. -/
theorem C132_create_remove (d : Disk) (abs : Bool) (ns : List Str) (hn : ∀ n ∈ ns, Name n) (hne : ns ≠ []) (ht : IsTree d)
    (hr : Reachable d (place d abs ns)) (hg : d.get (place d abs ns) = none) :
    ∃ d1 p1 b d2 p2, createFolder d (PathObj.of (text abs ns)) = .ok (d1, p1) ∧
      removeFile d1 (PathObj.of (text abs ns)) = .ok (b, d2, p2) ∧ d2.cwd = d.cwd ∧ ∀ q, d2.get q = d.get q := by
  obtain ⟨d1, p1, h1, h2, h3⟩ := C132_create d abs ns hn hne hr hg
  have ht1 : IsTree d1 := by
    obtain ⟨⟨d1', p1', e, h, _⟩, _⟩ := C132_tree d ht (PathObj.of (text abs ns)) []
    rw [h1] at e; cases e; exact h
  have hp : place d1 abs ns = place d abs ns := by rw [place, place, h3.1]
  have he : ∀ n, d1.get (place d abs ns ++ [n]) = none := by
    intro n
    rw [h3.2 _ (by simp)]
    by_contra hx
    have := ht _ _ hx
    rw [hg] at this; cases this
  obtain ⟨d2, p2, h4, h5, h6⟩ := C132_remove_answers_false d1 abs ns hn hne ht1 (by rw [hp, h2]; simp) (by rw [hp]; exact he)
  refine ⟨d1, p1, _, d2, p2, h1, h4, by rw [h6.1, h3.1], fun q => ?_⟩
  rw [hp] at h5 h6
  by_cases hq : q = place d abs ns
  · rw [hq, h5, hg]
  · rw [h6.2 q hq, h3.2 q hq]

/-! ## C133 -/

theorem bmod_small (n m : Nat) (h : 2 * n < m) : Int.bmod (n : Int) m = n := by
  rw [Int.bmod_def, ← Int.natCast_emod, Nat.mod_eq_of_lt (by omega), if_pos (by omega)]

theorem bmod_neg (n m : Nat) (h : m ≤ 2 * n) (h' : n < m) : Int.bmod (n : Int) m < 0 := by
  rw [Int.bmod_def, ← Int.natCast_emod, Nat.mod_eq_of_lt h', if_neg (by omega)]
  omega

theorem bmod_wrap (n m : Nat) (h : 2 * n < m) : Int.bmod ((n + m : Nat) : Int) m = n := by
  rw [Int.bmod_def, ← Int.natCast_emod, Nat.add_mod_right, Nat.mod_eq_of_lt (by omega), if_pos (by omega)]

theorem p31 : (2 : Nat) ^ 31 = 2147483648 := by norm_num

theorem p32 : (2 : Nat) ^ 32 = 4294967296 := by norm_num

/-- **C133.** The digest of a file of less than 2^31 bytes is the RFC 1321 digest of its contents. -/
theorem C133_file_digest_partial (bytes : List Md5.Byte) (h : bytes.length < 2 ^ 31) :
    md5File (some bytes) = .ok (Md5.Rfc.hex (Md5.Rfc.digest bytes)) := by
  have hl : toInt32 bytes.length = bytes.length := by
    exact bmod_small _ _ (by rw [p31] at h; rw [p32]; omega)
  rw [md5File]
  simp only [hl]
  rw [if_neg (by omega), Int.toNat_natCast, List.take_length, Md5.C28_hash_is_rfc1321 _ (by rw [p31] at h; rw [p32]; omega)]

/-- **C133 (bad stream).** A stream that is not good has the empty text as its digest. -/
theorem C133_bad_stream : md5File none = .ok [] := rfl

/-- **C133 fails**: the size is kept in an `int`. A file of 2^31 bytes or more, but less than 2^32, cannot be digested: an exception is
thrown. -/
theorem C133_two_gigabytes_throws (bytes : List Md5.Byte) (h : 2 ^ 31 ≤ bytes.length) (h' : bytes.length < 2 ^ 32) :
    md5File (some bytes) = .throw := by
  have hl : toInt32 bytes.length < 0 := by
    exact bmod_neg _ _ (by rw [p31] at h; rw [p32]; omega) h'
  rw [md5File]
  simp only [if_pos hl]

/-- **C133 fails**: from 2^32 bytes on only the beginning of the file counts; files that differ behind have the same digest. -/
theorem C133_four_gigabytes_prefix (pre rest : List Md5.Byte) (h : pre.length < 2 ^ 31) (hm : rest.length = 2 ^ 32) :
    md5File (some (pre ++ rest)) = .ok (Md5.Rfc.hex (Md5.Rfc.digest pre)) := by
  have hl : toInt32 (pre ++ rest).length = pre.length := by
    rw [List.length_append, hm]
    exact bmod_wrap _ _ (by rw [p31] at h; rw [p32]; omega)
  rw [md5File]
  simp only [hl]
  rw [if_neg (by omega), Int.toNat_natCast, List.take_left, Md5.C28_hash_is_rfc1321 _ (by rw [p31] at h; rw [p32]; omega)]

/-! ## Examples -/

/-- `/a` with a file `/a/f` and an empty folder `/a/b`, which is the current folder. -/
def demo : Disk := ⟨[([['a']], .folder), ([['a'], ['f']], .file ['x']), ([['a'], ['b']], .folder)], [['a'], ['b']]⟩

example : ∃ d' p, writeFile demo (PathObj.of (text true [['a'], ['g']])) ['h', 'i'] = .ok (d', p) ∧
    getContents true d' (PathObj.of (text true [['a'], ['g']])) = .ok (['h', 'i'], p) ∧
    getContents true d' (PathObj.of ['.', '.', '\\', '/', 'g']) = .ok (['h', 'i'], ⟨['.', '.', '/', 'g'], false⟩) :=
  ⟨⟨([['a'], ['g']], .file ['h', 'i']) :: demo.nodes, demo.cwd⟩, ⟨['/', 'a', '/', 'g'], false⟩, by decide +kernel⟩

theorem demo_tree : IsTree demo := by
  intro k n h
  obtain ⟨e, he, hk⟩ := (get_isSome demo (by simp)).1 h
  simp only [demo, List.mem_cons, List.not_mem_nil, or_false] at he
  have e1 : e.1.dropLast = k := by rw [hk]; simp
  rcases he with rfl | rfl | rfl <;> rw [← e1] <;> decide

theorem demo_reachable (n : Str) : Reachable demo [['a'], n] := by
  intro q hq hne
  have : q = [] ∨ q = [['a']] := by
    rcases List.prefix_concat_iff (l₂ := [['a']]).1 hq with e | e
    · exact absurd e hne
    · rcases List.prefix_concat_iff (l₂ := []).1 e with e | e
      · exact .inr e
      · exact .inl (List.prefix_nil.1 e)
  rcases this with rfl | rfl <;> decide

/-- A relative path: the current folder is `/a/b`. -/
example : ∃ d' p', writeFile demo (PathObj.of ['g']) ['h'] = .ok (d', p') ∧ d'.get [['a'], ['b'], ['g']] = some (.file ['h']) ∧
    OnlyAt [['a'], ['b'], ['g']] demo d' ∧ ∃ p'', getContents true d' (PathObj.of ['g']) = .ok (['h'], p'') :=
  C131_read_back demo false [['g']] (by decide) (by decide) ['h']
    (straight_reach demo_tree (by decide)) (by decide) true

/-- **C131 fails**: a JSON file that was cut off can be read as another value: 12 becomes 1. -/
theorem C131_crash_other_value :
    ∃ t ds, Json.write Json.demoOps false (.num (.intS 12)) = .ok t ∧
      crashStates demo (PathObj.of (text true [['a'], ['g']])) t = .ok ds ∧
      ∃ d' ∈ ds, jsonRead Json.demoOps true .nll d' (PathObj.of (text true [['a'], ['g']])) = .ok (true, .num (.intS 1)) := by
  refine ⟨['1', '2'], [demo, (demo.put [['a'], ['g']] (.file [])).put [['a'], ['g']] (.file []),
    (demo.put [['a'], ['g']] (.file [])).put [['a'], ['g']] (.file ['1']),
    (demo.put [['a'], ['g']] (.file [])).put [['a'], ['g']] (.file ['1', '2'])], ?_, ?_,
    (demo.put [['a'], ['g']] (.file [])).put [['a'], ['g']] (.file ['1']), ?_, ?_⟩
  · decide +kernel
  · decide +kernel
  · exact List.mem_cons_of_mem _ (List.mem_cons_of_mem _ List.mem_cons_self)
  · decide +kernel

example := C131_crash_loses_old_text demo true [['a'], ['f']] (by decide) (by decide) ['n', 'e', 'w'] []
  (demo_reachable _) (by decide) ⟨_, rfl⟩

example := C131_json Json.demo_laws true true _ _ .nll Json.demoVal_back demo true [['a'], ['g']] (by decide) (by decide)
  (demo_reachable _) (by decide)

/-- `/a/f` survives the removal of the other things and of what is saved under it. -/
example := C131_kept [.remove [['a'], ['b']], .remove [['a']], .save [['a'], ['f'], ['g']] ['y'], .create [['a'], ['c']],
  .save [['a'], ['c'], ['d']] []] demo [['a'], ['f']] ['x'] (by decide) (by decide) demo_tree (by decide) (by decide)

example := C131_failure_is_silent demo true [['a'], ['b']] (by decide) (by decide) ['y'] demo_tree (.inl (by decide))

example := C131_missing demo true [['a'], ['z']] (by decide) (by decide) (by decide)

example := C132_tree demo demo_tree (PathObj.of ['.', '.', '/', 'f', '/', '.', '.']) ['y']

example := C132_create demo true [['a'], ['c']] (by decide) (by decide) (demo_reachable _) (by decide)

/-- Folders on the way are not created. -/
example : ∃ p', createFolder demo (PathObj.of ['/', 'u', '/', 'v']) = .ok (demo, p') :=
  C132_create_failure_is_silent demo true [['u'], ['v']] (by decide) (by decide) demo_tree
    (.inr fun h => absurd (h [['u']] ⟨[['v']], rfl⟩ (by decide)) (by decide))

/-- Removing a file says `false`; removing a full folder says `true`. -/
example := C132_remove_answers_false demo true [['a'], ['f']] (by decide) (by decide) demo_tree (by decide)
  (fun n => by_contra fun h => by have := demo_tree _ _ h; revert this; decide)

example := C132_remove_failure_answers_true demo true [['a']] (by decide) (by decide) demo_tree (.inr ⟨['b'], by decide⟩)

example := C132_create_remove demo true [['a'], ['c']] (by decide) (by decide) demo_tree (demo_reachable _) (by decide)

example := C133_file_digest_partial [1, 2, 3] (by decide)

example := C133_two_gigabytes_throws (List.replicate (2 ^ 31) 7) (by rw [List.length_replicate]) (by
  rw [List.length_replicate, p31, p32]; norm_num)

example := C133_four_gigabytes_prefix [1, 2] (List.replicate (2 ^ 32) 7) (by decide) (List.length_replicate)

end Verif.Files
