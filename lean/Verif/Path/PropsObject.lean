import Verif.Path.Object
import Verif.Path.Theorems

/-!
# C124: reading a path object
-/

namespace Verif.Path

open Verif Str

/-- The text put into a path by a list of operations, one after the other. -/
def written (s : Str) : List POp → Str
  | [] => s
  | .assign s' :: xs => written s' xs
  | .append s' :: xs => written (s ++ s') xs
  | .clear :: xs => written [] xs
  | .read _ :: xs => written s xs

/-- No read has added a slash: when the text shown ends with one, the text written did so already. -/
def NoSlashAdded (s : Str) (xs : List POp) : Prop :=
  ∀ pre fs post t, xs = pre ++ .read fs :: post → getStr fs (PathObj.of (written s pre)) = .ok t → t.getLast? = some '/' →
    (written s pre).getLast? = some '/' ∨ (written s pre).getLast? = some '\\'

theorem coll_append (b : Bool) (s r : Str) : coll b (coll b s ++ r) = coll b (s ++ r) := by
  induction s generalizing b with
  | nil => rfl
  | cons c s ih =>
    by_cases hc : c = '/'
    · subst hc
      cases b with
      | true => simp only [coll, if_true, List.cons_append]; exact ih true
      | false => simp [coll, ih]
    · simp [coll, hc, ih]

theorem coll_unback_append (s r : Str) :
    coll false ((coll false (s.map unback) ++ r).map unback) = coll false ((s ++ r).map unback) := by
  have h : (coll false (s.map unback)).map unback = coll false (s.map unback) := by
    have : ∀ c ∈ coll false (s.map unback), unback c = c := by
      intro c hc
      have := coll_mem _ _ _ hc
      obtain ⟨d, _, rfl⟩ := List.mem_map.1 this
      simp only [unback]; split <;> simp_all
    rw [List.map_congr_left this, List.map_id']
  rw [List.map_append, h, coll_append, List.map_append]

theorem normalize_total (fs : FS) (p : PathObj) : ∃ q, normalize fs p = .ok q ∧ q.mustNormalize = false ∧ normalize fs q = .ok q ∧
    (p.mustNormalize = false → q = p) ∧ (p.mustNormalize = true → getStr fs (PathObj.of p.str) = .ok q.str) := by
  obtain ⟨s, b⟩ := p
  cases b with
  | false => exact ⟨⟨s, false⟩, rfl, rfl, rfl, fun _ => rfl, fun h => by simp at h⟩
  | true =>
    have h := normalize_of fs s
    rw [PathObj.of] at h
    refine ⟨_, h, rfl, rfl, fun h => by simp at h, fun _ => ?_⟩
    simp only [getStr, PathObj.of, h, Outcome.bind_ok, Outcome.pure_eq]

theorem prun_append (p : PathObj) (xs ys : List POp) :
    prun p (xs ++ ys) = (prun p xs >>= fun r => prun r.1 ys >>= fun r' => .ok (r'.1, r.2 ++ r'.2)) := by
  induction xs generalizing p with
  | nil =>
    simp only [List.nil_append, prun, Outcome.bind_ok]
    cases prun p ys <;> rfl
  | cons x xs ih =>
    simp only [List.cons_append, prun]
    cases pstep p x with
    | ok r =>
      simp only [Outcome.bind_ok, ih]
      cases prun r.1 xs with
      | ok r1 =>
        simp only [Outcome.bind_ok]
        cases prun r1.1 ys <;> simp [Outcome.bind_ok, List.append_assoc] <;> rfl
      | _ => rfl
    | _ => rfl

theorem prun_total (p : PathObj) (xs : List POp) : ∃ q out, prun p xs = .ok (q, out) := by
  induction xs generalizing p with
  | nil => exact ⟨p, [], rfl⟩
  | cons x xs ih =>
    have : ∃ r, pstep p x = .ok r := by
      cases x with
      | read fs =>
        obtain ⟨q, h, _⟩ := normalize_total fs p
        exact ⟨(q, [q.str]), by simp [pstep, h]⟩
      | _ => exact ⟨_, rfl⟩
    obtain ⟨r, h⟩ := this
    obtain ⟨q, out, h'⟩ := ih r.1
    exact ⟨q, r.2 ++ out, by simp [prun, h, h']⟩

/-- **C124 (cache).** Whatever was done before, two reads in a row show the same text — also if the file system changes between
them. No operation fails. -/
theorem C124_read_twice (p : PathObj) (xs : List POp) (fs fs' : FS) :
    ∃ q out t, prun p (xs ++ [.read fs, .read fs']) = .ok (q, out ++ [t, t]) := by
  obtain ⟨q, out, h⟩ := prun_total p xs
  obtain ⟨q', h1, h2, _⟩ := normalize_total fs q
  obtain ⟨q'', h3, _, _, h4, _⟩ := normalize_total fs' q'
  have h4 := h4 h2
  subst h4
  refine ⟨q'', out, q''.str, ?_⟩
  rw [prun_append, h]
  simp [prun, pstep, h1, h3]

/-- **C124 (changes).** After an assignment or `clear` a read shows what a new path with that text shows, whatever was done
before. -/
theorem C124_forgets (p : PathObj) (xs : List POp) (fs : FS) (s : Str) :
    (∃ q out t, prun p (xs ++ [.assign s, .read fs]) = .ok (q, out ++ [t]) ∧ getStr fs (PathObj.of s) = .ok t) ∧
    (∃ q out t, prun p (xs ++ [.clear, .read fs]) = .ok (q, out ++ [t]) ∧ getStr fs (PathObj.of []) = .ok t) := by
  obtain ⟨q, out, h⟩ := prun_total p xs
  constructor
  · obtain ⟨q', h1, _, _, _, h2⟩ := normalize_total fs (PathObj.of s)
    refine ⟨q', out, q'.str, ?_, h2 rfl⟩
    rw [prun_append, h]
    simp [prun, pstep, h1]
  · obtain ⟨q', h1, _, _, _, h2⟩ := normalize_total fs q.clear
    refine ⟨q', out, q'.str, ?_, h2 rfl⟩
    rw [prun_append, h]
    simp [prun, pstep, h1]

/-- The object's text differs from the text written only by reads that normalised it. -/
theorem prun_written (s : Str) (xs : List POp) (hn : NoSlashAdded s xs) (p q : PathObj) (out : List Str)
    (hp : ∀ r, coll false ((p.str ++ r).map unback) = coll false ((s ++ r).map unback))
    (hf : p.mustNormalize = true ∨ p.str = coll false (s.map unback)) (h : prun p xs = .ok (q, out)) :
    ∀ r, coll false ((q.str ++ r).map unback) = coll false ((written s xs ++ r).map unback) := by
  induction xs generalizing s p out with
  | nil =>
    simp only [prun, Outcome.ok.injEq, Prod.mk.injEq] at h
    rw [← h.1]; exact hp
  | cons x xs ih =>
    have hn' : NoSlashAdded (written s [x]) xs := by
      intro pre fs post t e
      have e' : x :: xs = (x :: pre) ++ .read fs :: post := by rw [e]; rfl
      have := hn (x :: pre) fs post t e'
      cases x <;> exact this
    simp only [prun] at h
    obtain ⟨⟨p1, o1⟩, h1, h2⟩ := Outcome.bind_eq_ok.1 h
    obtain ⟨⟨q', o2⟩, h3, h4⟩ := Outcome.bind_eq_ok.1 h2
    simp only [Outcome.ok.injEq, Prod.mk.injEq] at h4
    obtain ⟨rfl, -⟩ := h4
    cases x with
    | assign s' =>
      simp only [pstep, Outcome.ok.injEq, Prod.mk.injEq] at h1
      obtain ⟨rfl, rfl⟩ := h1
      exact ih s' hn' _ _ (fun r => rfl) (.inl rfl) h3
    | append s' =>
      simp only [pstep, Outcome.ok.injEq, Prod.mk.injEq] at h1
      obtain ⟨rfl, rfl⟩ := h1
      exact ih (s ++ s') hn' _ _ (fun r => by
        simp only [PathObj.append, List.append_assoc]; exact hp _) (.inl rfl) h3
    | clear =>
      simp only [pstep, Outcome.ok.injEq, Prod.mk.injEq] at h1
      obtain ⟨rfl, rfl⟩ := h1
      exact ih [] hn' _ _ (fun r => rfl) (.inl rfl) h3
    | read fs =>
      simp only [pstep] at h1
      obtain ⟨p2, h5, h6⟩ := Outcome.bind_eq_ok.1 h1
      simp only [Outcome.ok.injEq, Prod.mk.injEq] at h6
      obtain ⟨rfl, rfl⟩ := h6
      have key : p2.str = coll false (s.map unback) := by
        obtain ⟨q2, e1, _, _, e2, e3⟩ := normalize_total fs p
        rw [h5] at e1; cases e1
        cases hm : p.mustNormalize with
        | false =>
          rw [e2 hm]
          exact hf.resolve_left (by simp [hm])
        | true =>
          have e3 := e3 hm
          rw [getStr_of] at e3
          have hps := hp []
          rw [List.append_nil, List.append_nil] at hps
          rw [hps] at e3
          have e4 : getStr fs (PathObj.of s) = .ok p2.str := by rw [getStr_of]; exact e3
          simp only [Outcome.ok.injEq] at e3
          by_cases hc : ¬ ['/'] <:+ coll false (s.map unback) ∧ isFolder fs (coll false (s.map unback)) = true
          · exfalso
            rw [if_pos hc] at e3
            have := hn [] fs xs p2.str rfl e4 (by rw [← e3]; simp)
            apply hc.1
            have hl : (coll false (s.map unback)).getLast? = some '/' := by
              rw [(coll_getLast _).1, List.getLast?_map]
              rcases this with h | h <;> simp only [written] at h <;> rw [h] <;> rfl
            obtain ⟨l, hl⟩ := List.getLast?_eq_some_iff.1 hl
            exact ⟨l, hl.symm⟩
          · rw [if_neg hc] at e3
            exact e3.symm
      exact ih s hn' p2 _ (fun r => by rw [key]; exact coll_unback_append s r) (.inr key) h3

/-- **C124 (appending).** As long as no read has added a slash, reads do not matter: what is shown after an append is what a new
path with the whole text written shows. (Without that condition it is false: `C124_reads_matter`.) -/
theorem C124_append_partial (s s' : Str) (xs : List POp) (fs : FS) (hn : NoSlashAdded s xs) :
    ∃ q out t, prun (PathObj.of s) (xs ++ [.append s', .read fs]) = .ok (q, out ++ [t]) ∧
      getStr fs (PathObj.of (written s xs ++ s')) = .ok t := by
  obtain ⟨q, out, h⟩ := prun_total (PathObj.of s) xs
  have hw := prun_written s xs hn (PathObj.of s) q out (fun _ => rfl) (.inl rfl) h s'
  obtain ⟨q', h1, _, _, _, h2⟩ := normalize_total fs (q.append s')
  refine ⟨q', out, q'.str, ?_, ?_⟩
  · rw [prun_append, h]
    simp [prun, pstep, h1]
  · rw [← h2 rfl, getStr_of, getStr_of]
    have : coll false ((q.append s').str.map unback) = coll false ((written s xs ++ s').map unback) := hw
    rw [this]

/-- A file system with the folder `foo` only. -/
def fooFs : FS := ⟨fun s => if s = ['f', 'o', 'o'] ∨ s = ['f', 'o', 'o', '/'] then some .folder else none, fun _ => none⟩

/-- Hypotheses met: two reads and an append between them. -/
example : NoSlashAdded "a".toList [.read fooFs, .append "\\/b".toList, .read fooFs] := by
  intro pre fs post t e h1 h2
  rcases pre with _ | ⟨x, _ | ⟨y, _ | ⟨z, pre⟩⟩⟩
  · simp only [List.nil_append, List.cons.injEq, POp.read.injEq] at e
    obtain ⟨rfl, -⟩ := e
    have : getStr fooFs (PathObj.of (written "a".toList [])) = .ok ['a'] := by rw [getStr_of]; decide
    rw [this] at h1; cases h1; simp at h2
  · simp at e
  · simp only [List.cons_append, List.nil_append, List.cons.injEq, POp.read.injEq] at e
    obtain ⟨rfl, rfl, rfl, -⟩ := e
    have : getStr fooFs (PathObj.of (written "a".toList [.read fooFs, .append "\\/b".toList])) = .ok ['a', '/', 'b'] := by
      rw [getStr_of]; decide
    rw [this] at h1; cases h1; simp at h2
  · simp at e

/-- **C124, violated.** A read changes what later appends give: with the folder `foo`, appending `bar` to `foo` gives `foobar`, but
`foo/bar` if the path was read before. -/
theorem C124_reads_matter :
    (∃ q, prun (PathObj.of "foo".toList) [.append "bar".toList, .read fooFs] = .ok (q, ["foobar".toList])) ∧
    (∃ q, prun (PathObj.of "foo".toList) [.read fooFs, .append "bar".toList, .read fooFs] =
      .ok (q, ["foo/".toList, "foo/bar".toList])) := by
  constructor
  · refine ⟨⟨"foobar".toList, false⟩, ?_⟩
    have : normalize fooFs ((PathObj.of "foo".toList).append "bar".toList) = .ok ⟨"foobar".toList, false⟩ := by
      have := normalize_of fooFs "foobar".toList
      refine this.trans ?_
      decide
    simp only [prun, pstep, this, Outcome.bind_ok, List.nil_append, List.append_nil]
  · refine ⟨⟨"foo/bar".toList, false⟩, ?_⟩
    have h1 : normalize fooFs (PathObj.of "foo".toList) = .ok ⟨"foo/".toList, false⟩ := by
      rw [normalize_of]; decide
    have h2 : normalize fooFs (PathObj.append ⟨"foo/".toList, false⟩ "bar".toList) = .ok ⟨"foo/bar".toList, false⟩ := by
      have := normalize_of fooFs "foo/bar".toList
      refine this.trans ?_
      decide
    simp only [prun, pstep, h1, h2, Outcome.bind_ok, List.nil_append, List.append_nil, List.singleton_append]

/-- **C124, stale answers.** A folder created after the first read is not noticed. -/
theorem C124_stale :
    ∃ q, prun (PathObj.of "foo".toList) [.read ⟨fun _ => none, fun _ => none⟩, .read fooFs] = .ok (q, ["foo".toList, "foo".toList]) := by
  refine ⟨⟨"foo".toList, false⟩, ?_⟩
  have h1 : normalize ⟨fun _ => none, fun _ => none⟩ (PathObj.of "foo".toList) = .ok ⟨"foo".toList, false⟩ := by
    rw [normalize_of]; decide
  have h2 : normalize fooFs ⟨"foo".toList, false⟩ = .ok ⟨"foo".toList, false⟩ := rfl
  simp only [prun, pstep, h1, h2, Outcome.bind_ok, List.append_nil, List.singleton_append]

end Verif.Path
