import Verif.Files.Spec
import Verif.Path.Lemmas
import Mathlib.Data.List.SplitOn
import Mathlib.Data.List.TakeWhile

/-! # Lemmas about disks -/

namespace Verif.Files

open Verif Str Path

theorem get_nil (d : Disk) : d.get [] = some .folder := rfl

theorem get_eq (d : Disk) {k : List Str} (h : k ≠ []) : d.get k = (d.nodes.find? (·.1 = k)).map (·.2) := if_neg h

theorem find_filter (k q : List Str) (h : q ≠ k) (l : List (List Str × Node)) :
    (l.filter (fun e => decide (e.1 ≠ k))).find? (·.1 = q) = l.find? (·.1 = q) := by
  induction l with
  | nil => rfl
  | cons e l ih =>
    rw [List.filter_cons]
    by_cases he : e.1 = k
    · have hq : ¬ e.1 = q := fun h' => h (h'.symm.trans he)
      simp only [he, ne_eq, not_true_eq_false, decide_false, Bool.false_eq_true, if_false]
      rw [ih, List.find?_cons_of_neg (by simpa using hq)]
    · simp only [ne_eq, he, not_false_eq_true, decide_true, if_true]
      by_cases hq : e.1 = q
      · rw [List.find?_cons_of_pos (by simpa using hq), List.find?_cons_of_pos (by simpa using hq)]
      · rw [List.find?_cons_of_neg (by simpa using hq), List.find?_cons_of_neg (by simpa using hq), ih]

theorem get_del (d : Disk) (k q : List Str) (hk : k ≠ []) : (d.del k).get q = if q = k then none else d.get q := by
  by_cases hq : q = k
  · subst hq
    rw [if_pos rfl, get_eq _ hk, Disk.del]
    simp only [Option.map_eq_none_iff, List.find?_eq_none, List.mem_filter]
    rintro e ⟨_, he⟩
    simpa using he
  · rw [if_neg hq]
    by_cases h0 : q = []
    · subst h0; rfl
    · rw [get_eq _ h0, get_eq _ h0, Disk.del]
      simp only []
      rw [find_filter k q hq]

theorem get_put (d : Disk) (k q : List Str) (n : Node) (hk : k ≠ []) :
    (d.put k n).get q = if q = k then some n else d.get q := by
  by_cases hq : q = k
  · subst hq
    rw [if_pos rfl, get_eq _ hk, Disk.put]
    simp
  · rw [if_neg hq]
    by_cases h0 : q = []
    · subst h0; rfl
    · have e : (d.put k n).get q = (d.del k).get q := by
        rw [get_eq _ h0, get_eq _ h0, Disk.put]
        simp only []
        rw [List.find?_cons_of_neg (by simpa using fun h => hq h.symm)]
      rw [e, get_del d k q hk, if_neg hq]

theorem get_isSome (d : Disk) {k : List Str} (h : k ≠ []) : d.get k ≠ none ↔ ∃ e ∈ d.nodes, e.1 = k := by
  rw [get_eq d h]
  simp [List.find?_eq_none]

theorem hasChild_iff (d : Disk) (k : List Str) : d.hasChild k = true ↔ ∃ n, d.get (k ++ [n]) ≠ none := by
  rw [Disk.hasChild, List.any_eq_true]
  constructor
  · rintro ⟨e, he, h⟩
    simp only [decide_eq_true_eq] at h
    obtain ⟨h0, rfl⟩ := h
    refine ⟨e.1.getLast h0, ?_⟩
    rw [get_isSome d (by simp)]
    exact ⟨e, he, (List.dropLast_append_getLast h0).symm⟩
  · rintro ⟨n, h⟩
    rw [get_isSome d (by simp)] at h
    obtain ⟨e, he, h⟩ := h
    exact ⟨e, he, by simp [h]⟩

/-! ### Walking -/

/-- Ordinary names: walking goes straight, through folders. -/
theorem walk_names (d : Disk) (k : List Str) : ∀ (ns cur : List Str), (∀ n ∈ ns, Name n) →
    (d.walk cur ns = some k ↔ (∀ q, q <+: ns → q ≠ ns → d.get (cur ++ q) = some .folder) ∧ k = cur ++ ns)
  | [], cur, _ => by
    rw [Disk.walk, List.append_nil]
    constructor
    · intro h; cases h
      exact ⟨fun q hq hne => absurd (List.prefix_nil.1 hq) hne, rfl⟩
    · rintro ⟨_, rfl⟩; rfl
  | n :: ns, cur, h => by
    have hn := h n List.mem_cons_self
    rw [Disk.walk]
    by_cases hc : d.get cur = some .folder
    · rw [if_pos hc, if_neg hn.2.2.2.2.1, if_neg hn.2.2.2.2.2,
        walk_names d k ns (cur ++ [n]) (fun m hm => h m (List.mem_cons_of_mem _ hm))]
      refine and_congr ?_ (by simp)
      constructor
      · intro hq q hp hne
        cases q with
        | nil => simpa using hc
        | cons a q =>
          obtain ⟨rfl, hp'⟩ := List.cons_prefix_cons.1 hp
          have := hq q hp' (fun h => hne (by rw [h]))
          simpa using this
      · intro hq q hp hne
        have := hq (n :: q) (List.cons_prefix_cons.2 ⟨rfl, hp⟩) (fun h => hne (by simpa using h))
        simpa using this
    · rw [if_neg hc]
      constructor
      · intro h1; cases h1
      · rintro ⟨h1, _⟩
        exact absurd (by simpa using h1 [] List.nil_prefix (by simp)) hc

/-- A place that was walked to: everything before it is a folder, or it is a folder itself. -/
theorem walk_reachable (d : Disk) : ∀ (ns cur k : List Str), IsTree d → d.walk cur ns = some k →
    (∀ q, q <+: cur → q ≠ cur → d.get q = some .folder) → Reachable d k
  | [], cur, k, _, h, hc => by
    rw [Disk.walk] at h; cases h; exact hc
  | n :: ns, cur, k, ht, h, hc => by
    rw [Disk.walk] at h
    split at h
    · rename_i hf
      split at h
      · exact walk_reachable d ns cur k ht h hc
      · split at h
        · refine walk_reachable d ns cur.dropLast k ht h ?_
          intro q hq hne
          refine hc q (hq.trans (List.dropLast_prefix _)) ?_
          rintro rfl
          have h1 := hq.length_le
          rw [List.length_dropLast] at h1
          have h2 : q.length = 0 := by omega
          have h3 : q = [] := List.eq_nil_of_length_eq_zero h2
          subst h3; simp at hne
        · refine walk_reachable d ns (cur ++ [n]) k ht h ?_
          intro q hq hne
          rcases List.prefix_concat_iff.1 hq with rfl | hq
          · exact absurd rfl hne
          · by_cases hqc : q = cur
            · rw [hqc]; exact hf
            · exact hc q hq hqc
    · cases h

/-! ### Texts -/

theorem name_ne (n : Str) (h : Name n) : n ≠ [] := h.1

theorem intercalate_cons (n : Str) (ns : List Str) (h : ns ≠ []) :
    List.intercalate ['/'] (n :: ns) = n ++ '/' :: List.intercalate ['/'] ns := by
  cases ns with
  | nil => exact absurd rfl h
  | cons m ns => simp [List.intercalate, List.intersperse]

theorem intercalate_names {ns : List Str} (h : ∀ n ∈ ns, Name n) (hne : ns ≠ []) :
    (List.intercalate ['/'] ns).splitOn '/' = ns :=
  List.splitOn_intercalate '/' (fun n hn => (h n hn).2.1) hne

theorem inter_head {ns : List Str} (h : ∀ n ∈ ns, Name n) (hne : ns ≠ []) :
    ∃ c t, List.intercalate ['/'] ns = c :: t ∧ c ≠ '/' := by
  cases ns with
  | nil => exact absurd rfl hne
  | cons n ns =>
    have hn := h n List.mem_cons_self
    cases n with
    | nil => exact absurd rfl hn.1
    | cons c t =>
      have hc : c ≠ '/' := by rintro rfl; exact hn.2.1 List.mem_cons_self
      cases ns with
      | nil => exact ⟨c, t, by simp [List.intercalate], hc⟩
      | cons m ns => exact ⟨c, _, by rw [intercalate_cons _ _ (by simp)]; rfl, hc⟩

theorem inter_last {ns : List Str} (h : ∀ n ∈ ns, Name n) (hne : ns ≠ []) :
    (List.intercalate ['/'] ns).getLast? ≠ some '/' := by
  induction ns with
  | nil => exact absurd rfl hne
  | cons n ns ih =>
    have hn := h n List.mem_cons_self
    by_cases h0 : ns = []
    · subst h0
      have : List.intercalate ['/'] [n] = n := by simp [List.intercalate]
      rw [this]
      intro hl
      exact hn.2.1 (List.mem_of_getLast? hl)
    · rw [intercalate_cons _ _ h0, List.getLast?_append]
      have := ih (fun m hm => h m (List.mem_cons_of_mem _ hm)) h0
      obtain ⟨c, t, e, hc⟩ := inter_head (fun m hm => h m (List.mem_cons_of_mem _ hm)) h0
      rw [e] at this ⊢
      rw [List.getLast?_cons_cons]
      cases hl : (c :: t).getLast? with
      | none => simp at hl
      | some x => rw [hl] at this; simpa using this

theorem inter_mem {ns : List Str} {c : Char} (h : c ∈ List.intercalate ['/'] ns) : c = '/' ∨ ∃ n ∈ ns, c ∈ n := by
  induction ns with
  | nil => simp [List.intercalate] at h
  | cons n ns ih =>
    by_cases h0 : ns = []
    · subst h0
      have : List.intercalate ['/'] [n] = n := by simp [List.intercalate]
      rw [this] at h
      exact .inr ⟨n, List.mem_cons_self, h⟩
    · rw [intercalate_cons _ _ h0] at h
      rcases List.mem_append.1 h with h | h
      · exact .inr ⟨n, List.mem_cons_self, h⟩
      · rcases List.mem_cons.1 h with h | h
        · exact .inl h
        · rcases ih h with h | ⟨m, hm, h⟩
          · exact .inl h
          · exact .inr ⟨m, List.mem_cons_of_mem _ hm, h⟩

theorem text_ne {ns : List Str} (h : ∀ n ∈ ns, Name n) (hne : ns ≠ []) (abs : Bool) : text abs ns ≠ [] := by
  obtain ⟨c, t, e, _⟩ := inter_head h hne
  rw [text, e]; simp

theorem text_last {ns : List Str} (h : ∀ n ∈ ns, Name n) (hne : ns ≠ []) (abs : Bool) :
    (text abs ns).getLast? ≠ some '/' := by
  have h1 := inter_last h hne
  obtain ⟨c, t, e, _⟩ := inter_head h hne
  cases abs with
  | false => simpa [text] using h1
  | true =>
    rw [e] at h1
    rw [text, e]
    simpa using h1

theorem names_text {ns : List Str} (h : ∀ n ∈ ns, Name n) (hne : ns ≠ []) (abs : Bool) : names (text abs ns) = ns := by
  have hf : ns.filter (fun n => !n.isEmpty) = ns := by
    rw [List.filter_eq_self]
    intro n hn
    simpa using (h n hn).1
  cases abs with
  | false => simp only [names, text, Bool.false_eq_true, if_false, List.nil_append, intercalate_names h hne, hf]
  | true =>
    have : text true ns = '/' :: List.intercalate ['/'] ns := rfl
    rw [names, this]
    have e : ('/' :: List.intercalate ['/'] ns).splitOn '/' = [] :: (List.intercalate ['/'] ns).splitOn '/' := by
      simp only [List.splitOn, List.splitOnP_cons, beq_self_eq_true, if_true]
    rw [e, intercalate_names h hne]
    simp [hf]

theorem text_nozero {ns : List Str} (h : ∀ n ∈ ns, Name n) (abs : Bool) : cstr (text abs ns) = text abs ns := by
  rw [cstr, List.takeWhile_eq_self_iff]
  intro c hc
  have : c ≠ Char.ofNat 0 := by
    rintro rfl
    rw [text] at hc
    rcases List.mem_append.1 hc with hc | hc
    · cases abs <;> simp at hc
    · rcases inter_mem hc with hc | ⟨n, hn, hc⟩
      · exact absurd hc (by decide)
      · exact (h n hn).2.2.2.1 hc
  simpa using this

theorem text_canonical {ns : List Str} (h : ∀ n ∈ ns, Name n) (abs : Bool) : Canonical (text abs ns) := by
  have hi : ¬ ['/', '/'] <:+: List.intercalate ['/'] ns := by
    induction ns with
    | nil => simp [List.intercalate]
    | cons n ns ih =>
      have hn := h n List.mem_cons_self
      have hplain : ∀ (l t : Str), '/' ∉ l → ¬ ['/', '/'] <:+: t → t.head? ≠ some '/' ∨ l = [] ∨ True →
          ¬ ['/', '/'] <:+: l ++ t := by
        intro l
        induction l with
        | nil => intro t _ ht _; exact ht
        | cons c l ihl =>
          intro t hl ht _
          rw [List.cons_append, infix_double]
          rintro (⟨hc, _⟩ | hi)
          · exact hl (by rw [hc]; exact List.mem_cons_self)
          · exact ihl t (fun hm => hl (List.mem_cons_of_mem _ hm)) ht (.inr (.inr trivial)) hi
      by_cases h0 : ns = []
      · subst h0
        have : List.intercalate ['/'] [n] = n ++ [] := by simp [List.intercalate]
        rw [this]
        exact hplain n [] hn.2.1 (by decide) (.inr (.inr trivial))
      · rw [intercalate_cons _ _ h0]
        refine hplain n _ hn.2.1 ?_ (.inr (.inr trivial))
        rw [infix_double]
        obtain ⟨c, t, e, hc⟩ := inter_head (fun m hm => h m (List.mem_cons_of_mem _ hm)) h0
        rintro (⟨_, hh⟩ | hh)
        · rw [e] at hh; simp at hh; exact hc hh
        · exact ih (fun m hm => h m (List.mem_cons_of_mem _ hm)) hh
  have hb : '\\' ∉ List.intercalate ['/'] ns := by
    intro hm
    rcases inter_mem hm with hm | ⟨n, hn, hm⟩
    · exact absurd hm (by decide)
    · exact (h n hn).2.2.1 hm
  cases abs with
  | false => exact ⟨by simpa [text] using hb, by simpa [text] using hi⟩
  | true =>
    have e : text true ns = '/' :: List.intercalate ['/'] ns := rfl
    rw [e]
    refine ⟨by simpa using hb, ?_⟩
    rw [infix_double]
    rintro (⟨_, hh⟩ | hh)
    · by_cases h0 : ns = []
      · subst h0; simp [List.intercalate] at hh
      · obtain ⟨c, t, e, hc⟩ := inter_head h h0
        rw [e] at hh; simp at hh; exact hc hh
    · exact hi hh

theorem last_name {ns : List Str} (h : ∀ n ∈ ns, Name n) :
    ns.getLast? ≠ some ['.'] ∧ ns.getLast? ≠ some ['.', '.'] := by
  constructor
  · intro hl; exact (h _ (List.mem_of_getLast? hl)).2.2.2.2.1 rfl
  · intro hl; exact (h _ (List.mem_of_getLast? hl)).2.2.2.2.2 rfl

theorem text_head {ns : List Str} (h : ∀ n ∈ ns, Name n) (hne : ns ≠ []) (abs : Bool) :
    (text abs ns).head? = some '/' ↔ abs = true := by
  obtain ⟨c, t, e, hc⟩ := inter_head h hne
  cases abs with
  | false => rw [text, e]; simp [hc]
  | true => simp [text]

/-- Everything between the start and the place is a folder. -/
def Straight (d : Disk) (abs : Bool) (ns : List Str) : Prop :=
  ∀ q, q <+: ns → q ≠ ns → d.get ((if abs then [] else d.cwd) ++ q) = some .folder

theorem locate_text {ns : List Str} (h : ∀ n ∈ ns, Name n) (hne : ns ≠ []) (abs : Bool) (d : Disk) :
    (Straight d abs ns → d.locate (text abs ns) = some (place d abs ns, false)) ∧
    (¬ Straight d abs ns → d.locate (text abs ns) = none) := by
  rw [Disk.locate, if_neg (text_ne h hne abs), names_text h hne]
  have hl := text_last h hne abs
  have hd := last_name h
  have hs : (if (text abs ns).head? = some '/' then [] else d.cwd) = if abs then [] else d.cwd := by
    by_cases ha : abs = true
    · rw [if_pos ((text_head h hne abs).2 ha), if_pos ha]
    · rw [if_neg (fun h' => ha ((text_head h hne abs).1 h')), if_neg ha]
  rw [hs]
  have hb : decide ((text abs ns).getLast? = some '/' ∨ ns.getLast? = some ['.'] ∨ ns.getLast? = some ['.', '.']) = false := by
    simp [hl, hd]
  rw [hb]
  constructor
  · intro hst
    rw [(walk_names d (place d abs ns) ns _ h).2 ⟨hst, rfl⟩]; rfl
  · intro hst
    rw [Option.map_eq_none_iff]
    cases hw : d.walk (if abs then [] else d.cwd) ns with
    | none => rfl
    | some k => exact absurd ((walk_names d k ns _ h).1 hw).1 hst

theorem names_slash {ns : List Str} (h : ∀ n ∈ ns, Name n) (hne : ns ≠ []) (abs : Bool) :
    names (text abs ns ++ ['/']) = ns := by
  have h1 := names_text h hne abs
  rw [names] at h1 ⊢
  have : (text abs ns ++ ['/']).splitOn '/' = (text abs ns).splitOn '/' ++ [[]] := by
    have := List.splitOn_append_cons_self (a := '/') (text abs ns) []
    simpa using this
  rw [this, List.filter_append, h1]
  simp

/-- The text with a slash behind. -/
theorem locate_slash {ns : List Str} (h : ∀ n ∈ ns, Name n) (hne : ns ≠ []) (abs : Bool) (d : Disk)
    (hst : Straight d abs ns) : d.locate (text abs ns ++ ['/']) = some (place d abs ns, true) := by
  have hn := names_slash h hne abs
  have hh : (text abs ns ++ ['/']).head? = (text abs ns).head? := by
    cases e : text abs ns with
    | nil => exact absurd e (text_ne h hne abs)
    | cons c t => rfl
  rw [Disk.locate, if_neg (by simp), hn, hh]
  have hs : (if (text abs ns).head? = some '/' then [] else d.cwd) = if abs then [] else d.cwd := by
    by_cases ha : abs = true
    · rw [if_pos ((text_head h hne abs).2 ha), if_pos ha]
    · rw [if_neg (fun h' => ha ((text_head h hne abs).1 h')), if_neg ha]
  rw [hs, (walk_names d (place d abs ns) ns _ h).2 ⟨hst, rfl⟩]
  simp

/-- Normalising the text of a path. -/
theorem normalize_text {ns : List Str} (h : ∀ n ∈ ns, Name n) (hne : ns ≠ []) (abs : Bool) (d : Disk) :
    (d.get (place d abs ns) ≠ some .folder ∨ ¬ Straight d abs ns →
      normalize d.toFS (PathObj.of (text abs ns)) = .ok ⟨text abs ns, false⟩) ∧
    (d.get (place d abs ns) = some .folder → Straight d abs ns →
      normalize d.toFS (PathObj.of (text abs ns)) = .ok ⟨text abs ns ++ ['/'], false⟩) := by
  rw [normalize_canonical _ _ (text_canonical h abs)]
  have hl : ¬ ['/'] <:+ text abs ns := by
    rw [suffix_singleton]; exact text_last h hne abs
  have hf : isFolder d.toFS (text abs ns) = true ↔ (Straight d abs ns ∧ d.get (place d abs ns) = some .folder) := by
    rw [isFolder, text_nozero h]
    show (d.stat (text abs ns) == some .folder) = true ↔ _
    rw [Disk.stat]
    by_cases hst : Straight d abs ns
    · rw [(locate_text h hne abs d).1 hst]
      simp only []
      cases hg : d.get (place d abs ns) with
      | none => simp
      | some n => cases n <;> simp [hst]
    · rw [(locate_text h hne abs d).2 hst]
      simp [hst]
  constructor
  · intro hn
    rw [if_neg]
    rintro ⟨_, h2⟩
    obtain ⟨h3, h4⟩ := hf.1 h2
    rcases hn with hn | hn
    · exact hn h4
    · exact hn h3
  · intro hg hst
    rw [if_pos ⟨hl, hf.2 ⟨hst, hg⟩⟩]

theorem slash_nozero {ns : List Str} (h : ∀ n ∈ ns, Name n) (abs : Bool) :
    cstr (text abs ns ++ ['/']) = text abs ns ++ ['/'] := by
  have := text_nozero h abs
  rw [cstr, List.takeWhile_eq_self_iff] at this ⊢
  intro c hc
  rcases List.mem_append.1 hc with hc | hc
  · exact this c hc
  · simp at hc; subst hc; decide

end Verif.Files
