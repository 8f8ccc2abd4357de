import Verif.Tmpl.LemmasMain

/-! # Repeated passes, and the meaning of templates -/

namespace Verif.Tmpl

open Verif Spec

/-! ## Lookups -/

theorem value_iff {ch : List Dict} {k v : Str} : Value ch k v ↔ lookupKey ch k = some v := by
  induction ch with
  | nil => exact Iff.intro (fun h => by cases h) (fun h => by cases h)
  | cons d up ih =>
    rw [lookupKey]
    constructor
    · intro h
      cases h with
      | here h => rw [h]
      | outer h t => rw [h]; exact ih.1 t
    · intro h
      cases hd : d.repls.lookup k with
      | some w => rw [hd] at h; cases h; exact .here hd
      | none => rw [hd] at h; exact .outer hd (ih.2 h)

theorem no_value_iff {ch : List Dict} {k : Str} : (∀ v, ¬ Value ch k v) ↔ lookupKey ch k = none := by
  simp only [value_iff]
  exact Option.eq_none_iff_forall_not_mem.symm

theorem entries_iff {ch : List Dict} {k : Str} {ds up : List Dict} : Entries ch k ds up ↔ lookupSect ch k = some (ds, up) := by
  induction ch with
  | nil => exact Iff.intro (fun h => by cases h) (fun h => by cases h)
  | cons d ch ih =>
    rw [lookupSect]
    constructor
    · intro h
      cases h with
      | here h hn =>
        cases ds with
        | nil => exact absurd rfl hn
        | cons e es => rw [h]
      | outer h t =>
        rcases h with h | h
        · rw [h]; exact ih.1 t
        · rw [h]; exact ih.1 t
    · intro h
      cases hd : d.sects.lookup k with
      | none => rw [hd] at h; exact .outer (.inl hd) (ih.2 h)
      | some es =>
        rw [hd] at h
        cases es with
        | nil => exact .outer (.inr hd) (ih.2 h)
        | cons e es =>
          simp only [Option.some.injEq, Prod.mk.injEq] at h
          obtain ⟨rfl, rfl⟩ := h
          exact .here hd (by simp)

theorem no_entries_iff {ch : List Dict} {k : Str} : (∀ ds up, ¬ Entries ch k ds up) ↔ lookupSect ch k = none := by
  simp only [entries_iff]
  constructor
  · intro h
    cases hl : lookupSect ch k with
    | none => rfl
    | some du => exact absurd hl (h du.1 du.2)
  · intro h ds up; rw [h]; simp

theorem lookupKey_append_none {a b : List Dict} {k : Str} (h : lookupKey (a ++ b) k = none) : lookupKey b k = none := by
  induction a with
  | nil => exact h
  | cons d a ih =>
    rw [List.cons_append, lookupKey] at h
    split at h
    · cases h
    · exact ih h

theorem lookupSect_append_none {a b : List Dict} {k : Str} (h : lookupSect (a ++ b) k = none) : lookupSect b k = none := by
  induction a with
  | nil => exact h
  | cons d a ih =>
    rw [List.cons_append, lookupSect] at h
    split at h
    · cases h
    · exact ih h

theorem lookupKey_suffix_none {a b : List Dict} {k : Str} (hs : b <:+ a) (h : lookupKey a k = none) : lookupKey b k = none := by
  obtain ⟨c, rfl⟩ := hs; exact lookupKey_append_none h

theorem lookupSect_suffix_none {a b : List Dict} {k : Str} (hs : b <:+ a) (h : lookupSect a k = none) : lookupSect b k = none := by
  obtain ⟨c, rfl⟩ := hs; exact lookupSect_append_none h

theorem suffix_entries {root : Dict} {ch : List Dict} {k : Str} {ds up : List Dict} (hr : [root] <:+ ch) (h : lookupSect ch k = some (ds, up)) : [root] <:+ up := by
  obtain ⟨a, rfl⟩ := hr
  induction a with
  | nil =>
    rw [List.nil_append, lookupSect] at h
    split at h
    · cases h; exact List.suffix_refl _
    · cases h
  | cons d a ih =>
    rw [List.cons_append, lookupSect] at h
    split at h
    · cases h; exact ⟨d :: a, by simp⟩
    · exact ih h

/-! ## The values stay well-formed -/

abbrev ValWf (val : Str → Tmpl) (d : Dict) : Prop := ValuesAre val d

theorem valWf_ok {val : Str → Tmpl} {d : Dict} (h : ValWf val d) : ValOk val d := fun e he k v hv => (h e he k v hv).1

theorem wf_joinDicts {f : Dict → Bool → Tmpl} (ds : List Dict) (h : ∀ d ∈ ds, ∀ sp, Wf (f d sp)) : Wf (joinDicts f ds) := by
  induction ds with
  | nil => trivial
  | cons d ds ih =>
    cases ds with
    | nil => exact h d (by simp) false
    | cons e ds => exact (wf_append _ _).2 ⟨h d (by simp) true, ih (fun x hx => h x (by simp [hx]))⟩

theorem wf_residual {set : Settings} {val : Str → Tmpl} (t : Tmpl) : ∀ (ch : List Dict) (sep : Bool), Wf t → (∀ d ∈ ch, ValWf val d) →
    Wf (residual set val t ch sep) := by
  induction t with
  | nil => intro ch sep _ _; trivial
  | text s r ih => intro ch sep hw hv; exact ⟨hw.1, ih ch sep hw.2 hv⟩
  | brace r ih => intro ch sep hw hv; exact ih ch sep hw hv
  | key k r ih =>
    intro ch sep hw hv
    have hr := ih ch sep hw.2.2 hv
    rw [residual]
    split
    · next v hk => exact (wf_append _ _).2 ⟨(allValues_key (P := fun _ v => source (val v) = v ∧ Wf (val v)) hv hk).2, hr⟩
    · split
      · exact ⟨hw.1, hw.2.1, hr⟩
      · exact hr
  | sep s r ih =>
    intro ch sep hw hv
    have hr := ih ch sep hw.2.2 hv
    rw [residual]
    split
    · exact ⟨hw.1, hr⟩
    · exact hr
  | sect k b r ihb ihr =>
    intro ch sep hw hv
    have hr := ihr ch sep hw.2.2.2.2 hv
    cases hs : lookupSect ch k with
    | some du =>
      obtain ⟨ds, up⟩ := du
      simp only [residual, hs]
      exact (wf_append _ _).2 ⟨wf_joinDicts ds (fun d hd sp => ihb (d :: up) sp hw.2.2.2.1 (allValues_sect hv hs hd)), hr⟩
    | none =>
      cases set with
      | maintain => simp only [residual, hs]; exact ⟨hw.1, hw.2.1, hw.2.2.1, hw.2.2.2.1, hr⟩
      | onlyCnt => simp only [residual, hs]; exact (wf_append _ _).2 ⟨hw.2.2.2.1, hr⟩
      | erase => simp only [residual, hs]; exact hr

/-! ## Passes -/

theorem expand_root {dbg : Bool} {set : Settings} {val : Str → Tmpl} {t : Tmpl} {d : Dict} (hw : Wf t) (hv : ValWf val d) :
    Ev (fun f => expand dbg set (source t) f [d] 0 (source t).length false = .ok (source (residual set val t [d] false), found t [d])) := by
  have h := expand_pass (dbg := dbg) (set := set) (val := val) t [] [] [d] false (by simp) hw (by simpa using (valWf_ok hv))
  simpa using h

theorem passes_done {dbg : Bool} {set : Settings} {val : Str → Tmpl} {t : Tmpl} {d : Dict} (hw : Wf t) (hv : ValWf val d) (hf : found t [d] = false) :
    Ev (fun f => passes dbg set d f (source t) = .ok (source (residual set val t [d] false))) := by
  obtain ⟨n, hn⟩ := expand_root (dbg := dbg) (set := set) hw hv
  refine ⟨n + 1, fun f hf' => ?_⟩
  obtain ⟨g, rfl⟩ : ∃ g, f = g + 1 := ⟨f - 1, by omega⟩
  rw [passes, hn (g + 1) (by omega), Outcome.bind_ok]
  simp only [hf]; rfl

theorem passes_step {dbg : Bool} {set : Settings} {val : Str → Tmpl} {t : Tmpl} {d : Dict} {o : Str} (hw : Wf t) (hv : ValWf val d) (hf : found t [d] = true)
    (h : Ev (fun f => passes dbg set d f (source (residual set val t [d] false)) = .ok o)) :
    Ev (fun f => passes dbg set d f (source t) = .ok o) := by
  obtain ⟨n, hn⟩ := expand_root (dbg := dbg) (set := set) hw hv
  obtain ⟨m, hm⟩ := h
  refine ⟨n + m + 1, fun f hf' => ?_⟩
  obtain ⟨g, rfl⟩ : ∃ g, f = g + 1 := ⟨f - 1, by omega⟩
  rw [passes, hn (g + 1) (by omega), Outcome.bind_ok]
  simp only [hf, if_true]
  exact hm g (by omega)

/-! ## Nothing left to replace -/

/-- No separators, and only tags that cannot be replaced and are maintained. -/
def Done (set : Settings) (d : Dict) : Tmpl → Prop
  | .nil => True
  | .text _ r => Done set d r
  | .brace r => Done set d r
  | .key k r => set = .maintain ∧ lookupKey [d] k = none ∧ Done set d r
  | .sep _ _ => False
  | .sect k _ r => set = .maintain ∧ lookupSect [d] k = none ∧ Done set d r

theorem done_append {set : Settings} {d : Dict} (t u : Tmpl) : Done set d (append t u) ↔ Done set d t ∧ Done set d u := by
  induction t with
  | nil => simp [append, Done]
  | text s r ih => simp [append, Done, ih]
  | brace r ih => simp [append, Done, ih]
  | key k r ih => simp [append, Done, ih, and_assoc]
  | sep s r ih => simp [append, Done]
  | sect k b r _ ih => simp [append, Done, ih, and_assoc]

theorem done_stable {set : Settings} {val : Str → Tmpl} {d : Dict} (t : Tmpl) (h : Done set d t) :
    residual set val t [d] false = t ∧ found t [d] = false := by
  induction t with
  | nil => exact ⟨rfl, rfl⟩
  | text s r ih => simp [residual, found, ih h]
  | brace r ih => simp [residual, found, ih h]
  | key k r ih => obtain ⟨rfl, h2, h3⟩ := h; simp [residual, found, ih h3, h2]
  | sep s r ih => exact h.elim
  | sect k b r _ ih =>
    obtain ⟨rfl, h2, h3⟩ := h
    simp [residual, found, ih h3, h2]

/-- If a pass leaves nothing to replace, it is the result. -/
theorem passes_of_done {dbg : Bool} {set : Settings} {val : Str → Tmpl} {t : Tmpl} {d : Dict} (hw : Wf t) (hv : ValWf val d)
    (hd : Done set d (residual set val t [d] false)) : Ev (fun f => passes dbg set d f (source t) = .ok (source (residual set val t [d] false))) := by
  cases hf : found t [d] with
  | false => exact passes_done hw hv hf
  | true =>
    refine passes_step hw hv hf ?_
    obtain ⟨h1, h2⟩ := done_stable (val := val) _ hd
    have h := passes_done (dbg := dbg) (set := set) (val := val) (d := d) (wf_residual t [d] false hw (by simpa using hv)) hv h2
    rw [h1] at h
    exact h

/-! ## Removing the escapes -/

theorem deEscape_cons {c : Char} {s : Str} (h : c ≠ '\\' ∨ s.head? ≠ some '{') : deEscape (c :: s) = c :: deEscape s := by
  cases s with
  | nil => simp [deEscape]
  | cons d s =>
    rw [deEscape]
    · intro h1 h2 _; subst h1 h2; simp at h
    · intro _ _ h1 h2 _; subst h1 h2; simp at h

theorem deEscape_text (s : Str) : ∀ post : Str, TextOk s → deEscape (s ++ post) = s ++ deEscape post := by
  induction s with
  | nil => intro post _; rfl
  | cons c s ih =>
    intro post h
    rw [List.cons_append, deEscape_cons, ih post (textOk_tail h)]; rfl
    by_cases hc : c = '\\'
    · right
      subst hc
      cases s with
      | nil => exact absurd rfl h.2.2.2
      | cons d s =>
        have := infix_cons_head h.2.1
        simpa using this
    · exact .inl hc

theorem deEscape_plain (s : Str) : ∀ post : Str, '{' ∉ s → s.getLast? ≠ some '\\' → deEscape (s ++ post) = s ++ deEscape post := by
  induction s with
  | nil => intro post _ _; rfl
  | cons c s ih =>
    intro post h hl
    cases s with
    | nil =>
      rw [List.cons_append, deEscape_cons]; rfl
      left; intro hc; exact hl (by simp [hc])
    | cons d s =>
      rw [List.cons_append, deEscape_cons, ih post (fun h' => h (by simp [h'])) (by rw [List.getLast?_cons_cons] at hl; exact hl)]; rfl
      right
      intro hd
      simp only [List.cons_append, List.head?_cons, Option.some.injEq] at hd
      exact h (by simp [hd])

theorem source_nil_shown (t : Tmpl) (h : source t = []) : shown t = [] := by
  induction t with
  | nil => rfl
  | text s r ih => simp only [source, List.append_eq_nil_iff] at h; simp [shown, h.1, ih h.2]
  | brace r ih => simp [source] at h
  | key k r ih => simp [source] at h
  | sep s r ih => simp [source] at h
  | sect k b r _ ih => simp [source] at h

theorem deEscape_source (t : Tmpl) : ∀ post : Str, Wf t → ((shown t).getLast? ≠ some '{' ∨ post ≠ []) → deEscape (source t ++ post) = shown t ++ deEscape post := by
  induction t with
  | nil => intro post _ _; rfl
  | text s r ih =>
    intro post hw h
    rw [source, List.append_assoc, deEscape_text s _ hw.1, ih post hw.2, shown, List.append_assoc]
    rcases h with h | h
    · by_cases hn : shown r = []
      · left; simp [hn]
      · left
        rw [shown, List.getLast?_append] at h
        intro h'
        rw [h'] at h
        exact h rfl
    · exact .inr h
  | brace r ih =>
    intro post hw h
    have hne : source r ++ post ≠ [] := by
      intro hn
      rw [List.append_eq_nil_iff] at hn
      rcases h with h | h
      · rw [shown, source_nil_shown r hn.1] at h; exact h rfl
      · exact h hn.2
    have hstep : deEscape (source (.brace r) ++ post) = '{' :: deEscape (source r ++ post) := by
      have e : source (.brace r) ++ post = '\\' :: '{' :: (source r ++ post) := by simp [source]
      rw [e]
      cases hs : source r ++ post with
      | nil => exact absurd hs hne
      | cons c s => rfl
    rw [hstep, ih post hw, shown, List.cons_append]
    rcases h with h | h
    · left
      intro h'
      cases hs : shown r with
      | nil => rw [hs] at h'; cases h'
      | cons c s => rw [shown, hs, List.getLast?_cons_cons, ← hs] at h; exact h h'
    · exact .inr h
  | key k r ih =>
    intro post hw h
    have e : source (.key k r) ++ post = '{' :: '{' :: ((k ++ ['}', '}']) ++ (source r ++ post)) := by simp [source]
    rw [e, deEscape_cons (by simp), deEscape_cons (by simp), deEscape_plain _ _ (by simp [hw.1.1]) (last_close k), ih post hw.2.2]
    · simp [shown]
    · rcases h with h | h
      · left
        intro h'
        rw [shown, List.getLast?_append, h'] at h
        exact h rfl
      · exact .inr h
  | sep s r ih =>
    intro post hw h
    have e : source (.sep s r) ++ post = '{' :: '{' :: '*' :: (s ++ ('}' :: '}' :: (source r ++ post))) := by simp [source]
    rw [e, deEscape_cons (by simp), deEscape_cons (by simp), deEscape_cons (by simp), deEscape_text _ _ hw.1, deEscape_cons (by simp), deEscape_cons (by simp),
      ih post hw.2.2]
    · simp [shown]
    · rcases h with h | h
      · left
        intro h'
        rw [shown, List.getLast?_append, h'] at h
        exact h rfl
      · exact .inr h
  | sect k b r ihb ihr =>
    intro post hw h
    have e : source (.sect k b r) ++ post
        = '{' :: '{' :: '#' :: ((k ++ ['}', '}']) ++ (source b ++ ('{' :: '{' :: '/' :: ((k ++ ['}', '}']) ++ (source r ++ post))))) := by simp [source]
    rw [e, deEscape_cons (by simp), deEscape_cons (by simp), deEscape_cons (by simp), deEscape_plain _ _ (by simp [hw.1.1]) (last_close k),
      ihb _ hw.2.2.2.1 (.inr (by simp)), deEscape_cons (by simp), deEscape_cons (by simp), deEscape_cons (by simp),
      deEscape_plain _ _ (by simp [hw.1.1]) (last_close k), ihr post hw.2.2.2.2]
    · simp [shown]
    · rcases h with h | h
      · left
        intro h'
        rw [shown, List.getLast?_append, h'] at h
        exact h rfl
      · exact .inr h

/-- The result of an expansion, when one pass leaves nothing to replace. -/
theorem getExpanded_of_done {dbg : Bool} {set : Settings} {val : Str → Tmpl} {t : Tmpl} {d : Dict} (hw : Wf t) (hv : ValWf val d)
    (hd : Done set d (residual set val t [d] false)) (hl : (shown (residual set val t [d] false)).getLast? ≠ some '{') :
    Ev (fun f => getExpanded dbg set d f (source t) = .ok (shown (residual set val t [d] false))) := by
  refine (passes_of_done (dbg := dbg) hw hv hd).mp (fun f hf => ?_)
  rw [getExpanded, hf, Outcome.bind_ok]
  have := deEscape_source (residual set val t [d] false) [] (wf_residual t [d] false hw (by simpa using hv)) (.inl hl)
  simp only [List.append_nil] at this
  rw [this]; simp [deEscape]

theorem lookup_assign {α : Type} (k k' : Str) (v : α) (l : List (Str × α)) : (assign k v l).lookup k' = if k' = k then some v else l.lookup k' := by
  induction l with
  | nil =>
    by_cases h : k' = k
    · simp [assign, List.lookup, h]
    · have : (k' == k) = false := by simpa using h
      simp [assign, List.lookup, h, this]
  | cons p l ih =>
    obtain ⟨a, b⟩ := p
    by_cases ha : a = k
    · subst ha
      by_cases h : k' = a
      · simp [assign, List.lookup, h]
      · have : (k' == a) = false := by simpa using h
        simp [assign, List.lookup, h, this]
    · simp only [assign, if_neg ha, List.lookup]
      by_cases h : k' = a
      · subst h; simp [ha]
      · have : (k' == a) = false := by simpa using h
        simp [this, ih]

/-! ## Repeated passes -/

theorem residual_append {set : Settings} {val : Str → Tmpl} (t u : Tmpl) (ch : List Dict) (sep : Bool) :
    residual set val (append t u) ch sep = append (residual set val t ch sep) (residual set val u ch sep) := by
  have assoc : ∀ a b c : Tmpl, append (append a b) c = append a (append b c) := by
    intro a b c
    induction a with
    | nil => rfl
    | text s r ih => simp [append, ih]
    | brace r ih => simp [append, ih]
    | key k r ih => simp [append, ih]
    | sep s r ih => simp [append, ih]
    | sect k b r _ ih => simp [append, ih]
  induction t with
  | nil => rfl
  | text s r ih => simp [append, residual, ih]
  | brace r ih => simp [append, residual, ih]
  | key k r ih =>
    simp only [append, residual, ih]
    split
    · rw [assoc]
    · split <;> simp [append]
  | sep s r ih => simp only [append, residual, ih]; split <;> simp [append]
  | sect k b r _ ih =>
    cases hs : lookupSect ch k with
    | some du => simp only [append, residual, ih, hs, assoc]
    | none => cases set <;> simp only [append, residual, ih, hs, assoc]

theorem found_append (t u : Tmpl) (ch : List Dict) : found (append t u) ch = (found t ch || found u ch) := by
  induction t with
  | nil => rfl
  | text s r ih => exact ih
  | brace r ih => exact ih
  | key k r ih => simp [append, found, ih, Bool.or_assoc]
  | sep s r ih => exact ih
  | sect k b r _ ih => simp [append, found, ih, Bool.or_assoc]

/-- `n` passes lead to a template in which nothing is left to replace and that looks like `o`; a pass that replaces nothing is the last. -/
def Fin (set : Settings) (val : Str → Tmpl) (root : Dict) (o : Str) : Nat → Tmpl → Prop
  | 0, R => Done set root R ∧ shown R = o
  | n + 1, R => (found R [root] = false → Done set root (residual set val R [root] false)) ∧ Fin set val root o n (residual set val R [root] false)

theorem fin_succ {set : Settings} {val : Str → Tmpl} {root : Dict} {o : Str} : ∀ (n : Nat) (R : Tmpl), Fin set val root o n R → Fin set val root o (n + 1) R := by
  intro n
  induction n with
  | zero =>
    intro R h
    have := (done_stable (val := val) R h.1).1
    refine ⟨fun _ => ?_, ?_⟩ <;> rw [this]
    · exact h.1
    · exact h
  | succ n ih => intro R h; exact ⟨h.1, ih _ h.2⟩

theorem fin_le {set : Settings} {val : Str → Tmpl} {root : Dict} {o : Str} {n m : Nat} (h : n ≤ m) {R : Tmpl} (hf : Fin set val root o n R) : Fin set val root o m R := by
  induction h with
  | refl => exact hf
  | step _ ih => exact fin_succ _ _ ih

theorem fin_append {set : Settings} {val : Str → Tmpl} {root : Dict} {o p : Str} : ∀ (n : Nat) (R S : Tmpl), Fin set val root o n R → Fin set val root p n S →
    Fin set val root (o ++ p) n (append R S) := by
  intro n
  induction n with
  | zero => intro R S h h'; exact ⟨(done_append _ _).2 ⟨h.1, h'.1⟩, by rw [shown_append, h.2, h'.2]⟩
  | succ n ih =>
    intro R S h h'
    refine ⟨fun hf => ?_, ?_⟩
    · rw [found_append, Bool.or_eq_false_iff] at hf
      rw [residual_append]
      exact (done_append _ _).2 ⟨h.1 hf.1, h'.1 hf.2⟩
    · rw [residual_append]; exact ih _ _ h.2 h'.2

def Fins (set : Settings) (val : Str → Tmpl) (root : Dict) (o : Str) (R : Tmpl) : Prop := ∃ n, Fin set val root o n R

theorem fins_append {set : Settings} {val : Str → Tmpl} {root : Dict} {o p : Str} {R S : Tmpl} (h : Fins set val root o R) (h' : Fins set val root p S) :
    Fins set val root (o ++ p) (append R S) := by
  obtain ⟨n, hn⟩ := h
  obtain ⟨m, hm⟩ := h'
  exact ⟨n + m, fin_append _ _ _ (fin_le (by omega) hn) (fin_le (by omega) hm)⟩

theorem fins_done {set : Settings} {val : Str → Tmpl} {root : Dict} {R : Tmpl} (h : Done set root R) : Fins set val root (shown R) R := ⟨0, h, rfl⟩

theorem means_fins {set : Settings} {val : Str → Tmpl} {root : Dict} {ch : List Dict} {sep : Bool} {t : Tmpl} {o : Str} (h : Means set root val ch sep t o) :
    [root] <:+ ch → Fins set val root o (residual set val t ch sep) ∧ (found t ch = false → Done set root (residual set val t ch sep)) := by
  refine Means.rec (set := set) (root := root) (val := val)
    (motive_1 := fun ch sep t o _ => [root] <:+ ch → Fins set val root o (residual set val t ch sep) ∧ (found t ch = false → Done set root (residual set val t ch sep)))
    (motive_2 := fun up b ds o _ => [root] <:+ up → Fins set val root o (joinDicts (fun d sp => residual set val b (d :: up) sp) ds))
    ?_ ?_ ?_ ?_ ?_ ?_ ?_ ?_ ?_ ?_ ?_ ?_ ?_ h
  · intro ch sep _; exact ⟨fins_done (R := .nil) trivial, fun _ => trivial⟩
  · intro ch sep s rest o _ ih hr
    obtain ⟨h1, h2⟩ := ih hr
    exact ⟨by simpa [append, residual, shown] using fins_append (fins_done (R := .text s .nil) trivial) h1, h2⟩
  · intro ch sep rest o _ ih hr
    obtain ⟨h1, h2⟩ := ih hr
    exact ⟨by simpa [append, residual, shown] using fins_append (fins_done (R := .brace .nil) trivial) h1, h2⟩
  · intro ch sep k v rest p o hv _ _ ihm iht hr
    obtain ⟨h1, h2⟩ := iht hr
    obtain ⟨⟨n, hn⟩, h4⟩ := ihm (List.suffix_refl _)
    rw [value_iff] at hv
    simp only [residual, hv, found]
    exact ⟨fins_append ⟨n + 1, h4, hn⟩ h1, fun hf => by simp at hf⟩
  · intro ch sep k rest o hs hn _ ih hr
    obtain ⟨h1, h2⟩ := ih hr
    rw [no_value_iff] at hn
    simp only [residual, hn, if_neg hs, found]
    exact ⟨h1, fun hf => h2 (by simpa using hf)⟩
  · intro ch sep k rest o hs hn _ ih hr
    obtain ⟨h1, h2⟩ := ih hr
    rw [no_value_iff] at hn
    have hd := lookupKey_suffix_none hr hn
    simp only [residual, hn, if_pos hs, found]
    exact ⟨by simpa [append] using fins_append (fins_done (R := .key k .nil) ⟨hs, hd, trivial⟩) h1, fun hf => ⟨hs, hd, h2 (by simpa using hf)⟩⟩
  · intro ch s rest o _ ih hr
    obtain ⟨h1, h2⟩ := ih hr
    simp only [residual, if_true]
    exact ⟨by simpa [append, shown] using fins_append (fins_done (R := .text s .nil) trivial) h1, h2⟩
  · intro ch s rest o _ ih hr
    obtain ⟨h1, h2⟩ := ih hr
    simp only [residual]
    exact ⟨h1, h2⟩
  · intro ch sep k ds up body rest p o he _ _ ihm iht hr
    obtain ⟨h1, h2⟩ := iht hr
    rw [entries_iff] at he
    have h3 := ihm (suffix_entries hr he)
    simp only [residual, he, found]
    exact ⟨fins_append h3 h1, fun hf => by simp at hf⟩
  · intro ch sep k body rest o hs hn _ ih hr
    obtain ⟨h1, h2⟩ := ih hr
    rw [no_entries_iff] at hn
    subst hs
    simp only [residual, hn, found]
    exact ⟨h1, fun hf => h2 (by simpa using hf)⟩
  · intro ch sep k body rest o hs hn _ ih hr
    obtain ⟨h1, h2⟩ := ih hr
    rw [no_entries_iff] at hn
    have hd := lookupSect_suffix_none hr hn
    subst hs
    simp only [residual, hn, found]
    exact ⟨by simpa [append] using fins_append (fins_done (R := .sect k body .nil) ⟨rfl, hd, trivial⟩) h1, fun hf => ⟨rfl, hd, h2 (by simpa using hf)⟩⟩
  · intro up body d o _ ih hr
    exact (ih (hr.trans (List.suffix_cons _ _))).1
  · intro up body d e ds o p _ _ ih1 ih2 hr
    exact fins_append (ih1 (hr.trans (List.suffix_cons _ _))).1 (ih2 hr)

theorem passes_of_fin {dbg : Bool} {set : Settings} {val : Str → Tmpl} {d : Dict} {o : Str} (hv : ValWf val d) : ∀ (n : Nat) (t : Tmpl), Wf t →
    (found t [d] = false → Done set d (residual set val t [d] false)) → Fin set val d o n (residual set val t [d] false) →
    ∃ R, Wf R ∧ shown R = o ∧ Ev (fun f => passes dbg set d f (source t) = .ok (source R)) := by
  intro n
  induction n with
  | zero =>
    intro t hw _ h
    exact ⟨_, wf_residual t [d] false hw (by simpa using hv), h.2, passes_of_done hw hv h.1⟩
  | succ n ih =>
    intro t hw hg h
    have hw' := wf_residual (set := set) t [d] false hw (by simpa using hv)
    cases hf : found t [d] with
    | true =>
      obtain ⟨R, h1, h2, h3⟩ := ih _ hw' h.1 h.2
      exact ⟨R, h1, h2, passes_step hw hv hf h3⟩
    | false =>
      refine ⟨_, hw', ?_, passes_done hw hv hf⟩
      have hd := hg hf
      -- later passes do not change it
      have : ∀ n R, Done set d R → Fin set val d o n R → shown R = o := by
        intro n
        induction n with
        | zero => intro R _ h; exact h.2
        | succ n ih => intro R hd h; have hst := (done_stable (val := val) R hd).1; have := h.2; rw [hst] at this; exact ih R hd this
      exact this _ _ hd h

/-- The result of an expansion is the meaning of the template. -/
theorem getExpanded_means {dbg : Bool} {set : Settings} {val : Str → Tmpl} {t : Tmpl} {d : Dict} {o : Str} (hw : Wf t) (hv : ValWf val d)
    (hm : Means set d val [d] false t o) (hl : o.getLast? ≠ some '{') : Ev (fun f => getExpanded dbg set d f (source t) = .ok o) := by
  obtain ⟨⟨n, hn⟩, h2⟩ := means_fins hm (List.suffix_refl _)
  obtain ⟨R, h3, h4, h5⟩ := passes_of_fin (dbg := dbg) hv n t hw h2 hn
  refine h5.mp (fun f hf => ?_)
  rw [getExpanded, hf, Outcome.bind_ok]
  have := deEscape_source R [] h3 (.inl (by rw [h4]; exact hl))
  simp only [List.append_nil] at this
  rw [this, h4]; simp [deEscape]

/-! ## Plain values -/

theorem plain_valWf {d : Dict} (h : AllValues (fun _ v => TextOk v) d) : ValWf plainText d := fun e he k v hv =>
  ⟨by simp [plainText, source], h e he k v hv, trivial⟩

theorem meansAll_total {set : Settings} {root : Dict} {val : Str → Tmpl} {up : List Dict} {b : Tmpl} (h : ∀ d sp, ∃ o, Means set root val (d :: up) sp b o) :
    ∀ ds : List Dict, ds ≠ [] → ∃ o, MeansAll set root val up b ds o := by
  intro ds
  induction ds with
  | nil => intro h; exact absurd rfl h
  | cons d ds ih =>
    intro _
    cases ds with
    | nil => obtain ⟨o, ho⟩ := h d false; exact ⟨o, .last ho⟩
    | cons e ds =>
      obtain ⟨o, ho⟩ := h d true
      obtain ⟨p, hp⟩ := ih (by simp)
      exact ⟨o ++ p, .cons ho hp⟩

theorem means_total {set : Settings} {root : Dict} (hs : set ≠ .onlyCnt) (t : Tmpl) : ∀ ch sep, ∃ o, Means set root plainText ch sep t o := by
  induction t with
  | nil => intro ch sep; exact ⟨[], .nil⟩
  | text s r ih => intro ch sep; obtain ⟨o, h⟩ := ih ch sep; exact ⟨_, .text h⟩
  | brace r ih => intro ch sep; obtain ⟨o, h⟩ := ih ch sep; exact ⟨_, .brace h⟩
  | key k r ih =>
    intro ch sep
    obtain ⟨o, h⟩ := ih ch sep
    by_cases hv : ∃ v, Value ch k v
    · obtain ⟨v, hv⟩ := hv
      exact ⟨_, .key hv (.text .nil) h⟩
    · by_cases hm : set = .maintain
      · exact ⟨_, .keyKeep hm (fun v h => hv ⟨v, h⟩) h⟩
      · exact ⟨_, .keyErase hm (fun v h => hv ⟨v, h⟩) h⟩
  | sep s r ih =>
    intro ch sep
    obtain ⟨o, h⟩ := ih ch sep
    cases sep with
    | true => exact ⟨_, .sep h⟩
    | false => exact ⟨_, .noSep h⟩
  | sect k b r ihb ihr =>
    intro ch sep
    obtain ⟨o, h⟩ := ihr ch sep
    by_cases he : ∃ ds up, Entries ch k ds up
    · obtain ⟨ds, up, he⟩ := he
      obtain ⟨p, hp⟩ := meansAll_total (fun d sp => ihb (d :: up) sp) ds (lookupSect_mem (entries_iff.1 he)).1
      exact ⟨_, .sect he hp h⟩
    · have he' : ∀ ds up, ¬ Entries ch k ds up := fun ds up h => he ⟨ds, up, h⟩
      cases set with
      | maintain => exact ⟨_, .sectKeep rfl he' h⟩
      | erase => exact ⟨_, .sectErase rfl he' h⟩
      | onlyCnt => exact absurd rfl hs

/-- A template has at most one meaning. -/
theorem means_unique {set : Settings} {root : Dict} {val : Str → Tmpl} {t : Tmpl} {o p : Str} {sep : Bool} (h : Means set root val [root] sep t o)
    (h' : Means set root val [root] sep t p) : o = p := by
  obtain ⟨⟨n, hn⟩, _⟩ := means_fins h (List.suffix_refl _)
  obtain ⟨⟨m, hm⟩, _⟩ := means_fins h' (List.suffix_refl _)
  have h1 := fin_le (m := n + m) (by omega) hn
  have h2 := fin_le (m := n + m) (by omega) hm
  clear hn hm
  generalize n + m = k at h1 h2
  generalize residual set val t [root] sep = R at h1 h2
  induction k generalizing R with
  | zero => exact h1.2.symm.trans h2.2
  | succ k ih => exact ih _ h1.2 h2.2

end Verif.Tmpl
