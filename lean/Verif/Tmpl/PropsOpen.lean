import Verif.Tmpl.Theorems

/-! # Templates that are not well-formed: tags that are not closed -/

namespace Verif.Tmpl

open Spec

/-- Reading beyond the end: a failed assertion in a debug build, undefined otherwise. -/
def bad {α : Type} (dbg : Bool) : Outcome α := if dbg then .assertFail else .ub

theorem bad_bind {α β : Type} (dbg : Bool) (f : α → Outcome β) : ((bad dbg : Outcome α) >>= f) = bad dbg := by cases dbg <;> rfl

theorem getC_end (src : Str) : getC true src src.length = .assertFail ∧ getC false src src.length = .ok (Char.ofNat 0) := by
  simp [getC]

theorem getC_beyond (dbg : Bool) (src : Str) : getC dbg src (src.length + 1) = bad dbg := by
  have : src[src.length + 1]? = none := by simp
  cases dbg <;> simp [getC, this, bad]

theorem readKey_open (dbg : Bool) (k : Str) : ∀ pre : Str, '}' ∉ k → Ev (fun f => readKey dbg (pre ++ k) f pre.length = bad dbg) := by
  induction k with
  | nil =>
    intro pre _
    refine ⟨2, fun f hf => ?_⟩
    obtain ⟨g, rfl⟩ : ∃ g, f = g + 1 + 1 := ⟨f - 2, by omega⟩
    rw [List.append_nil, readKey]
    cases dbg with
    | true => rw [(getC_end pre).1]; rfl
    | false =>
      rw [(getC_end pre).2, Outcome.bind_ok, if_neg (by decide), readKey, getC_beyond]
      simp [bad_bind]
  | cons c k ih =>
    intro pre hk
    have h := ih (pre ++ [c]) (fun h => hk (by simp [h]))
    refine h.succ (fun f hf => ?_)
    have g : getC dbg (pre ++ c :: k) pre.length = .ok c := getC_ok (by rw [at_pre0]; rfl)
    simp only [List.append_assoc, List.singleton_append, List.length_append, List.length_singleton] at hf
    rw [readKey, g, Outcome.bind_ok, if_neg (fun e => hk (by simp [e])), hf, bad_bind]

theorem expand_text_bad {dbg : Bool} {set : Settings} {ch : List Dict} {sep : Bool} {res : Outcome (Str × Bool)} (hres : res = bad dbg) (s : Str) :
    ∀ (pre post : Str) (e : Nat), TextOk s → pre.length + s.length ≤ e →
    Ev (fun f => expand dbg set (pre ++ (s ++ post)) f ch (pre.length + s.length) e sep = res) →
    Ev (fun f => expand dbg set (pre ++ (s ++ post)) f ch pre.length e sep = res) := by
  induction s with
  | nil => intro pre post e _ _ h; simpa using h
  | cons c s ih =>
    intro pre post e hs hl h
    have hih := ih (pre ++ [c]) post e (textOk_tail hs) (by simp at hl ⊢; omega) (by
      have e1 : pre ++ [c] ++ (s ++ post) = pre ++ ((c :: s) ++ post) := by simp
      rw [e1, show (pre ++ [c]).length + s.length = pre.length + (c :: s).length by simp; omega]
      exact h)
    refine hih.succ (fun f hf => ?_)
    have e1 : pre ++ [c] ++ (s ++ post) = pre ++ ((c :: s) ++ post) := by simp
    rw [e1, show (pre ++ [c]).length = pre.length + 1 by simp] at hf
    have g : getC dbg (pre ++ ((c :: s) ++ post)) pre.length = .ok c := getC_ok (by rw [at_pre0]; rfl)
    rw [expand, if_pos (by simp at hl; omega), g, Outcome.bind_ok, isPlain_text hs, Outcome.bind_ok, if_pos rfl, hf, hres, bad_bind]

theorem expand_open {dbg : Bool} {set : Settings} {ch : List Dict} {sep : Bool} (pre k : Str) (hl : pre.getLast? ≠ some '\\') (hk : '}' ∉ k) :
    Ev (fun f => expand dbg set (pre ++ '{' :: '{' :: k) f ch pre.length (pre ++ '{' :: '{' :: k).length sep = bad dbg) := by
  have hc : getC dbg (pre ++ '{' :: '{' :: k) pre.length = .ok '{' := getC_ok (by rw [at_pre0]; rfl)
  have hs : symbol dbg (pre ++ '{' :: '{' :: k) (pre.length + 2) = bad dbg ∨
      ∃ kind p k', symbol dbg (pre ++ '{' :: '{' :: k) (pre.length + 2) = .ok (kind, p.length) ∧ pre ++ '{' :: '{' :: k = p ++ k' ∧ '}' ∉ k' := by
    cases k with
    | nil =>
      have e : pre.length + 2 = (pre ++ ['{', '{']).length := by simp
      rw [symbol, e]
      cases dbg with
      | true => left; rw [(getC_end _).1]; rfl
      | false =>
        right
        refine ⟨.normal, pre ++ ['{', '{'], [], ?_, by simp, by simp⟩
        rw [(getC_end _).2, Outcome.bind_ok, if_neg (by decide), if_neg (by decide)]; rfl
    | cons c k =>
      right
      have g : getC dbg (pre ++ '{' :: '{' :: c :: k) (pre.length + 2) = .ok c := getC_ok (by rw [at_pre]; rfl)
      rw [symbol, g, Outcome.bind_ok]
      by_cases h1 : c = '#'
      · exact ⟨.sect, pre ++ ['{', '{', c], k, by rw [if_pos h1]; simp, by simp, fun h => hk (by simp [h])⟩
      · by_cases h2 : c = '*'
        · exact ⟨.separator, pre ++ ['{', '{', c], k, by rw [if_neg h1, if_pos h2]; simp, by simp, fun h => hk (by simp [h])⟩
        · exact ⟨.normal, pre ++ ['{', '{'], c :: k, by rw [if_neg h1, if_neg h2]; simp, by simp, hk⟩
  rcases hs with hs | ⟨kind, p, k', hs, e, hk'⟩
  · refine ⟨1, fun f hf => ?_⟩
    obtain ⟨g, rfl⟩ : ∃ g, f = g + 1 := ⟨f - 1, by omega⟩
    rw [expand, if_pos (by simp), hc, Outcome.bind_ok, isPlain_tag hl, Outcome.bind_ok, if_neg (by simp), hs, bad_bind]
  · refine (readKey_open dbg k' p hk').succ (fun f hf => ?_)
    rw [expand, if_pos (by simp), hc, Outcome.bind_ok, isPlain_tag hl, Outcome.bind_ok, if_neg (by simp), hs, Outcome.bind_ok]
    dsimp only
    rw [e, hf, bad_bind]

theorem getExpanded_bad {dbg : Bool} {set : Settings} {d : Dict} {src : Str}
    (h : Ev (fun f => expand dbg set src f [d] 0 src.length false = bad dbg)) : Ev (fun f => getExpanded dbg set d f src = bad dbg) := by
  obtain ⟨n, hn⟩ := h
  refine ⟨n + 1, fun f hf => ?_⟩
  obtain ⟨g, rfl⟩ : ∃ g, f = g + 1 := ⟨f - 1, by omega⟩
  rw [getExpanded, passes, hn _ (by omega), bad_bind, bad_bind]

/-- **C55 (outside the grammar).** A tag that is not closed, of any kind, after any text: a debug build stops at an assertion, a release build reads
beyond the end of the template. -/
theorem C55_unclosed (set : Settings) (d : Dict) (a k : Str) (ha : TextOk a) (hk : '}' ∉ k) :
    (∃ n, ∀ fuel, n ≤ fuel → getExpanded true set d fuel (a ++ ['{', '{'] ++ k) = .assertFail) ∧
    (∃ n, ∀ fuel, n ≤ fuel → getExpanded false set d fuel (a ++ ['{', '{'] ++ k) = .ub) := by
  have h : ∀ dbg, Ev (fun f => getExpanded dbg set d f (a ++ ['{', '{'] ++ k) = bad dbg) := by
    intro dbg
    refine getExpanded_bad ?_
    have := expand_text_bad (dbg := dbg) (set := set) (ch := [d]) (sep := false) rfl a [] ('{' :: '{' :: k) (a ++ '{' :: '{' :: k).length ha (by simp)
      (by simpa using expand_open a k ha.2.2.2 hk)
    simpa using this
  exact ⟨h true, h false⟩

/-! ## Sections that are not closed -/

theorem isClose_unclosed {dbg : Bool} {pre b : Str} {c : Char} (hp : pre ≠ []) (hb : ¬ ['{', '{', '/'] <:+: c :: b) :
    isClose dbg (pre ++ c :: b) pre.length = .ok false ∨ isClose dbg (pre ++ c :: b) pre.length = bad dbg := by
  have g : getC dbg (pre ++ c :: b) pre.length = .ok c := getC_ok (by rw [at_pre0]; rfl)
  by_cases hc : c = '{'
  · subst hc
    obtain ⟨q, hq⟩ : ∃ q, pre.getLast? = some q := by
      cases h : pre.getLast? with
      | none => exact absurd (List.getLast?_eq_none_iff.1 h) hp
      | some q => exact ⟨q, rfl⟩
    have g1 : getC dbg (pre ++ '{' :: b) (pre.length - 1) = .ok q := getC_ok (by rw [before_pre _ _ hp]; exact hq)
    rw [isClose, g, Outcome.bind_ok, if_neg (by simp), g1, Outcome.bind_ok]
    by_cases hq' : q = '\\'
    · rw [if_pos hq']; exact .inl rfl
    · rw [if_neg hq']
      cases b with
      | nil =>
        have e : pre.length + 1 = (pre ++ ['{']).length := by simp
        rw [e]
        cases dbg with
        | true => right; rw [(getC_end _).1]; rfl
        | false => left; rw [(getC_end _).2, Outcome.bind_ok, if_pos (by decide)]; rfl
      | cons x b =>
        have g2 : getC dbg (pre ++ '{' :: x :: b) (pre.length + 1) = .ok x := getC_ok (by rw [at_pre]; rfl)
        rw [g2, Outcome.bind_ok]
        by_cases hx : x = '{'
        · subst hx
          rw [if_neg (by simp)]
          cases b with
          | nil =>
            have e : pre.length + 2 = (pre ++ ['{', '{']).length := by simp
            rw [e]
            cases dbg with
            | true => right; rw [(getC_end _).1]; rfl
            | false => left; rw [(getC_end _).2]; rfl
          | cons y b =>
            have g3 : getC dbg (pre ++ '{' :: '{' :: y :: b) (pre.length + 2) = .ok y := getC_ok (by rw [at_pre]; rfl)
            rw [g3, Outcome.bind_ok]
            have hy : y ≠ '/' := fun hy => hb ⟨[], b, by simp [hy]⟩
            exact .inl (by simp [hy])
        · rw [if_pos hx]; exact .inl rfl
  · rw [isClose, g, Outcome.bind_ok, if_pos hc]; exact .inl rfl

theorem findEnd_open (dbg : Bool) (key b : Str) : ∀ pre : Str, pre ≠ [] → ¬ ['{', '{', '/'] <:+: b →
    Ev (fun f => findEnd dbg (pre ++ b) key f pre.length = bad dbg) := by
  induction b with
  | nil =>
    intro pre _ _
    refine ⟨2, fun f hf => ?_⟩
    obtain ⟨g, rfl⟩ : ∃ g, f = g + 1 + 1 := ⟨f - 2, by omega⟩
    rw [List.append_nil, findEnd, isClose]
    cases dbg with
    | true => rw [(getC_end pre).1]; rfl
    | false =>
      rw [(getC_end pre).2, Outcome.bind_ok, if_pos (by decide)]
      simp only [Outcome.pure_eq, Outcome.bind_ok]
      rw [if_neg (by simp), findEnd, isClose, getC_beyond]
      simp [bad_bind]
  | cons c b ih =>
    intro pre hp hb
    have h := ih (pre ++ [c]) (by simp) (fun h => hb (List.infix_cons h))
    refine h.succ (fun f hf => ?_)
    simp only [List.append_assoc, List.singleton_append, List.length_append, List.length_singleton] at hf
    rw [findEnd]
    rcases isClose_unclosed (dbg := dbg) (pre := pre) hp hb with hc | hc
    · rw [hc, Outcome.bind_ok, if_neg (by simp), hf]
    · rw [hc, bad_bind]

theorem expand_openSect {dbg : Bool} {set : Settings} {ch : List Dict} {sep : Bool} (pre k b : Str) (hl : pre.getLast? ≠ some '\\') (hk : '}' ∉ k)
    (hb : ¬ ['{', '{', '/'] <:+: b) :
    Ev (fun f => expand dbg set (pre ++ '{' :: '{' :: '#' :: (k ++ '}' :: '}' :: b)) f ch pre.length
      (pre ++ '{' :: '{' :: '#' :: (k ++ '}' :: '}' :: b)).length sep = bad dbg) := by
  have e : pre ++ '{' :: '{' :: '#' :: (k ++ '}' :: '}' :: b) = pre ++ ('{' :: '{' :: (['#'] ++ (k ++ '}' :: '}' :: b))) := by simp
  obtain ⟨src, hsrc⟩ : ∃ src, src = pre ++ '{' :: '{' :: '#' :: (k ++ '}' :: '}' :: b) := ⟨_, rfl⟩
  rw [← hsrc]
  refine expand_tag (kind := .sect) (hsrc.trans e) hl hk (by rw [hsrc]; simp) ?_ ?_
  · have : getC dbg src (pre.length + 2) = .ok '#' := getC_ok (by rw [hsrc, at_pre]; rfl)
    rw [symbol, this, Outcome.bind_ok]; rfl
  · obtain ⟨p, hp⟩ : ∃ p, p = pre ++ ['{', '{', '#'] ++ k ++ ['}', '}'] := ⟨_, rfl⟩
    have ep : src = p ++ b := by rw [hsrc, hp]; simp
    have hplen : pre.length + 2 + ['#'].length + k.length + 2 = p.length := by rw [hp]; simp; omega
    have hf := findEnd_open dbg k b p (by simp [hp]) hb
    rw [← ep] at hf
    refine hf.mp (fun f hf => ?_)
    rw [hplen]
    have g1 : getC dbg src (pre.length + 2 + ['#'].length + k.length + 1) = .ok '}' := by
      refine getC_ok ?_
      have e2 : src = (pre ++ ['{', '{', '#'] ++ k) ++ ('}' :: '}' :: b) := by rw [hsrc]; simp
      rw [e2, show pre.length + 2 + ['#'].length + k.length + 1 = (pre ++ ['{', '{', '#'] ++ k).length + 1 by simp; omega, at_pre]; rfl
    cases dbg with
    | false => simp only [checkC, hf, bad_bind]; simp [bad_bind]
    | true =>
      rw [g1, Outcome.bind_ok]
      cases b with
      | nil =>
        have : getC true src p.length = .assertFail := by rw [ep, List.append_nil]; exact (getC_end p).1
        rw [this]; rfl
      | cons c b =>
        have : getC true src p.length = .ok c := getC_ok (by rw [ep, at_pre0]; rfl)
        rw [this, Outcome.bind_ok]
        by_cases hc : c = '}'
        · subst hc; rfl
        · simp only [Outcome.pure_eq]
          rw [show (('}' : Char) == '}' && c != '}') = true by simp [hc], checkC_true, Outcome.bind_ok, hf, bad_bind]

/-- **C55 (outside the grammar).** So does a section without any closing tag behind it, whether it is in the dictionary or not. -/
theorem C55_unclosed_section (set : Settings) (d : Dict) (a k b : Str) (ha : TextOk a) (hk : '}' ∉ k) (hb : ¬ ['{', '{', '/'] <:+: b) :
    (∃ n, ∀ fuel, n ≤ fuel → getExpanded true set d fuel (a ++ ['{', '{', '#'] ++ k ++ ['}', '}'] ++ b) = .assertFail) ∧
    (∃ n, ∀ fuel, n ≤ fuel → getExpanded false set d fuel (a ++ ['{', '{', '#'] ++ k ++ ['}', '}'] ++ b) = .ub) := by
  have h : ∀ dbg, Ev (fun f => getExpanded dbg set d f (a ++ ['{', '{', '#'] ++ k ++ ['}', '}'] ++ b) = bad dbg) := by
    intro dbg
    refine getExpanded_bad ?_
    have := expand_text_bad (dbg := dbg) (set := set) (ch := [d]) (sep := false) rfl a [] ('{' :: '{' :: '#' :: (k ++ '}' :: '}' :: b))
      (a ++ '{' :: '{' :: '#' :: (k ++ '}' :: '}' :: b)).length ha (by simp) (by simpa using expand_openSect a k b ha.2.2.2 hk hb)
    simpa using this
  exact ⟨h true, h false⟩

/-- **C55 (outside the grammar).** A text that ends in a brace: a debug build stops, a release build returns the text. -/
theorem C55_last_brace (set : Settings) (d : Dict) (a : Str) (ha : TextOk a) :
    (∃ n, ∀ fuel, n ≤ fuel → getExpanded true set d fuel (a ++ ['{']) = .assertFail) ∧
    (∃ n, ∀ fuel, n ≤ fuel → getExpanded false set d fuel (a ++ ['{']) = .ok (a ++ ['{'])) := by
  have hc : ∀ dbg, getC dbg (a ++ ['{']) a.length = .ok '{' := fun dbg => getC_ok (by rw [at_pre0]; rfl)
  have e : a.length + 1 = (a ++ ['{']).length := by simp
  constructor
  · refine getExpanded_bad (dbg := true) ?_
    have := expand_text_bad (dbg := true) (set := set) (ch := [d]) (sep := false) rfl a [] ['{'] (a ++ ['{']).length ha (by simp) (by
      refine ⟨1, fun f hf => ?_⟩
      obtain ⟨g, rfl⟩ : ∃ g, f = g + 1 := ⟨f - 1, by omega⟩
      simp only [List.nil_append, List.length_nil, Nat.zero_add]
      rw [expand, if_pos (by simp), hc, Outcome.bind_ok, isPlain, if_neg (by simp), escaped_ok ha.2.2.2, Outcome.bind_ok, if_neg (by simp), e, (getC_end _).1]
      rfl)
    simpa using this
  · have := expand_text (dbg := false) (set := set) (ch := [d]) (sep := false) (o := ['{']) (r := false) a [] ['{'] (a ++ ['{']).length ha (by simp) (by
      refine ⟨2, fun f hf => ?_⟩
      obtain ⟨g, rfl⟩ : ∃ g, f = g + 1 + 1 := ⟨f - 2, by omega⟩
      simp only [List.nil_append, List.length_nil, Nat.zero_add]
      rw [expand, if_pos (by simp), hc, Outcome.bind_ok, isPlain, if_neg (by simp), escaped_ok ha.2.2.2, Outcome.bind_ok, if_neg (by simp), e, (getC_end _).2]
      simp only [Outcome.bind_ok, Outcome.pure_eq]
      rw [if_pos (by decide), expand, if_neg (by simp)]
      rfl)
    simp only [List.nil_append, List.length_nil] at this
    obtain ⟨n, hn⟩ := this
    refine ⟨n + 1, fun f hf => ?_⟩
    obtain ⟨g, rfl⟩ : ∃ g, f = g + 1 := ⟨f - 1, by omega⟩
    rw [getExpanded, passes, hn _ (by omega), Outcome.bind_ok]
    simp only [Outcome.pure_eq, Outcome.bind_ok, if_neg Bool.false_ne_true]
    rw [deEscape_text a _ ha]; rfl

/-- The conditions hold of `x{{a` and of `x{{#a}}b{`. -/
example : TextOk ['x'] ∧ '}' ∉ ['a'] ∧ ¬ ['{', '{', '/'] <:+: ['b', '{'] := by simp [TextOk, List.infix_cons_iff]

end Verif.Tmpl
