import Verif.Tmpl.Spec

/-! # One pass over a well-formed template -/

namespace Verif.Tmpl

open Verif Spec

/-! ## Templates -/

def append : Tmpl → Tmpl → Tmpl
  | .nil, u => u
  | .text s r, u => .text s (append r u)
  | .brace r, u => .brace (append r u)
  | .key k r, u => .key k (append r u)
  | .sep s r, u => .sep s (append r u)
  | .sect k b r, u => .sect k b (append r u)

theorem source_append (t u : Tmpl) : source (append t u) = source t ++ source u := by
  induction t with
  | nil => rfl
  | text s r ih => simp [append, source, ih]
  | brace r ih => simp [append, source, ih]
  | key k r ih => simp [append, source, ih]
  | sep s r ih => simp [append, source, ih]
  | sect k b r _ ih => simp [append, source, ih]

theorem shown_append (t u : Tmpl) : shown (append t u) = shown t ++ shown u := by
  induction t with
  | nil => rfl
  | text s r ih => simp [append, shown, ih]
  | brace r ih => simp [append, shown, ih]
  | key k r ih => simp [append, shown, ih]
  | sep s r ih => simp [append, shown, ih]
  | sect k b r _ ih => simp [append, shown, ih]

theorem wf_append (t u : Tmpl) : Wf (append t u) ↔ Wf t ∧ Wf u := by
  induction t with
  | nil => simp [append, Wf]
  | text s r ih => simp [append, Wf, ih, and_assoc]
  | brace r ih => simp [append, Wf, ih]
  | key k r ih => simp [append, Wf, ih, and_assoc]
  | sep s r ih => simp [append, Wf, ih, and_assoc]
  | sect k b r _ ih => simp [append, Wf, ih, and_assoc]

/-- The contents for each dictionary. -/
def joinDicts (f : Dict → Bool → Tmpl) : List Dict → Tmpl
  | [] => .nil
  | [d] => f d false
  | d :: e :: ds => append (f d true) (joinDicts f (e :: ds))

/-- What a pass leaves; `val` gives the template a value is the text of. -/
def residual (set : Settings) (val : Str → Tmpl) : Tmpl → List Dict → Bool → Tmpl
  | .nil, _, _ => .nil
  | .text s r, ch, sep => .text s (residual set val r ch sep)
  | .brace r, ch, sep => .brace (residual set val r ch sep)
  | .key k r, ch, sep =>
    match lookupKey ch k with
    | some v => append (val v) (residual set val r ch sep)
    | none => if set = .maintain then .key k (residual set val r ch sep) else residual set val r ch sep
  | .sep s r, ch, sep => if sep then .text s (residual set val r ch sep) else residual set val r ch sep
  | .sect k b r, ch, sep =>
    match lookupSect ch k with
    | some (ds, up) => append (joinDicts (fun d sp => residual set val b (d :: up) sp) ds) (residual set val r ch sep)
    | none =>
      match set with
      | .maintain => .sect k b (residual set val r ch sep)
      | .onlyCnt => append b (residual set val r ch sep)
      | .erase => residual set val r ch sep

/-- Whether a pass replaces something. -/
def found : Tmpl → List Dict → Bool
  | .nil, _ => false
  | .text _ r, ch => found r ch
  | .brace r, ch => found r ch
  | .key k r, ch => (lookupKey ch k).isSome || found r ch
  | .sep _ r, ch => found r ch
  | .sect k _ r, ch => (lookupSect ch k).isSome || found r ch

/-! ## Reading characters -/

theorem getC_ok {dbg : Bool} {src : Str} {i : Nat} {c : Char} (h : src[i]? = some c) : getC dbg src i = .ok c := by
  simp [getC, h]

theorem at_pre (pre l : Str) (n : Nat) : (pre ++ l)[pre.length + n]? = l[n]? := by
  rw [List.getElem?_append_right (by omega)]
  congr 1; omega

theorem at_pre0 (pre l : Str) : (pre ++ l)[pre.length]? = l[0]? := at_pre pre l 0

theorem before_pre (pre l : Str) (h : pre ≠ []) : (pre ++ l)[pre.length - 1]? = pre.getLast? := by
  have : 0 < pre.length := List.length_pos_iff.2 h
  rw [List.getElem?_append_left (by omega), List.getLast?_eq_getElem?]

theorem checkC_true (dbg : Bool) : checkC dbg (.ok true) = .ok () := by cases dbg <;> rfl

/-- For all sufficiently large amounts of fuel. -/
def Ev (P : Nat → Prop) : Prop := ∃ n, ∀ f, n ≤ f → P f

theorem Ev.mp2 {P Q R : Nat → Prop} (hp : Ev P) (hq : Ev Q) (h : ∀ f, P f → Q f → R f) : Ev R := by
  obtain ⟨n, hn⟩ := hp
  obtain ⟨m, hm⟩ := hq
  exact ⟨n + m, fun f hf => h f (hn f (by omega)) (hm f (by omega))⟩

theorem Ev.mp {P R : Nat → Prop} (hp : Ev P) (h : ∀ f, P f → R f) : Ev R := by
  obtain ⟨n, hn⟩ := hp
  exact ⟨n, fun f hf => h f (hn f hf)⟩

theorem Ev.succ {P R : Nat → Prop} (hp : Ev P) (h : ∀ f, P f → R (f + 1)) : Ev R := by
  obtain ⟨n, hn⟩ := hp
  refine ⟨n + 1, fun f hf => ?_⟩
  obtain ⟨g, rfl⟩ : ∃ g, f = g + 1 := ⟨f - 1, by omega⟩
  exact h g (hn g (by omega))

theorem Ev.true {P : Nat → Prop} (h : ∀ f, P f) : Ev P := ⟨0, fun f _ => h f⟩

/-! ## Texts -/

theorem textOk_nil : TextOk [] := by simp [TextOk]

theorem infix_cons_head {a b : Char} {s : Str} (h : ¬ [a, b] <:+: (a :: s)) : s.head? ≠ some b := by
  intro hb
  cases s with
  | nil => cases hb
  | cons c s =>
    simp only [List.head?_cons, Option.some.injEq] at hb
    subst hb
    exact h ⟨[], s, rfl⟩

theorem textOk_tail {c : Char} {s : Str} (h : TextOk (c :: s)) : TextOk s := by
  obtain ⟨h1, h2, h3, h4⟩ := h
  refine ⟨fun hi => h1 (hi.trans (List.suffix_cons c s).isInfix), fun hi => h2 (hi.trans (List.suffix_cons c s).isInfix), ?_, ?_⟩
  · intro hs
    cases s with
    | nil => cases hs
    | cons d s => exact h3 (by rw [List.getLast?_cons_cons]; exact hs)
  · intro hs
    cases s with
    | nil => cases hs
    | cons d s => exact h4 (by rw [List.getLast?_cons_cons]; exact hs)

/-- The character after a `{` in a text. -/
theorem textOk_brace_next {s : Str} (h : TextOk ('{' :: s)) : ∃ d t, s = d :: t ∧ d ≠ '{' := by
  cases s with
  | nil => exact absurd rfl h.2.2.1
  | cons d t =>
    refine ⟨d, t, rfl, ?_⟩
    intro hd
    exact infix_cons_head h.1 (by simp [hd])

theorem getLast?_append_textOk {pre s : Str} (hp : pre.getLast? ≠ some '\\') (hs : TextOk s) : (pre ++ s).getLast? ≠ some '\\' := by
  cases s with
  | nil => simpa using hp
  | cons c s => rw [List.getLast?_append]; rw [List.getLast?_eq_some_getLast (by simp : c :: s ≠ [])]; have := hs.2.2.2; rw [List.getLast?_eq_some_getLast (by simp : c :: s ≠ [])] at this; simpa using this

theorem escaped_ok {dbg : Bool} {pre l : Str} (h : pre.getLast? ≠ some '\\') : escaped dbg (pre ++ l) pre.length = .ok false := by
  unfold escaped
  cases hp : pre with
  | nil => simp
  | cons a p =>
    have hne : pre ≠ [] := by simp [hp]
    rw [← hp]
    have hpos : 0 < pre.length := List.length_pos_iff.2 hne
    rw [if_pos hpos]
    obtain ⟨c, hc⟩ : ∃ c, pre.getLast? = some c := by
      cases hg : pre.getLast? with
      | none => exact absurd (List.getLast?_eq_none_iff.1 hg) hne
      | some c => exact ⟨c, rfl⟩
    have : getC dbg (pre ++ l) (pre.length - 1) = .ok c := getC_ok (by rw [before_pre _ _ hne, hc])
    rw [this, Outcome.bind_ok]
    have : c ≠ '\\' := fun e => h (by rw [hc, e])
    simp [this]

theorem escaped_total {dbg : Bool} {pre l : Str} : ∃ b, escaped dbg (pre ++ l) pre.length = .ok b := by
  unfold escaped
  by_cases hne : pre = []
  · subst hne; exact ⟨false, rfl⟩
  · have hpos : 0 < pre.length := List.length_pos_iff.2 hne
    rw [if_pos hpos]
    obtain ⟨c, hc⟩ : ∃ c, pre.getLast? = some c := by
      cases hg : pre.getLast? with
      | none => exact absurd (List.getLast?_eq_none_iff.1 hg) hne
      | some c => exact ⟨c, rfl⟩
    have : getC dbg (pre ++ l) (pre.length - 1) = .ok c := getC_ok (by rw [before_pre _ _ hne, hc])
    rw [this]
    exact ⟨_, rfl⟩

theorem isPlain_tag {dbg : Bool} {pre l : Str} (h : pre.getLast? ≠ some '\\') : isPlain dbg (pre ++ '{' :: '{' :: l) pre.length '{' = .ok false := by
  have : getC dbg (pre ++ '{' :: '{' :: l) (pre.length + 1) = .ok '{' := getC_ok (by rw [at_pre]; rfl)
  simp [isPlain, escaped_ok h, this]

theorem isPlain_text {dbg : Bool} {pre l : Str} {c : Char} {s : Str} (h : TextOk (c :: s)) :
    isPlain dbg (pre ++ ((c :: s) ++ l)) pre.length c = .ok true := by
  by_cases hc : c = '{'
  · subst hc
    obtain ⟨d, t, rfl, hd⟩ := textOk_brace_next h
    obtain ⟨b, hb⟩ := escaped_total (dbg := dbg) (pre := pre) (l := (('{' :: d :: t) ++ l))
    have : getC dbg (pre ++ (('{' :: d :: t) ++ l)) (pre.length + 1) = .ok d := getC_ok (by rw [at_pre]; rfl)
    cases b <;> simp only [isPlain, hb, this, Outcome.bind_ok] <;> simp [hd]
  · simp [isPlain, hc]

theorem expand_plain {dbg : Bool} {set : Settings} {src : Str} {ch : List Dict} {i e f : Nat} {sep r : Bool} {c : Char} {o : Str} (hi : i < e)
    (hc : getC dbg src i = .ok c) (hp : isPlain dbg src i c = .ok true) (h : expand dbg set src f ch (i + 1) e sep = .ok (o, r)) :
    expand dbg set src (f + 1) ch i e sep = .ok (c :: o, r) := by
  rw [expand, if_pos hi, hc, Outcome.bind_ok, hp, Outcome.bind_ok, if_pos rfl, h]
  rfl

theorem expand_text {dbg : Bool} {set : Settings} {ch : List Dict} {sep r : Bool} {o : Str} (s : Str) : ∀ (pre post : Str) (e : Nat), TextOk s →
    pre.length + s.length ≤ e →
    Ev (fun f => expand dbg set (pre ++ (s ++ post)) f ch (pre.length + s.length) e sep = .ok (o, r)) →
    Ev (fun f => expand dbg set (pre ++ (s ++ post)) f ch pre.length e sep = .ok (s ++ o, r)) := by
  induction s with
  | nil => intro pre post e _ _ h; simpa using h
  | cons c s ih =>
    intro pre post e hs hl h
    have hih := ih (pre ++ [c]) post e (textOk_tail hs) (by simp at hl ⊢; omega) (by
      have e1 : (pre ++ [c]) ++ (s ++ post) = pre ++ ((c :: s) ++ post) := by simp
      have e2 : (pre ++ [c]).length + s.length = pre.length + (c :: s).length := by simp; omega
      rw [e1, e2]; exact h)
    have e1 : (pre ++ [c]) ++ (s ++ post) = pre ++ ((c :: s) ++ post) := by simp
    have e2 : (pre ++ [c]).length = pre.length + 1 := by simp
    rw [e1, e2] at hih
    refine hih.succ (fun f hf => ?_)
    exact expand_plain (by simp at hl; omega) (getC_ok (by rw [at_pre0]; rfl)) (isPlain_text hs) hf

/-! ## Keys -/

theorem readKey_ok {dbg : Bool} (k : Str) : ∀ (pre post : Str), '}' ∉ k →
    Ev (fun f => readKey dbg (pre ++ (k ++ '}' :: post)) f pre.length = .ok (k, pre.length + k.length)) := by
  induction k with
  | nil =>
    intro pre post _
    refine (Ev.true (P := fun _ => True) (fun _ => trivial)).succ (fun f _ => ?_)
    have : getC dbg (pre ++ ([] ++ '}' :: post)) pre.length = .ok '}' := getC_ok (by rw [at_pre0]; rfl)
    rw [readKey, this, Outcome.bind_ok, if_pos rfl]; rfl
  | cons c k ih =>
    intro pre post h
    have hk : '}' ∉ k := fun hk => h (by simp [hk])
    have hc : c ≠ '}' := fun hc => h (by simp [hc])
    have hih := ih (pre ++ [c]) post hk
    have e1 : (pre ++ [c]) ++ (k ++ '}' :: post) = pre ++ ((c :: k) ++ '}' :: post) := by simp
    have e2 : (pre ++ [c]).length = pre.length + 1 := by simp
    rw [e1, e2] at hih
    refine hih.succ (fun f hf => ?_)
    have : getC dbg (pre ++ ((c :: k) ++ '}' :: post)) pre.length = .ok c := getC_ok (by rw [at_pre0]; rfl)
    rw [readKey, this, Outcome.bind_ok, if_neg hc, hf, Outcome.bind_ok]
    simp only [Outcome.pure_eq, List.length_cons]
    congr 2; omega

/-! ## The end of a section -/

theorem isClose_no {dbg : Bool} {src : Str} {i : Nat} {c : Char} (h : src[i]? = some c) (hc : c ≠ '{') : isClose dbg src i = .ok false := by
  rw [isClose, getC_ok h, Outcome.bind_ok, if_pos hc]; rfl

/-- Skipping: with enough fuel the search goes on at `j`. -/
def Skips (dbg : Bool) (src key : Str) (i j : Nat) : Prop := ∃ n, ∀ f, findEnd dbg src key (f + n) i = findEnd dbg src key f j

theorem Skips.refl (dbg : Bool) (src key : Str) (i : Nat) : Skips dbg src key i i := ⟨0, fun _ => rfl⟩

theorem Skips.trans {dbg : Bool} {src key : Str} {i j k : Nat} (h : Skips dbg src key i j) (h' : Skips dbg src key j k) : Skips dbg src key i k := by
  obtain ⟨n, hn⟩ := h
  obtain ⟨m, hm⟩ := h'
  exact ⟨m + n, fun f => by rw [← Nat.add_assoc, hn, hm]⟩

theorem Skips.one {dbg : Bool} {src key : Str} {i : Nat} (h : isClose dbg src i = .ok false) : Skips dbg src key i (i + 1) :=
  ⟨1, fun f => by rw [findEnd, h, Outcome.bind_ok]; rfl⟩

/-- Characters that are not `{`. -/
theorem skips_plain {dbg : Bool} {key : Str} (s : Str) : ∀ (pre post : Str), '{' ∉ s →
    Skips dbg (pre ++ (s ++ post)) key pre.length (pre.length + s.length) := by
  induction s with
  | nil => intro pre post _; exact .refl _ _ _ _
  | cons c s ih =>
    intro pre post h
    have h1 : Skips dbg (pre ++ ((c :: s) ++ post)) key pre.length (pre.length + 1) :=
      Skips.one (isClose_no (c := c) (by rw [at_pre0]; rfl) (fun hc => h (by simp [hc])))
    have h2 := ih (pre ++ [c]) post (fun hs => h (by simp [hs]))
    have e1 : (pre ++ [c]) ++ (s ++ post) = pre ++ ((c :: s) ++ post) := by simp
    have e2 : (pre ++ [c]).length = pre.length + 1 := by simp
    rw [e1, e2] at h2
    have e3 : pre.length + 1 + s.length = pre.length + (c :: s).length := by simp; omega
    rw [e3] at h2
    exact h1.trans h2

theorem prev_total {dbg : Bool} {pre l : Str} (hne : pre ≠ []) : ∃ c, pre.getLast? = some c ∧ getC dbg (pre ++ l) (pre.length - 1) = .ok c := by
  obtain ⟨c, hc⟩ : ∃ c, pre.getLast? = some c := by
    cases hg : pre.getLast? with
    | none => exact absurd (List.getLast?_eq_none_iff.1 hg) hne
    | some c => exact ⟨c, rfl⟩
  exact ⟨c, hc, getC_ok (by rw [before_pre _ _ hne, hc])⟩

/-- A `{` whose next character is not `{`. -/
theorem isClose_lone {dbg : Bool} {pre l : Str} {d : Char} (hne : pre ≠ []) (hd : d ≠ '{') :
    isClose dbg (pre ++ ('{' :: d :: l)) pre.length = .ok false := by
  obtain ⟨c, _, hp⟩ := prev_total (dbg := dbg) (l := '{' :: d :: l) hne
  have h0 : getC dbg (pre ++ ('{' :: d :: l)) pre.length = .ok '{' := getC_ok (by rw [at_pre0]; rfl)
  have h1 : getC dbg (pre ++ ('{' :: d :: l)) (pre.length + 1) = .ok d := getC_ok (by rw [at_pre]; rfl)
  rw [isClose, h0, Outcome.bind_ok, if_neg (by simp), hp, Outcome.bind_ok]
  by_cases hc : c = '\\'
  · rw [if_pos hc]; rfl
  · rw [if_neg hc, h1, Outcome.bind_ok, if_pos hd]; rfl

/-- An escaped `{`. -/
theorem isClose_escaped {dbg : Bool} {pre l : Str} (h : pre.getLast? = some '\\') : isClose dbg (pre ++ ('{' :: l)) pre.length = .ok false := by
  have hne : pre ≠ [] := by rintro rfl; cases h
  obtain ⟨c, hc, hp⟩ := prev_total (dbg := dbg) (l := '{' :: l) hne
  rw [h] at hc
  cases hc
  have h0 : getC dbg (pre ++ ('{' :: l)) pre.length = .ok '{' := getC_ok (by rw [at_pre0]; rfl)
  rw [isClose, h0, Outcome.bind_ok, if_neg (by simp), hp, Outcome.bind_ok, if_pos rfl]; rfl

/-- A tag that is not a closing tag. -/
theorem isClose_open {dbg : Bool} {pre l : Str} {d : Char} (hne : pre ≠ []) (hd : d ≠ '/') :
    isClose dbg (pre ++ ('{' :: '{' :: d :: l)) pre.length = .ok false := by
  obtain ⟨c, _, hp⟩ := prev_total (dbg := dbg) (l := '{' :: '{' :: d :: l) hne
  have h0 : getC dbg (pre ++ ('{' :: '{' :: d :: l)) pre.length = .ok '{' := getC_ok (by rw [at_pre0]; rfl)
  have h1 : getC dbg (pre ++ ('{' :: '{' :: d :: l)) (pre.length + 1) = .ok '{' := getC_ok (by rw [at_pre]; rfl)
  have h2 : getC dbg (pre ++ ('{' :: '{' :: d :: l)) (pre.length + 2) = .ok d := getC_ok (by rw [at_pre]; rfl)
  rw [isClose, h0, Outcome.bind_ok, if_neg (by simp), hp, Outcome.bind_ok]
  by_cases hc : c = '\\'
  · rw [if_pos hc]; rfl
  · rw [if_neg hc, h1, Outcome.bind_ok, if_neg (by simp), h2, Outcome.bind_ok]; simp [hd]

theorem isClose_close {dbg : Bool} {pre l : Str} (hne : pre ≠ []) (h : pre.getLast? ≠ some '\\') :
    isClose dbg (pre ++ ('{' :: '{' :: '/' :: l)) pre.length = .ok true := by
  obtain ⟨c, hc, hp⟩ := prev_total (dbg := dbg) (l := '{' :: '{' :: '/' :: l) hne
  have hc' : c ≠ '\\' := fun e => h (by rw [hc, e])
  have h0 : getC dbg (pre ++ ('{' :: '{' :: '/' :: l)) pre.length = .ok '{' := getC_ok (by rw [at_pre0]; rfl)
  have h1 : getC dbg (pre ++ ('{' :: '{' :: '/' :: l)) (pre.length + 1) = .ok '{' := getC_ok (by rw [at_pre]; rfl)
  have h2 : getC dbg (pre ++ ('{' :: '{' :: '/' :: l)) (pre.length + 2) = .ok '/' := getC_ok (by rw [at_pre]; rfl)
  rw [isClose, h0, Outcome.bind_ok, if_neg (by simp), hp, Outcome.bind_ok, if_neg hc', h1, Outcome.bind_ok, if_neg (by simp), h2, Outcome.bind_ok]; rfl

theorem matchKey_same {dbg : Bool} (k : Str) : ∀ pre post : Str, matchKey dbg (pre ++ (k ++ post)) k pre.length = .ok (true, pre.length + k.length) := by
  induction k with
  | nil => intro pre post; rfl
  | cons c k ih =>
    intro pre post
    have : getC dbg (pre ++ ((c :: k) ++ post)) pre.length = .ok c := getC_ok (by rw [at_pre0]; rfl)
    rw [matchKey, this, Outcome.bind_ok, if_neg (by simp)]
    have h := ih (pre ++ [c]) post
    have e1 : (pre ++ [c]) ++ (k ++ post) = pre ++ ((c :: k) ++ post) := by simp
    have e2 : (pre ++ [c]).length = pre.length + 1 := by simp
    rw [e1, e2] at h
    rw [h]
    congr 2; simp; omega

/-- A key that does not start with `k` differs from it before its end, or at the `}` after it. -/
theorem matchKey_other {dbg : Bool} (k : Str) : ∀ (t pre post : Str), '}' ∉ k → ¬ k <+: t →
    ∃ j, j ≤ t.length ∧ matchKey dbg (pre ++ (t ++ '}' :: post)) k pre.length = .ok (false, pre.length + j) := by
  induction k with
  | nil => intro t pre post _ h; exact absurd List.nil_prefix h
  | cons c k ih =>
    intro t pre post hk h
    have hc : c ≠ '}' := fun e => hk (by simp [e])
    cases t with
    | nil =>
      have : getC dbg (pre ++ ([] ++ '}' :: post)) pre.length = .ok '}' := getC_ok (by rw [at_pre0]; rfl)
      exact ⟨0, by simp, by rw [matchKey, this, Outcome.bind_ok, if_pos (Ne.symm hc)]; rfl⟩
    | cons d t =>
      have hg : getC dbg (pre ++ ((d :: t) ++ '}' :: post)) pre.length = .ok d := getC_ok (by rw [at_pre0]; rfl)
      by_cases hd : d = c
      · subst hd
        obtain ⟨j, hj, e⟩ := ih t (pre ++ [d]) post (fun h' => hk (by simp [h'])) (fun h' => h (by simpa using h'))
        have e1 : (pre ++ [d]) ++ (t ++ '}' :: post) = pre ++ ((d :: t) ++ '}' :: post) := by simp
        have e2 : (pre ++ [d]).length = pre.length + 1 := by simp
        rw [e1, e2] at e
        refine ⟨j + 1, by simp; omega, ?_⟩
        rw [matchKey, hg, Outcome.bind_ok, if_neg (by simp), e]
        congr 2; omega
      · exact ⟨0, by simp, by rw [matchKey, hg, Outcome.bind_ok, if_pos hd]; rfl⟩

end Verif.Tmpl
