import Verif.Stringify.Spec
import Mathlib.Data.List.Forall2

/-!
# Theorems about stringification
-/

namespace Verif.Stringify

/-! ### The loops, for any relation between printers and what they print -/

/-- A relation between printers and lists that is closed under composition. -/
def Closed {β : Type} (R : (St → St) → List β → Prop) : Prop :=
  ∀ p q t u, R p t → R q u → R (fun s => q (p s)) (t ++ u)

section loops
variable {β : Type} {R : (St → St) → List β → Prop} (hc : Closed R)
include hc

theorem rep_bidir {α : Type} {f sep : α → St → St} {u : List β} (hs : ∀ x, R (sep x) u) :
    ∀ {xs : List α} {ts : List (List β)} {x : α} {t : List β}, R (f x) t →
      List.Forall₂ (fun x t => R (f x) t) xs ts →
      R (repeatBidir f sep x xs) (joined u (t :: ts)) := by
  intro xs
  induction xs with
  | nil => intro ts x t h h'; cases h'; exact h
  | cons y ys ih =>
    intro ts x t h h'
    cases h' with
    | @cons _ b _ l h1 h2 =>
      exact hc (fun s => sep x (f x s)) _ (t ++ u) _ (hc _ _ _ _ h (hs x)) (ih h1 h2)

theorem rep_fwdLoop {α : Type} {f sep : α → St → St} {u : List β} (hs : ∀ x, R (sep x) u)
    (count : Nat) :
    ∀ {xs : List α} {ts : List (List β)} {x : α} {t : List β} (i : Nat),
      i + (x :: xs).length = count → R (f x) t →
      List.Forall₂ (fun x t => R (f x) t) xs ts →
      R (fwdLoop f sep count i (x :: xs)) (joined u (t :: ts)) := by
  intro xs
  induction xs with
  | nil =>
    intro ts x t i hi h h'
    cases h'
    have e : ¬ ((i : Int) < (count : Int) - 1) := by simp at hi; omega
    have : fwdLoop f sep count i [x] = fun s => f x s := by
      funext s; simp only [fwdLoop, if_neg e]
    rw [this]; exact h
  | cons y ys ih =>
    intro ts x t i hi h h'
    cases h' with
    | @cons _ b _ l h1 h2 =>
      have e : ((i : Int) < (count : Int) - 1) := by simp at hi; omega
      have : fwdLoop f sep count i (x :: y :: ys) =
          fun s => fwdLoop f sep count (i + 1) (y :: ys) (sep x (f x s)) := by
        funext s; rw [fwdLoop]; simp only [if_pos e]
      rw [this]
      exact hc (fun s => sep x (f x s)) _ (t ++ u) _ (hc _ _ _ _ h (hs x))
        (ih (i + 1) (by simp at hi ⊢; omega) h1 h2)

theorem rep_repeat {α : Type} {f sep : α → St → St} {u : List β} (hs : ∀ x, R (sep x) u)
    (b : Bool) {xs : List α} {ts : List (List β)} {x : α} {t : List β} (h : R (f x) t)
    (h' : List.Forall₂ (fun x t => R (f x) t) xs ts) :
    R (repeatPenultimate b f sep x xs) (joined u (t :: ts)) := by
  cases b with
  | true => exact rep_bidir hc hs h h'
  | false => exact rep_fwdLoop hc hs (x :: xs).length 0 (by simp) h h'

variable {con : Con} {fmt : Bool} {P : List Char → List β}
  (hb : ∀ t, '\x1b' ∉ t → R (printBold con fmt t .default) (P t))
include hb

theorem rep_tplLoop (n : Nat) :
    ∀ {ps : List (St → St)} {ts : List (List β)} {p : St → St} {t : List β} (i : Nat),
      i + (p :: ps).length = n → R p t → List.Forall₂ R ps ts →
      R (tplLoop con fmt n i (p :: ps)) (joined (P [',', ' ']) (t :: ts)) := by
  intro ps
  induction ps with
  | nil =>
    intro ts x t i hi h h'
    cases h'
    have e : ¬ (i < n - 1) := by simp at hi; omega
    have : tplLoop con fmt n i [x] = fun s => x s := by
      funext s; simp only [tplLoop, if_neg e]
    rw [this]; exact h
  | cons y ys ih =>
    intro ts x t i hi h h'
    cases h' with
    | @cons _ b _ l h1 h2 =>
      have e : i < n - 1 := by simp at hi; omega
      have : tplLoop con fmt n i (x :: y :: ys) =
          fun s => tplLoop con fmt n (i + 1) (y :: ys)
            (printBold con fmt [',', ' '] .default (x s)) := by
        funext s; rw [tplLoop]; simp only [if_pos e]
      rw [this]
      exact hc (fun s => printBold con fmt [',', ' '] .default (x s)) _ (t ++ P [',', ' ']) _
        (hc _ _ _ _ h (hb _ (by decide))) (ih (i + 1) (by simp at hi ⊢; omega) h1 h2)

theorem rep_seq_nil (b : Bool) :
    R (strSeq con fmt b []) (P ['{', ' ', 'E', 'M', 'P', 'T', 'Y', ' ', '}']) :=
  hb _ (by decide)

theorem rep_seq (b : Bool) {ps : List (St → St)} {ts : List (List β)} {p : St → St} {t : List β}
    (h : R p t) (h' : List.Forall₂ R ps ts) :
    R (strSeq con fmt b (p :: ps))
      (P ['{'] ++ joined (P [',', ' ']) (t :: ts) ++ P ['}']) := by
  have := hc _ _ _ _ (hc _ _ _ _ (hb ['{'] (by decide))
    (rep_repeat hc (f := fun p => p) (sep := fun _ => printBold con fmt [',', ' '] .default)
      (fun _ => hb _ (by decide)) b h h')) (hb ['}'] (by decide))
  exact this

theorem rep_tuple {ps : List (St → St)} {ts : List (List β)} {p : St → St} {t : List β}
    (h : R p t) (h' : List.Forall₂ R ps ts) :
    R (strTuple con fmt (p :: ps))
      (P ['{'] ++ joined (P [',', ' ']) (t :: ts) ++ P ['}']) := by
  have := hc _ _ _ _ (hc _ _ _ _ (hb ['{'] (by decide))
    (rep_tplLoop hc hb (p :: ps).length 0 (by simp) h h')) (hb ['}'] (by decide))
  exact this

/-- The printers of an entry and what is printed for it. -/
def EntryR (R : (St → St) → List β → Prop) (P : List Char → List β) (sep : List Char)
    (e : (St → St) × (St → St)) (t : List β) : Prop :=
  ∃ a b, R e.1 a ∧ R e.2 b ∧ t = a ++ P sep ++ b

theorem rep_map (b : Bool) (sep psep : List Char) (hsep : '\x1b' ∉ sep) (hpsep : '\x1b' ∉ psep)
    {es : List ((St → St) × (St → St))} {ts : List (List β)} {e : (St → St) × (St → St)}
    {t : List β} (h : EntryR R P sep e t) (h' : List.Forall₂ (EntryR R P sep) es ts) :
    R (strMap con fmt b sep psep (e :: es))
      (P ['{'] ++ joined (P psep) (t :: ts) ++ P ['}']) := by
  have hf : ∀ e t, EntryR R P sep e t →
      R (fun s => e.2 (printBold con fmt sep .default (e.1 s))) t := by
    rintro e t ⟨a, b, ha, hb', rfl⟩
    exact hc (fun s => printBold con fmt sep .default (e.1 s)) _ (a ++ P sep) _
      (hc _ _ _ _ ha (hb sep hsep)) hb'
  have := hc _ _ _ _ (hc _ _ _ _ (hb ['{'] (by decide))
    (rep_repeat hc (α := (St → St) × (St → St))
      (f := fun e s => e.2 (printBold con fmt sep .default (e.1 s)))
      (sep := fun _ => printBold con fmt psep .default)
      (fun _ => hb _ hpsep) b (hf e t h) (h'.imp hf))) (hb ['}'] (by decide))
  exact this

end loops

/-! ### Without formatting: the text -/

/-- The printer always appends the text `t`. -/
def Emits (p : St → St) (t : List Char) : Prop := ∀ s, (p s).out = s.out ++ t

/-- What `resetFmt` streams. -/
def resetText : Con → List Char
  | .unix => resetSeq
  | .null => []

theorem emits_reset (con : Con) : Emits (resetFmt con) (resetText con) := by
  intro s
  cases con
  · rfl
  · simp [resetFmt, resetText]

theorem emits_bold (con : Con) (t : List Char) (k : Color) :
    Emits (printBold con false t k) t := fun s => rfl

theorem emits_fmt (con : Con) (t : List Char) (k : Color) (y : Style) :
    Emits (printFmt con false t k y) t := fun s => rfl

theorem Emits.comp {p q : St → St} {t u : List Char} (hp : Emits p t) (hq : Emits q u) :
    Emits (fun s => q (p s)) (t ++ u) := by
  intro s
  simp only [hq (p s), hp s, List.append_assoc]

theorem emits_call {con : Con} {p : St → St} {t : List Char} (h : Emits p t) :
    Emits (callStringifyImpl con true p) (resetText con ++ t ++ resetText con) := by
  have := ((emits_reset con).comp h).comp (emits_reset con)
  exact this

theorem emits_leaf (con : Con) (l : Leaf) (t : List Char) : Emits (strLeaf con false l t) t := by
  intro s
  rw [strLeaf]
  rcases baseOf l with _ | ⟨k, y, post⟩ <;> rfl

theorem emits_ptr (con : Con) (lit : List Char) (a : Option (List Char)) :
    Emits (strPtr con false lit a) (['['] ++ a.getD lit ++ [']']) := by
  have := ((emits_bold con ['['] .blue).comp
    (emits_fmt con (match a with | some t => t | none => lit) .cyan .underline)).comp
    (emits_bold con [']'] .blue)
  cases a <;> exact this

theorem emits_closed : Closed Emits := fun _ _ _ _ => Emits.comp

theorem emits_bold' (con : Con) (t : List Char) (_ : '\x1b' ∉ t) :
    Emits (printBold con false t .default) (id t) := emits_bold con t .default

mutual
theorem emits_stringify (con : Con) (lit : List Char) : ∀ v : Val,
    Emits (stringify con false lit v) (text (resetText con) lit v)
  | .leaf l t => by
    rw [stringify, text]; exact emits_leaf con l t
  | .ptr a => by
    rw [stringify, text]; exact emits_ptr con lit a
  | .seq b vs => by
    rw [stringify, text]
    have h := emits_callAll con lit vs
    revert h
    generalize callAll con false lit vs = ps
    generalize texts (resetText con) lit vs = ts
    intro h
    cases h with
    | nil => exact rep_seq_nil emits_closed (emits_bold' con) b
    | cons h h' => exact rep_seq emits_closed (emits_bold' con) b h h'
  | .tuple v vs => by
    rw [stringify, text]
    exact rep_tuple emits_closed (emits_bold' con) (emits_call (emits_stringify con lit v))
      (emits_callAll con lit vs)
  | .map b es => by
    rw [stringify, text]
    have h := emits_callEntries con lit [' ', '-', '>', ' '] es
    revert h
    generalize callEntries con false lit es = ps
    generalize entryTexts (resetText con) lit [' ', '-', '>', ' '] es = ts
    intro h
    cases h with
    | nil => exact emits_bold con _ _
    | cons h h' => exact rep_map emits_closed (emits_bold' con) b _ _ (by decide) (by decide) h h'
  | .bimap es => by
    rw [stringify, text]
    have h := emits_callEntries con lit [' ', '<', '-', '>', ' '] es
    revert h
    generalize callEntries con false lit es = ps
    generalize entryTexts (resetText con) lit [' ', '<', '-', '>', ' '] es = ts
    intro h
    cases h with
    | nil => exact emits_bold con _ _
    | cons h h' =>
      exact rep_map emits_closed (emits_bold' con) true _ _ (by decide) (by decide) h h'
theorem emits_callAll (con : Con) (lit : List Char) : ∀ vs : List Val,
    List.Forall₂ Emits (callAll con false lit vs) (texts (resetText con) lit vs)
  | [] => by rw [callAll, texts]; exact .nil
  | v :: vs => by
    rw [callAll, texts]
    exact .cons (emits_call (emits_stringify con lit v)) (emits_callAll con lit vs)
theorem emits_callEntries (con : Con) (lit sep : List Char) : ∀ es : List (Val × Val),
    List.Forall₂ (EntryR Emits id sep) (callEntries con false lit es)
      (entryTexts (resetText con) lit sep es)
  | [] => by rw [callEntries, entryTexts]; exact .nil
  | (k, v) :: es => by
    rw [callEntries, entryTexts]
    exact .cons ⟨_, _, emits_call (emits_stringify con lit k),
      emits_call (emits_stringify con lit v), rfl⟩ (emits_callEntries con lit sep es)
end

/-- **C62**, where the console has no formatting (every system but Linux): a value stringified
without formatting is appended to the stream as promised: elements between braces, separated by
`, `, and `{ EMPTY }` for an empty container, nested to any depth. -/
theorem C62_text_partial (lit : List Char) (v : Val) (s : St) :
    (stringify .null false lit v s).out = s.out ++ text [] lit v :=
  emits_stringify .null lit v s

/-- The same for `toStr`, whatever was converted before. -/
theorem C62_toStr_partial (lit : List Char) (v : Val) (c : Cache) :
    (toStr .null lit v c).1 = text [] lit v := by
  have h := emits_stringify .null lit v ⟨[], c⟩
  simpa [toStr, callStringifyImpl, resetText] using h

/-- On Linux the same holds but each element of a container is enclosed in two reset sequences. -/
theorem C62_text_linux (lit : List Char) (v : Val) (s : St) :
    (stringify .unix false lit v s).out = s.out ++ text resetSeq lit v :=
  emits_stringify .unix lit v s

/-- The same for `toStr`. -/
theorem C62_toStr_linux (lit : List Char) (v : Val) (c : Cache) :
    (toStr .unix lit v c).1 = text resetSeq lit v := by
  have h := emits_stringify .unix lit v ⟨[], c⟩
  simpa [toStr, callStringifyImpl, resetText] using h

/-! ### The text is longer than promised on Linux -/

theorem joined_length_le (sep : List Char) : ∀ (ts us : List (List Char)),
    List.Forall₂ (fun t u => t.length ≤ u.length) ts us →
      (joined sep ts).length ≤ (joined sep us).length := by
  intro ts us h
  induction h with
  | nil => simp
  | cons h1 h2 ih =>
    cases h2 with
    | nil => simpa [joined] using h1
    | cons => simp only [joined, List.length_append] at ih ⊢; omega

theorem joined_length_lt (sep : List Char) {t u : List Char} {ts us : List (List Char)}
    (h1 : t.length < u.length) (h2 : List.Forall₂ (fun t u => t.length ≤ u.length) ts us) :
      (joined sep (t :: ts)).length < (joined sep (u :: us)).length := by
  cases h2 with
  | nil => simpa [joined] using h1
  | cons h3 h4 =>
    have := joined_length_le sep _ _ (List.Forall₂.cons h3 h4)
    simp only [joined, List.length_append]; omega

theorem braces_length_le (sep : List Char) {ts us : List (List Char)}
    (h : List.Forall₂ (fun t u => t.length ≤ u.length) ts us) :
      (braces sep ts).length ≤ (braces sep us).length := by
  cases h with
  | nil => exact Nat.le_refl _
  | cons h1 h2 =>
    have := joined_length_le sep _ _ (List.Forall₂.cons h1 h2)
    rw [braces, braces, List.length_append, List.length_append, List.length_append,
      List.length_append]
    exact Nat.add_le_add_right (Nat.add_le_add_left this _) _

theorem braces_length_lt (sep : List Char) {t u : List Char} {ts us : List (List Char)}
    (h1 : t.length < u.length) (h2 : List.Forall₂ (fun t u => t.length ≤ u.length) ts us) :
      (braces sep (t :: ts)).length < (braces sep (u :: us)).length := by
  have := joined_length_lt sep h1 h2
  rw [braces, braces, List.length_append, List.length_append, List.length_append,
    List.length_append]
  exact Nat.add_lt_add_right (Nat.add_lt_add_left this _) _

theorem wrap_length_le (w : List Char) {t u : List Char} (h : t.length ≤ u.length) :
    ([] ++ t ++ [] : List Char).length ≤ (w ++ u ++ w).length := by
  simp only [List.length_append]; simp only [List.length_nil]; omega

theorem wrap_length_lt {w : List Char} (hw : w ≠ []) {t u : List Char} (h : t.length ≤ u.length) :
    ([] ++ t ++ [] : List Char).length < (w ++ u ++ w).length := by
  have hw' : 0 < w.length := List.length_pos_iff.2 hw
  simp only [List.length_append]; simp only [List.length_nil]; omega

mutual
theorem text_length_le (w null : List Char) : ∀ v : Val,
    (text [] null v).length ≤ (text w null v).length
  | .leaf _ _ => by rw [text, text]; exact Nat.le_refl _
  | .ptr _ => by rw [text, text]; exact Nat.le_refl _
  | .seq _ vs => by
    rw [text, text]; exact braces_length_le _ (texts_length_le w null vs)
  | .tuple v vs => by
    rw [text, text]
    exact braces_length_le _ (.cons (wrap_length_le w (text_length_le w null v))
      (texts_length_le w null vs))
  | .map _ es => by
    rw [text, text]; exact braces_length_le _ (entryTexts_length_le w null _ es)
  | .bimap es => by
    rw [text, text]; exact braces_length_le _ (entryTexts_length_le w null _ es)
theorem texts_length_le (w null : List Char) : ∀ vs : List Val,
    List.Forall₂ (fun t u : List Char => t.length ≤ u.length) (texts [] null vs) (texts w null vs)
  | [] => by rw [texts, texts]; exact .nil
  | v :: vs => by
    rw [texts, texts]
    exact .cons (wrap_length_le w (text_length_le w null v)) (texts_length_le w null vs)
theorem entryTexts_length_le (w null sep : List Char) : ∀ es : List (Val × Val),
    List.Forall₂ (fun t u : List Char => t.length ≤ u.length)
      (entryTexts [] null sep es) (entryTexts w null sep es)
  | [] => by rw [entryTexts, entryTexts]; exact .nil
  | (k, v) :: es => by
    rw [entryTexts, entryTexts]
    refine .cons ?_ (entryTexts_length_le w null sep es)
    have h1 := wrap_length_le w (text_length_le w null k)
    have h2 := wrap_length_le w (text_length_le w null v)
    rw [List.length_append, List.length_append, List.length_append (as := _ ++ sep),
      List.length_append (bs := sep)]
    omega
end

theorem entryTexts_length_lt (w null sep psep : List Char) (hw : w ≠ []) (es : List (Val × Val))
    (he : es ≠ []) :
    (braces psep (entryTexts [] null sep es)).length <
      (braces psep (entryTexts w null sep es)).length := by
  rcases es with _ | ⟨⟨k, v⟩, es⟩
  · exact absurd rfl he
  rw [entryTexts, entryTexts]
  refine braces_length_lt _ ?_ (entryTexts_length_le w null sep es)
  have h1 := wrap_length_lt hw (text_length_le w null k)
  have h2 := wrap_length_lt hw (text_length_le w null v)
  rw [List.length_append, List.length_append, List.length_append (as := _ ++ sep),
    List.length_append (bs := sep)]
  omega

theorem text_length_lt (w null : List Char) (hw : w ≠ []) (v : Val) (h : HasElems v) :
    (text [] null v).length < (text w null v).length := by
  cases v with
  | leaf => exact h.elim
  | ptr => exact h.elim
  | seq b vs =>
    cases vs with
    | nil => exact absurd rfl h
    | cons v vs =>
      rw [text, text, texts, texts]
      exact braces_length_lt _ (wrap_length_lt hw (text_length_le w null v))
        (texts_length_le w null vs)
  | tuple v vs =>
    rw [text, text]
    exact braces_length_lt _ (wrap_length_lt hw (text_length_le w null v))
      (texts_length_le w null vs)
  | map b es => rw [text, text]; exact entryTexts_length_lt w null _ _ hw es h
  | bimap es => rw [text, text]; exact entryTexts_length_lt w null _ _ hw es h

/-- **C62 fails on Linux**: the text of a container with an element is never the promised one,
although formatting is off. -/
theorem C62_linux_wrong (lit : List Char) (v : Val) (h : HasElems v) (s : St) :
    (stringify .unix false lit v s).out ≠ s.out ++ text [] lit v := by
  rw [C62_text_linux]
  intro e
  have := text_length_lt resetSeq lit (by decide) v h
  rw [List.append_cancel_left e] at this
  omega

/-- For example the vector `{1, 2}`. -/
theorem C62_linux_witness :
    (toStr .unix [] (.seq true [.leaf .int ['1'], .leaf .int ['2']]) Cache.init).1 =
      "{\x1b[0;39;49m1\x1b[0;39;49m, \x1b[0;39;49m2\x1b[0;39;49m}".toList := by decide +kernel

end Verif.Stringify
