import Verif.Console.Spec
import Verif.Stringify.PropsFmt
import Mathlib.Data.List.Induction

/-! # Console formatting: C164, C165 -/

namespace Verif.Console

open Verif.Stringify (Style Color Cache Con fmtStr Attr run paint run_append run_text run_fmtStr sgr_fg sgr_bg sgr fgCode bgCode styleCode Mode)
open Spec

/-! ### Lemmas -/

theorem last_concat {α β : Type} (f : α → Option β) (d : β) (l : List α) (x : α) : last f d (l ++ [x]) = (f x).getD (last f d l) := by
  unfold last
  rw [List.filterMap_append]
  cases h : f x <;> simp [h]

theorem calls_concat (h : List Op) (o : Op) : calls (h ++ [o]) = calls h ++ (match o with | .send _ f => [f] | .keep f => [f] | _ => []) := by
  unfold calls
  rw [List.filterMap_append]
  cases o <;> simp

theorem exec_concat (con : Con) (h : List Op) (o : Op) : exec con (h ++ [o]) = step con o (exec con h) := by
  simp [exec]

theorem fgCode_eq (k : Color) : fgCode k = fgNumber k := by cases k <;> rfl
theorem bgCode_eq (k : Color) : bgCode k = bgNumber k := by cases k <;> rfl

theorem update_fg (f : Fmt) (c : Cache) : (update f c).fg = (asksFg f).getD c.fg := by cases f <;> rfl
theorem update_bg (f : Fmt) (c : Cache) : (update f c).bg = (asksBg f).getD c.bg := by cases f <;> rfl

/-- The library: what is cached, and the text of the one format string. -/
theorem lib_inv (h : List Op) : (exec .unix h).cache.fg = last asksFg .default (calls h) ∧
    (exec .unix h).cache.bg = last asksBg .default (calls h) ∧
    (exec .unix h).result = if calls h = [] then [] else fmtStr (exec .unix h).cache := by
  induction h using List.reverseRecOn with
  | nil => exact ⟨rfl, rfl, rfl⟩
  | append_singleton h o ih =>
    obtain ⟨h1, h2, h3⟩ := ih
    rw [exec_concat, calls_concat]
    cases o with
    | send i f => simp [step, call, put, update_fg, update_bg, h1, h2, last_concat]
    | keep f => simp [step, call, update_fg, update_bg, h1, h2, last_concat]
    | use i => simpa [step, put, h1, h2] using h3
    | clear i => simpa [step, put, h1, h2] using h3
    | text i t => simpa [step, put, h1, h2] using h3

/-- What the terminal behind stream `i` shows. -/
abbrev shown (con : Con) (i : Nat) (h : List Op) : List (Char × Attr) × Mode × Attr := run .plain {} ((exec con h).outs i)

theorem run_clear (a : Attr) : run .plain a (clearStr .unix) = ([], .plain, a) := rfl

theorem textsTo_concat (i : Nat) (h : List Op) (o : Op) :
    textsTo i (h ++ [o]) = textsTo i h ++ (match o with | .text j t => if j = i then t else [] | _ => []) := by
  unfold textsTo
  rw [List.filterMap_append, List.flatten_append]
  cases o with
  | text j t => by_cases e : j = i <;> simp [e]
  | _ => simp

/-- One step, seen by the terminal. -/
theorem shown_step (i : Nat) (h : List Op) (o : Op) {d : List (Char × Attr)} {a : Attr} (hs : shown .unix i h = (d, .plain, a))
    (ho : ∀ t, o = .text i t → '\x1b' ∉ t) :
    (FormatTo i o ∧ calls (h ++ [o]) ≠ [] ∧ shown .unix i (h ++ [o]) = (d, .plain,
      { sgr a (styleCode (exec .unix (h ++ [o])).cache.style) with fg := fgNumber (exec .unix (h ++ [o])).cache.fg, bg := bgNumber (exec .unix (h ++ [o])).cache.bg })) ∨
    (∃ t, o = .text i t ∧ shown .unix i (h ++ [o]) = (d ++ paint a t, .plain, a)) ∨
    ((¬ FormatTo i o ∨ calls (h ++ [o]) = []) ∧ (∀ t, o ≠ .text i t) ∧ shown .unix i (h ++ [o]) = (d, .plain, a)) := by
  have hs' : run .plain {} ((exec .unix h).outs i) = (d, .plain, a) := hs
  have fm : ∀ (c : Cache) (t : List Char), t = (exec .unix h).outs i ++ fmtStr c → run .plain {} t = (d, .plain,
      { sgr a (styleCode c.style) with fg := fgNumber c.fg, bg := bgNumber c.bg }) := by
    intro c t e
    rw [e, run_append, hs', run_fmtStr, sgr_fg, sgr_bg, fgCode_eq, bgCode_eq, List.append_nil]
  unfold shown
  rw [exec_concat]
  cases o with
  | send j f =>
    by_cases e : j = i
    · subst e
      refine .inl ⟨.inl ⟨f, rfl⟩, by simp [calls_concat], ?_⟩
      exact fm (update f (exec .unix h).cache) _ (by simp [step, call, put])
    · refine .inr (.inr ⟨.inl ?_, by simp, ?_⟩)
      · rintro (⟨f', e'⟩ | e')
        · cases e'; exact e rfl
        · cases e'
      · simpa [step, call, put, Ne.symm e] using hs'
  | keep f => 
    refine .inr (.inr ⟨.inl ?_, by simp, by simpa [step, call] using hs'⟩)
    rintro (⟨f', e'⟩ | e') <;> cases e'
  | use j =>
    by_cases e : j = i
    · subst e
      have hr := (lib_inv h).2.2
      by_cases hc : calls h = []
      · rw [if_pos hc] at hr
        exact .inr (.inr ⟨.inr (by simp [calls_concat, hc]), by simp, by simpa [step, put, hr] using hs'⟩)
      · rw [if_neg hc] at hr
        refine .inl ⟨.inr rfl, by simp [calls_concat, hc], ?_⟩
        exact fm (exec .unix h).cache _ (by simp [step, put, hr])
    · refine .inr (.inr ⟨.inl ?_, by simp, by simpa [step, put, Ne.symm e] using hs'⟩)
      rintro (⟨f', e'⟩ | e')
      · cases e'
      · cases e'; exact e rfl
  | clear j =>
    refine .inr (.inr ⟨.inl ?_, by simp, ?_⟩)
    · rintro (⟨f', e'⟩ | e') <;> cases e'
    · by_cases e : i = j
      · subst e
        simp only [step, put, if_true]
        rw [run_append, hs', run_clear, List.append_nil]
      · simpa [step, put, e] using hs'
  | text j t =>
    by_cases e : j = i
    · subst e
      refine .inr (.inl ⟨t, rfl, ?_⟩)
      simp only [step, put, if_true]
      rw [run_append, hs', run_text _ _ (ho t rfl)]
    · refine .inr (.inr ⟨.inl ?_, ?_, by simpa [step, put, Ne.symm e] using hs'⟩)
      · rintro (⟨f', e'⟩ | e') <;> cases e'
      · intro t' e'; cases e'; exact e rfl

theorem Spec.CleanTexts.left {h : List Op} {o : Op} (hc : CleanTexts (h ++ [o])) : CleanTexts h ∧ ∀ i t, o = .text i t → '\x1b' ∉ t :=
  ⟨fun i t hm => hc i t (by simp [hm]), fun i t e => hc i t (by simp [e])⟩

/-- **C164 (texts).** A terminal shows exactly the texts that were written to its stream, whatever formats were written. -/
theorem C164_texts (i : Nat) (h : List Op) (hc : CleanTexts h) :
    ∃ d a, shown .unix i h = (d, .plain, a) ∧ d.map Prod.fst = textsTo i h := by
  induction h using List.reverseRecOn with
  | nil => exact ⟨[], {}, rfl, rfl⟩
  | append_singleton h o ih =>
    obtain ⟨d, a, h1, h2⟩ := ih hc.left.1
    rw [textsTo_concat]
    rcases shown_step i h o h1 (fun t => hc.left.2 i t) with ⟨ho, _, e⟩ | ⟨t, rfl, e⟩ | ⟨_, hn, e⟩
    · refine ⟨_, _, e, ?_⟩
      rcases ho with ⟨f, rfl⟩ | rfl <;> simp [h2]
    · refine ⟨_, _, e, ?_⟩
      simp [h2, paint, Function.comp_def]
    · refine ⟨_, _, e, ?_⟩
      cases o with
      | text j t => simp [h2, show j ≠ i from fun hj => hn t (by rw [hj])]
      | _ => simp [h2]

/-- **C164 (colours).** A text is shown in the colours that were asked for last before the last format string was written to its stream, on
whichever stream; a reset counts as asking for the default ones. -/
theorem C164_colours (i : Nat) (h1 h2 : List Op) (o : Op) (hc : CleanTexts (h1 ++ [o] ++ h2)) (ho : FormatTo i o) (hcalls : calls (h1 ++ [o]) ≠ [])
    (hn : ∀ o ∈ h2, ¬ FormatTo i o) (t : List Char) (ht : '\x1b' ∉ t) :
    ∃ a, (shown .unix i (h1 ++ [o] ++ h2 ++ [.text i t])).1 = (shown .unix i (h1 ++ [o] ++ h2)).1 ++ paint a t ∧
      a.fg = fgNumber (last asksFg .default (calls (h1 ++ [o]))) ∧ a.bg = bgNumber (last asksBg .default (calls (h1 ++ [o]))) := by
  have key : ∃ d a, shown .unix i (h1 ++ [o] ++ h2) = (d, .plain, a) ∧
      a.fg = fgNumber (last asksFg .default (calls (h1 ++ [o]))) ∧ a.bg = bgNumber (last asksBg .default (calls (h1 ++ [o]))) := by
    induction h2 using List.reverseRecOn with
    | nil =>
      rw [List.append_nil] at hc ⊢
      obtain ⟨d, a, e1, _⟩ := C164_texts i h1 hc.left.1
      have hl := lib_inv (h1 ++ [o])
      rcases shown_step i h1 o e1 (fun t => hc.left.2 i t) with ⟨_, _, e⟩ | ⟨t, rfl, e⟩ | ⟨hno, _, e⟩
      · exact ⟨_, _, e, by rw [← hl.1], by rw [← hl.2.1]⟩
      · rcases ho with ⟨f, e'⟩ | e' <;> cases e'
      · rcases hno with hno | hno
        · exact absurd ho hno
        · exact absurd hno hcalls
    | append_singleton h2 p ih =>
      rw [← List.append_assoc] at hc ⊢
      obtain ⟨d, a, e1, g⟩ := ih hc.left.1 (fun o ho => hn o (by simp [ho]))
      rcases shown_step i (h1 ++ [o] ++ h2) p e1 (fun t => hc.left.2 i t) with ⟨hp, _, e⟩ | ⟨t, rfl, e⟩ | ⟨_, _, e⟩
      · exact absurd hp (hn p (by simp))
      · exact ⟨_, _, e, g⟩
      · exact ⟨_, _, e, g⟩
  obtain ⟨d, a, e1, g⟩ := key
  rcases shown_step i _ (.text i t) e1 (fun t' e => by cases e; exact ht) with ⟨hp, _, e⟩ | ⟨t', e', e⟩ | ⟨_, hno, _⟩
  · rcases hp with ⟨f, e'⟩ | e' <;> cases e'
  · cases e'
    exact ⟨a, by rw [e, e1], g⟩
  · exact absurd rfl (hno t)

/-- **C164 (nothing sent).** Before the first format string is written to its stream, a text is shown without attributes, whatever is sent elsewhere. -/
theorem C164_untouched (i : Nat) (h : List Op) (hc : CleanTexts h) (hn : ∀ o ∈ h, ¬ FormatTo i o) : ∃ d, shown .unix i h = (d, .plain, {}) := by
  induction h using List.reverseRecOn with
  | nil => exact ⟨[], rfl⟩
  | append_singleton h o ih =>
    obtain ⟨d, e1⟩ := ih hc.left.1 (fun o ho => hn o (by simp [ho]))
    rcases shown_step i h o e1 (fun t => hc.left.2 i t) with ⟨hp, _, e⟩ | ⟨t, rfl, e⟩ | ⟨_, _, e⟩
    · exact absurd hp (hn o (by simp))
    · exact ⟨_, e⟩
    · exact ⟨_, e⟩

/-- Sending the last style again changes nothing. -/
def Stable (y : Style) (a : Attr) : Prop := ∀ p : Part, p.on (sgr a (styleCode y)) = p.on a

theorem on_sgr (p : Part) (y : Style) (a : Attr) : p.on (sgr a (styleCode y)) = ((p.says (.style y)).getD (p.on a)) := by
  cases y <;> cases p <;> rfl

theorem on_colours (p : Part) (a : Attr) (f b : Nat) : p.on { a with fg := f, bg := b } = p.on a := by cases p <;> rfl

theorem says_twice (p : Part) (y : Style) (b : Bool) : (p.says (.style y)).getD ((p.says (.style y)).getD b) = (p.says (.style y)).getD b := by
  cases p.says (.style y) <;> rfl

/-- **C164 (one stream).** If a program writes to one stream and writes every format string at once, a text is shown in the colours asked for last, and
bold, dim, underlined, blinking, reversed or hidden exactly if the last call that says something about it switched it on. -/
theorem C164_one_stream (i : Nat) (h : List Op) (hc : CleanTexts h) (h1 : OneStream i h) (t : List Char) (ht : '\x1b' ∉ t) :
    ∃ a, (shown .unix i (h ++ [.text i t])).1 = (shown .unix i h).1 ++ paint a t ∧
      a.fg = fgNumber (last asksFg .default (calls h)) ∧ a.bg = bgNumber (last asksBg .default (calls h)) ∧
      ∀ p : Part, p.on a = last p.says false (calls h) := by
  have key : ∃ d a, shown .unix i h = (d, .plain, a) ∧ a.fg = fgNumber (last asksFg .default (calls h)) ∧
      a.bg = bgNumber (last asksBg .default (calls h)) ∧ (∀ p : Part, p.on a = last p.says false (calls h)) ∧
      Stable (exec .unix h).cache.style a := by
    induction h using List.reverseRecOn with
    | nil => exact ⟨[], {}, rfl, rfl, rfl, fun p => by cases p <;> rfl, fun p => by cases p <;> rfl⟩
    | append_singleton h o ih =>
      obtain ⟨d, a, e1, g1, g2, g3, g4⟩ := ih hc.left.1 (fun o ho => h1 o (by simp [ho]))
      have hl := lib_inv (h ++ [o])
      rcases shown_step i h o e1 (fun t => hc.left.2 i t) with ⟨_, _, e⟩ | ⟨t, rfl, e⟩ | ⟨hno, hnt, e⟩
      · refine ⟨_, _, e, by rw [← hl.1], by rw [← hl.2.1], ?_, ?_⟩
        · intro p
          rw [on_colours]
          rcases h1 o (by simp) with ⟨f, rfl⟩ | rfl | ⟨t, rfl⟩
          · rw [calls_concat, last_concat, ← g3, exec_concat]
            have e5 : (step .unix (.send i f) (exec .unix h)).cache = update f (exec .unix h).cache := rfl
            rw [e5]
            cases f with
            | style y => exact on_sgr p y a
            | fg k => exact g4 p
            | bg k => exact g4 p
            | reset => cases p <;> rfl
          · have := g3 p
            rw [calls_concat]
            simp only [List.append_nil]
            rw [← this, exec_concat]
            exact g4 p
          · have := g3 p
            rw [calls_concat]
            simp only [List.append_nil]
            rw [← this, exec_concat]
            exact g4 p
        · intro p
          rw [on_sgr, on_colours, on_sgr, says_twice]
      · rw [calls_concat, exec_concat]
        simp only [List.append_nil]
        exact ⟨_, _, e, g1, g2, g3, g4⟩
      · rcases h1 o (by simp) with ⟨f, rfl⟩ | rfl | ⟨t, rfl⟩
        · rcases hno with hno | hno
          · exact absurd (.inl ⟨f, rfl⟩) hno
          · simp [calls_concat] at hno
        · rw [calls_concat, exec_concat]
          simp only [List.append_nil]
          exact ⟨_, _, e, g1, g2, g3, g4⟩
        · exact absurd rfl (hnt t)
  obtain ⟨d, a, e1, g1, g2, g3, _⟩ := key
  rcases shown_step i _ (.text i t) e1 (fun t' e => by cases e; exact ht) with ⟨hp, _, e⟩ | ⟨t', e', e⟩ | ⟨_, hno, _⟩
  · rcases hp with ⟨f, e'⟩ | e' <;> cases e'
  · cases e'
    exact ⟨a, by rw [e, e1], g1, g2, g3⟩
  · exact absurd rfl (hno t)

/-- The promise of one current style is not kept: **styles add up.** After two different ones both are on. -/
theorem C164_styles_add_up (i : Nat) (h : List Op) (hc : CleanTexts h) (h1 : OneStream i h) (p q : Part) (t : List Char) (ht : '\x1b' ∉ t) :
    ∃ a, (shown .unix i (h ++ [.send i (.style p.style), .send i (.style q.style), .text i t])).1 = (shown .unix i h).1 ++ paint a t ∧
      p.on a = true ∧ q.on a = true := by
  let h' := h ++ [.send i (.style p.style), .send i (.style q.style)]
  have e0 : h ++ [.send i (.style p.style), .send i (.style q.style), .text i t] = h' ++ [.text i t] := by simp [h']
  obtain ⟨a, g1, _, _, g4⟩ := C164_one_stream i h'
    (fun j u hm => hc j u (by simpa [h'] using hm))
    (fun o ho => by
      rcases List.mem_append.1 ho with ho | ho
      · exact h1 o ho
      · simp at ho; rcases ho with rfl | rfl
        · exact .inl ⟨_, rfl⟩
        · exact .inl ⟨_, rfl⟩) t ht
  have hd : (shown .unix i h').1 = (shown .unix i h).1 := by
    obtain ⟨d, a, e1, _⟩ := C164_texts i h hc
    have e2 : h' = h ++ [.send i (.style p.style)] ++ [.send i (.style q.style)] := by simp [h']
    have st : ∀ (h : List Op) (f : Fmt) {d a}, shown .unix i h = (d, .plain, a) → ∃ a', shown .unix i (h ++ [.send i f]) = (d, .plain, a') := by
      intro h f d a e
      rcases shown_step i h (.send i f) e (fun t e => by cases e) with ⟨_, _, e⟩ | ⟨t, e', _⟩ | ⟨_, _, e⟩
      · exact ⟨_, e⟩
      · cases e'
      · exact ⟨_, e⟩
    obtain ⟨a', e3⟩ := st h (.style p.style) e1
    obtain ⟨a'', e4⟩ := st _ (.style q.style) e3
    rw [e2, e4, e1]
  have hcalls : calls h' = calls h ++ [.style p.style] ++ [.style q.style] := by
    have e2 : h' = h ++ [.send i (.style p.style)] ++ [.send i (.style q.style)] := by simp [h']
    rw [e2, calls_concat, calls_concat]
  refine ⟨a, by rw [e0, g1, hd], ?_, ?_⟩
  · rw [g4, hcalls, last_concat, last_concat]
    cases p <;> cases q <;> rfl
  · rw [g4, hcalls, last_concat]
    cases q <;> rfl

/-- **C164 (other streams).** The promise that a format belongs to the stream it is written to is not kept: a colour asked for on another stream
shows up with the next style that is sent to this one. -/
theorem C164_other_stream (i j : Nat) (h : List Op) (hc : CleanTexts h) (k : Color) (y : Style) (t : List Char) (ht : '\x1b' ∉ t) :
    ∃ a, (shown .unix i (h ++ [.send j (.fg k), .send i (.style y), .text i t])).1 =
      (shown .unix i (h ++ [.send j (.fg k), .send i (.style y)])).1 ++ paint a t ∧ a.fg = fgNumber k := by
  obtain ⟨a, g1, g2, _⟩ := C164_colours i (h ++ [.send j (.fg k)]) [] (.send i (.style y))
    (fun j' u hm => hc j' u (by simpa using hm)) (.inl ⟨_, rfl⟩) (by rw [calls_concat]; simp) (by simp) t ht
  refine ⟨a, ?_, ?_⟩
  · simpa only [List.append_assoc, List.cons_append, List.nil_append] using g1
  · rw [g2, calls_concat, calls_concat, last_concat, last_concat]; rfl

/-- **C164 (kept references).** A format string that is kept is that of the last call, on whichever of the functions: of two kept colours the
first one is lost. -/
theorem C164_kept (i : Nat) (h : List Op) (hc : CleanTexts h) (k k' : Color) (t : List Char) (ht : '\x1b' ∉ t) :
    ∃ a, (shown .unix i (h ++ [.keep (.fg k), .keep (.fg k'), .use i, .text i t])).1 =
      (shown .unix i (h ++ [.keep (.fg k), .keep (.fg k'), .use i])).1 ++ paint a t ∧ a.fg = fgNumber k' := by
  obtain ⟨a, g1, g2, _⟩ := C164_colours i (h ++ [.keep (.fg k)] ++ [.keep (.fg k')]) [] (.use i)
    (fun j' u hm => hc j' u (by simpa using hm)) (.inr rfl) (by rw [calls_concat, calls_concat]; simp) (by simp) t ht
  refine ⟨a, ?_, ?_⟩
  · simpa only [List.append_assoc, List.cons_append, List.nil_append] using g1
  · rw [g2, calls_concat, calls_concat, calls_concat, List.append_nil, last_concat]; rfl

/-- **C164 (no console).** Without console support only the texts are written. -/
theorem C164_null (i : Nat) (h : List Op) : (exec .null h).outs i = textsTo i h := by
  have : (exec .null h).outs i = textsTo i h ∧ (exec .null h).result = [] := by
    induction h using List.reverseRecOn with
    | nil => exact ⟨rfl, rfl⟩
    | append_singleton h o ih =>
      rw [exec_concat, textsTo_concat]
      cases o with
      | send j f => simp [step, call, put, ih]
      | keep f => simp [step, call, ih]
      | use j => simp [step, put, ih]
      | clear j => simp [step, put, ih, clearStr]
      | text j t =>
        by_cases e : j = i
        · simp [step, put, ih, e]
        · simp [step, put, ih, e, Ne.symm e]
  exact this.1

theorem events_append (m : Mode) (t u : List Char) : events m (t ++ u) = ((events m t).1 ++ (events (events m t).2 u).1, (events (events m t).2 u).2) := by
  induction t generalizing m with
  | nil => rfl
  | cons c cs ih => simp only [List.cons_append, events, ih, List.append_assoc]

theorem events_text (t : List Char) (h : '\x1b' ∉ t) : events .plain t = (t.map .char, .plain) := by
  induction t with
  | nil => rfl
  | cons c cs ih =>
    have hc : c ≠ '\x1b' := fun e => h (by simp [e])
    have hcs : '\x1b' ∉ cs := fun e => h (List.mem_cons_of_mem _ e)
    simp only [events, Stringify.feed, if_neg hc, ih hcs, List.map_cons, List.singleton_append]

theorem events_fmtStr (c : Cache) : events .plain (fmtStr c) = ([], .plain) := by
  have h1 : events .plain ['\x1b', '['] = ([], .csi [] 0) := rfl
  have h2 : ∀ ps n, events (.csi ps n) [';'] = ([], .csi (ps ++ [n]) 0) := fun _ _ => rfl
  have h3 : ∀ ps n, events (.csi ps n) ['m'] = ([], .plain) := fun _ _ => rfl
  have h4 : ∀ ps y, events (.csi ps 0) (Stringify.styleStr y) = ([], .csi ps (styleCode y)) := fun ps y => by cases y <;> rfl
  have h5 : ∀ ps k, events (.csi ps 0) (Stringify.colorFGStr k) = ([], .csi ps (fgCode k)) := fun ps k => by cases k <;> rfl
  have h6 : ∀ ps k, events (.csi ps 0) (Stringify.colorBGStr k) = ([], .csi ps (bgCode k)) := fun ps k => by cases k <;> rfl
  simp only [fmtStr, events_append, h1, h2, h3, h4, h5, h6, List.append_nil]

/-- **C164 (clearing).** For `clear` the terminal moves the cursor to the upper left corner and erases everything; otherwise it only draws the texts. -/
theorem C164_clear (i : Nat) (h : List Op) (hc : CleanTexts h) : events .plain ((exec .unix h).outs i) = (h.flatMap (expected i), .plain) := by
  induction h using List.reverseRecOn with
  | nil => rfl
  | append_singleton h o ih =>
    have ih := ih hc.left.1
    have hr : events .plain (exec .unix h).result = ([], .plain) := by
      rw [(lib_inv h).2.2]
      by_cases e : calls h = []
      · rw [if_pos e]; rfl
      · rw [if_neg e]; exact events_fmtStr _
    rw [exec_concat, List.flatMap_append]
    cases o with
    | send j f =>
      by_cases e : i = j
      · simp [step, call, put, e ▸ ih, events_append, events_fmtStr, expected, e]
      · simp [step, call, put, ih, expected, e]
    | keep f => simp [step, call, ih, expected]
    | use j =>
      by_cases e : i = j
      · simp [step, put, e ▸ ih, events_append, hr, expected, e]
      · simp [step, put, ih, expected, e]
    | clear j =>
      have hcl : events .plain (clearStr .unix) = ([.goto [1, 1], .erase [2]], .plain) := rfl
      by_cases e : i = j
      · simp [step, put, e ▸ ih, events_append, hcl, expected, e]
      · simp [step, put, ih, expected, e, Ne.symm e]
    | text j t =>
      by_cases e : i = j
      · simp [step, put, e ▸ ih, events_append, events_text t (hc.left.2 j t rfl), expected, e]
      · simp [step, put, ih, expected, e, Ne.symm e]

/-- A program on two streams, to which these theorems apply. -/
def demoOps : List Op :=
  [.send 0 (.style .bold), .text 0 ['a'], .send 1 (.fg .red), .text 1 ['b'], .clear 0, .send 0 (.style .underline), .text 0 ['c', 'd']]

example : CleanTexts demoOps ∧ calls demoOps = [.style .bold, .fg .red, .style .underline] ∧
    (shown .unix 0 demoOps).1 = [('a', { bold := true }), ('c', { bold := true, underline := true, fg := 31 }), ('d', { bold := true, underline := true, fg := 31 })] ∧
    (shown .unix 1 demoOps).1 = [('b', { bold := true, fg := 31 })] := by
  refine ⟨?_, rfl, by decide +kernel, by decide +kernel⟩
  intro i t h
  simp [demoOps] at h
  rcases h with ⟨_, rfl⟩ | ⟨_, rfl⟩ | ⟨_, rfl⟩ <;> decide

example : OneStream 0 [.send 0 (.style .bold), .text 0 ['a'], .clear 0, .send 0 .reset] := by
  intro o ho
  simp at ho
  rcases ho with rfl | rfl | rfl | rfl
  · exact .inl ⟨_, rfl⟩
  · exact .inr (.inr ⟨_, rfl⟩)
  · exact .inr (.inl rfl)
  · exact .inl ⟨_, rfl⟩

/-! ### The size of the console -/

/-- A call, with the terminal at that time. -/
def ask (con : Con) (maxSize : Nat) (now : Tty) (s : Info) : Query → (Outcome Nat ⊕ Outcome (List Char)) × Info
  | .columns => (.inl (getColumnCount con now s).1, (getColumnCount con now s).2)
  | .rows => (.inl (getRowCount con now s).1, (getRowCount con now s).2)
  | .ruler => (.inr (hr con maxSize now s).1, (hr con maxSize now s).2)
  | .rulerOffset n c => (.inr (hrOffset con maxSize now n c s).1, (hrOffset con maxSize now n c s).2)

/-- Calls one after the other. -/
def askAll (con : Con) (maxSize : Nat) : List (Query × Tty) → Info → List (Outcome Nat ⊕ Outcome (List Char))
  | [], _ => []
  | (q, now) :: qs, s => (ask con maxSize now s q).1 :: askAll con maxSize qs (ask con maxSize now s q).2

theorem offset_ok {m c : Nat} (hm : m < 2 ^ 63) (hm' : 2 ^ 32 ≤ m) (hc : c < 2 ^ 16) (n : Int) (h1 : -2 ^ 31 ≤ n) (h2 : n < 2 ^ 31) (ch : Char) :
    mkString m ((c + n) % 2 ^ 64).toNat ch = if 0 ≤ c + n then .ok (List.replicate (c + n).toNat ch) else .throw := by
  unfold mkString
  by_cases h : 0 ≤ (c : Int) + n
  · rw [if_pos h, Int.emod_eq_of_lt h (by omega), if_pos (by omega)]
  · rw [if_neg h, if_neg]
    have : ((c : Int) + n) % 2 ^ 64 = c + n + 2 ^ 64 := by omega
    rw [this]; omega

/-- Offsets are `int`s. -/
def Query.Ok : Query → Prop
  | .rulerOffset n _ => -2 ^ 31 ≤ n ∧ n < 2 ^ 31
  | _ => True

theorem ask_known {m c r : Nat} (hm : m < 2 ^ 63) (hm' : 2 ^ 32 ≤ m) (hc : c < 2 ^ 16) (q : Query) (hq : Query.Ok q) (now : Tty) (s : Info)
    (h : (s.size = some (some (c, r)) ∧ (s.ruler = none ∨ s.ruler = some (List.replicate c '_'))) ∨ (s = Info.init ∧ now = some (c, r))) :
    (ask .unix m now s q).1 = answer c r q ∧ (ask .unix m now s q).2.size = some (some (c, r)) ∧
      ((ask .unix m now s q).2.ruler = none ∨ (ask .unix m now s q).2.ruler = some (List.replicate c '_')) := by
  obtain ⟨sz, ru⟩ := s
  have hr : ru = none ∨ ru = some (List.replicate c '_') := by
    rcases h with ⟨_, h⟩ | ⟨h, _⟩
    · exact h
    · cases h; exact .inl rfl
  have hg : getInfo now ⟨sz, ru⟩ = (some (c, r), ⟨some (some (c, r)), ru⟩) := by
    rcases h with ⟨h, _⟩ | ⟨h, rfl⟩
    · simp only at h; subst h; rfl
    · cases h; rfl
  have hcol : getColumnCount .unix now ⟨sz, ru⟩ = (.ok c, ⟨some (some (c, r)), ru⟩) := by
    simp only [getColumnCount, hg, read]
  cases q with
  | columns => simp only [ask, hcol, answer, true_and]; exact hr
  | rows => simp only [ask, getRowCount, hg, answer, read, true_and]; exact hr
  | rulerOffset n ch =>
    simp only [ask, hrOffset, hcol, Outcome.bind_ok, answer, offset_ok hm hm' hc n hq.1 hq.2, true_and]
    exact hr
  | ruler =>
    rcases hr with rfl | rfl
    · simp only [ask, hcol, Outcome.bind_ok, mkString, if_pos (show c ≤ m by omega), answer, Console.hr, true_and, or_true]
    · simp only [ask, Console.hr, answer, true_and, or_true, and_true]
      rcases h with ⟨h, _⟩ | ⟨h, _⟩
      · exact h
      · cases h

/-- **C165 (the size at the first call).** If the standard output is a terminal at the first call, all the answers are those for its size at that time,
also when it is resized or redirected later; a ruler with an offset has as many characters as there are columns plus the offset, and an exception is
thrown if that is negative. (`m`: the length of the longest string.) -/
theorem C165_first {m c r : Nat} (hm : m < 2 ^ 63) (hm' : 2 ^ 32 ≤ m) (hc : c < 2 ^ 16) (q : Query) (qs : List (Query × Tty))
    (hq : ∀ p ∈ (q, some (c, r)) :: qs, Query.Ok p.1) :
    askAll .unix m ((q, some (c, r)) :: qs) Info.init = ((q, some (c, r)) :: qs).map (fun p => answer c r p.1) := by
  have go : ∀ (qs : List (Query × Tty)) (s : Info), (∀ p ∈ qs, Query.Ok p.1) → s.size = some (some (c, r)) →
      (s.ruler = none ∨ s.ruler = some (List.replicate c '_')) → askAll .unix m qs s = qs.map (fun p => answer c r p.1) := by
    intro qs
    induction qs with
    | nil => intros; rfl
    | cons p qs ih =>
      intro s hq h1 h2
      obtain ⟨q, now⟩ := p
      obtain ⟨g1, g2, g3⟩ := ask_known hm hm' hc q (hq (q, now) (by simp)) now s (.inl ⟨h1, h2⟩)
      rw [askAll, g1, ih _ (fun p hp => hq p (by simp [hp])) g2 g3, List.map_cons]
  obtain ⟨g1, g2, g3⟩ := ask_known hm hm' hc q (hq (q, some (c, r)) (by simp)) (some (c, r)) Info.init (.inr ⟨rfl, rfl⟩)
  rw [askAll, g1, go _ _ (fun p hp => hq p (by simp [hp])) g2 g3, List.map_cons]

/-- **C165 (no terminal).** If the standard output is not a terminal at the first call, every answer reads numbers that were never written, although
the information is said to be valid; also if it is a terminal later. -/
theorem C165_no_terminal (m : Nat) (q : Query) (qs : List (Query × Tty)) : isInfoValid .unix = true ∧
    ∀ x ∈ askAll .unix m ((q, none) :: qs) Info.init, x = .inl .ub ∨ x = .inr .ub := by
  refine ⟨rfl, ?_⟩
  have one : ∀ (q : Query) (now : Tty) (s : Info), (s = ⟨some none, none⟩ ∨ (s = Info.init ∧ now = none)) →
      ((ask .unix m now s q).1 = .inl .ub ∨ (ask .unix m now s q).1 = .inr .ub) ∧ (ask .unix m now s q).2 = ⟨some none, none⟩ := by
    intro q now s h
    rcases h with rfl | ⟨rfl, rfl⟩ <;> cases q <;> first | exact ⟨.inl rfl, rfl⟩ | exact ⟨.inr rfl, rfl⟩
  have go : ∀ (qs : List (Query × Tty)), ∀ x ∈ askAll .unix m qs ⟨some none, none⟩, x = .inl .ub ∨ x = .inr .ub := by
    intro qs
    induction qs with
    | nil => intro x hx; cases hx
    | cons p qs ih =>
      intro x hx
      obtain ⟨q, now⟩ := p
      obtain ⟨g1, g2⟩ := one q now _ (.inl rfl)
      rw [askAll, g2] at hx
      rcases List.mem_cons.1 hx with rfl | hx
      · exact g1
      · exact ih x hx
  intro x hx
  obtain ⟨g1, g2⟩ := one q none _ (.inr ⟨rfl, rfl⟩)
  rw [askAll, g2] at hx
  rcases List.mem_cons.1 hx with rfl | hx
  · exact g1
  · exact go _ x hx

/-- **C165 (no console).** Without console support the console has 80 columns and 50 rows, and the information is said not to be valid. -/
theorem C165_null {m : Nat} (hm : m < 2 ^ 63) (hm' : 2 ^ 32 ≤ m) (qs : List (Query × Tty)) (hq : ∀ p ∈ qs, Query.Ok p.1) :
    isInfoValid .null = false ∧ askAll .null m qs Info.init = qs.map (fun p => answer 80 50 p.1) := by
  refine ⟨rfl, ?_⟩
  have go : ∀ (qs : List (Query × Tty)) (s : Info), (∀ p ∈ qs, Query.Ok p.1) →
      (s.ruler = none ∨ s.ruler = some (List.replicate 80 '_')) → askAll .null m qs s = qs.map (fun p => answer 80 50 p.1) := by
    intro qs
    induction qs with
    | nil => intros; rfl
    | cons p qs ih =>
      intro s hq h2
      obtain ⟨q, now⟩ := p
      obtain ⟨sz, ru⟩ := s
      have g : (ask .null m now ⟨sz, ru⟩ q).1 = answer 80 50 q ∧
          ((ask .null m now ⟨sz, ru⟩ q).2.ruler = none ∨ (ask .null m now ⟨sz, ru⟩ q).2.ruler = some (List.replicate 80 '_')) := by
        cases q with
        | columns => exact ⟨rfl, h2⟩
        | rows => exact ⟨rfl, h2⟩
        | rulerOffset n ch =>
          have := hq (.rulerOffset n ch, now) (by simp)
          simp only [ask, hrOffset, getColumnCount, Outcome.bind_ok, answer, offset_ok hm hm' (show 80 < 2 ^ 16 by decide) n this.1 this.2, true_and]
          exact h2
        | ruler =>
          simp only at h2
          rcases h2 with rfl | rfl
          · simp only [ask, getColumnCount, Outcome.bind_ok, mkString, if_pos (show 80 ≤ m by omega), answer, Console.hr, true_and, or_true]
          · simp only [ask, Console.hr, answer, true_and, or_true]
      rw [askAll, g.1, ih _ (fun p hp => hq p (by simp [hp])) g.2, List.map_cons]
  exact go qs _ hq (.inl rfl)

/-- A terminal that is widened between two calls, and an offset that is too small. -/
example : (4611686018427387903 : Nat) < 2 ^ 63 ∧ (2 : Nat) ^ 32 ≤ 4611686018427387903 ∧
    (∀ p ∈ [((.columns : Query), (some (3, 2) : Tty)), (.ruler, some (9, 9)), (.rulerOffset (-1) '=', none), (.rulerOffset (-5) '=', none)], Query.Ok p.1) ∧
    [((.columns : Query), (some (3, 2) : Tty)), (.ruler, some (9, 9)), (.rulerOffset (-1) '=', none), (.rulerOffset (-5) '=', none)].map (fun p => answer 3 2 p.1) =
      [.inl (.ok 3), .inr (.ok ['_', '_', '_']), .inr (.ok ['=', '=']), .inr .throw] := by
  refine ⟨by decide, by decide, ?_, rfl⟩
  intro p hp
  simp at hp
  rcases hp with rfl | rfl | rfl | rfl <;> simp [Query.Ok]

end Verif.Console
