import Verif.JsonFmt.LemmasSim

/-! # Colours shown by the terminal -/

namespace Verif.JsonFmt

open Verif Verif.Json Verif.Stringify

variable {R : Type} {ops : RealOps R}

/-- The visible part of what is drawn is `D`; the attributes are `a`, nothing but bold and a foreground colour. -/
def Vis (out : List Char) (D : List (Char × Attr)) (a : Attr) : Prop :=
  (∃ D', Drawn out D' a ∧ D'.filter visible = D) ∧ ∃ b f, a = { bold := b, fg := f }

/-- The attributes are set last and the reset comes first. -/
def InOrder (cfg : Cfg) : Prop := cfg.con = .unix ∧ cfg.fmt = true ∧
  ∀ k y c, cfg.ord.foldl (Arg.eval k y) c = ⟨y, k, .default⟩

theorem Vis.text {out D a} (h : Vis out D a) {t : List Char} (ht : NoEsc t) :
    Vis (out ++ t) (D ++ (paint a t).filter visible) a := by
  obtain ⟨⟨D', h1, h2⟩, h3⟩ := h
  exact ⟨⟨_, h1.text ht, by simp [h2]⟩, h3⟩

theorem Vis.blanks {out D a} (h : Vis out D a) {t : List Char} (ht : ∀ c ∈ t, c = ' ' ∨ c = '\n') : Vis (out ++ t) D a := by
  have h1 : NoEsc t := fun hc => by rcases ht _ hc with h | h <;> exact absurd h (by decide)
  have h2 : (paint a t).filter visible = [] := by
    rw [List.filter_eq_nil_iff]
    intro x hx
    obtain ⟨c, hc, rfl⟩ := List.mem_map.1 hx
    rcases ht c hc with h | h <;> simp [visible, h]
  simpa [h2] using h.text h1

theorem Vis.fmt_none {out D a} (h : Vis out D a) (k : Color) :
    Vis (out ++ fmtStr ⟨.none, k, .default⟩) D { fg := fgCode k } := by
  obtain ⟨⟨D', h1, h2⟩, h3⟩ := h
  refine ⟨⟨D', ?_, h2⟩, _, _, rfl⟩
  have := h1.fmt ⟨.none, k, .default⟩
  simpa [sgr_fg, sgr_bg, show ∀ a, sgr a (styleCode .none) = {} from fun _ => rfl, show ∀ a, sgr a 49 = { a with bg := 49 } from fun _ => rfl, show bgCode .default = 49 from rfl] using this

theorem Vis.fmt_bold {out D a} (h : Vis out D a) (k : Color) :
    Vis (out ++ fmtStr ⟨.bold, k, .default⟩) D { bold := true, fg := fgCode k } := by
  obtain ⟨⟨D', h1, h2⟩, b, f, rfl⟩ := h
  refine ⟨⟨D', ?_, h2⟩, _, _, rfl⟩
  have := h1.fmt ⟨.bold, k, .default⟩
  simpa [sgr_fg, sgr_bg, show ∀ a, sgr a (styleCode .bold) = { a with bold := true } from fun _ => rfl,
    show ∀ a, sgr a 49 = { a with bg := 49 } from fun _ => rfl, show bgCode .default = 49 from rfl] using this

/-- Colour and style of a kind of token. -/
def Kind.cs : Kind → Color × Style
  | .punct => (.lightGray, .bold)
  | .key => (.lightGray, .none)
  | .str => (.lightYellow, .none)
  | .num => (.lightRed, .none)
  | .bln => (.lightCyan, .none)
  | .nll => (.lightMagenta, .none)

section
variable {cfg : Cfg} (hc : InOrder cfg)
include hc

theorem vis_fmt {w : FW} {D a} (h : Vis w.out D a) (k : Kind) : Vis (w.fmt cfg k.cs.1 k.cs.2).out D k.attr := by
  obtain ⟨h1, h2, h3⟩ := hc
  simp only [FW.fmt, h1, h2, if_true, h3]
  cases k with
  | punct => exact ((h.fmt_bold .lightGray).fmt_bold .lightGray).fmt_bold .lightGray
  | key => exact ((h.fmt_none .lightGray).fmt_none .lightGray).fmt_none .lightGray
  | str => exact ((h.fmt_none .lightYellow).fmt_none .lightYellow).fmt_none .lightYellow
  | num => exact ((h.fmt_none .lightRed).fmt_none .lightRed).fmt_none .lightRed
  | bln => exact ((h.fmt_none .lightCyan).fmt_none .lightCyan).fmt_none .lightCyan
  | nll => exact ((h.fmt_none .lightMagenta).fmt_none .lightMagenta).fmt_none .lightMagenta

omit hc in
theorem vis_put {w : FW} {D a} (h : Vis w.out D a) {s : List Char} (hs : NoEsc s) :
    Vis (w.put cfg s).out (D ++ (paint a s).filter visible) a := by
  simp only [FW.put]
  split
  · refine Vis.text (Vis.blanks h ?_) hs
    intro c hc
    obtain ⟨l, h1, h2⟩ := List.mem_flatten.1 hc
    rw [List.eq_of_mem_replicate h1] at h2
    left; simpa using h2
  · exact h.text hs

omit hc in
theorem vis_nl {w : FW} {D a} (h : Vis w.out D a) : Vis (w.nl cfg).out D a := by
  rw [FW.nl]; split
  · exact Vis.blanks h (by simp)
  · exact h

omit hc in
theorem vis_ws {w : FW} {D a} (h : Vis w.out D a) : Vis (w.ws cfg).out D a := by
  rw [FW.ws]; split
  · exact Vis.blanks h (by simp)
  · exact h

omit hc in
theorem painted_append (s t : List Tok) : painted (s ++ t) = painted s ++ painted t := by simp [painted]

omit hc in
theorem painted_one (t : Tok) : painted [t] = paint t.kind.attr t.text := by simp [painted]

/-- What is visible of some tokens. -/
def pv (ts : List Tok) : List (Char × Attr) := (painted ts).filter visible

omit hc in
theorem pv_append (s t : List Tok) : pv (s ++ t) = pv s ++ pv t := by simp [pv, painted_append]

theorem vis_tok {w : FW} {D a} (h : Vis w.out D a) (t : Tok) (ht : NoEsc t.text) :
    Vis ((w.fmt cfg t.kind.cs.1 t.kind.cs.2).put cfg t.text).out (D ++ pv [t]) t.kind.attr := by
  rw [pv, painted_one]
  exact vis_put (vis_fmt hc h t.kind) ht

theorem vis_opening {w : FW} {D a} (h : Vis w.out D a) (c : Char) (hcc : c ≠ '\x1b') :
    Vis (w.opening cfg c).out (D ++ pv [pun [c]]) Kind.punct.attr :=
  vis_nl (cfg := cfg) (vis_tok hc h (pun [c]) (by simpa [NoEsc, pun] using Ne.symm hcc))

theorem vis_closing {w : FW} {D a} (h : Vis w.out D a) (c : Char) (hcc : c ≠ '\x1b') :
    Vis (w.closing cfg c).out (D ++ pv [pun [c]]) Kind.punct.attr := by
  rw [pv, painted_one]
  exact vis_put (vis_nl (vis_fmt hc (w := w.shallower) h .punct)) (by simpa [NoEsc, pun] using Ne.symm hcc)

omit hc in
theorem noEsc_quoted {s : List Char} (h : NoEsc s) : NoEsc (quoted s) := by
  simpa [NoEsc, quoted] using h

theorem vis_key {w : FW} {D a} (h : Vis w.out D a) (k : List Char) (hk : NoEsc k) (b : Bool) :
    Vis (w.key cfg k b).out (D ++ pv [⟨.key, quoted k⟩, pun [':']]) Kind.punct.attr := by
  have h1 := vis_tok hc h ⟨.key, quoted k⟩ (noEsc_quoted hk)
  have h2 := vis_ws (cfg := cfg) (vis_tok hc h1 (pun [':']) (by simp [NoEsc, pun]))
  rw [List.append_assoc, ← pv_append] at h2
  cases b with
  | false => exact h2
  | true => exact vis_nl (cfg := cfg) h2

/-- Kind of the last token of a value. -/
def lastKind (f : R → List Char) (v : Val R) : Kind := ((atom f v).map Tok.kind).getD .punct

omit hc in
theorem noEsc_digits (n : Nat) : NoEsc (IntStr.natText n) := by
  intro h
  have := Nat.isDigit_of_mem_toDigits (b := 10) (by omega) (by omega) h
  exact absurd this (by decide)

omit hc in
theorem noEsc_int (v : Int) : NoEsc (IntStr.intText v) := by
  rw [IntStr.intText]
  split
  · intro h
    rcases List.mem_cons.1 h with h | h
    · exact absurd h (by decide)
    · exact noEsc_digits _ h
  · exact noEsc_digits _

omit hc in
theorem noEsc_number (hr : ∀ r, NoEsc (ops.toText r)) (n : Num R) : NoEsc (number ops.toText n) := by
  have h := noEsc_int
  cases n with
  | intS n => exact h _
  | intU n => exact h _
  | real r => exact hr r

variable (hr : ∀ r, NoEsc (ops.toText r))
include hr

mutual
theorem colour_val (v : Val R) (hf : Fits v) (hv : CleanJ v) (w : FW) (D : List (Char × Attr)) (a : Attr) (h : Vis w.out D a) :
    ∃ w', writeValF ops cfg v w = .ok w' ∧ Vis w'.out (D ++ pv (tokens ops.toText v)) (lastKind ops.toText v).attr := by
  match v, hf, hv with
  | .str s, _, hv => exact ⟨_, rfl, vis_tok hc h ⟨.str, quoted s⟩ (noEsc_quoted hv)⟩
  | .num n, hf, _ =>
    rw [writeValF, numText_fits (ops := ops) hf]
    exact ⟨_, rfl, vis_tok hc h ⟨.num, number ops.toText n⟩ (noEsc_number hr n)⟩
  | .bln b, _, _ =>
    refine ⟨_, by rw [writeValF]; rfl, vis_tok hc h ⟨.bln, if b then ['t', 'r', 'u', 'e'] else ['f', 'a', 'l', 's', 'e']⟩ ?_⟩
    cases b <;> simp [NoEsc]
  | .nll, _, _ => exact ⟨_, by rw [writeValF]; rfl, vis_tok hc h ⟨.nll, ['n', 'u', 'l', 'l']⟩ (by simp [NoEsc])⟩
  | .arr vs, hf, hv =>
    obtain ⟨w1, a1, h1, h2⟩ := colour_arr vs hf hv _ _ _ (vis_opening hc h '[' (by decide))
    refine ⟨w1.closing cfg ']', by rw [writeValF, h1]; rfl, ?_⟩
    have := vis_closing hc h2 ']' (by decide)
    rw [List.append_assoc, List.append_assoc, ← pv_append, ← pv_append] at this
    simpa [tokens, lastKind, atom] using this
  | .obj kvs, hf, hv =>
    obtain ⟨w1, a1, h1, h2⟩ := colour_obj kvs hf hv _ _ _ (vis_opening hc h '{' (by decide))
    refine ⟨w1.closing cfg '}', by rw [writeValF, h1]; rfl, ?_⟩
    have := vis_closing hc h2 '}' (by decide)
    rw [List.append_assoc, List.append_assoc, ← pv_append, ← pv_append] at this
    simpa [tokens, lastKind, atom] using this

theorem colour_arr (vs : List (Val R)) (hf : FitsArr vs) (hv : CleanArr vs) (w : FW) (D : List (Char × Attr)) (a : Attr)
    (h : Vis w.out D a) : ∃ w' a', writeArrF ops cfg vs w = .ok w' ∧ Vis w'.out (D ++ pv (elementTokens ops.toText vs)) a' := by
  match vs, hf, hv with
  | [], _, _ => exact ⟨w, a, by rw [writeArrF], by simpa [elementTokens, pv, painted] using h⟩
  | [v], hf, hv =>
    obtain ⟨w1, h1, h2⟩ := colour_val v hf.1 hv.1 w D a h
    exact ⟨w1, _, by rw [writeArrF, h1], by simpa [elementTokens] using h2⟩
  | v :: v' :: vs, hf, hv =>
    obtain ⟨w1, h1, h2⟩ := colour_val v hf.1 hv.1 w D a h
    have h3 := vis_nl (cfg := cfg) (vis_ws (cfg := cfg) (vis_tok hc h2 (pun [',']) (by simp [NoEsc, pun])))
    obtain ⟨w2, a2, h4, h5⟩ := colour_arr (v' :: vs) hf.2 hv.2 _ _ _ h3
    refine ⟨w2, a2, ?_, ?_⟩
    · rw [writeArrF, h1]
      · exact h4
      · simp
    · rw [List.append_assoc, List.append_assoc, ← pv_append, ← pv_append] at h5
      rw [elementTokens]
      · simpa using h5
      · simp

theorem colour_obj (kvs : List (List Char × Val R)) (hf : FitsObj kvs) (hv : CleanObj kvs) (w : FW) (D : List (Char × Attr)) (a : Attr)
    (h : Vis w.out D a) : ∃ w' a', writeObjF ops cfg kvs w = .ok w' ∧ Vis w'.out (D ++ pv (memberTokens ops.toText kvs)) a' := by
  match kvs, hf, hv with
  | [], _, _ => exact ⟨w, a, by rw [writeObjF], by simpa [memberTokens, pv, painted] using h⟩
  | [(k, v)], hf, hv =>
    obtain ⟨w1, h1, h2⟩ := colour_val v hf.1 hv.2.1 _ _ _ (vis_key hc h k hv.1 (isObjOrArr v))
    refine ⟨w1, (lastKind ops.toText v).attr, by rw [writeObjF, h1], ?_⟩
    rw [List.append_assoc, ← pv_append] at h2
    rw [memberTokens]
    exact h2
  | (k, v) :: p :: kvs, hf, hv =>
    obtain ⟨w1, h1, h2⟩ := colour_val v hf.1 hv.2.1 _ _ _ (vis_key hc h k hv.1 (isObjOrArr v))
    have h3 := vis_nl (cfg := cfg) (vis_ws (cfg := cfg) (vis_put (cfg := cfg) h2 (s := [',']) (by simp [NoEsc])))
    obtain ⟨w2, a2, h4, h5⟩ := colour_obj (p :: kvs) hf.2 hv.2.2 _ _ _ h3
    refine ⟨w2, a2, ?_, ?_⟩
    · rw [writeObjF, h1]
      · exact h4
      · simp
    · rw [show (paint (lastKind ops.toText v).attr [',']).filter visible = pv [⟨lastKind ops.toText v, [',']⟩] by
        rw [pv, painted_one]] at h5
      rw [List.append_assoc, List.append_assoc, List.append_assoc, ← pv_append, ← pv_append, ← pv_append] at h5
      rw [memberTokens]
      · simpa [lastKind] using h5
      · simp
end
end

end Verif.JsonFmt
