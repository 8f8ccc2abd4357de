import Verif.JsonFmt.LemmasLayout
import Verif.Stringify.PropsFmt

/-! # The coloured writer and the plain writer do the same steps -/

namespace Verif.JsonFmt

open Verif Verif.Json Verif.Stringify

variable {R : Type} {ops : RealOps R}

/-- `S` is kept by the steps of the two writers, for texts with `P`. -/
structure Simu (cfg : Cfg) (P : List Char → Prop) (S : W → FW → Prop) : Prop where
  fmt : ∀ k y w f, S w f → S w (f.fmt cfg k y)
  put : ∀ s w f, P s → S w f → S (w.put cfg.pretty s) (f.put cfg s)
  nl : ∀ w f, S w f → S (w.nl cfg.pretty) (f.nl cfg)
  ws : ∀ w f, S w f → S (w.ws cfg.pretty) (f.ws cfg)
  deeper : ∀ w f, S w f → S w.deeper f.deeper
  shallower : ∀ w f, S w f → S w.shallower f.shallower
  chars : ∀ c, c ≠ '\x1b' → P [c]
  words : P ['n', 'u', 'l', 'l'] ∧ P ['t', 'r', 'u', 'e'] ∧ P ['f', 'a', 'l', 's', 'e']

/-- Same outcome, related states. -/
inductive Rel (S : W → FW → Prop) : Outcome W → Outcome FW → Prop
  | ok {w f} (h : S w f) : Rel S (.ok w) (.ok f)
  | throw : Rel S .throw .throw
  | assertFail : Rel S .assertFail .assertFail
  | ub : Rel S .ub .ub
  | diverge : Rel S .diverge .diverge

theorem Rel.bind {S : W → FW → Prop} {x : Outcome W} {y : Outcome FW} (h : Rel S x y) {g : W → Outcome W}
    {g' : FW → Outcome FW} (hg : ∀ w f, S w f → Rel S (g w) (g' f)) : Rel S (x >>= g) (y >>= g') := by
  cases h with
  | ok h => exact hg _ _ h
  | throw => exact .throw
  | assertFail => exact .assertFail
  | ub => exact .ub
  | diverge => exact .diverge

mutual
/-- All texts in a value have `P`. -/
def AllT (ops : RealOps R) (P : List Char → Prop) : Val R → Prop
  | .obj kvs => AllObj ops P kvs
  | .arr vs => AllArr ops P vs
  | .str s => P ('"' :: s ++ ['"'])
  | .num n => ∀ t, numText ops n = .ok t → P t
  | _ => True

def AllArr (ops : RealOps R) (P : List Char → Prop) : List (Val R) → Prop
  | [] => True
  | v :: vs => AllT ops P v ∧ AllArr ops P vs

def AllObj (ops : RealOps R) (P : List Char → Prop) : List (List Char × Val R) → Prop
  | [] => True
  | (k, v) :: kvs => P ('"' :: k ++ ['"']) ∧ AllT ops P v ∧ AllObj ops P kvs
end

section
variable {cfg : Cfg} {P : List Char → Prop} {S : W → FW → Prop} (hS : Simu cfg P S)
include hS

theorem sim_key (k : List Char) (hk : P ('"' :: k ++ ['"'])) (b : Bool) (w : W) (f : FW) (h : S w f) :
    S (if b then (((w.put cfg.pretty ('"' :: k ++ ['"'])).put cfg.pretty [':']).ws cfg.pretty).nl cfg.pretty
        else ((w.put cfg.pretty ('"' :: k ++ ['"'])).put cfg.pretty [':']).ws cfg.pretty) (f.key cfg k b) := by
  have h1 := hS.ws _ _ (hS.put [':'] _ _ (hS.chars _ (by decide)) (hS.fmt .lightGray .bold _ _
    (hS.put _ _ _ hk (hS.fmt .lightGray .none _ _ h))))
  cases b with
  | false => exact h1
  | true => exact hS.nl _ _ h1

mutual
theorem sim_val (v : Val R) (hv : AllT ops P v) (w : W) (f : FW) (h : S w f) :
    Rel S (writeVal ops cfg.pretty v w) (writeValF ops cfg v f) := by
  match v, hv with
  | .str s, hv => exact .ok (hS.put _ _ _ hv (hS.fmt _ _ _ _ h))
  | .num n, hv =>
    rw [writeVal, writeValF]
    cases e : numText ops n with
    | ok t => exact .ok (hS.put _ _ _ (hv t e) (hS.fmt _ _ _ _ h))
    | throw => exact .throw
    | assertFail => exact .assertFail
    | ub => exact .ub
    | diverge => exact .diverge
  | .bln b, _ =>
    rw [writeVal, writeValF]
    cases b with
    | true => exact .ok (hS.put _ _ _ hS.words.2.1 (hS.fmt _ _ _ _ h))
    | false => exact .ok (hS.put _ _ _ hS.words.2.2 (hS.fmt _ _ _ _ h))
  | .nll, _ => rw [writeVal, writeValF]; exact .ok (hS.put _ _ _ hS.words.1 (hS.fmt _ _ _ _ h))
  | .arr vs, hv =>
    rw [writeVal, writeValF]
    refine (sim_arr vs hv _ _ (hS.deeper _ _ (hS.nl _ _ (hS.put _ _ _ (hS.chars _ (by decide)) (hS.fmt _ _ _ _ h))))).bind ?_
    exact fun w f h => .ok (hS.put _ _ _ (hS.chars _ (by decide)) (hS.nl _ _ (hS.fmt _ _ _ _ (hS.shallower _ _ h))))
  | .obj kvs, hv =>
    rw [writeVal, writeValF]
    refine (sim_obj kvs hv _ _ (hS.deeper _ _ (hS.nl _ _ (hS.put _ _ _ (hS.chars _ (by decide)) (hS.fmt _ _ _ _ h))))).bind ?_
    exact fun w f h => .ok (hS.put _ _ _ (hS.chars _ (by decide)) (hS.nl _ _ (hS.fmt _ _ _ _ (hS.shallower _ _ h))))

theorem sim_arr (vs : List (Val R)) (hv : AllArr ops P vs) (w : W) (f : FW) (h : S w f) :
    Rel S (writeArr ops cfg.pretty vs w) (writeArrF ops cfg vs f) := by
  match vs, hv with
  | [], _ => rw [writeArr, writeArrF]; exact .ok h
  | [v], hv => rw [writeArr, writeArrF]; exact sim_val v hv.1 w f h
  | v :: v' :: vs, hv =>
    rw [writeArr, writeArrF]
    · refine (sim_val v hv.1 w f h).bind fun w f h => ?_
      exact sim_arr (v' :: vs) hv.2 _ _ (hS.nl _ _ (hS.ws _ _ (hS.put _ _ _ (hS.chars _ (by decide)) (hS.fmt _ _ _ _ h))))
    · simp
    · simp

theorem sim_obj (kvs : List (List Char × Val R)) (hv : AllObj ops P kvs) (w : W) (f : FW) (h : S w f) :
    Rel S (writeObj ops cfg.pretty kvs w) (writeObjF ops cfg kvs f) := by
  match kvs, hv with
  | [], _ => rw [writeObj, writeObjF]; exact .ok h
  | [(k, v)], hv => rw [writeObj, writeObjF]; exact sim_val v hv.2.1 _ _ (sim_key hS k hv.1 _ w f h)
  | (k, v) :: p :: kvs, hv =>
    rw [writeObj, writeObjF]
    · refine (sim_val v hv.2.1 _ _ (sim_key hS k hv.1 _ w f h)).bind fun w f h => ?_
      exact sim_obj (p :: kvs) hv.2.2 _ _ (hS.nl _ _ (hS.ws _ _ (hS.put _ _ _ (hS.chars _ (by decide)) h)))
    · simp
    · simp
end
end

/-! ## Without colours -/

theorem simu_plain (cfg : Cfg) (h : cfg.fmt = false) (c : Cache) :
    Simu cfg (fun _ => True) (fun w f => f = ⟨w.out, w.depth, w.needIndent, c⟩) where
  fmt k y w f e := by simp [FW.fmt, h, e]
  put s w f _ e := by
    subst e
    by_cases hc : (cfg.pretty && w.needIndent) = true
    · simp [FW.put, W.put, hc, FW.indent, W.indent]
    · simp [FW.put, W.put, hc]
  nl w f e := by subst e; cases hp : cfg.pretty <;> simp [FW.nl, W.nl, hp]
  ws w f e := by subst e; cases hp : cfg.pretty <;> simp [FW.ws, W.ws, hp]
  deeper w f e := by subst e; rfl
  shallower w f e := by subst e; rfl
  chars _ _ := trivial
  words := ⟨trivial, trivial, trivial⟩

mutual
theorem allT_true (v : Val R) : AllT ops (fun _ => True) v := by
  match v with
  | .obj kvs => exact allObj_true kvs
  | .arr vs => exact allArr_true vs
  | .str s => trivial
  | .num n => exact fun _ _ => trivial
  | .bln _ => trivial
  | .nll => trivial

theorem allArr_true (vs : List (Val R)) : AllArr ops (fun _ => True) vs := by
  match vs with
  | [] => trivial
  | v :: vs => exact ⟨allT_true v, allArr_true vs⟩

theorem allObj_true (vs : List (List Char × Val R)) : AllObj ops (fun _ => True) vs := by
  match vs with
  | [] => trivial
  | (k, v) :: vs => exact ⟨trivial, allT_true v, allObj_true vs⟩
end

/-! ## What a terminal draws -/

/-- The terminal has drawn `D` and is ready, with attributes `a`. -/
def Drawn (out : List Char) (D : List (Char × Attr)) (a : Attr) : Prop := Stringify.run .plain {} out = (D, .plain, a)

theorem Drawn.text {out D a} (h : Drawn out D a) {t : List Char} (ht : NoEsc t) : Drawn (out ++ t) (D ++ paint a t) a := by
  rw [Drawn, run_append, h]
  simp [run_text a t ht]

theorem Drawn.fmt {out D a} (h : Drawn out D a) (c : Cache) :
    Drawn (out ++ fmtStr c) D (sgr (sgr (sgr a (styleCode c.style)) (fgCode c.fg)) (bgCode c.bg)) := by
  rw [Drawn, run_append, h]
  simp [run_fmtStr]

theorem noEsc_ind (d : Nat) : NoEsc ((List.replicate d [' ', ' ', ' ', ' ']).flatten) := by
  intro h
  obtain ⟨l, h1, h2⟩ := List.mem_flatten.1 h
  rw [List.eq_of_mem_replicate h1] at h2
  simp at h2

theorem paint_append (a : Attr) (s t : List Char) : paint a (s ++ t) = paint a s ++ paint a t := by simp [paint]

/-- The same text is drawn, whatever the colours. -/
def SameText (w : W) (f : FW) : Prop :=
  f.depth = w.depth ∧ f.needIndent = w.needIndent ∧ ∃ D a, Drawn f.out D a ∧ D.map Prod.fst = w.out

/-- The same text is drawn without any attributes. -/
def NoAttrs (w : W) (f : FW) : Prop :=
  f.depth = w.depth ∧ f.needIndent = w.needIndent ∧ Drawn f.out (paint {} w.out) {}

theorem map_paint (a : Attr) (t : List Char) : (paint a t).map Prod.fst = t := by simp [paint, Function.comp_def]

theorem simu_text (cfg : Cfg) : Simu cfg NoEsc SameText where
  fmt k y w f h := by
    obtain ⟨h1, h2, D, a, h3, h4⟩ := h
    rw [FW.fmt]
    split
    · split
      · exact ⟨h1, h2, D, a, h3, h4⟩
      · exact ⟨h1, h2, D, _, ((h3.fmt _).fmt _).fmt _, h4⟩
    · exact ⟨h1, h2, D, a, h3, h4⟩
  put s w f hs h := by
    obtain ⟨h1, h2, D, a, h3, h4⟩ := h
    by_cases hc : (cfg.pretty && w.needIndent) = true
    · refine ⟨by simp [FW.put, W.put, hc, h2, FW.indent, W.indent, h1], by simp [FW.put, W.put, hc, h2, FW.indent, W.indent],
        D ++ paint a ((List.replicate w.depth [' ', ' ', ' ', ' ']).flatten) ++ paint a s, a, ?_, ?_⟩
      · simp only [FW.put, h2, hc, if_true, FW.indent, h1]
        exact (h3.text (noEsc_ind _)).text hs
      · simp [W.put, hc, W.indent, h4, map_paint]
    · refine ⟨by simp [FW.put, W.put, hc, h2, h1], by simp [FW.put, W.put, hc, h2], D ++ paint a s, a, ?_, ?_⟩
      · simp only [FW.put, h2, hc]
        exact h3.text hs
      · simp [W.put, hc, h4, map_paint]
  nl w f h := by
    obtain ⟨h1, h2, D, a, h3, h4⟩ := h
    cases hp : cfg.pretty with
    | false => simp only [FW.nl, W.nl, hp]; exact ⟨h1, h2, D, a, h3, h4⟩
    | true =>
      simp only [FW.nl, W.nl, hp]
      exact ⟨h1, rfl, _, a, h3.text (t := ['\n']) (by simp [NoEsc]), by simp [h4, map_paint]⟩
  ws w f h := by
    obtain ⟨h1, h2, D, a, h3, h4⟩ := h
    cases hp : cfg.pretty with
    | false => simp only [FW.ws, W.ws, hp]; exact ⟨h1, h2, D, a, h3, h4⟩
    | true =>
      simp only [FW.ws, W.ws, hp]
      exact ⟨h1, h2, _, a, h3.text (t := [' ']) (by simp [NoEsc]), by simp [h4, map_paint]⟩
  deeper w f h := ⟨by simp [FW.deeper, W.deeper, h.1], h.2⟩
  shallower w f h := ⟨by simp [FW.shallower, W.shallower, h.1], h.2⟩
  chars c hc := by simpa [NoEsc] using Ne.symm hc
  words := by simp [NoEsc]

theorem simu_noAttrs (cfg : Cfg) (as : List Arg) (hord : cfg.ord = as ++ [.reset]) : Simu cfg NoEsc NoAttrs where
  fmt k y w f h := by
    obtain ⟨h1, h2, h3⟩ := h
    rw [FW.fmt]
    split
    · split
      · exact ⟨h1, h2, h3⟩
      · refine ⟨h1, h2, ?_⟩
        have : cfg.ord.foldl (Arg.eval k y) f.cache = ⟨.none, .default, .default⟩ := by
          rw [hord, List.foldl_append]; rfl
        simp only [this]
        exact ((h3.fmt _).fmt _).fmt _
    · exact ⟨h1, h2, h3⟩
  put s w f hs h := by
    obtain ⟨h1, h2, h3⟩ := h
    by_cases hc : (cfg.pretty && w.needIndent) = true
    · refine ⟨by simp [FW.put, W.put, hc, h2, FW.indent, W.indent, h1], by simp [FW.put, W.put, hc, h2, FW.indent, W.indent], ?_⟩
      simp only [FW.put, h2, hc, if_true, FW.indent, h1, W.put, W.indent]
      have := (h3.text (noEsc_ind w.depth)).text hs
      simpa [paint_append] using this
    · refine ⟨by simp [FW.put, W.put, hc, h2, h1], by simp [FW.put, W.put, hc, h2], ?_⟩
      simp only [FW.put, h2, hc, W.put]
      have := h3.text hs
      simpa [paint_append] using this
  nl w f h := by
    obtain ⟨h1, h2, h3⟩ := h
    cases hp : cfg.pretty with
    | false => simp only [FW.nl, W.nl, hp]; exact ⟨h1, h2, h3⟩
    | true =>
      simp only [FW.nl, W.nl, hp]
      exact ⟨h1, rfl, by simpa [paint_append] using h3.text (t := ['\n']) (by simp [NoEsc])⟩
  ws w f h := by
    obtain ⟨h1, h2, h3⟩ := h
    cases hp : cfg.pretty with
    | false => simp only [FW.ws, W.ws, hp]; exact ⟨h1, h2, h3⟩
    | true =>
      simp only [FW.ws, W.ws, hp]
      exact ⟨h1, h2, by simpa [paint_append] using h3.text (t := [' ']) (by simp [NoEsc])⟩
  deeper w f h := ⟨by simp [FW.deeper, W.deeper, h.1], h.2⟩
  shallower w f h := ⟨by simp [FW.shallower, W.shallower, h.1], h.2⟩
  chars c hc := by simpa [NoEsc] using Ne.symm hc
  words := by simp [NoEsc]

end Verif.JsonFmt
