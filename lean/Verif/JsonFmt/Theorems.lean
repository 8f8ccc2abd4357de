import Verif.JsonFmt.LemmasColour
import Verif.Json.Demo

/-! # Property theorems about the JSON writer's layout and colours (C120, C121) -/

namespace Verif.JsonFmt

open Verif Verif.Json Verif.Stringify

variable {R : Type} {ops : RealOps R}

/-! ## C120: layout -/

mutual
theorem min_val (v : Val R) (hv : Fits v) (o : List Char) (d : Nat) (ni : Bool) :
    writeVal ops false v ⟨o, d, ni⟩ = .ok ⟨o ++ tt (tokens ops.toText v), d, ni⟩ := by
  match v, hv with
  | .str s, _ => simp [writeVal, W.put, tokens, tt, quoted]
  | .num n, h => simp [writeVal, W.put, numText_fits (ops := ops) h, tokens, tt]
  | .bln b, _ => cases b <;> simp [writeVal, W.put, tokens, tt]
  | .nll, _ => simp [writeVal, W.put, tokens, tt]
  | .arr vs, h =>
    have := min_arr vs h (o ++ ['[']) (d + 1) ni
    simp [writeVal, W.put, W.nl, W.deeper, W.shallower, this, tokens, tt, pun]
  | .obj kvs, h =>
    have := min_obj kvs h (o ++ ['{']) (d + 1) ni
    simp [writeVal, W.put, W.nl, W.deeper, W.shallower, this, tokens, tt, pun]

theorem min_arr (vs : List (Val R)) (hv : FitsArr vs) (o : List Char) (d : Nat) (ni : Bool) :
    writeArr ops false vs ⟨o, d, ni⟩ = .ok ⟨o ++ tt (elementTokens ops.toText vs), d, ni⟩ := by
  match vs, hv with
  | [], _ => simp [writeArr, elementTokens, tt]
  | [v], h => simpa [writeArr, elementTokens] using min_val v h.1 o d ni
  | v :: v' :: vs, h =>
    rw [writeArr, min_val v h.1, elementTokens, Outcome.bind_ok]
    · simp [W.put, W.ws, W.nl, min_arr (v' :: vs) h.2, tt, pun]
    · simp
    · simp

theorem min_obj (kvs : List (List Char × Val R)) (hv : FitsObj kvs) (o : List Char) (d : Nat) (ni : Bool) :
    writeObj ops false kvs ⟨o, d, ni⟩ = .ok ⟨o ++ tt (memberTokens ops.toText kvs), d, ni⟩ := by
  match kvs, hv with
  | [], _ => simp [writeObj, memberTokens, tt]
  | [(k, v)], h => simp [writeObj, memberTokens, W.put, W.ws, W.nl, min_val v h.1, tt, pun, quoted]
  | (k, v) :: p :: kvs, h =>
    rw [writeObj, memberTokens]
    · simp [W.put, W.ws, W.nl, min_val v h.1, min_obj (p :: kvs) h.2, tt, pun, quoted]
    · simp
    · simp
end

theorem numText_not_fits {n : Num R} (hr : NumInRange n) (h : ¬ NumFits n) : numText ops n = .ub := by
  cases n with
  | intS n =>
    simp only [NumInRange, NumFits] at hr h
    rw [numText, IntStr.C37_toStr_partial .long _ (by rfl) n, if_neg]
    · simp only [IntStr.safeLo, IntStr.safeHi]; omega
    · simp only [IntStr.IntType.InRange, IntStr.IntType.signed, IntStr.IntType.bits, if_true]; omega
  | intU n =>
    simp only [NumInRange, NumFits] at hr h
    rw [numText, IntStr.C37_toStr_partial .ulong _ (by rfl) n, if_neg]
    · simp only [IntStr.safeLo, IntStr.safeHi]; omega
    · simp [IntStr.IntType.InRange, IntStr.IntType.signed, IntStr.IntType.bits]; omega
  | real r => exact absurd trivial h

theorem write_ok (p : Bool) (v : Val R) (h : Fits v) (w : W) : ∃ w', writeVal ops p v w = .ok w' := by
  obtain ⟨o, d, ni⟩ := w
  cases p with
  | true => exact ⟨_, write_lines v h o d ni⟩
  | false => exact ⟨_, min_val v h o d ni⟩

mutual
theorem ub_val (p : Bool) (v : Val R) (hr : InRange v) (h : ¬ Fits v) (w : W) : writeVal ops p v w = .ub := by
  match v, hr, h with
  | .num n, hr, h => rw [writeVal, numText_not_fits hr h]; rfl
  | .arr vs, hr, h => rw [writeVal, ub_arr p vs hr h]; rfl
  | .obj kvs, hr, h => rw [writeVal, ub_obj p kvs hr h]; rfl
  | .str _, _, h => exact absurd trivial h
  | .bln _, _, h => exact absurd trivial h
  | .nll, _, h => exact absurd trivial h

theorem ub_arr (p : Bool) (vs : List (Val R)) (hr : InRangeArr vs) (h : ¬ FitsArr vs) (w : W) : writeArr ops p vs w = .ub := by
  match vs, hr, h with
  | [], _, h => exact absurd trivial h
  | [v], hr, h =>
    rw [writeArr]
    exact ub_val p v hr.1 (fun hf => h ⟨hf, trivial⟩) w
  | v :: v' :: vs, hr, h =>
    rw [writeArr]
    · by_cases hf : Fits v
      · obtain ⟨w', e⟩ := write_ok (ops := ops) p v hf w
        rw [e]
        exact ub_arr p (v' :: vs) hr.2 (fun hs => h ⟨hf, hs⟩) _
      · rw [ub_val p v hr.1 hf]; rfl
    · simp

theorem ub_obj (p : Bool) (kvs : List (List Char × Val R)) (hr : InRangeObj kvs) (h : ¬ FitsObj kvs) (w : W) :
    writeObj ops p kvs w = .ub := by
  match kvs, hr, h with
  | [], _, h => exact absurd trivial h
  | [(k, v)], hr, h =>
    rw [writeObj]
    exact ub_val p v hr.1 (fun hf => h ⟨hf, trivial⟩) _
  | (k, v) :: q :: kvs, hr, h =>
    rw [writeObj]
    · by_cases hf : Fits v
      · obtain ⟨w', e⟩ := write_ok (ops := ops) p v hf
          (if isObjOrArr v then (((w.put p ('"' :: k ++ ['"'])).put p [':']).ws p).nl p
            else ((w.put p ('"' :: k ++ ['"'])).put p [':']).ws p)
        simp only [e]
        exact ub_obj p (q :: kvs) hr.2 (fun hs => h ⟨hf, hs⟩) _
      · rw [ub_val p v hr.1 hf]; rfl
    · simp
end

/-- **C120.** Pretty text: brackets on lines of their own, everything between them indented four spaces more, one line
for each element or member, commas at the ends of lines. -/
theorem C120_pretty_layout (v : Val R) (h : Fits v) : write ops true v = .ok (layout (lines ops.toText 0 v)) := by
  obtain ⟨ts, ls, e⟩ := lines_head ops.toText 0 v
  rw [write, write_lines v h, Outcome.bind_ok, e, layout_cons]
  simp [ind]

/-- **C120.** Minified text: the tokens and nothing else. -/
theorem C120_minified (v : Val R) (h : Fits v) :
    write ops false v = .ok ((tokens ops.toText v).map Tok.text).flatten := by
  rw [write, min_val v h, Outcome.bind_ok]
  simp [tt]

/-- **C120.** So whatever value is written, no other text comes out; a text does come out unless an integer is too long
for the conversion (C37). -/
theorem C120_no_other_text (pretty : Bool) (v : Val R) (hr : InRange v) :
    write ops pretty v = .ok (if pretty then layout (lines ops.toText 0 v)
        else ((tokens ops.toText v).map Tok.text).flatten)
      ∨ (¬ Fits v ∧ write ops pretty v = .ub) := by
  by_cases h : Fits v
  · left
    cases pretty with
    | true => simpa using C120_pretty_layout v h
    | false => simpa using C120_minified v h
  · right
    refine ⟨h, ?_⟩
    rw [write, ub_val pretty v hr h]; rfl

def demo : Val Rat :=
  .obj [(['a'], .arr [.num (.intS (-1)), .arr [], .str ['x', ' ']]), (['b'], .nll), (['c'], .obj [([], .bln true)])]

theorem demo_fits : Fits demo := by simp [demo, Fits, FitsObj, FitsArr, NumFits]

example : InRange demo := by simp [demo, InRange, InRangeObj, InRangeArr, NumInRange]

example : layout (lines demoOps.toText 0 demo) = (
"{
    \"a\": \n    [
        -1, \n        [

        ], \n        \"x \"
    ], \n    \"b\": null, \n    \"c\": \n    {
        \"\": true
    }
}").toList := by decide +kernel

example : ((tokens demoOps.toText demo).map Tok.text).flatten = "{\"a\":[-1,[],\"x \"],\"b\":null,\"c\":{\"\":true}}".toList := by
  decide +kernel

/-! ## C121: colours -/

/-- Without colours the writer is the one of `Verif.Json`, and the console format is left alone. -/
theorem C121_without_colours (cfg : Cfg) (h : cfg.fmt = false) (v : Val R) (c : Cache) :
    writeF ops cfg v c = (write ops cfg.pretty v >>= fun t => .ok (t, c)) := by
  have := sim_val (simu_plain cfg h c) v (allT_true (ops := ops) v) ⟨[], 0, false⟩ _ rfl
  rw [writeF, write]
  generalize writeVal ops cfg.pretty v ⟨[], 0, false⟩ = x at this
  generalize writeValF ops cfg v ⟨[], 0, false, c⟩ = y at this
  cases this with
  | ok h => subst h; rfl
  | _ => rfl

mutual
theorem clean_all (hr : ∀ r, NoEsc (ops.toText r)) (v : Val R) (hf : Fits v) (h : CleanJ v) : AllT ops NoEsc v := by
  match v, hf, h with
  | .obj kvs, hf, h => exact clean_allObj hr kvs hf h
  | .arr vs, hf, h => exact clean_allArr hr vs hf h
  | .str s, _, h => exact noEsc_quoted h
  | .num n, hf, _ =>
    intro t e
    rw [numText_fits (ops := ops) hf] at e
    cases e
    exact noEsc_number hr n
  | .bln _, _, _ => trivial
  | .nll, _, _ => trivial

theorem clean_allArr (hr : ∀ r, NoEsc (ops.toText r)) (vs : List (Val R)) (hf : FitsArr vs) (h : CleanArr vs) :
    AllArr ops NoEsc vs := by
  match vs, hf, h with
  | [], _, _ => trivial
  | v :: vs, hf, h => exact ⟨clean_all hr v hf.1 h.1, clean_allArr hr vs hf.2 h.2⟩

theorem clean_allObj (hr : ∀ r, NoEsc (ops.toText r)) (vs : List (List Char × Val R)) (hf : FitsObj vs) (h : CleanObj vs) :
    AllObj ops NoEsc vs := by
  match vs, hf, h with
  | [], _, _ => trivial
  | (k, v) :: vs, hf, h => exact ⟨noEsc_quoted h.1, clean_all hr v hf.1 h.2.1, clean_allObj hr vs hf.2 h.2.2⟩
end

/-- **C121 (text).** With colours, on any console and in any evaluation order, a terminal shows exactly the text that is
written without them, and is left in plain mode. -/
theorem C121_same_text (cfg : Cfg) (hr : ∀ r, NoEsc (ops.toText r)) (v : Val R) (hf : Fits v) (h : CleanJ v) (c : Cache) :
    ∃ t out c' D a, write ops cfg.pretty v = .ok t ∧ writeF ops cfg v c = .ok (out, c') ∧
      Stringify.run .plain {} out = (D, .plain, a) ∧ D.map Prod.fst = t := by
  have := sim_val (simu_text cfg) v (clean_all hr v hf h) ⟨[], 0, false⟩ ⟨[], 0, false, c⟩ ⟨rfl, rfl, [], {}, rfl, rfl⟩
  obtain ⟨w', e⟩ := write_ok (ops := ops) cfg.pretty v hf ⟨[], 0, false⟩
  rw [e] at this
  rw [write, writeF, e]
  generalize writeValF ops cfg v ⟨[], 0, false, c⟩ = y at this
  cases this with
  | ok h =>
    obtain ⟨_, _, D, a, h1, h2⟩ := h
    exact ⟨_, _, _, D, a, rfl, rfl, h1, h2⟩

/-- **C121 (colours, partial: on Linux, if the compiler evaluates the arguments so that the reset comes first).** Every
visible character is shown in the colour of its token: `tokens` says which. Missing: the other evaluation orders, for
which the claim is false, see below. -/
theorem C121_colours_partial (cfg : Cfg) (hu : cfg.con = .unix) (hfmt : cfg.fmt = true)
    (ho : cfg.ord = [.reset, .fg, .style] ∨ cfg.ord = [.reset, .style, .fg])
    (hr : ∀ r, NoEsc (ops.toText r)) (v : Val R) (hf : Fits v) (h : CleanJ v) (c : Cache) :
    ∃ out c', writeF ops cfg v c = .ok (out, c') ∧
      (Stringify.run .plain {} out).1.filter visible = (painted (tokens ops.toText v)).filter visible := by
  have hc : InOrder cfg := by
    refine ⟨hu, hfmt, fun k y c => ?_⟩
    rcases ho with ho | ho <;> rw [ho] <;> rfl
  obtain ⟨w, h1, ⟨D, h2, h3⟩, _⟩ := colour_val hc hr v hf h ⟨[], 0, false, c⟩ [] {} ⟨⟨[], rfl, rfl⟩, _, _, rfl⟩
  refine ⟨w.out, w.cache, by rw [writeF, h1]; rfl, ?_⟩
  rw [h2]
  simpa [pv] using h3

/-- **C121 fails** if the reset is evaluated last (arguments evaluated from right to left): whatever is written, there are
no colours at all. -/
theorem C121_no_colours_right_to_left (cfg : Cfg) (ho : cfg.ord = [.style, .fg, .reset])
    (hr : ∀ r, NoEsc (ops.toText r)) (v : Val R) (hf : Fits v) (h : CleanJ v) (c : Cache) :
    ∃ t out c', write ops cfg.pretty v = .ok t ∧ writeF ops cfg v c = .ok (out, c') ∧
      Stringify.run .plain {} out = (t.map (fun x => (x, {})), .plain, {}) := by
  have := sim_val (simu_noAttrs cfg [.style, .fg] ho) v (clean_all hr v hf h) ⟨[], 0, false⟩ ⟨[], 0, false, c⟩ ⟨rfl, rfl, rfl⟩
  obtain ⟨w', e⟩ := write_ok (ops := ops) cfg.pretty v hf ⟨[], 0, false⟩
  rw [e] at this
  rw [write, writeF, e]
  generalize writeValF ops cfg v ⟨[], 0, false, c⟩ = y at this
  cases this with
  | ok h => exact ⟨_, _, _, rfl, rfl, h.2.2⟩

/-- The configuration of a console log on Linux. -/
def log (ord : List Arg) : Cfg := ⟨.unix, true, true, ord⟩

theorem demo_reals (r : Rat) : NoEsc (demoOps.toText r) := by
  have h1 := noEsc_digits
  have h2 : NoEsc (IntStr.intText r.num) := noEsc_int r.num
  simp only [NoEsc] at h1 h2
  simp only [demoOps, NoEsc]
  split
  · exact h2
  · split <;> simp [h1]

theorem demo_clean : CleanJ demo := by simp [demo, CleanJ, CleanObj, CleanArr, NoEsc]

example : ∃ out c', writeF demoOps (log [.reset, .fg, .style]) demo Cache.init = .ok (out, c') ∧
    (Stringify.run .plain {} out).1.filter visible = (painted (tokens demoOps.toText demo)).filter visible :=
  C121_colours_partial _ rfl rfl (.inl rfl) demo_reals demo demo_fits demo_clean _

example : ∃ t out c', write demoOps true demo = .ok t ∧ writeF demoOps (log [.style, .fg, .reset]) demo Cache.init = .ok (out, c') ∧
    Stringify.run .plain {} out = (t.map (fun x => (x, {})), .plain, {}) :=
  C121_no_colours_right_to_left (log [.style, .fg, .reset]) rfl demo_reals demo demo_fits demo_clean _

/-- **C121 fails** for commas in objects, even in the good order: the comma after `1` has the colour of numbers, not that of
punctuation, unlike the one in an array. -/
theorem C121_commas_in_objects :
    (writeF demoOps (log [.reset, .fg, .style]) (.obj [(['a'], .num (.intS 1)), (['b'], .nll)]) Cache.init >>= fun r =>
      .ok ((Stringify.run .plain {} r.1).1.filter fun x => x.1 == ',')) = .ok [(',', Kind.num.attr)] ∧
    (writeF demoOps (log [.reset, .fg, .style]) (.arr [.num (.intS 1), .nll]) Cache.init >>= fun r =>
      .ok ((Stringify.run .plain {} r.1).1.filter fun x => x.1 == ',')) = .ok [(',', Kind.punct.attr)] := by
  decide +kernel

end Verif.JsonFmt
