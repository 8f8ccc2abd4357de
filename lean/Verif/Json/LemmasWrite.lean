import Verif.Json.SpecWrite
import Verif.Json.LemmasRead
import Verif.IntStr.Theorems

namespace Verif.Json

open Verif

variable {R : Type} {ops : RealOps R}

/-- From state `w` to `w'` a layout of `k` has been written. -/
def Emits (w w' : W) (k : List Char) : Prop := ∃ t, w'.out = w.out ++ t ∧ Layout k t

theorem Emits.trans {w₁ w₂ w₃ : W} {a b : List Char} (h₁ : Emits w₁ w₂ a) (h₂ : Emits w₂ w₃ b) :
    Emits w₁ w₃ (a ++ b) := by
  obtain ⟨t₁, e₁, l₁⟩ := h₁
  obtain ⟨t₂, e₂, l₂⟩ := h₂
  exact ⟨t₁ ++ t₂, by rw [e₂, e₁, List.append_assoc], l₁.append l₂⟩

theorem layout_ws : ∀ (l : List Char), (∀ c ∈ l, blank c = true) → Layout [] l
  | [], _ => .nil
  | c :: cs, h => .ws (h c List.mem_cons_self) (layout_ws cs (fun d hd => h d (List.mem_cons_of_mem _ hd)))

theorem emits_put (pretty : Bool) (w : W) {k s : List Char} (h : Layout k s) : Emits w (w.put pretty s) k := by
  unfold W.put
  split
  · refine ⟨(List.replicate w.depth "    ".toList).flatten ++ s, by simp [W.indent], ?_⟩
    have : Layout ([] ++ k) ((List.replicate w.depth "    ".toList).flatten ++ s) := by
      refine Layout.append (layout_ws _ ?_) h
      intro c hc
      rw [List.mem_flatten] at hc
      obtain ⟨l, hl, hc⟩ := hc
      rw [(List.mem_replicate.1 hl).2] at hc
      have : c = ' ' := by simpa using hc
      rw [this]; decide
    exact this
  · exact ⟨s, rfl, h⟩

theorem emits_nl (pretty : Bool) (w : W) : Emits w (w.nl pretty) [] := by
  unfold W.nl
  split
  · exact ⟨['\n'], rfl, .ws (by decide) .nil⟩
  · exact ⟨[], by simp, .nil⟩

theorem emits_ws (pretty : Bool) (w : W) : Emits w (w.ws pretty) [] := by
  unfold W.ws
  split
  · exact ⟨[' '], rfl, .ws (by decide) .nil⟩
  · exact ⟨[], by simp, .nil⟩

theorem emits_deeper (w : W) : Emits w w.deeper [] := ⟨[], by simp [W.deeper], .nil⟩
theorem emits_shallower (w : W) : Emits w w.shallower [] := ⟨[], by simp [W.shallower], .nil⟩

theorem layout_char {c : Char} (hq : c ≠ '"') (hs : c ≠ '/') (hw : blank c = false) : Layout [c] [c] :=
  .chr hq hs hw .nil

/-- Strings without special characters. -/
theorem plain_denotes : ∀ {s : List Char}, NoSpecial s →
    DenotesStr (s.map .plain) s ∧ NoBackslashEnd (s.map .plain) ∧ bodyText (s.map .plain) = s
  | [], _ => ⟨.nil, by simp [NoBackslashEnd], rfl⟩
  | c :: cs, h => by
    obtain ⟨h1, h2, h3⟩ := plain_denotes (s := cs) (fun d hd => h d (List.mem_cons_of_mem _ hd))
    obtain ⟨hq, hb⟩ := h c List.mem_cons_self
    refine ⟨.plain hq hb h1, ?_, ?_⟩
    · unfold NoBackslashEnd
      rw [List.getLast?_map]
      cases (c :: cs).getLast? <;> simp
    · simp only [bodyText, List.map_cons, List.flatten_cons, Item.text] at h3 ⊢
      rw [h3]; rfl

theorem litText_plain {s : List Char} (h : NoSpecial s) : litText (s.map .plain) = '"' :: s ++ ['"'] := by
  rw [litText, (plain_denotes h).2.2]

theorem layout_plain {s : List Char} (h : NoSpecial s) :
    Layout (litText (s.map .plain)) ('"' :: s ++ ['"']) := by
  have := layout_lit (plain_denotes h).1 (plain_denotes h).2.1
  rw [litText_plain h] at this ⊢
  exact this

theorem intText_isNumber (laws : IntLaws ops) {n : Int} (h : n.natAbs ≤ 2 ^ 53) :
    IsNumber ops (IntStr.intText n) (ops.ofInt n) := by
  have hdig : ∀ c ∈ Nat.toDigits 10 n.natAbs, c.isDigit = true := fun c hc =>
    Nat.isDigit_of_mem_toDigits (by omega) (by omega) hc
  refine ⟨?_, ?_, laws.strtod_int n h⟩
  · unfold IntStr.intText IntStr.natText
    split
    · exact ⟨'-', _, rfl, .inl rfl⟩
    · cases hd : Nat.toDigits 10 n.natAbs with
      | nil => exact absurd hd Nat.toDigits_ne_nil
      | cons c t => exact ⟨c, t, rfl, .inr (hdig c (by rw [hd]; exact List.mem_cons_self))⟩
  · intro c hc
    have : c = '-' ∨ c.isDigit = true := by
      unfold IntStr.intText IntStr.natText at hc
      split at hc
      · rcases List.mem_cons.1 hc with h | h
        · exact .inl h
        · exact .inr (hdig c h)
      · exact .inr (hdig c hc)
    refine ⟨?_, ?_, ?_⟩
    · rintro rfl; rcases this with h | h <;> exact absurd h (by decide)
    · rintro rfl; rcases this with h | h <;> exact absurd h (by decide)
    · cases hw : blank c with
      | false => rfl
      | true =>
        simp only [blank, Bool.or_eq_true, beq_iff_eq] at hw
        rcases hw with ((rfl | rfl) | rfl) | rfl <;> rcases this with h | h <;> exact absurd h (by decide)

theorem numBack_text (laws : IntLaws ops) {n m : Num R} (h : NumBack ops n m) :
    ∃ t r, numText ops n = .ok t ∧ IsNumber ops t r ∧ NumOf ops r m := by
  cases h with
  | intS n h =>
    refine ⟨_, _, ?_, intText_isNumber laws h, .int (laws.toInt_ofInt n h) (laws.eq_ofInt n h)⟩
    rw [numText, IntStr.C37_toStr_partial .long _ (by rfl) n, if_pos]
    · simp only [IntStr.safeLo, IntStr.safeHi]; omega
    · simp only [IntStr.IntType.InRange, IntStr.IntType.signed, IntStr.IntType.bits, if_true]; omega
  | intU n h =>
    refine ⟨_, _, ?_, intText_isNumber laws (n := (n : Int)) (by omega),
      .int (laws.toInt_ofInt n (by omega)) (laws.eq_ofInt n (by omega))⟩
    rw [numText, IntStr.C37_toStr_partial .ulong _ (by rfl) n, if_pos]
    · simp only [IntStr.safeLo, IntStr.safeHi]; omega
    · simp [IntStr.IntType.InRange, IntStr.IntType.signed, IntStr.IntType.bits]; omega
  | @real r m h he hm => exact ⟨_, r, rfl, h, hm⟩

theorem increasing_append_cons {m : List (List Char × Val R)} {k : List Char} {v : Val R}
    {rest : List (List Char × Val R)} (h : Container.Increasing strLt (m ++ (k, v) :: rest)) :
    put m k v = m ++ [(k, v)] := by
  have : ∀ x ∈ m, strLt x.1 k = true := by
    intro x hx
    exact (List.pairwise_append.1 h).2.2 x hx _ List.mem_cons_self
  have := (put_append m [] k v v this (by simp)).1
  simpa using this

theorem back_increasing {kvs kvs' : List (List Char × Val R)} {NB : Num R → Num R → Prop} (h : BackObjBy NB kvs kvs')
    : kvs.map (·.1) = kvs'.map (·.1) := by
  match kvs, kvs', h with
  | _, _, .nil => rfl
  | _, _, .cons _ _ hs => simp [back_increasing hs]

theorem increasing_iff_keys (kvs : List (List Char × Val R)) :
    Container.Increasing strLt kvs ↔ (kvs.map (·.1)).Pairwise (fun a b => strLt a b = true) := by
  rw [List.pairwise_map]

/-- Numbers are written as text that is read as `NB` says. -/
def NumTexts (ops : RealOps R) (NB : Num R → Num R → Prop) : Prop :=
  ∀ {n m : Num R}, NB n m → ∃ t r, numText ops n = .ok t ∧ IsNumber ops t r ∧ NumOf ops r m

mutual

theorem write_val {NB : Num R → Num R → Prop} (text : NumTexts ops NB) (pretty : Bool) {v v' : Val R} (h : BackBy NB v v') :
    ∃ d, Denotes ops d v' ∧ ∀ w, ∃ w', writeVal ops pretty v w = .ok w' ∧ Emits w w' d.render ∧
      (d.IsNum → w.needIndent = false → w'.out = w.out ++ d.render) := by
  match v, v', h with
  | _, _, .nll =>
    refine ⟨.nul, .nul, fun w => ⟨_, by rw [writeVal]; rfl, emits_put pretty w (layout_chars _ (by decide)), ?_⟩⟩
    intro hn; exact hn.elim
  | _, _, .bln b =>
    refine ⟨.bln b, .bln b, fun w => ⟨_, by rw [writeVal], emits_put pretty w ?_, ?_⟩⟩
    · cases b <;> exact layout_chars _ (by decide)
    · intro hn; exact hn.elim
  | _, _, .num hnum =>
    obtain ⟨t, r, h1, h2, h3⟩ := text hnum
    refine ⟨.num t, .num h2 h3, fun w => ⟨w.put pretty t, ?_, emits_put pretty w (layout_chars _ h2.chars), ?_⟩⟩
    · rw [writeVal, h1]; rfl
    · intro _ hni; simp [W.put, hni, Doc.render]
  | _, _, .str (s := s) hs =>
    refine ⟨.str (s.map .plain), .str (plain_denotes hs).1 (plain_denotes hs).2.1,
      fun w => ⟨_, by rw [writeVal], emits_put pretty w ?_, ?_⟩⟩
    · simp only [Doc.render]; exact layout_plain hs
    · intro hn; exact hn.elim
  | _, _, .arr ha =>
    obtain ⟨ds, h1, h2⟩ := write_arr text pretty ha
    refine ⟨.arr ds, .arr h1, fun w => ?_⟩
    obtain ⟨w', e, em⟩ := h2 ((w.put pretty ['[']).nl pretty).deeper
    refine ⟨_, by rw [writeVal, e]; rfl, ?_, fun hn => hn.elim⟩
    have a1 := emits_put pretty w (layout_char (c := '[') (by decide) (by decide) (by decide))
    have a2 := emits_nl pretty (w.put pretty ['['])
    have a3 := emits_deeper ((w.put pretty ['[']).nl pretty)
    have a4 := emits_shallower w'
    have a5 := emits_nl pretty w'.shallower
    have a6 := emits_put pretty (w'.shallower.nl pretty) (layout_char (c := ']') (by decide) (by decide) (by decide))
    have := ((((((a1.trans a2).trans a3).trans em).trans a4).trans a5).trans a6)
    simpa [Doc.render] using this
  | _, _, .obj (kvs' := kvs') ho hk =>
    have hinc : Container.Increasing strLt ([] ++ kvs') := by
      rw [List.nil_append, increasing_iff_keys, ← back_increasing ho, ← increasing_iff_keys]; exact hk
    obtain ⟨ds, h1, h2⟩ := write_obj text pretty ho [] hinc
    refine ⟨.obj ds, .obj h1, fun w => ?_⟩
    obtain ⟨w', e, em⟩ := h2 ((w.put pretty ['{']).nl pretty).deeper
    refine ⟨_, by rw [writeVal, e]; rfl, ?_, fun hn => hn.elim⟩
    have a1 := emits_put pretty w (layout_char (c := '{') (by decide) (by decide) (by decide))
    have a2 := emits_nl pretty (w.put pretty ['{'])
    have a3 := emits_deeper ((w.put pretty ['{']).nl pretty)
    have a4 := emits_shallower w'
    have a5 := emits_nl pretty w'.shallower
    have a6 := emits_put pretty (w'.shallower.nl pretty) (layout_char (c := '}') (by decide) (by decide) (by decide))
    have := ((((((a1.trans a2).trans a3).trans em).trans a4).trans a5).trans a6)
    simpa [Doc.render] using this

theorem write_arr {NB : Num R → Num R → Prop} (text : NumTexts ops NB) (pretty : Bool) {vs vs' : List (Val R)} (h : BackArrBy NB vs vs') :
    ∃ ds, DenotesArr ops ds vs' ∧ ∀ w, ∃ w', writeArr ops pretty vs w = .ok w' ∧ Emits w w' (renderArr ds) := by
  match vs, vs', h with
  | _, _, .nil => exact ⟨[], .nil, fun w => ⟨w, by rw [writeArr], ⟨[], by simp, by simpa [renderArr] using Layout.nil⟩⟩⟩
  | _, _, .cons (vs := []) (vs' := []) hv .nil =>
    obtain ⟨d, h1, h2⟩ := write_val text pretty hv
    refine ⟨[d], .cons h1 .nil, fun w => ?_⟩
    obtain ⟨w', e, em, _⟩ := h2 w
    exact ⟨w', by rw [writeArr, e], by simpa [renderArr] using em⟩
  | _, _, .cons (v := v) (vs := u :: us) (vs' := vs') hv hs =>
    obtain ⟨d, h1, h2⟩ := write_val text pretty hv
    obtain ⟨ds, h3, h4⟩ := write_arr text pretty hs
    refine ⟨d :: ds, .cons h1 h3, fun w => ?_⟩
    obtain ⟨w', e, em, _⟩ := h2 w
    obtain ⟨w'', e', em'⟩ := h4 (((w'.put pretty [',']).ws pretty).nl pretty)
    refine ⟨w'', by rw [writeArr, e, Outcome.bind_ok, e']; simp, ?_⟩
    have hne : ds ≠ [] := by
      cases hs with
      | cons _ _ =>
        cases h3 with
        | cons _ _ => simp
    rw [renderArr_cons _ _ hne]
    have a1 := emits_put pretty w' (layout_char (c := ',') (by decide) (by decide) (by decide))
    have a2 := emits_ws pretty (w'.put pretty [','])
    have a3 := emits_nl pretty ((w'.put pretty [',']).ws pretty)
    have := (((em.trans a1).trans a2).trans a3).trans em'
    simpa using this

theorem write_obj {NB : Num R → Num R → Prop} (text : NumTexts ops NB) (pretty : Bool) {kvs kvs' : List (List Char × Val R)}
    (h : BackObjBy NB kvs kvs') (m : List (List Char × Val R)) (hm : Container.Increasing strLt (m ++ kvs')) :
    ∃ ds, DenotesObj ops m ds (m ++ kvs') ∧
      ∀ w, ∃ w', writeObj ops pretty kvs w = .ok w' ∧ Emits w w' (renderObj ds) := by
  match kvs, kvs', h with
  | _, _, .nil =>
    exact ⟨[], by simpa using DenotesObj.nil, fun w => ⟨w, by rw [writeObj], ⟨[], by simp, by simpa [renderObj] using Layout.nil⟩⟩⟩
  | _, _, .cons (k := k) (v := v) (v' := v') (vs := []) (vs' := []) hk hv .nil =>
    obtain ⟨d, h1, h2⟩ := write_val text pretty hv
    have hput := increasing_append_cons hm
    refine ⟨[(k.map .plain, d)], .cons (plain_denotes hk).1 (plain_denotes hk).2.1 h1 ?_, fun w => ?_⟩
    · rw [hput]; exact .nil
    · have hw1 : Emits w (((w.put pretty ('"' :: k ++ ['"'])).put pretty [':']).ws pretty)
          (litText (k.map .plain) ++ [':']) := by
        have a1 := emits_put pretty w (layout_plain hk)
        have a2 := emits_put pretty (w.put pretty ('"' :: k ++ ['"']))
          (layout_char (c := ':') (by decide) (by decide) (by decide))
        have a3 := emits_ws pretty ((w.put pretty ('"' :: k ++ ['"'])).put pretty [':'])
        simpa using (a1.trans a2).trans a3
      have hw2 : Emits (((w.put pretty ('"' :: k ++ ['"'])).put pretty [':']).ws pretty)
          (if isObjOrArr v then (((w.put pretty ('"' :: k ++ ['"'])).put pretty [':']).ws pretty).nl pretty
            else (((w.put pretty ('"' :: k ++ ['"'])).put pretty [':']).ws pretty)) [] := by
        split
        · exact emits_nl _ _
        · exact ⟨[], by simp, .nil⟩
      obtain ⟨w', e, em, _⟩ := h2 (if isObjOrArr v then
        (((w.put pretty ('"' :: k ++ ['"'])).put pretty [':']).ws pretty).nl pretty
            else (((w.put pretty ('"' :: k ++ ['"'])).put pretty [':']).ws pretty))
      refine ⟨w', by rw [writeObj]; exact e, ?_⟩
      have := (hw1.trans hw2).trans em
      simpa [renderObj] using this
  | _, _, .cons (k := k) (v := v) (v' := v') (vs := u :: us) (vs' := vs') hk hv hs =>
    obtain ⟨d, h1, h2⟩ := write_val text pretty hv
    have hput := increasing_append_cons hm
    obtain ⟨ds, h3, h4⟩ := write_obj text pretty hs (m ++ [(k, v')]) (by simpa using hm)
    refine ⟨(k.map .plain, d) :: ds, .cons (plain_denotes hk).1 (plain_denotes hk).2.1 h1 ?_, fun w => ?_⟩
    · rw [hput]; simpa using h3
    · have hw1 : Emits w (((w.put pretty ('"' :: k ++ ['"'])).put pretty [':']).ws pretty)
          (litText (k.map .plain) ++ [':']) := by
        have a1 := emits_put pretty w (layout_plain hk)
        have a2 := emits_put pretty (w.put pretty ('"' :: k ++ ['"']))
          (layout_char (c := ':') (by decide) (by decide) (by decide))
        have a3 := emits_ws pretty ((w.put pretty ('"' :: k ++ ['"'])).put pretty [':'])
        simpa using (a1.trans a2).trans a3
      have hw2 : Emits (((w.put pretty ('"' :: k ++ ['"'])).put pretty [':']).ws pretty)
          (if isObjOrArr v then (((w.put pretty ('"' :: k ++ ['"'])).put pretty [':']).ws pretty).nl pretty
            else (((w.put pretty ('"' :: k ++ ['"'])).put pretty [':']).ws pretty)) [] := by
        split
        · exact emits_nl _ _
        · exact ⟨[], by simp, .nil⟩
      obtain ⟨w', e, em, _⟩ := h2 (if isObjOrArr v then
        (((w.put pretty ('"' :: k ++ ['"'])).put pretty [':']).ws pretty).nl pretty
            else (((w.put pretty ('"' :: k ++ ['"'])).put pretty [':']).ws pretty))
      obtain ⟨w'', e', em'⟩ := h4 (((w'.put pretty [',']).ws pretty).nl pretty)
      refine ⟨w'', ?_, ?_⟩
      · rw [writeObj]
        · simp only [e, Outcome.bind_ok]; exact e'
        · simp
      have hne : ds ≠ [] := by
        rintro rfl
        cases hs with
        | cons _ _ _ =>
          generalize hy : m ++ [(k, v')] ++ _ = y at h3
          cases h3
          simp at hy
      rw [renderObj_cons _ _ _ hne]
      have a1 := emits_put pretty w' (layout_char (c := ',') (by decide) (by decide) (by decide))
      have a2 := emits_ws pretty (w'.put pretty [','])
      have a3 := emits_nl pretty ((w'.put pretty [',']).ws pretty)
      have := (((((hw1.trans hw2).trans em).trans a1).trans a2).trans a3).trans em'
      simpa using this

end

theorem terminated_nil : Terminated [] := by intro c hc; simp at hc

/-- Writing and reading back. -/
theorem write_readBy {NB : Num R → Num R → Prop} (text : NumTexts ops NB) (pretty dbg : Bool) {v v' : Val R} (h : BackBy NB v v') :
    ∃ t, write ops pretty v = .ok t ∧ read ops dbg t = .ok v' := by
  obtain ⟨d, h1, h2⟩ := write_val text pretty h
  obtain ⟨w', e, ⟨t, ho, hl⟩, hn⟩ := h2 ⟨[], 0, false⟩
  simp only [List.nil_append] at ho
  refine ⟨t, by rw [write, e]; simp [ho], read_denotes h1 hl ?_ dbg⟩
  intro hnum
  have := hn hnum rfl
  simp only [List.nil_append] at this
  rw [ho] at this
  rw [this, List.drop_length]
  exact terminated_nil

theorem write_read (laws : IntLaws ops) (pretty dbg : Bool) {v v' : Val R} (h : Back ops v v') :
    ∃ t, write ops pretty v = .ok t ∧ read ops dbg t = .ok v' := write_readBy (numBack_text laws) pretty dbg h

end Verif.Json
