import Verif.Json.Spec
import Verif.Container.Lemmas

namespace Verif.Json

open Verif

/-! ### Order of keys -/

theorem strLt_irrefl : ∀ a, strLt a a = false
  | [] => rfl
  | a :: as => by simp [strLt, strLt_irrefl as]

theorem strLt_trans : ∀ a b c, strLt a b = true → strLt b c = true → strLt a c = true
  | [], [], _, h, _ => by simp [strLt] at h
  | [], _ :: _, [], _, h => by simp [strLt] at h
  | [], _ :: _, _ :: _, _, _ => rfl
  | _ :: _, [], _, h, _ => by simp [strLt] at h
  | _ :: _, _ :: _, [], _, h => by simp [strLt] at h
  | a :: as, b :: bs, c :: cs, h1, h2 => by
    simp only [strLt] at h1 h2 ⊢
    split at h1 <;> split at h2
    · subst_vars; rw [if_pos rfl]; exact strLt_trans as bs cs h1 h2
    · rename_i e1 e2; subst e1; rw [if_neg e2]; exact h2
    · rename_i e1 e2; subst e2; rw [if_neg e1]; exact h1
    · rename_i e1 e2
      simp only [decide_eq_true_eq] at h1 h2
      have : a ≠ c := by rintro rfl; omega
      rw [if_neg this]; simp only [decide_eq_true_eq]; omega

theorem strLt_total : ∀ a b, a ≠ b → strLt a b = true ∨ strLt b a = true
  | [], [], h => absurd rfl h
  | [], _ :: _, _ => .inl rfl
  | _ :: _, [], _ => .inr rfl
  | a :: as, b :: bs, h => by
    simp only [strLt]
    by_cases e : a = b
    · subst e
      have := strLt_total as bs (by rintro rfl; exact h rfl)
      simpa using this
    · rw [if_neg e, if_neg (Ne.symm e)]
      simp only [decide_eq_true_eq]
      have : a.toNat ≠ b.toNat := by
        intro hn; exact e (Char.toNat_inj.1 hn)
      omega

theorem strLt_strictTotal : Container.StrictTotal strLt := ⟨strLt_irrefl, strLt_trans, strLt_total⟩

/-- Writing a key of a `VecMap` is `put`. -/
theorem put_append {V : Type} : ∀ (l r : List (List Char × V)) (k : List Char) (w old : V),
    (∀ x ∈ l, strLt x.1 k = true) → (∀ x ∈ r, strLt k x.1 = true) →
    put (l ++ r) k w = l ++ (k, w) :: r ∧ put (l ++ (k, old) :: r) k w = l ++ (k, w) :: r
  | [], r, k, w, old, _, h2 => by
    refine ⟨?_, by simp [put]⟩
    cases r with
    | nil => rfl
    | cons x r =>
      have hx := h2 x List.mem_cons_self
      have hne : k ≠ x.1 := by
        intro e; rw [e, strLt_irrefl] at hx; simp at hx
      simp [put, hne, hx]
  | x :: l, r, k, w, old, h1, h2 => by
    have hx := h1 x List.mem_cons_self
    have hne : k ≠ x.1 := by
      intro e; rw [e, strLt_irrefl] at hx; simp at hx
    have hlt : strLt k x.1 = false := strLt_strictTotal.antisymm hx
    have ih := put_append l r k w old (fun y hy => h1 y (List.mem_cons_of_mem _ hy)) h2
    simp [put, hne, hlt, ih.1, ih.2]

theorem setIndex_eq_put {V : Type} (dflt : V) {d : List (List Char × V)} (hd : Container.Increasing strLt d)
    (k : List Char) (w : V) : Container.setIndex strLt dflt d k w = .ok (put d k w) := by
  obtain ⟨l, r, old, hset, hdd, h1, h2⟩ := Container.setIndex_shape strLt_strictTotal dflt hd k w
  have := put_append l r k w old h1 h2
  rw [hset]
  rcases hdd with rfl | rfl
  · rw [this.1]
  · rw [this.2]

theorem put_increasing {V : Type} {d : List (List Char × V)} (hd : Container.Increasing strLt d)
    (k : List Char) (w : V) : Container.Increasing strLt (put d k w) := by
  obtain ⟨d', h1, h2, _⟩ := Container.setIndex_spec strLt_strictTotal w hd k w
  rw [setIndex_eq_put w hd] at h1
  cases h1; exact h2

theorem put_toMap {V : Type} {d : List (List Char × V)} (hd : Container.Increasing strLt d)
    (k : List Char) (w : V) (k' : List Char) :
    Container.toMap (put d k w) k' = if k' = k then some w else Container.toMap d k' := by
  obtain ⟨d', h1, _, h3⟩ := Container.setIndex_spec strLt_strictTotal w hd k w
  rw [setIndex_eq_put w hd] at h1
  cases h1; exact h3 k'

/-! ### Purging -/

theorem purgeStr_body (dbg : Bool) : ∀ (body : List Char) (prev : Char) (s : List Char), StrBody prev body →
    purgeStr dbg prev (body ++ '"' :: s) = .ok (body ++ ['"'], s)
  | [], prev, s, h => by
    have : prev ≠ '\\' := h
    simp [purgeStr, this]
  | c :: cs, prev, s, h => by
    have h1 : c ≠ '"' ∨ prev = '\\' := by
      by_cases e : c = '"'
      · exact .inr (h.1 e)
      · exact .inl e
    rw [List.cons_append, purgeStr, if_pos h1, purgeStr_body dbg cs c s h.2]
    rfl

theorem purgeComment_body (dbg : Bool) : ∀ (body s : List Char), '\n' ∉ body →
    purgeComment dbg (body ++ '\n' :: s) = .ok s
  | [], s, _ => by simp [purgeComment]
  | c :: cs, s, h => by
    have h1 : c ≠ '\n' := by rintro rfl; exact h List.mem_cons_self
    have h2 : '\n' ∉ cs := fun hm => h (List.mem_cons_of_mem _ hm)
    rw [List.cons_append, purgeComment, if_neg h1, purgeComment_body dbg cs s h2]

theorem isWhitespace_eq (c : Char) : isWhitespace c = blank c := rfl

theorem purgeLoop_layout (dbg : Bool) {k s : List Char} (h : Layout k s) :
    ∀ fuel, s.length < fuel → purgeLoop dbg fuel s = .ok k := by
  induction h with
  | nil => intro fuel hf; cases fuel with
    | zero => omega
    | succ f => rfl
  | @ws c k s hc h ih =>
    intro fuel hf
    cases fuel with
    | zero => omega
    | succ f =>
      simp only [List.length_cons] at hf
      have hq : c ≠ '"' := by rintro rfl; exact absurd hc (by decide)
      have hs : c ≠ '/' := by rintro rfl; exact absurd hc (by decide)
      simp [purgeLoop, hq, hs, ih f (by omega), isWhitespace_eq, hc]
  | @comment k s body hb h ih =>
    intro fuel hf
    cases fuel with
    | zero => omega
    | succ f =>
      simp only [List.length_cons, List.length_append, List.cons_append] at hf ⊢
      have h1 : purgeComment dbg ('/' :: (body ++ '\n' :: s)) = .ok s := by
        rw [purgeComment, if_neg (by decide), purgeComment_body dbg body s hb]
      simp [purgeLoop, h1, ih f (by omega)]
  | @chr c k s hq hs hw h ih =>
    intro fuel hf
    cases fuel with
    | zero => omega
    | succ f =>
      simp only [List.length_cons] at hf
      simp [purgeLoop, hq, hs, ih f (by omega), isWhitespace_eq, hw]
  | @lit body k s hb h ih =>
    intro fuel hf
    cases fuel with
    | zero => omega
    | succ f =>
      simp only [List.length_cons, List.length_append, List.cons_append] at hf ⊢
      simp [purgeLoop, purgeStr_body dbg body '"' s hb, ih f (by omega)]

theorem purge_layout (dbg : Bool) {k s : List Char} (h : Layout k s) : purge dbg s = .ok k :=
  purgeLoop_layout dbg h _ (by omega)

theorem Layout.append {k₁ s₁ k₂ s₂ : List Char} (h₁ : Layout k₁ s₁) (h₂ : Layout k₂ s₂) :
    Layout (k₁ ++ k₂) (s₁ ++ s₂) := by
  induction h₁ with
  | nil => exact h₂
  | ws hc _ ih => exact .ws hc ih
  | comment body hb _ ih =>
    have := Layout.comment body hb ih
    simpa using this
  | chr hq hs hw _ ih => exact .chr hq hs hw ih
  | lit hb _ ih =>
    have := Layout.lit hb ih
    simpa using this

/-! ### Strings -/

theorem escMeaning_ok {c m : Char} (h : escMeaning c = some m) (dbg : Bool) :
    isValidEscape c = true ∧ getEscape dbg c = .ok m := by
  unfold escMeaning at h
  repeat' split at h
  all_goals first
    | (cases h; subst_vars; cases dbg <;> exact ⟨by decide, by decide⟩)
    | cases h

theorem scanEnd_body (dbg : Bool) {is : List Item} {t : List Char} (h : DenotesStr is t) (rest : List Char) :
    scanEnd dbg (bodyText is ++ '"' :: rest) = .ok (bodyText is).length := by
  induction h with
  | nil => cases rest <;> simp [bodyText, scanEnd]
  | @plain c is t hq hb h ih =>
    have e : bodyText (.plain c :: is) = c :: bodyText is := by simp [bodyText, Item.text]
    rw [e, List.cons_append]
    cases hr : bodyText is ++ '"' :: rest with
    | nil => simp at hr
    | cons d ds =>
      rw [hr] at ih
      simp [scanEnd, hq, hb, ih]
  | @esc c m is t hc h ih =>
    have e : bodyText (.esc c :: is) = '\\' :: c :: bodyText is := by simp [bodyText, Item.text]
    rw [e, List.cons_append, List.cons_append]
    have := (escMeaning_ok hc dbg).1
    simp [scanEnd, this, ih]

theorem convert_body (x : Ctx) {is : List Item} {t : List Char} (h : DenotesStr is t) (rest : List Char) :
    convert x (bodyText is).length (bodyText is ++ rest) = .ok (t, rest) := by
  induction h with
  | nil => rw [convert]; simp [bodyText]
  | @plain c is t hq hb h ih =>
    have e : bodyText (.plain c :: is) = c :: bodyText is := by simp [bodyText, Item.text]
    rw [e, List.cons_append, convert]
    simp [cur, hb, ih]
  | @esc c m is t hc h ih =>
    have e : bodyText (.esc c :: is) = '\\' :: c :: bodyText is := by simp [bodyText, Item.text]
    rw [e, List.cons_append, List.cons_append, convert]
    have := (escMeaning_ok hc x.dbg).2
    simp [cur, this, ih]

theorem readStr_lit (x : Ctx) {is : List Item} {t : List Char} (h : DenotesStr is t) (rest : List Char) :
    readStr x (litText is ++ rest) = .ok (t, rest) := by
  have h1 := scanEnd_body x.dbg h rest
  have h2 := convert_body x h ('"' :: rest)
  simp [readStr, litText, h1, h2]

/-- A literal is a `StrBody`. -/
theorem strBody_of {is : List Item} {t : List Char} (h : DenotesStr is t) :
    ∀ prev, (is = [] → prev ≠ '\\') → NoBackslashEnd is → StrBody prev (bodyText is) := by
  induction h with
  | nil => intro prev hp _; exact hp rfl
  | @plain c is t hq hb h ih =>
    intro prev _ he
    have e : bodyText (.plain c :: is) = c :: bodyText is := by simp [bodyText, Item.text]
    rw [e]
    refine ⟨fun hc => absurd hc hq, ih c (fun _ => hb) ?_⟩
    cases is with
    | nil => simp [NoBackslashEnd]
    | cons i is => simpa [NoBackslashEnd, List.getLast?_cons_cons] using he
  | @esc c m is t hc h ih =>
    intro prev _ he
    have e : bodyText (.esc c :: is) = '\\' :: c :: bodyText is := by simp [bodyText, Item.text]
    rw [e]
    refine ⟨fun hc => absurd hc (by decide), fun _ => rfl, ih c ?_ ?_⟩
    · rintro rfl rfl; simp [NoBackslashEnd] at he
    · cases is with
      | nil => simp [NoBackslashEnd]
      | cons i is => simpa [NoBackslashEnd, List.getLast?_cons_cons] using he

theorem layout_lit {is : List Item} {t : List Char} (h : DenotesStr is t) (he : NoBackslashEnd is) :
    Layout (litText is) (litText is) := by
  have := Layout.lit (strBody_of h '"' (by intro _; decide) he) Layout.nil
  simpa [litText] using this

theorem layout_chars : ∀ (l : List Char), (∀ c ∈ l, c ≠ '"' ∧ c ≠ '/' ∧ blank c = false) → Layout l l
  | [], _ => .nil
  | c :: cs, h => by
    obtain ⟨h1, h2, h3⟩ := h c List.mem_cons_self
    exact .chr h1 h2 h3 (layout_chars cs (fun d hd => h d (List.mem_cons_of_mem _ hd)))

/-! ### Values -/

variable {R : Type} {ops : RealOps R}

theorem terminated_cons {c : Char} (rest : List Char) (h : c ∈ [',', ']', '}', ' ', '\t', '\r', '\n', '/']) :
    Terminated (c :: rest) := by
  intro d hd
  simp only [List.head?_cons, Option.some.injEq] at hd
  subst hd; exact h

theorem parseNum_ok {txt : List Char} {r : R} {n : Num R} (h : IsNumber ops txt r) (hn : NumOf ops r n)
    {rest : List Char} (ht : Terminated rest) : parseNum ops (txt ++ rest) = .ok (.num n, rest) := by
  rw [parseNum, h.value rest ht]
  cases hn with
  | int hi he => simp [hi, he]
  | real hi he => simp [hi, he]

theorem renderArr_cons (d : Doc) (ds : List Doc) (h : ds ≠ []) :
    renderArr (d :: ds) = d.render ++ ',' :: renderArr ds := by
  cases ds with
  | nil => exact absurd rfl h
  | cons e es => rfl

theorem renderObj_cons (k : List Item) (d : Doc) (kvs : List (List Item × Doc)) (h : kvs ≠ []) :
    renderObj ((k, d) :: kvs) = litText k ++ ':' :: (d.render ++ ',' :: renderObj kvs) := by
  cases kvs with
  | nil => exact absurd rfl h
  | cons e es => rfl

theorem matchKw_append (x : Ctx) : ∀ (kw rest : List Char), matchKw x kw (kw ++ rest) = .ok rest
  | [], _ => rfl
  | k :: ks, rest => by simp [matchKw, cur, matchKw_append x ks rest]

/-- First characters of texts. -/
theorem render_head {d : Doc} {v : Val R} (h : Denotes ops d v) :
    ∃ c t, d.render = c :: t ∧ c ≠ ']' ∧ c ≠ '}' := by
  cases h with
  | nul => exact ⟨'n', "ull".toList, rfl, by decide, by decide⟩
  | bln b => cases b with
    | true => exact ⟨'t', "rue".toList, rfl, by decide, by decide⟩
    | false => exact ⟨'f', "alse".toList, rfl, by decide, by decide⟩
  | num h hn =>
    obtain ⟨c, t, rfl, hc⟩ := h.start
    refine ⟨c, t, rfl, ?_, ?_⟩ <;> rintro rfl <;> rcases hc with hc | hc <;> exact absurd hc (by decide)
  | str h he => exact ⟨'"', _, rfl, by decide, by decide⟩
  | arr h => exact ⟨'[', _, rfl, by decide, by decide⟩
  | obj h => exact ⟨'{', _, rfl, by decide, by decide⟩

theorem isDigit_lt {c : Char} (h : c.isDigit = true) : c.toNat < 128 := by
  simp only [Char.isDigit, Bool.and_eq_true, decide_eq_true_eq] at h
  have := UInt32.le_iff_toNat_le.1 h.2
  exact Nat.lt_of_le_of_lt this (by decide)

theorem numStart_facts {c : Char} (h : c = '-' ∨ c.isDigit = true) :
    c ≠ '{' ∧ c ≠ '[' ∧ c ≠ '"' ∧ c ≠ 't' ∧ c ≠ 'f' ∧ c ≠ 'n' ∧ isNumStart ops c = .ok true := by
  refine ⟨?_, ?_, ?_, ?_, ?_, ?_, ?_⟩
  all_goals first
    | (rintro rfl; rcases h with h | h <;> exact absurd h (by decide))
    | (rcases h with h | h
       · simp [isNumStart, h]
       · have : c.toNat < 128 := isDigit_lt h
         simp [isNumStart, h, this])

theorem parseVal_cons (x : Ctx) (fuel : Nat) (c : Char) (t : List Char) :
    parseVal ops x (fuel + 1) (c :: t) =
      if c = '{' then do
        let d ← cur x t
        if d = '}' then return (.obj [], t.tail) else objLoop ops x fuel t []
      else if c = '[' then do
        let d ← cur x t
        if d = ']' then return (.arr [], t.tail) else arrLoop ops x fuel t []
      else if c = '"' then do
        let (s, r) ← readStr x (c :: t)
        return (.str s, r)
      else if c = 't' then do
        let r ← matchKw x ['t', 'r', 'u', 'e'] (c :: t)
        return (.bln true, r)
      else if c = 'f' then do
        let r ← matchKw x ['f', 'a', 'l', 's', 'e'] (c :: t)
        return (.bln false, r)
      else if c = 'n' then do
        let r ← matchKw x ['n', 'u', 'l', 'l'] (c :: t)
        return (.nll, r)
      else (do
        let b ← isNumStart ops c
        if b then parseNum ops (c :: t) else throwError x (c :: t)) := by
  rw [parseVal]
  simp only [cur, Outcome.bind_ok, List.tail_cons]
  rfl

mutual

theorem parse_denotes {d : Doc} {v : Val R} (h : Denotes ops d v) (x : Ctx) (rest : List Char) (fuel : Nat)
    (hf : 2 * d.render.length + 1 ≤ fuel) (ht : d.IsNum → Terminated rest) :
    parseVal ops x fuel (d.render ++ rest) = .ok (v, rest) := by
  obtain ⟨f, rfl⟩ : ∃ f, fuel = f + 1 := ⟨fuel - 1, by omega⟩
  match d, v, h with
  | _, _, .nul =>
    have hk : matchKw x ['n', 'u', 'l', 'l'] ('n' :: 'u' :: 'l' :: 'l' :: rest) = .ok rest :=
      matchKw_append x ['n', 'u', 'l', 'l'] rest
    have hr : ∀ d : Doc, d.render = "null".toList → d.render ++ rest = 'n' :: 'u' :: 'l' :: 'l' :: rest := by
      intro d hd; rw [hd]; rfl
    rw [hr _ rfl, parseVal_cons]
    simp [hk]
  | _, _, .bln true =>
    have hk : matchKw x ['t', 'r', 'u', 'e'] ('t' :: 'r' :: 'u' :: 'e' :: rest) = .ok rest :=
      matchKw_append x ['t', 'r', 'u', 'e'] rest
    have hr : ∀ d : Doc, d.render = "true".toList → d.render ++ rest = 't' :: 'r' :: 'u' :: 'e' :: rest := by
      intro d hd; rw [hd]; rfl
    rw [hr _ rfl, parseVal_cons]
    simp [hk]
  | _, _, .bln false =>
    have hk : matchKw x ['f', 'a', 'l', 's', 'e'] ('f' :: 'a' :: 'l' :: 's' :: 'e' :: rest) = .ok rest :=
      matchKw_append x ['f', 'a', 'l', 's', 'e'] rest
    have hr : ∀ d : Doc, d.render = "false".toList → d.render ++ rest = 'f' :: 'a' :: 'l' :: 's' :: 'e' :: rest := by
      intro d hd; rw [hd]; rfl
    rw [hr _ rfl, parseVal_cons]
    simp [hk]
  | _, _, .num h hn =>
    obtain ⟨c, t, he, hc⟩ := h.start
    have hp := parseNum_ok h hn (ht trivial)
    obtain ⟨h1, h2, h3, h4, h5, h6, h7⟩ := numStart_facts (ops := ops) hc
    simp only [Doc.render]
    rw [he, List.cons_append] at hp ⊢
    rw [parseVal_cons]
    simp only [h1, h2, h3, h4, h5, h6, h7, hp, if_false, if_true, Outcome.bind_ok]
  | _, _, .str h he =>
    have := readStr_lit x h rest
    simp only [Doc.render]
    rw [litText, List.cons_append, List.cons_append] at this ⊢
    rw [parseVal_cons, this]
    simp
  | .arr ds, _, .arr (vs := vs) h =>
    match ds, vs, h with
    | _, _, .nil =>
      simp only [Doc.render, renderArr, List.cons_append, List.nil_append]
      rw [parseVal_cons]
      simp [cur]
    | _, _, .cons (d := d) (ds := ds) (vs := vs) (v := v) hd hs =>
      simp only [Doc.render, List.length_cons, List.length_append, List.length_nil] at hf
      have hne : d :: ds ≠ [] := by simp
      have hloop := parse_arr (DenotesArr.cons hd hs) hne x rest f [] (by omega)
      have hhead : ∃ c t, renderArr (d :: ds) ++ ']' :: rest = c :: t ∧ c ≠ ']' := by
        obtain ⟨c, t, h1, h2, _⟩ := render_head hd
        cases ds with
        | nil => exact ⟨c, t ++ ']' :: rest, by simp [renderArr, h1], h2⟩
        | cons e es => exact ⟨c, _, by rw [renderArr_cons _ _ (by simp), h1]; rfl, h2⟩
      obtain ⟨c, t, h1, h2⟩ := hhead
      simp only [Doc.render, List.cons_append, List.append_assoc, List.nil_append]
      rw [parseVal_cons]
      rw [h1] at hloop
      simp [h1, cur, h2, hloop]
  | .obj kvs, _, .obj (m := m') h =>
    match kvs, m', h with
    | _, _, .nil =>
      simp only [Doc.render, renderObj, List.cons_append, List.nil_append]
      rw [parseVal_cons]
      simp [cur]
    | _, _, .cons (is := is) (d := d) (kvs := kvs) hk he hd hs =>
      simp only [Doc.render, List.length_cons, List.length_append, List.length_nil] at hf
      have hne : (is, d) :: kvs ≠ [] := by simp
      have hloop := parse_obj (DenotesObj.cons hk he hd hs) hne List.Pairwise.nil x rest f (by omega)
      have hhead : ∃ t, renderObj ((is, d) :: kvs) ++ '}' :: rest = '"' :: t := by
        cases kvs with
        | nil => exact ⟨_, by simp only [renderObj, litText, List.cons_append]; rfl⟩
        | cons e es => exact ⟨_, by rw [renderObj_cons _ _ _ (by simp)]; simp only [litText, List.cons_append]; rfl⟩
      obtain ⟨t, h1⟩ := hhead
      simp only [Doc.render, List.cons_append, List.append_assoc, List.nil_append]
      rw [parseVal_cons]
      rw [h1] at hloop
      simp [h1, cur, hloop]

theorem parse_arr {ds : List Doc} {vs : List (Val R)} (h : DenotesArr ops ds vs) (hne : ds ≠ []) (x : Ctx)
    (rest : List Char) (fuel : Nat) (acc : List (Val R)) (hf : 2 * (renderArr ds).length + 2 ≤ fuel) :
    arrLoop ops x fuel (renderArr ds ++ ']' :: rest) acc = .ok (.arr (acc ++ vs), rest) := by
  obtain ⟨f, rfl⟩ : ∃ f, fuel = f + 1 := ⟨fuel - 1, by omega⟩
  match ds, vs, h with
  | _, _, .cons (d := d) (v := v) (ds := []) (vs := []) hd .nil =>
    simp only [renderArr] at hf ⊢
    rw [arrLoop, parse_denotes hd x (']' :: rest) f (by omega) (fun _ => terminated_cons _ (by simp))]
    simp [cur]
  | _, _, .cons (d := d) (v := v) (ds := e :: es) (vs := vs) hd hs =>
    rw [renderArr_cons _ _ (by simp)] at hf ⊢
    simp only [List.length_append, List.length_cons] at hf
    rw [arrLoop, List.append_assoc, List.cons_append,
      parse_denotes hd x (',' :: (renderArr (e :: es) ++ ']' :: rest)) f (by omega)
        (fun _ => terminated_cons _ (by simp))]
    have := parse_arr hs (by simp) x rest f (acc ++ [v]) (by omega)
    simp [cur, this]

theorem parse_obj {kvs : List (List Item × Doc)} {m m' : List (List Char × Val R)} (h : DenotesObj ops m kvs m')
    (hne : kvs ≠ []) (hm : Container.Increasing strLt m) (x : Ctx)
    (rest : List Char) (fuel : Nat) (hf : 2 * (renderObj kvs).length + 2 ≤ fuel) :
    objLoop ops x fuel (renderObj kvs ++ '}' :: rest) m = .ok (.obj m', rest) := by
  obtain ⟨f, rfl⟩ : ∃ f, fuel = f + 1 := ⟨fuel - 1, by omega⟩
  match kvs, m', h with
  | _, _, .cons (is := is) (k := k) (d := d) (v := v) (kvs := []) hk he hd .nil =>
    simp only [renderObj, List.length_append, List.length_cons] at hf ⊢
    have h1 := readStr_lit x hk (':' :: (d.render ++ '}' :: rest))
    rw [objLoop]
    rw [litText] at h1 ⊢
    have h2 := parse_denotes hd x ('}' :: rest) f (by omega) (fun _ => terminated_cons _ (by simp))
    simp only [List.cons_append, List.append_assoc, List.nil_append] at h1 ⊢
    simp [cur, h1, h2, setIndex_eq_put _ hm]
  | _, _, .cons (is := is) (k := k) (d := d) (v := v) (kvs := e :: es) hk he hd hs =>
    rw [renderObj_cons _ _ _ (by simp)] at hf ⊢
    simp only [List.length_append, List.length_cons] at hf ⊢
    have h1 := readStr_lit x hk (':' :: (d.render ++ ',' :: (renderObj (e :: es) ++ '}' :: rest)))
    rw [objLoop]
    rw [litText] at h1 ⊢
    have h2 := parse_denotes hd x (',' :: (renderObj (e :: es) ++ '}' :: rest)) f (by omega)
      (fun _ => terminated_cons _ (by simp))
    have h3 := parse_obj hs (by simp) (put_increasing hm k v) x rest f (by omega)
    simp only [List.cons_append, List.append_assoc, List.nil_append] at h1 ⊢
    simp [cur, h1, h2, setIndex_eq_put _ hm, h3]

end

/-- Reading a text that is a layout of a document. -/
theorem read_denotes {d : Doc} {v : Val R} (h : Denotes ops d v) {s : List Char} (hl : Layout d.render s)
    (ht : d.IsNum → Terminated (s.drop d.render.length)) (dbg : Bool) : read ops dbg s = .ok v := by
  rw [read, purge_layout dbg hl]
  simp only [Outcome.bind_ok, purgedSrc]
  rw [parse_denotes h _ _ _ (by simp; omega) ht]
  rfl

end Verif.Json
