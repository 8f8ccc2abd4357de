import Verif.Json.LemmasErr2

/-! # Where the reader stops: arrays, objects and the whole text -/

namespace Verif.Json

open Verif

variable {R : Type} {ops : RealOps R}

theorem arrLoopE_step {x : Ctx} {m : Nat} {z : List Char} {acc : List (Val R)} {v : Val R} {d : Char} {t : List Char}
    (h : parseValE ops x m z = .ok (.ok (v, d :: t))) : arrLoopE ops x (m + 1) z acc =
      if d = ',' then arrLoopE ops x m t (acc ++ [v]) else if d = ']' then .ok (.ok (.arr (acc ++ [v]), t))
      else throwErrorE x tArray (bArray d) (d :: t) := by
  rw [arrLoopE, h]; rfl

/-- One key and colon, then a value. -/
theorem objLoopE_value {x : Ctx} {m : Nat} {c : Char} {w key r : List Char} {acc : List (List Char × Val R)} (hc : c = '"')
    (hk : readStr x (c :: w) = .ok (key, ':' :: r)) : objLoopE ops x (m + 1) (c :: w) acc =
      andThen (parseValE ops x m r) fun vr =>
      andThen (plain (Container.setIndex strLt .nll acc key vr.1)) fun acc =>
      andThen (plain (cur x vr.2)) fun c =>
      if c = ',' then objLoopE ops x m vr.2.tail acc
      else if c = '}' then .ok (.ok (.obj acc, vr.2.tail))
      else throwErrorE x tObject (bObject c) vr.2 := by
  rw [objLoopE, cur, plain_ok, andThen_ok, if_neg (by simp [hc]), hk]
  rfl

theorem objLoopE_step {x : Ctx} {m : Nat} {c : Char} {w key r : List Char} {acc : List (List Char × Val R)} {v : Val R} {d : Char}
    {t : List Char} (ha : Container.Increasing strLt acc) (hc : c = '"') (hk : readStr x (c :: w) = .ok (key, ':' :: r))
    (h : parseValE ops x m r = .ok (.ok (v, d :: t))) : objLoopE ops x (m + 1) (c :: w) acc =
      if d = ',' then objLoopE ops x m t (put acc key v) else if d = '}' then .ok (.ok (.obj (put acc key v), t))
      else throwErrorE x tObject (bObject d) (d :: t) := by
  rw [objLoopE_value hc hk, h, andThen_ok, setIndex_eq_put _ ha]; rfl

theorem readStr_empty (x : Ctx) (t : List Char) : readStr x ('"' :: '"' :: t) = .ok ([], t) := by
  have := readStr_lit x DenotesStr.nil t
  simpa only [litText, bodyText, List.map_nil, List.flatten_nil, List.cons_append, List.nil_append] using this

/-- `null]` and `"":null}` complete the loops. -/
theorem completes_arr (dbg : Bool) (acc : List (Val R)) :
    Completes (fun x n r => arrLoopE ops x n r acc) dbg [] ['n', 'u', 'l', 'l', ']'] := by
  refine ⟨.arr (acc ++ [.nll]), 2, ?_⟩
  intro m hm t x' _
  obtain ⟨m, rfl⟩ : ∃ k, m = k + 2 := ⟨m - 2, by omega⟩
  exact arrLoopE_step (parseValE_null x' m (']' :: t))

theorem completes_obj (dbg : Bool) (acc : List (List Char × Val R)) (ha : Container.Increasing strLt acc) :
    Completes (fun x n r => objLoopE ops x n r acc) dbg [] ['"', '"', ':', 'n', 'u', 'l', 'l', '}'] := by
  refine ⟨.obj (put acc [] .nll), 2, ?_⟩
  intro m hm t x' _
  obtain ⟨m, rfl⟩ : ∃ k, m = k + 2 := ⟨m - 2, by omega⟩
  exact objLoopE_step ha rfl (readStr_empty x' _) (parseValE_null x' m ('}' :: t))

mutual

theorem parseVal_sim (hw : ∀ s, (ops.strtod s).2 ≤ s.length) (hE : ∀ d ∈ [',', ']', '}'], EndsNumber ops d) (x : Ctx) (n : Nat)
    (rest : List Char) : Sim ops (parseValE ops) x.dbg n rest (parseValE ops x n rest) := by
  match n with
  | 0 => rw [parseValE]; trivial
  | n + 1 =>
    rcases cur_cases x rest with ⟨c, w, rfl, _⟩ | ⟨rfl, _, e⟩ | ⟨rfl, _, e⟩
    · by_cases h1 : c = '{'
      · subst h1
        rw [parseValE_cons, if_pos rfl]
        have op : ∀ (x' : Ctx) m c z, c ≠ '}' → parseValE ops x' (m + 1) ('{' :: c :: z) = objLoopE ops x' m (c :: z) [] := by
          intro x' m c z hc
          rw [parseValE_cons, if_pos rfl, cur, plain_ok, andThen_ok, if_neg hc]
        rcases cur_cases x w with ⟨d, z, rfl, e⟩ | ⟨rfl, _, e⟩ | ⟨rfl, _, e⟩
        · rw [e, plain_ok, andThen_ok]
          split
          · rename_i hd
            subst hd
            refine CutL.cut ⟨['{', '}'], rfl, by simp, ?_⟩
            intro t x' m _ hm
            obtain ⟨m, rfl⟩ : ∃ k, m = k + 1 := ⟨m - 1, by omega⟩
            rw [List.cons_append, parseValE_cons]; rfl
          · rename_i hd
            exact (simL_open (.inr rfl) op (by simp [hd]) (objLoop_sim hw hE x n (d :: z) [] List.Pairwise.nil)).sim
        · rw [e, plain_ok, andThen_ok, if_neg (by decide)]
          exact (simL_open (.inr rfl) op (by simp) (objLoop_sim hw hE x n [] [] List.Pairwise.nil)).sim
        · rw [e]; trivial
      · by_cases h2 : c = '['
        · subst h2
          rw [parseValE_cons, if_neg (by decide), if_pos rfl]
          have op : ∀ (x' : Ctx) m c z, c ≠ ']' → parseValE ops x' (m + 1) ('[' :: c :: z) = arrLoopE ops x' m (c :: z) [] := by
            intro x' m c z hc
            rw [parseValE_cons, if_neg (by decide), if_pos rfl, cur, plain_ok, andThen_ok, if_neg hc]
          rcases cur_cases x w with ⟨d, z, rfl, e⟩ | ⟨rfl, _, e⟩ | ⟨rfl, _, e⟩
          · rw [e, plain_ok, andThen_ok]
            split
            · rename_i hd
              subst hd
              refine CutL.cut ⟨['[', ']'], rfl, by simp, ?_⟩
              intro t x' m _ hm
              obtain ⟨m, rfl⟩ : ∃ k, m = k + 1 := ⟨m - 1, by omega⟩
              rw [List.cons_append, parseValE_cons]; rfl
            · rename_i hd
              exact (simL_open (.inl rfl) op (by simp [hd]) (arrLoop_sim hw hE x n (d :: z) [])).sim
          · rw [e, plain_ok, andThen_ok, if_neg (by decide)]
            exact (simL_open (.inl rfl) op (by simp) (arrLoop_sim hw hE x n [] [])).sim
          · rw [e]; trivial
        · by_cases h3 : c = '"'
          · subst h3
            have hs : ∀ (x' : Ctx) m t, parseValE ops x' (m + 1) ('"' :: t) =
                andThen (plain (readStr x' ('"' :: t))) fun sr => .ok (.ok (.str sr.1, sr.2)) := by
              intro x' m t
              rw [parseValE_cons, if_neg (by decide), if_neg (by decide), if_pos rfl]
            rw [hs]
            cases hr : readStr x ('"' :: w) with
            | ok p =>
              obtain ⟨k, r⟩ := p
              obtain ⟨b, hb, hcut⟩ := readStr_cut hr
              refine CutL.cut ⟨'"' :: b, hb, by simp, ?_⟩
              intro t x' m hx hm
              obtain ⟨m, rfl⟩ : ∃ k, m = k + 1 := ⟨m - 1, by omega⟩
              have := hcut x' t hx
              rw [List.cons_append] at this ⊢
              rw [hs, this]; rfl
            | _ => trivial
          · by_cases h4 : c = 't'
            · subst h4
              exact (simL_keyword (kw := "true") (v := .bln true) (all := ['t', 'r', 'u', 'e']) (.inl rfl) rfl rfl
                (fun x m t => by
                  rw [parseValE_cons, if_neg (by decide), if_neg (by decide), if_neg (by decide), if_pos rfl]) x n w).sim
            · by_cases h5 : c = 'f'
              · subst h5
                exact (simL_keyword (kw := "false") (v := .bln false) (all := ['f', 'a', 'l', 's', 'e']) (.inr (.inl rfl)) rfl rfl
                  (fun x m t => by
                    rw [parseValE_cons, if_neg (by decide), if_neg (by decide), if_neg (by decide), if_neg (by decide),
                      if_pos rfl]) x n w).sim
              · by_cases h6 : c = 'n'
                · subst h6
                  exact (simL_keyword (kw := "null") (v := .nll) (all := ['n', 'u', 'l', 'l']) (.inr (.inr rfl)) rfl rfl
                    (fun x m t => by
                      rw [parseValE_cons, if_neg (by decide), if_neg (by decide), if_neg (by decide), if_neg (by decide),
                        if_neg (by decide), if_pos rfl]) x n w).sim
                · have hs : ∀ (x' : Ctx) m t, parseValE ops x' (m + 1) (c :: t) =
                      andThen (plain (isNumStart ops c)) fun b =>
                      if b then plain (parseNum ops (c :: t)) else throwErrorE x' tValue (bValue c) (c :: t) := by
                    intro x' m t
                    rw [parseValE_cons, if_neg h1, if_neg h2, if_neg h3, if_neg h4, if_neg h5, if_neg h6]
                  rw [hs]
                  cases hn : isNumStart ops c with
                  | ok b =>
                    rw [plain_ok, andThen_ok]
                    rw [hn] at hs
                    cases b with
                    | true => exact sim_number hw hn (fun x' m t => by rw [hs]; rfl)
                    | false =>
                      refine bad_value ?_
                      intro c' w' e x' m t
                      cases e
                      rw [hs]; rfl
                  | _ => trivial
    · have hs : parseValE ops x (n + 1) [] = throwErrorE x tValue (bValue (Char.ofNat 0)) [] := by
        rw [parseValE, e]; rfl
      rw [hs]
      exact bad_value (rest := []) (fun c w h => by cases h)
    · rw [parseValE, e]; trivial

theorem arrLoop_sim (hw : ∀ s, (ops.strtod s).2 ≤ s.length) (hE : ∀ d ∈ [',', ']', '}'], EndsNumber ops d) (x : Ctx) (n : Nat)
    (rest : List Char) (acc : List (Val R)) :
    SimL ops (fun x n r => arrLoopE ops x n r acc) x.dbg n rest (arrLoopE ops x n rest acc) := by
  match n with
  | 0 => rw [arrLoopE]; trivial
  | n + 1 =>
    refine simL_item (F := fun x n r => arrLoopE ops x n r acc) (G := fun v x n r => arrLoopE ops x n r (acc ++ [v]))
      (W := fun v => .arr (acc ++ [v])) (pre := []) (T := tArray) (B := bArray) (cl := ']') (z := rest) (.inl rfl) hE says_array
      ?_ ?_ ?_ ?_ ?_ ?_ ?_ (parseVal_sim hw hE x n rest)
    · intro x' m z v d t _ h; exact arrLoopE_step h
    · intro v h
      rw [List.nil_append, arrLoopE, h, andThen_ok]
      rcases cur_cases x [] with ⟨c, w, e, _⟩ | ⟨_, _, e⟩ | ⟨_, _, e⟩
      · cases e
      · left; rw [e]; rfl
      · right; rw [e]; rfl
    · intro x' m z e _ h; rw [List.nil_append, arrLoopE, h]; rfl
    · intro x' m z _ h; rw [List.nil_append, arrLoopE, h]; rfl
    · intro h r
      rw [List.nil_append, arrLoopE]
      cases hp : parseValE ops x n rest with
      | ok r => exact absurd hp (h r)
      | _ => intro h; cases h
    · intro v w; exact arrLoop_sim hw hE x n w _
    · intro v; exact ⟨_, completes_arr _ _, layout_chars _ (by decide)⟩

theorem objLoop_sim (hw : ∀ s, (ops.strtod s).2 ≤ s.length) (hE : ∀ d ∈ [',', ']', '}'], EndsNumber ops d) (x : Ctx) (n : Nat)
    (rest : List Char) (acc : List (List Char × Val R)) (ha : Container.Increasing strLt acc) :
    SimL ops (fun x n r => objLoopE ops x n r acc) x.dbg n rest (objLoopE ops x n rest acc) := by
  match n with
  | 0 => rw [objLoopE]; trivial
  | n + 1 =>
    have nokey : ∀ c, c = rest.headD (Char.ofNat 0) → c ≠ '"' →
        SimL ops (fun x n r => objLoopE ops x n r acc) x.dbg (n + 1) rest (throwErrorE x tObject (bKey c) rest) := by
      intro c hc hq
      unfold throwErrorE
      split
      · have fits : Fits (fun x n r => objLoopE ops x n r acc) x.dbg [] ['"', '"', ':', 'n', 'u', 'l', 'l', '}'] :=
          ⟨completes_obj _ _ ha, layout_quotes (layout_chars _ (by decide)), fun _ => ⟨'"', _, rfl, by decide, by decide⟩⟩
        refine ⟨[], rfl, ⟨_, fits⟩, ⟨c, _, says_key c, hc, ?_⟩, ?_⟩
        · intro _ k hk
          simp only [List.mem_singleton] at hk
          subst hk
          exact ⟨_, fits⟩
        · intro d w hr _ t x' m _ hm
          change rest = d :: w at hr
          obtain ⟨m, rfl⟩ : ∃ k, m = k + 1 := ⟨m - 1, by omega⟩
          have hcd : c = d := by rw [hc, hr]; rfl
          subst hcd
          change objLoopE ops x' (m + 1) (c :: t) acc = _ ∨ objLoopE ops x' (m + 1) (c :: t) acc = _
          rw [objLoopE, cur, plain_ok, andThen_ok, if_pos hq]
          unfold throwErrorE
          split
          · exact .inl rfl
          · exact .inr rfl
      · trivial
    rcases cur_cases x rest with ⟨c, w, rfl, e⟩ | ⟨rfl, _, e⟩ | ⟨rfl, _, e⟩
    · by_cases hq : c = '"'
      · cases hk : readStr x (c :: w) with
        | ok p =>
          obtain ⟨key, r⟩ := p
          obtain ⟨b, hb, hcut⟩ := readStr_cut hk
          -- no colon
          have nocolon : ∀ d, d = r.headD (Char.ofNat 0) → d ≠ ':' →
              SimL ops (fun x n r => objLoopE ops x n r acc) x.dbg (n + 1) (c :: w) (throwErrorE x tObject (bColon d) r) := by
            intro d hd hne
            unfold throwErrorE
            split
            · have fits : Fits (fun x n r => objLoopE ops x n r acc) x.dbg (c :: b) [':', 'n', 'u', 'l', 'l', '}'] := by
                refine ⟨⟨.obj (put acc key .nll), 2, ?_⟩, layout_chars _ (by decide), by simp⟩
                intro m hm t x' hx
                obtain ⟨m, rfl⟩ : ∃ k, m = k + 2 := ⟨m - 2, by omega⟩
                exact objLoopE_step ha hq (hcut x' _ hx) (parseValE_null x' m ('}' :: t))
              refine ⟨c :: b, hb, ⟨_, fits⟩, ⟨d, _, says_colon d, hd, ?_⟩, ?_⟩
              · intro _ k hk
                simp only [List.mem_singleton] at hk
                subst hk
                exact ⟨_, fits⟩
              · intro d' w' hr _ t x' m hx hm
                change r = d' :: w' at hr
                obtain ⟨m, rfl⟩ : ∃ k, m = k + 1 := ⟨m - 1, by omega⟩
                have hdd : d = d' := by rw [hd, hr]; rfl
                subst hdd
                have := hcut x' (d :: t) hx
                change objLoopE ops x' (m + 1) (c :: b ++ d :: t) acc = _ ∨ objLoopE ops x' (m + 1) (c :: b ++ d :: t) acc = _
                rw [List.cons_append] at this ⊢
                rw [objLoopE, cur, plain_ok, andThen_ok, if_neg (by simp [hq]), this, plain_ok, andThen_ok, cur, plain_ok,
                  andThen_ok, if_pos hne]
                unfold throwErrorE
                split
                · exact .inl rfl
                · exact .inr rfl
            · trivial
          rcases cur_cases x r with ⟨d, z, rfl, ed⟩ | ⟨rfl, _, ed⟩ | ⟨rfl, _, ed⟩
          · by_cases hd : d = ':'
            · subst hd
              have hpre : c :: w = c :: b ++ [':'] ++ z := by rw [hb]; simp
              have hcut' : ∀ (x' : Ctx) t, x'.dbg = x.dbg → readStr x' (c :: (b ++ [':'] ++ t)) = .ok (key, ':' :: t) := by
                intro x' t hx
                have := hcut x' (':' :: t) hx
                have e : c :: (b ++ [':'] ++ t) = c :: b ++ ':' :: t := by simp
                rw [e]; exact this
              rw [hpre]
              refine simL_item (F := fun x n r => objLoopE ops x n r acc) (G := fun v x n r => objLoopE ops x n r (put acc key v))
                (W := fun v => .obj (put acc key v)) (pre := c :: b ++ [':']) (T := tObject) (B := bObject) (cl := '}') (z := z)
                (.inr rfl) hE says_object ?_ ?_ ?_ ?_ ?_ ?_ ?_ (parseVal_sim hw hE x n z)
              · intro x' m z v d t hx h
                exact objLoopE_step ha hq (hcut' x' z hx) h
              · intro v h
                change objLoopE ops x (n + 1) (c :: (b ++ [':'] ++ z)) acc = _ ∨ objLoopE ops x (n + 1) (c :: (b ++ [':'] ++ z)) acc = _
                rw [objLoopE_value hq (hcut' x z rfl), h, andThen_ok, setIndex_eq_put _ ha, plain_ok, andThen_ok]
                rcases cur_cases x [] with ⟨c, w, e, _⟩ | ⟨_, _, e⟩ | ⟨_, _, e⟩
                · cases e
                · left; rw [e]; rfl
                · right; rw [e]; rfl
              · intro x' m z e hx h
                change objLoopE ops x' (m + 1) (c :: (b ++ [':'] ++ z)) acc = _
                rw [objLoopE_value hq (hcut' x' z hx), h]; rfl
              · intro x' m z hx h
                change objLoopE ops x' (m + 1) (c :: (b ++ [':'] ++ z)) acc = _
                rw [objLoopE_value hq (hcut' x' z hx), h]; rfl
              · intro h r
                change objLoopE ops x (n + 1) (c :: (b ++ [':'] ++ z)) acc ≠ _
                rw [objLoopE_value hq (hcut' x z rfl)]
                cases hp : parseValE ops x n z with
                | ok r => exact absurd hp (h r)
                | _ => intro h; cases h
              · intro v w; exact objLoop_sim hw hE x n w _ (put_increasing ha key v)
              · intro v; exact ⟨_, completes_obj _ _ (put_increasing ha key v), layout_quotes (layout_chars _ (by decide))⟩
            · have : objLoopE ops x (n + 1) (c :: w) acc = throwErrorE x tObject (bColon d) (d :: z) := by
                rw [objLoopE, e, plain_ok, andThen_ok, if_neg (by simp [hq]), hk, plain_ok, andThen_ok, ed, plain_ok, andThen_ok,
                  if_pos hd]
              rw [this]
              exact nocolon d rfl hd
          · have : objLoopE ops x (n + 1) (c :: w) acc = throwErrorE x tObject (bColon (Char.ofNat 0)) [] := by
              rw [objLoopE, e, plain_ok, andThen_ok, if_neg (by simp [hq]), hk, plain_ok, andThen_ok, ed, plain_ok, andThen_ok,
                if_pos (by decide)]
            rw [this]
            exact nocolon _ rfl (by decide)
          · have : objLoopE ops x (n + 1) (c :: w) acc = .assertFail := by
              rw [objLoopE, e, plain_ok, andThen_ok, if_neg (by simp [hq]), hk, plain_ok, andThen_ok, ed]; rfl
            rw [this]; trivial
        | _ =>
          rw [objLoopE, e, plain_ok, andThen_ok, if_neg (by simp [hq]), hk]
          trivial
      · have : objLoopE ops x (n + 1) (c :: w) acc = throwErrorE x tObject (bKey c) (c :: w) := by
          rw [objLoopE, e, plain_ok, andThen_ok, if_pos hq]
        rw [this]
        exact nokey c rfl hq
    · have : objLoopE ops x (n + 1) [] acc = throwErrorE x tObject (bKey (Char.ofNat 0)) [] := by
        rw [objLoopE, e, plain_ok, andThen_ok, if_pos (by decide)]
      rw [this]
      exact nokey _ rfl (by decide)
    · rw [objLoopE, e]; trivial

end

end Verif.Json
