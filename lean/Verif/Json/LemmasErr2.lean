import Verif.Json.LemmasErr
import Verif.Json.LemmasEq

/-! # Where the reader stops: the main induction for C142 -/

namespace Verif.Json

open Verif

variable {R : Type} {ops : RealOps R}

/-- A reading function applied to a context, fuel and a text. -/
abbrev RFun (R : Type) := Ctx → Nat → List Char → OutE (Val R × List Char)

/-- After `u`, the text `suf` completes what is being read, whatever follows. -/
def Completes (F : RFun R) (dbg : Bool) (u suf : List Char) : Prop :=
  ∃ v N, ∀ m, N ≤ m → ∀ t (x' : Ctx), x'.dbg = dbg → F x' m (u ++ (suf ++ t)) = .ok (.ok (v, t))

/-- Also not by closing an empty array or object, and with text that survives purging. -/
def Fits (F : RFun R) (dbg : Bool) (u suf : List Char) : Prop :=
  Completes F dbg u suf ∧ Layout suf suf ∧ (u = [] → ∃ k s, suf = k :: s ∧ k ≠ ']' ∧ k ≠ '}')

/-- What is known when an exception was raised. -/
def Bad (ops : RealOps R) (F : RFun R) (dbg : Bool) (n : Nat) (rest : List Char) (e : Raised) : Prop :=
  ∃ u, rest = u ++ e.rest ∧ (∃ suf, Fits F dbg u suf) ∧
    (∃ c ks, Says e.title e.body c ks ∧ c = e.rest.headD (Char.ofNat 0) ∧
      ((',' ∈ ks → isNumStart ops c ≠ .ok true) → ∀ k ∈ ks, ∃ suf, Fits F dbg u (k :: suf))) ∧
    (∀ c w, e.rest = c :: w → EndsNumber ops c → ∀ t (x' : Ctx) m, x'.dbg = dbg → n ≤ m →
      F x' m (u ++ c :: t) = .ok (.error ⟨e.title, e.body, c :: t⟩) ∨ F x' m (u ++ c :: t) = .ub)

/-- What is known when a value was read. -/
def Cut (ops : RealOps R) (F : RFun R) (dbg : Bool) (n : Nat) (rest : List Char) (v : Val R) (r : List Char) : Prop :=
  ∃ u, rest = u ++ r ∧ (u = [] → ∃ c w, rest = c :: w ∧ isNumStart ops c = .ok true) ∧
    ∀ d t, EndsNumber ops d → (u = [] → r.head? = some d) → ∀ (x' : Ctx) m, x'.dbg = dbg → n ≤ m →
      F x' m (u ++ d :: t) = .ok (.ok (v, d :: t))

/-- The same for a value that is no number. -/
def CutL (F : RFun R) (dbg : Bool) (n : Nat) (rest : List Char) (v : Val R) (r : List Char) : Prop :=
  ∃ u, rest = u ++ r ∧ u ≠ [] ∧ ∀ t (x' : Ctx) m, x'.dbg = dbg → n ≤ m → F x' m (u ++ t) = .ok (.ok (v, t))

def Sim (ops : RealOps R) (F : RFun R) (dbg : Bool) (n : Nat) (rest : List Char) : OutE (Val R × List Char) → Prop
  | .ok (.ok (v, r)) => Cut ops F dbg n rest v r
  | .ok (.error e) => Bad ops F dbg n rest e
  | _ => True

def SimL (ops : RealOps R) (F : RFun R) (dbg : Bool) (n : Nat) (rest : List Char) : OutE (Val R × List Char) → Prop
  | .ok (.ok (v, r)) => CutL F dbg n rest v r
  | .ok (.error e) => Bad ops F dbg n rest e
  | _ => True

theorem CutL.cut {F : RFun R} {dbg : Bool} {n : Nat} {rest r : List Char} {v : Val R} (h : CutL F dbg n rest v r) :
    Cut ops F dbg n rest v r := by
  obtain ⟨u, h1, h2, h3⟩ := h
  exact ⟨u, h1, fun h => absurd h h2, fun d t _ _ x' m hx hm => h3 (d :: t) x' m hx hm⟩

theorem SimL.sim {F : RFun R} {dbg : Bool} {n : Nat} {rest : List Char} {o : OutE (Val R × List Char)}
    (h : SimL ops F dbg n rest o) : Sim ops F dbg n rest o := by
  cases o with
  | ok r => cases r with
    | ok p => exact CutL.cut h
    | error e => exact h
  | _ => trivial

/-- After an opening bracket. -/
theorem simL_open {F F' : RFun R} {br cl : Char} (hcl : cl = ']' ∨ cl = '}')
    (h : ∀ x m c z, c ≠ cl → F' x (m + 1) (br :: c :: z) = F x m (c :: z)) {dbg : Bool} {n : Nat} {w : List Char}
    (hw : w.head? ≠ some cl) {o : OutE (Val R × List Char)} (hs : SimL ops F dbg n w o) :
    SimL ops F' dbg (n + 1) (br :: w) o := by
  have hne : ∀ {c z}, w = c :: z → c ≠ cl := by rintro c z rfl rfl; exact hw rfl
  cases o with
  | ok r => cases r with
    | ok p =>
      obtain ⟨u, rfl, h2, h3⟩ := hs
      refine ⟨br :: u, rfl, by simp, ?_⟩
      intro t x' m hx hm
      obtain ⟨m, rfl⟩ : ∃ k, m = k + 1 := ⟨m - 1, by omega⟩
      cases u with
      | nil => exact absurd rfl h2
      | cons c u =>
        rw [List.cons_append, List.cons_append, h _ _ _ _ (hne rfl)]
        exact h3 t x' m hx (by omega)
    | error e =>
      have fits : ∀ {u suf : List Char}, w = u ++ e.rest → Fits F dbg u suf → Fits F' dbg (br :: u) suf := by
        rintro u suf rfl ⟨⟨v, N, h1⟩, hl, h2⟩
        refine ⟨⟨v, N + 1, ?_⟩, hl, by simp⟩
        intro m hm t x' hx
        obtain ⟨m, rfl⟩ : ∃ k, m = k + 1 := ⟨m - 1, by omega⟩
        have := h1 m (by omega) t x' hx
        cases u with
        | nil =>
          obtain ⟨k, s, rfl, hk1, hk2⟩ := h2 rfl
          have hk : k ≠ cl := by rcases hcl with rfl | rfl <;> assumption
          rw [List.cons_append, List.nil_append, List.cons_append, h _ _ _ _ hk]
          exact this
        | cons c u =>
          rw [List.cons_append, List.cons_append, h _ _ _ _ (hne rfl)]
          exact this
      obtain ⟨u, hu, ⟨suf, hf⟩, ⟨c, ks, h1, h2, h3⟩, h4⟩ := hs
      refine ⟨br :: u, by rw [hu]; rfl, ⟨suf, fits hu hf⟩, ⟨c, ks, h1, h2, ?_⟩, ?_⟩
      · intro hc k hk
        obtain ⟨suf, hf⟩ := h3 hc k hk
        exact ⟨suf, fits hu hf⟩
      · intro c z hz hE t x' m hx hm
        obtain ⟨m, rfl⟩ : ∃ k, m = k + 1 := ⟨m - 1, by omega⟩
        have := h4 c z hz hE t x' m hx (by omega)
        cases u with
        | nil =>
          rw [hz] at hu
          rw [List.cons_append, List.nil_append, h _ _ _ _ (hne hu)]
          exact this
        | cons c u =>
          rw [List.cons_append, List.cons_append, h _ _ _ _ (hne hu)]
          exact this
  | _ => trivial

/-- A keyword. -/
theorem simL_keyword {F : RFun R} {all : List Char} {v : Val R} {kw : String} (hk : kw = "true" ∨ kw = "false" ∨ kw = "null")
    (hall : all = kw.toList) {k0 : Char} {ks0 : List Char} (h0 : all = k0 :: ks0)
    (h : ∀ x m t, F x (m + 1) (k0 :: t) = andThen (matchKwE x all all (k0 :: t)) fun r => .ok (.ok (v, r)))
    (x : Ctx) (n : Nat) (t : List Char) : SimL ops F x.dbg (n + 1) (k0 :: t) (F x (n + 1) (k0 :: t)) := by
  have hz : Char.ofNat 0 ∉ all := by rw [hall]; rcases hk with rfl | rfl | rfl <;> decide
  have full : ∀ (x : Ctx) m t, F x (m + 1) (all ++ t) = .ok (.ok (v, t)) := by
    intro x m t
    have := h x m (ks0 ++ t)
    rw [← List.cons_append, ← h0, matchKwE_append] at this
    rw [this]; rfl
  have comp : ∀ (dbg : Bool) before after, all = before ++ after → Completes F dbg before after := by
    intro dbg before after e
    refine ⟨v, 1, ?_⟩
    intro m hm t x' _
    obtain ⟨m, rfl⟩ : ∃ k, m = k + 1 := ⟨m - 1, by omega⟩
    rw [← List.append_assoc, ← e]
    exact full x' m t
  have lay : ∀ before after, all = before ++ after → Layout after after := by
    intro before after e
    refine layout_chars after fun c hc => ?_
    have hm : c ∈ all := by rw [e]; exact List.mem_append_right _ hc
    have hall' : ∀ c ∈ all, c ≠ '"' ∧ c ≠ '/' ∧ blank c = false := by
      rw [hall]; rcases hk with rfl | rfl | rfl <;> decide
    exact hall' c hm
  rw [h]
  rcases matchKwE_cases x all all (k0 :: t) hz with ⟨r, e, hr⟩ | ⟨before, k, after, r, c, e1, e2, e3, hne, hr⟩ | hr
  · rw [hr]
    refine ⟨all, e, by rw [h0]; simp, ?_⟩
    intro t x' m _ hm
    obtain ⟨m, rfl⟩ : ∃ k, m = k + 1 := ⟨m - 1, by omega⟩
    exact full x' m t
  · rw [hr]
    unfold throwErrorE
    split
    · have hb : before ≠ [] := by
        rintro rfl
        rw [List.nil_append] at e1 e2
        rw [← e2] at e3
        rw [h0] at e1
        cases e1
        exact hne (by rw [e3]; rfl)
      refine ⟨before, e2, ⟨k :: after, comp _ _ _ e1, lay _ _ e1, fun h => absurd h hb⟩, ⟨c, [k], ?_, e3, ?_⟩, ?_⟩
      · have := Says.keyword kw before after k c hk (by rw [← hall]; exact e1) hne
        rw [← hall] at this
        exact this
      · intro _ k' hk'
        simp only [List.mem_singleton] at hk'
        subst hk'
        exact ⟨after, comp _ _ _ e1, lay _ _ e1, fun h => absurd h hb⟩
      · intro d w hd _ t' x' m hx hm
        obtain ⟨m, rfl⟩ : ∃ k, m = k + 1 := ⟨m - 1, by omega⟩
        have hr' : matchKwE x' all all (before ++ d :: t') = throwErrorE x' tKeyword (bKeyword all) (d :: t') := by
          have hdk : d ≠ k := by
            have : c = d := by rw [e3]; change r.headD _ = d; rw [show r = d :: w from hd]; rfl
            rw [← this]; exact hne
          have gen : ∀ (b : List Char) (a : List Char), matchKwE x' all (b ++ k :: a) (b ++ d :: t') =
              throwErrorE x' tKeyword (bKeyword all) (d :: t') := by
            intro b a
            induction b with
            | nil => simp [matchKwE, cur, hdk]
            | cons c b ih => simp [matchKwE, cur, ih]
          have := gen before after
          rw [← e1] at this
          exact this
        cases hbf : before with
        | nil => exact absurd hbf hb
        | cons b0 bs =>
          have hb0 : b0 = k0 := by rw [hbf] at e2; cases e2; rfl
          subst hb0
          rw [hbf] at hr'
          rw [List.cons_append] at hr' ⊢
          rw [h, hr']
          unfold throwErrorE
          split
          · exact .inl rfl
          · exact .inr rfl
    · trivial
  · rw [hr]; trivial

theorem parseValE_cons (x : Ctx) (fuel : Nat) (c : Char) (t : List Char) :
    parseValE ops x (fuel + 1) (c :: t) =
      if c = '{' then
        andThen (plain (cur x t)) fun d => if d = '}' then .ok (.ok (.obj [], t.tail)) else objLoopE ops x fuel t []
      else if c = '[' then
        andThen (plain (cur x t)) fun d => if d = ']' then .ok (.ok (.arr [], t.tail)) else arrLoopE ops x fuel t []
      else if c = '"' then
        andThen (plain (readStr x (c :: t))) fun sr => .ok (.ok (.str sr.1, sr.2))
      else if c = 't' then
        andThen (matchKwE x ['t', 'r', 'u', 'e'] ['t', 'r', 'u', 'e'] (c :: t)) fun r => .ok (.ok (.bln true, r))
      else if c = 'f' then
        andThen (matchKwE x ['f', 'a', 'l', 's', 'e'] ['f', 'a', 'l', 's', 'e'] (c :: t)) fun r => .ok (.ok (.bln false, r))
      else if c = 'n' then
        andThen (matchKwE x ['n', 'u', 'l', 'l'] ['n', 'u', 'l', 'l'] (c :: t)) fun r => .ok (.ok (.nll, r))
      else
        andThen (plain (isNumStart ops c)) fun b =>
        if b then plain (parseNum ops (c :: t)) else throwErrorE x tValue (bValue c) (c :: t) := by
  rw [parseValE]; rfl

theorem parseValE_null (x : Ctx) (m : Nat) (t : List Char) :
    parseValE ops x (m + 1) ('n' :: 'u' :: 'l' :: 'l' :: t) = .ok (.ok (.nll, t)) := by
  rw [parseValE_cons]
  have := matchKwE_append x ['n', 'u', 'l', 'l'] ['n', 'u', 'l', 'l'] t
  simp only [List.cons_append, List.nil_append] at this
  simp [this]

/-- A value, then a comma or the closing bracket `cl`. -/
theorem simL_item {F : RFun R} {G : Val R → RFun R} {W : Val R → Val R} {pre T : List Char} {B : Char → List Char} {cl : Char}
    {x : Ctx} {n : Nat} {z : List Char} (hcl : cl = ']' ∨ cl = '}') (hE : ∀ d ∈ [',', ']', '}'], EndsNumber ops d)
    (hS : ∀ c, Says T (B c) c [',', cl])
    (hF1 : ∀ (x' : Ctx) m z v d t, x'.dbg = x.dbg → parseValE ops x' m z = .ok (.ok (v, d :: t)) → F x' (m + 1) (pre ++ z) =
      if d = ',' then G v x' m t else if d = cl then .ok (.ok (W v, t)) else throwErrorE x' T (B d) (d :: t))
    (hF0 : ∀ v, parseValE ops x n z = .ok (.ok (v, [])) → F x (n + 1) (pre ++ z) = throwErrorE x T (B (Char.ofNat 0)) [] ∨
      F x (n + 1) (pre ++ z) = .assertFail)
    (hFe : ∀ (x' : Ctx) m z e, x'.dbg = x.dbg → parseValE ops x' m z = .ok (.error e) → F x' (m + 1) (pre ++ z) = .ok (.error e))
    (hFu : ∀ (x' : Ctx) m z, x'.dbg = x.dbg → parseValE ops x' m z = .ub → F x' (m + 1) (pre ++ z) = .ub)
    (hFo : (∀ r, parseValE ops x n z ≠ .ok r) → ∀ r, F x (n + 1) (pre ++ z) ≠ .ok r)
    (hG : ∀ v w, SimL ops (G v) x.dbg n w (G v x n w))
    (hGc : ∀ v, ∃ suf, Completes (G v) x.dbg [] suf ∧ Layout suf suf)
    (hV : Sim ops (parseValE ops) x.dbg n z (parseValE ops x n z)) :
    SimL ops F x.dbg (n + 1) (pre ++ z) (F x (n + 1) (pre ++ z)) := by
  have hcomma : EndsNumber ops ',' := hE _ (by simp)
  have hclose : EndsNumber ops cl := hE _ (by rcases hcl with rfl | rfl <;> simp)
  have hlcl : Layout [cl] [cl] := by rcases hcl with rfl | rfl <;> exact layout_chars _ (by decide)
  have hcl1 : cl ≠ ',' := by rcases hcl with rfl | rfl <;> decide
  have hnum : ∀ c, c = ',' ∨ c = cl → isNumStart ops c ≠ .ok true := by
    rintro c (rfl | rfl)
    · intro h; cases h
    · rcases hcl with rfl | rfl <;> intro h <;> cases h
  -- after a value, a wrong character
  have bad : ∀ v r, Cut ops (parseValE ops) x.dbg n z v r → r.headD (Char.ofNat 0) ≠ ',' → r.headD (Char.ofNat 0) ≠ cl →
      Bad ops F x.dbg (n + 1) (pre ++ z) ⟨T, B (r.headD (Char.ofNat 0)), r⟩ := by
    rintro v r ⟨u, rfl, h0, h1⟩ hc1 hc2
    have close : u ≠ [] → Fits F x.dbg (pre ++ u) [cl] := by
      intro hu
      refine ⟨⟨W v, n + 1, ?_⟩, hlcl, fun h => absurd (List.append_eq_nil_iff.1 h).2 hu⟩
      intro m hm t x' hx
      obtain ⟨m, rfl⟩ : ∃ k, m = k + 1 := ⟨m - 1, by omega⟩
      have := h1 cl t hclose (fun h => absurd h hu) x' m hx (by omega)
      rw [List.append_assoc, List.cons_append, List.nil_append, hF1 x' m _ v cl t hx this, if_neg hcl1, if_pos rfl]
    refine ⟨pre ++ u, by simp, ?_, ⟨_, [',', cl], hS _, rfl, ?_⟩, ?_⟩
    · by_cases hu : u = []
      · subst hu
        refine ⟨['n', 'u', 'l', 'l', cl], ⟨W .nll, 2, ?_⟩, (layout_chars ['n', 'u', 'l', 'l'] (by decide)).append hlcl, fun _ => ⟨'n', _, rfl, by decide, by decide⟩⟩
        intro m hm t x' hx
        obtain ⟨m, rfl⟩ : ∃ k, m = k + 2 := ⟨m - 2, by omega⟩
        have := parseValE_null (ops := ops) x' m (cl :: t)
        rw [List.append_nil]
        simp only [List.cons_append, List.nil_append]
        rw [hF1 x' (m + 1) _ .nll cl t hx this, if_neg hcl1, if_pos rfl]
      · exact ⟨[cl], close hu⟩
    · intro hns k hk
      have hu : u ≠ [] := by
        rintro rfl
        obtain ⟨c, w, e, hc⟩ := h0 rfl
        rw [List.nil_append] at e
        subst e
        exact hns (by simp) hc
      simp only [List.mem_cons, List.not_mem_nil, or_false] at hk
      rcases hk with rfl | rfl
      · -- a comma and one more item
        obtain ⟨suf, ⟨v', N, hg⟩, hl⟩ := hGc v
        refine ⟨suf, ⟨v', n + N + 1, ?_⟩, layout_cons hl (by decide), fun h => absurd (List.append_eq_nil_iff.1 h).2 hu⟩
        intro m hm t x' hx
        obtain ⟨m, rfl⟩ : ∃ k, m = k + 1 := ⟨m - 1, by omega⟩
        have := h1 ',' (suf ++ t) hcomma (fun h => absurd h hu) x' m hx (by omega)
        rw [List.append_assoc, List.cons_append, hF1 x' m _ v ',' _ hx this, if_pos rfl]
        exact hg m (by omega) t x' hx
      · exact ⟨[], close hu⟩
    · intro c w hr hEc t x' m hx hm
      obtain ⟨m, rfl⟩ : ∃ k, m = k + 1 := ⟨m - 1, by omega⟩
      change r = c :: w at hr
      subst hr
      have hc1 : c ≠ ',' := hc1
      have hc2 : c ≠ cl := hc2
      have := h1 c t hEc (fun _ => rfl) x' m hx (by omega)
      rw [List.append_assoc, hF1 x' m _ v c t hx this, if_neg hc1, if_neg hc2]
      unfold throwErrorE
      split
      · exact .inl rfl
      · exact .inr rfl
  cases hv : parseValE ops x n z with
  | ok o =>
    rw [hv] at hV
    cases o with
    | ok p =>
      obtain ⟨v, r⟩ := p
      cases hr : r with
      | nil =>
        subst hr
        rcases hF0 v hv with h | h
        · rw [h]
          unfold throwErrorE
          split
          · exact bad v [] hV (by decide) (by rcases hcl with rfl | rfl <;> decide)
          · trivial
        · rw [h]; trivial
      | cons d w =>
        subst hr
        rw [hF1 x n z v d w rfl hv]
        by_cases hd : d = ','
        · subst hd
          rw [if_pos rfl]
          obtain ⟨u, rfl, h0, h1⟩ := hV
          have hu : u ≠ [] := by
            rintro rfl
            obtain ⟨c, w', e, hc⟩ := h0 rfl
            rw [List.nil_append] at e
            cases e
            exact hnum _ (.inl rfl) hc
          have step : ∀ (x' : Ctx) m t, x'.dbg = x.dbg → n ≤ m → F x' (m + 1) (pre ++ u ++ [','] ++ t) = G v x' m t := by
            intro x' m t hx hm
            have := h1 ',' t hcomma (fun h => absurd h hu) x' m hx hm
            have e : pre ++ u ++ [','] ++ t = pre ++ (u ++ ',' :: t) := by simp
            rw [e, hF1 x' m _ v ',' t hx this, if_pos rfl]
          have hg := hG v w
          have e0 : pre ++ (u ++ ',' :: w) = pre ++ u ++ [','] ++ w := by simp
          rw [e0]
          cases hgo : G v x n w with
          | ok o => rw [hgo] at hg; cases o with
            | ok p =>
              obtain ⟨u2, hu2, h2, h3⟩ := hg
              refine ⟨pre ++ u ++ [','] ++ u2, by rw [hu2]; simp, by simp, ?_⟩
              intro t x' m hx hm
              obtain ⟨m, rfl⟩ : ∃ k, m = k + 1 := ⟨m - 1, by omega⟩
              rw [List.append_assoc, step x' m _ hx (by omega)]
              exact h3 t x' m hx (by omega)
            | error e =>
              have fits : ∀ {u2 suf : List Char}, Fits (G v) x.dbg u2 suf → Fits F x.dbg (pre ++ u ++ [','] ++ u2) suf := by
                rintro u2 suf ⟨⟨v', N, h2⟩, hl, _⟩
                refine ⟨⟨v', n + N + 1, ?_⟩, hl, by simp⟩
                intro m hm t x' hx
                obtain ⟨m, rfl⟩ : ∃ k, m = k + 1 := ⟨m - 1, by omega⟩
                rw [List.append_assoc, step x' m _ hx (by omega)]
                exact h2 m (by omega) t x' hx
              obtain ⟨u2, hu2, ⟨suf, hf⟩, ⟨c, ks, hs1, hs2, hs3⟩, h4⟩ := hg
              refine ⟨pre ++ u ++ [','] ++ u2, by rw [hu2]; simp, ⟨suf, fits hf⟩, ⟨c, ks, hs1, hs2, ?_⟩, ?_⟩
              · intro hn k hk
                obtain ⟨suf, hf⟩ := hs3 hn k hk
                exact ⟨suf, fits hf⟩
              · intro c w' hr hEc t x' m hx hm
                obtain ⟨m, rfl⟩ : ∃ k, m = k + 1 := ⟨m - 1, by omega⟩
                rw [List.append_assoc, step x' m _ hx (by omega)]
                exact h4 c w' hr hEc t x' m hx (by omega)
          | _ => trivial
        · rw [if_neg hd]
          by_cases hd2 : d = cl
          · subst hd2
            rw [if_pos rfl]
            obtain ⟨u, rfl, h0, h1⟩ := hV
            have hu : u ≠ [] := by
              rintro rfl
              obtain ⟨c, w', e, hc⟩ := h0 rfl
              rw [List.nil_append] at e
              cases e
              exact hnum _ (.inr rfl) hc
            refine ⟨pre ++ u ++ [d], by simp, by simp, ?_⟩
            intro t x' m hx hm
            obtain ⟨m, rfl⟩ : ∃ k, m = k + 1 := ⟨m - 1, by omega⟩
            have := h1 d t hclose (fun h => absurd h hu) x' m hx (by omega)
            have e : pre ++ u ++ [d] ++ t = pre ++ (u ++ d :: t) := by simp
            rw [e, hF1 x' m _ v d t hx this, if_neg hd, if_pos rfl]
          · rw [if_neg hd2]
            unfold throwErrorE
            split
            · exact bad v (d :: w) hV hd hd2
            · trivial
    | error e =>
      rw [hFe x n z e rfl hv]
      have fits : ∀ {u suf : List Char}, Fits (parseValE ops) x.dbg u suf → Fits F x.dbg (pre ++ u) (suf ++ [cl]) := by
        rintro u suf ⟨⟨v', N, h2⟩, hl, h3⟩
        refine ⟨⟨W v', N + 1, ?_⟩, hl.append hlcl, ?_⟩
        · intro m hm t x' hx
          obtain ⟨m, rfl⟩ : ∃ k, m = k + 1 := ⟨m - 1, by omega⟩
          have := h2 m (by omega) (cl :: t) x' hx
          have e : pre ++ u ++ (suf ++ [cl] ++ t) = pre ++ (u ++ (suf ++ cl :: t)) := by simp
          rw [e, hF1 x' m _ v' cl t hx this, if_neg hcl1, if_pos rfl]
        · intro h
          obtain ⟨k, s, rfl, hk⟩ := h3 (List.append_eq_nil_iff.1 h).2
          exact ⟨k, _, rfl, hk⟩
      obtain ⟨u, hu, ⟨suf, hf⟩, ⟨c, ks, hs1, hs2, hs3⟩, h4⟩ := hV
      refine ⟨pre ++ u, by rw [hu]; simp, ⟨_, fits hf⟩, ⟨c, ks, hs1, hs2, ?_⟩, ?_⟩
      · intro hn k hk
        obtain ⟨suf, hf⟩ := hs3 hn k hk
        exact ⟨_, fits hf⟩
      · intro c w hr hEc t x' m hx hm
        obtain ⟨m, rfl⟩ : ∃ k, m = k + 1 := ⟨m - 1, by omega⟩
        rw [List.append_assoc]
        rcases h4 c w hr hEc t x' m hx (by omega) with h | h
        · exact .inl (hFe x' m _ _ hx h)
        · exact .inr (hFu x' m _ hx h)
  | _ =>
    have := hFo (by intro r; rw [hv]; intro h; cases h)
    cases hf : F x (n + 1) (pre ++ z) with
    | ok r => exact absurd hf (this r)
    | _ => trivial

theorem isNumStart_nul : isNumStart ops (Char.ofNat 0) = .ok false := rfl

theorem says_array (c : Char) : Says tArray (bArray c) c [',', ']'] := Says.array c
theorem says_object (c : Char) : Says tObject (bObject c) c [',', '}'] := Says.object c
theorem says_key (c : Char) : Says tObject (bKey c) c ['"'] := Says.key c
theorem says_colon (c : Char) : Says tObject (bColon c) c [':'] := Says.colon c
theorem says_value (c : Char) : Says tValue (bValue c) c ['{', '[', '"', 't', 'f', 'n'] := Says.value c

theorem layout_quotes {k : List Char} (h : Layout k k) : Layout ('"' :: '"' :: k) ('"' :: '"' :: k) :=
  .lit (body := []) (by simp [StrBody]) h

/-- `{}`, `[]`, `""` and the keywords complete a value. -/
theorem completes_value (dbg : Bool) {k : Char} (hk : k ∈ ['{', '[', '"', 't', 'f', 'n']) :
    ∃ suf, Fits (parseValE ops) dbg [] (k :: suf) := by
  have hne : k ≠ ']' ∧ k ≠ '}' := by
    simp only [List.mem_cons, List.not_mem_nil, or_false] at hk
    rcases hk with rfl | rfl | rfl | rfl | rfl | rfl <;> decide
  suffices h : ∃ suf v, Layout (k :: suf) (k :: suf) ∧
      ∀ (x : Ctx) m t, parseValE ops x (m + 1) (k :: (suf ++ t)) = .ok (.ok (v, t)) by
    obtain ⟨suf, v, hl, h⟩ := h
    refine ⟨suf, ⟨v, 1, ?_⟩, hl, fun _ => ⟨k, suf, rfl, hne⟩⟩
    intro m hm t x' _
    obtain ⟨m, rfl⟩ : ∃ k, m = k + 1 := ⟨m - 1, by omega⟩
    exact h x' m t
  simp only [List.mem_cons, List.not_mem_nil, or_false] at hk
  rcases hk with rfl | rfl | rfl | rfl | rfl | rfl
  · exact ⟨['}'], .obj [], layout_chars _ (by decide), fun x m t => by rw [parseValE_cons]; rfl⟩
  · exact ⟨[']'], .arr [], layout_chars _ (by decide), fun x m t => by rw [parseValE_cons]; rfl⟩
  · refine ⟨['"'], .str [], layout_quotes .nil, fun x m t => ?_⟩
    have := readStr_lit x DenotesStr.nil t
    simp only [litText, bodyText, List.map_nil, List.flatten_nil, List.cons_append, List.nil_append] at this
    rw [parseValE_cons]
    simp [this]
  · refine ⟨['r', 'u', 'e'], .bln true, layout_chars _ (by decide), fun x m t => ?_⟩
    have := matchKwE_append x ['t', 'r', 'u', 'e'] ['t', 'r', 'u', 'e'] t
    simp only [List.cons_append, List.nil_append] at this
    rw [parseValE_cons]
    simp [this]
  · refine ⟨['a', 'l', 's', 'e'], .bln false, layout_chars _ (by decide), fun x m t => ?_⟩
    have := matchKwE_append x ['f', 'a', 'l', 's', 'e'] ['f', 'a', 'l', 's', 'e'] t
    simp only [List.cons_append, List.nil_append] at this
    rw [parseValE_cons]
    simp [this]
  · exact ⟨['u', 'l', 'l'], .nll, layout_chars _ (by decide), fun x m t => parseValE_null x m t⟩

/-- No value begins here. -/
theorem bad_value {x : Ctx} {n : Nat} {rest : List Char}
    (h : ∀ c w, rest = c :: w → ∀ (x' : Ctx) m t, parseValE ops x' (m + 1) (c :: t) = throwErrorE x' tValue (bValue c) (c :: t)) :
    Sim ops (parseValE ops) x.dbg (n + 1) rest (throwErrorE x tValue (bValue (rest.headD (Char.ofNat 0))) rest) := by
  unfold throwErrorE
  split
  · refine ⟨[], rfl, ?_, ⟨_, _, says_value _, rfl, ?_⟩, ?_⟩
    · obtain ⟨suf, h⟩ := completes_value (ops := ops) x.dbg (k := 'n') (by simp)
      exact ⟨_, h⟩
    · intro _ k hk; exact completes_value x.dbg hk
    · intro c w hr _ t x' m _ hm
      change rest = c :: w at hr
      obtain ⟨m, rfl⟩ : ∃ k, m = k + 1 := ⟨m - 1, by omega⟩
      rw [List.nil_append, h c w hr, hr]
      unfold throwErrorE
      split
      · exact .inl rfl
      · exact .inr rfl
  · trivial

/-- A number. -/
theorem sim_number (hw : ∀ s, (ops.strtod s).2 ≤ s.length) {x : Ctx} {n : Nat} {c : Char} {w : List Char}
    (hc : isNumStart ops c = .ok true) (h : ∀ (x' : Ctx) m t, parseValE ops x' (m + 1) (c :: t) = plain (parseNum ops (c :: t))) :
    Sim ops (parseValE ops) x.dbg (n + 1) (c :: w) (plain (parseNum ops (c :: w))) := by
  cases hp : parseNum ops (c :: w) with
  | ok p =>
    obtain ⟨v, r⟩ := p
    obtain ⟨u, hu⟩ : ∃ u, u = (c :: w).take (ops.strtod (c :: w)).2 := ⟨_, rfl⟩
    have hul : u.length = (ops.strtod (c :: w)).2 := by rw [hu, List.length_take]; exact Nat.min_eq_left (hw _)
    have hr : r = (c :: w).drop (ops.strtod (c :: w)).2 := by
      unfold parseNum at hp
      simp only [] at hp
      split at hp
      · cases hp
      · cases hp; rfl
    have hrest : c :: w = u ++ r := by rw [hu, hr, List.take_append_drop]
    have hnum : ∀ d t, EndsNumber ops d → parseNum ops (u ++ d :: t) = .ok (v, d :: t) := by
      intro d t hE
      have e := hE u r t (by rw [← hrest]; exact hul.symm)
      rw [← hrest] at e
      unfold parseNum at hp ⊢
      rw [e]
      simp only [] at hp ⊢
      split at hp
      · cases hp
      · cases hp
        rw [← hul, List.drop_left]
    refine ⟨u, hrest, fun _ => ⟨c, w, rfl, hc⟩, ?_⟩
    intro d t hE hd x' m _ hm
    obtain ⟨m, rfl⟩ : ∃ k, m = k + 1 := ⟨m - 1, by omega⟩
    have hh : ∃ t', u ++ d :: t = c :: t' := by
      cases u with
      | nil =>
        rw [List.nil_append] at hrest
        have := hd rfl
        rw [← hrest] at this
        cases this
        exact ⟨t, rfl⟩
      | cons a u => cases hrest; exact ⟨_, rfl⟩
    obtain ⟨t', ht'⟩ := hh
    have := hnum d t hE
    rw [ht'] at this ⊢
    rw [h, this]; rfl
  | _ => trivial

end Verif.Json
