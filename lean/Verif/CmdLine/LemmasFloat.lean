import Verif.CmdLine.Float
import Verif.CmdLine.SpecFloat
import Verif.Ieee.Nearest

/-! # Reading of `float` values -/

namespace Verif.CmdLine.FloatText

open FloatSpec

/-! ## Digits -/

theorem char_eq {c d : Char} (h : c.toNat = d.toNat) : c = d := by
  rw [← Char.ofNat_toNat c, ← Char.ofNat_toNat d, h]

theorem toNat_small {n : ℕ} (h : n < 128) : (Char.ofNat n).toNat = n := by
  have : ∀ n < 128, (Char.ofNat n).toNat = n := by decide
  exact this n h

theorem hex_iff (c : Char) (d : ℕ) : hexVal c = some d ↔ Digit 16 c d := by
  have le : ∀ a b : Char, a ≤ b ↔ a.toNat ≤ b.toNat := fun a b => Iff.rfl
  unfold hexVal Digit
  simp only [le, show '0'.toNat = 48 from rfl, show '9'.toNat = 57 from rfl, show 'a'.toNat = 97 from rfl, show 'f'.toNat = 102 from rfl,
    show 'A'.toNat = 65 from rfl, show 'F'.toNat = 70 from rfl]
  have key : ∀ n, n < 128 → (c = Char.ofNat n ↔ c.toNat = n) := by
    intro n hn
    constructor
    · rintro rfl; exact toNat_small hn
    · intro h; exact char_eq (by rw [h, toNat_small hn])
  constructor
  · intro h
    have : d < 16 := by split_ifs at h <;> simp only [Option.some.injEq, reduceCtorEq] at h <;> omega
    rw [key _ (by omega), key _ (by omega), key _ (by omega)]
    split_ifs at h <;> simp only [Option.some.injEq, reduceCtorEq] at h <;> omega
  · rintro ⟨h, h'⟩
    rw [key _ (by omega), key _ (by omega), key _ (by omega)] at h'
    split_ifs <;> first | (rw [Option.some.injEq]; omega) | (exfalso; omega)

theorem dec_iff (c : Char) (d : ℕ) : digitVal c = some d ↔ Digit 10 c d := by
  have h16 := hex_iff c d
  unfold hexVal at h16
  unfold digitVal
  have e0 : '0'.toNat = 48 := rfl
  by_cases h : '0' ≤ c ∧ c ≤ '9'
  · rw [if_pos h] at h16 ⊢
    rw [e0, h16]
    have h2 : c.toNat ≤ 57 := h.2
    unfold Digit
    constructor
    · rintro ⟨a, b | b⟩
      · exact ⟨b.1, .inl b⟩
      · exfalso
        rcases b with ⟨b, rfl | rfl⟩ <;> rw [toNat_small (by omega)] at h2 <;> omega
    · rintro ⟨a, b⟩
      exact ⟨by omega, b⟩
  · rw [if_neg h]
    simp only [reduceCtorEq, false_iff]
    rintro ⟨a, ⟨b, rfl⟩ | b⟩
    · apply h
      have hn : (Char.ofNat (48 + d)).toNat = 48 + d := toNat_small (by omega)
      refine ⟨show '0'.toNat ≤ (Char.ofNat (48 + d)).toNat from ?_, show (Char.ofNat (48 + d)).toNat ≤ '9'.toNat from ?_⟩
      · rw [hn]; exact Nat.le_add_right _ _
      · rw [hn, show '9'.toNat = 57 from rfl]; omega
    · omega

section Base

variable {b : ℕ} {dig : Char → Option ℕ} (hdig : ∀ c d, dig c = some d ↔ Digit b c d)

include hdig

theorem digit_unique {c : Char} {d e : ℕ} (h : Digit b c d) (h' : Digit b c e) : d = e := by
  have h1 := (hdig c d).2 h
  rw [(hdig c e).2 h'] at h1
  exact (Option.some.inj h1).symm

theorem span_append {cs : Str} {ds : List ℕ} {rest : Str} (h : List.Forall₂ (Digit b) cs ds) (hr : NoDigit b rest) :
    span dig (cs ++ rest) = (ds, rest) := by
  induction h with
  | nil =>
    cases rest with
    | nil => rfl
    | cons c rest =>
      have : dig c = none := by
        cases hc : dig c with
        | none => rfl
        | some d => exact absurd ((hdig c d).1 hc) (hr c d rfl)
      simp [span, this]
  | cons h _ ih => simp only [List.cons_append, span, (hdig _ _).2 h, ih]

theorem span_split (s : Str) : ∃ cs, s = cs ++ (span dig s).2 ∧ List.Forall₂ (Digit b) cs (span dig s).1 ∧ NoDigit b (span dig s).2 := by
  induction s with
  | nil => exact ⟨[], rfl, .nil, by simp [NoDigit, span]⟩
  | cons c s ih =>
    cases hc : dig c with
    | none =>
      refine ⟨[], by simp [span, hc], by simp [span, hc], ?_⟩
      simp only [span, hc]
      intro c' d h hd
      simp only [List.head?_cons, Option.some.injEq] at h
      subst h
      rw [(hdig _ _).2 hd] at hc
      cases hc
    | some d =>
      obtain ⟨cs, h1, h2, h3⟩ := ih
      refine ⟨c :: cs, ?_, ?_, ?_⟩
      · simp only [span, hc, List.cons_append]; rw [← h1]
      · simp only [span, hc]; exact .cons ((hdig _ _).1 hc) h2
      · simpa only [span, hc] using h3

end Base

theorem ofDigits_snoc (b : ℕ) (ds : List ℕ) (d : ℕ) : ofDigits b (ds ++ [d]) = b * ofDigits b ds + d := by
  simp [ofDigits, Nat.mul_comm]

theorem forall₂_append {α β : Type} {R : α → β → Prop} {a a' : List α} {c c' : List β} (hl : a.length = c.length)
    (h : List.Forall₂ R (a ++ a') (c ++ c')) : List.Forall₂ R a c ∧ List.Forall₂ R a' c' := by
  induction a generalizing c with
  | nil =>
    cases c with
    | nil => exact ⟨.nil, h⟩
    | cons => simp at hl
  | cons x a ih =>
    cases c with
    | nil => simp at hl
    | cons y c =>
      cases h with
      | cons h t =>
        obtain ⟨h1, h2⟩ := ih (by simpa using hl) t
        exact ⟨.cons h h1, h2⟩

theorem row_iff {b : ℕ} {cs : Str} {n : ℕ} : Row b cs n ↔ ∃ ds, List.Forall₂ (Digit b) cs ds ∧ n = ofDigits b ds := by
  constructor
  · intro h
    induction h with
    | nil => exact ⟨[], .nil, rfl⟩
    | @snoc s n c d h hd ih =>
      obtain ⟨ds, h1, rfl⟩ := ih
      exact ⟨ds ++ [d], List.rel_append h1 (.cons hd .nil), (ofDigits_snoc b ds d).symm⟩
  · rintro ⟨ds, h, rfl⟩
    induction ds using List.reverseRecOn generalizing cs with
    | nil => cases h; exact .nil
    | append_singleton ds d ih =>
      rw [← List.take_append_drop ds.length cs] at h ⊢
      have hl := h.length_eq
      obtain ⟨h1, h2⟩ := forall₂_append (by simp at hl; simp; omega) h
      generalize cs.drop ds.length = c2 at h2
      cases h2 with
      | cons hd h0 =>
        cases h0
        rw [ofDigits_snoc]
        exact .snoc (ih h1) hd

theorem forall₂_nil {b : ℕ} {cs : Str} {ds : List ℕ} (h : List.Forall₂ (Digit b) cs ds) : cs = [] ↔ ds = [] := by
  cases h <;> simp

theorem dec_char {c : Char} {d : ℕ} (h : Digit 10 c d) : c ≠ '+' ∧ c ≠ '-' := by
  rw [← dec_iff] at h
  constructor <;> rintro rfl <;> revert h <;> simp [digitVal]

theorem dot_digit {b d : ℕ} (hb : b ≤ 16) : ¬ Digit b '.' d := by
  intro h
  have : Digit 16 '.' d := ⟨by have := h.1; omega, h.2⟩
  rw [← hex_iff] at this
  revert this
  simp [hexVal]

/-! ## The exponent -/

theorem scale_iff {low up : Char} {eb : ℕ} {s : Str} {f : ℚ} :
    Scale low up eb s f ↔ f = (eb : ℚ) ^ exponent low up s := by
  constructor
  · intro h
    cases h with
    | @pos c sg ds rest n hc hs hd hn hr =>
      obtain ⟨ds', h1, rfl⟩ := row_iff.1 hd
      have hsp := span_append dec_iff h1 hr
      have e : sign (sg ++ (ds ++ rest)) = (false, ds ++ rest) := by
        rcases hs with rfl | rfl
        · cases h1 with
          | nil => exact absurd rfl hn
          | @cons c d t t' hcd _ =>
            have := dec_char hcd
            simp only [List.nil_append, List.cons_append]
            unfold sign
            split
            · rename_i h; simp only [List.cons.injEq] at h; exact absurd h.1 this.2
            · rename_i h; simp only [List.cons.injEq] at h; exact absurd h.1 this.1
            · rfl
        · rfl
      simp only [List.cons_append, List.append_assoc, exponent, hc, if_true, e, hsp, Bool.false_eq_true, if_false, zpow_natCast]
    | @neg c ds rest n hc hd hn hr =>
      obtain ⟨ds', h1, rfl⟩ := row_iff.1 hd
      have hsp := span_append dec_iff h1 hr
      simp only [List.cons_append, exponent, hc, if_true, sign, hsp, zpow_neg, zpow_natCast, one_div]
    | none h =>
      cases s with
      | nil => simp [exponent]
      | cons c s =>
        by_cases hc : c = low ∨ c = up
        · simp only [exponent, hc, if_true]
          have hnil : (span digitVal (sign s).2).1 = [] := by
            obtain ⟨cs, h1, h2, h3⟩ := span_split dec_iff (sign s).2
            cases h2' : (span digitVal (sign s).2).1 with
            | nil => rfl
            | cons d ds =>
              exfalso
              rw [h2'] at h2
              cases h2 with
              | @cons x _ xs _ hx ht =>
                have hs : ∃ sg, (sg = [] ∨ sg = ['+'] ∨ sg = ['-']) ∧ s = sg ++ (sign s).2 := by
                  unfold sign
                  split
                  · exact ⟨['-'], by simp, rfl⟩
                  · exact ⟨['+'], by simp, rfl⟩
                  · exact ⟨[], by simp, rfl⟩
                obtain ⟨sg, hsg, hs⟩ := hs
                refine h c sg x d (xs ++ (span digitVal (sign s).2).2) hc hsg hx ?_
                rw [List.cons_append, ← List.cons_append (a := x), ← h1, ← hs]
          simp [hnil, ofDigits]
        · simp [exponent, hc]
  · rintro rfl
    cases s with
    | nil => simpa [exponent] using Scale.none (s := []) (low := low) (up := up) (eb := eb) (by simp)
    | cons c s =>
      by_cases hc : c = low ∨ c = up
      · obtain ⟨cs, h1, h2, h3⟩ := span_split dec_iff (sign s).2
        by_cases hn : cs = []
        · have hd := (forall₂_nil h2).1 hn
          have e : exponent low up (c :: s) = 0 := by simp [exponent, hc, hd, ofDigits]
          rw [e, zpow_zero]
          refine .none ?_
          intro c' sg x n t hc' hsg hx he
          subst hn
          rw [List.nil_append] at h1
          rw [← h1] at h3
          simp only [List.cons_append, List.cons.injEq] at he
          have hs : (sign s).2 = x :: t := by
            have := dec_char hx
            rcases hsg with rfl | rfl | rfl
            · rw [he.2]
              simp only [List.nil_append]
              unfold sign
              split
              · rename_i h; simp only [List.cons.injEq] at h; exact absurd h.1 this.2
              · rename_i h; simp only [List.cons.injEq] at h; exact absurd h.1 this.1
              · rfl
            · rw [he.2]; rfl
            · rw [he.2]; rfl
          rw [hs] at h3
          exact h3 x n rfl hx
        · have hrow := row_iff.2 ⟨_, h2, rfl⟩
          have e : exponent low up (c :: s) = if (sign s).1 then -(ofDigits 10 (span digitVal (sign s).2).1 : ℤ) else ofDigits 10 (span digitVal (sign s).2).1 := by
            simp [exponent, hc]
          rw [e]
          generalize span digitVal (sign s).2 = p at *
          unfold sign at h1 ⊢
          split at h1
          · have := Scale.neg (low := low) (up := up) (eb := eb) hc hrow hn h3
            simp only [if_true, zpow_neg, zpow_natCast]
            dsimp only at h1
            rw [← one_div, h1]
            exact this
          · have := Scale.pos (low := low) (up := up) (eb := eb) (sg := ['+']) hc (.inr rfl) hrow hn h3
            simp only [Bool.false_eq_true, if_false, zpow_natCast]
            dsimp only at h1
            rw [h1]
            exact this
          · have := Scale.pos (low := low) (up := up) (eb := eb) (sg := []) hc (.inl rfl) hrow hn h3
            simp only [Bool.false_eq_true, if_false, zpow_natCast]
            dsimp only at h1
            rw [h1]
            exact this
      · have e : exponent low up (c :: s) = 0 := by simp [exponent, hc]
        rw [e, zpow_zero]
        refine .none ?_
        intro c' sg x n t hc' hsg hx he
        simp only [List.cons_append, List.cons.injEq] at he
        exact hc (he.1 ▸ hc')

/-! ## Numerals -/

section Base

variable {b : ℕ} {dig : Char → Option ℕ} (hdig : ∀ c d, dig c = some d ↔ Digit b c d) (hb : b ≤ 16)

include hdig hb

theorem numeral_iff {eb : ℕ} {low up : Char} {s : Str} {q : ℚ} :
    numeral dig b eb low up s = some q ↔ Numeral b eb low up s q := by
  have hdot : ∀ {r : Str}, r.head? = some '.' → NoDigit b r := by
    intro r h c d hc
    rw [h] at hc
    cases hc
    exact dot_digit hb
  have hlen : ∀ {cs : Str} {ds : List ℕ}, List.Forall₂ (Digit b) cs ds → cs.length = ds.length := fun h => h.length_eq
  constructor
  · intro h
    obtain ⟨cs, h1, h2, h3⟩ := span_split hdig s
    generalize hp : span dig s = p at *
    obtain ⟨ip, r⟩ := p
    unfold numeral at h
    simp only [hp] at h
    simp only at h1 h2 h3
    cases r with
    | nil =>
      simp only [fraction, List.append_nil] at h h1
      split at h
      · cases h
      · rename_i hne
        cases h
        subst h1
        have := Numeral.whole (b := b) (eb := eb) (low := low) (up := up) (rest := []) (row_iff.2 ⟨_, h2, rfl⟩)
          (fun e => hne ⟨(forall₂_nil h2).1 e, trivial⟩) (by simp [NoDigit]) (by simp) (scale_iff.2 rfl)
        simpa using this
    | cons c r =>
      by_cases hc : c = '.'
      · subst hc
        obtain ⟨fs, g1, g2, g3⟩ := span_split hdig r
        generalize hp' : span dig r = p' at *
        obtain ⟨fp, r'⟩ := p'
        simp only [fraction, hp'] at h g1 g2 g3
        split at h
        · cases h
        · rename_i hne
          cases h
          subst h1 g1
          have := Numeral.point (b := b) (eb := eb) (low := low) (up := up) (ip := cs) (fp := fs) (rest := r')
            (row_iff.2 ⟨_, List.rel_append h2 g2, rfl⟩)
            (fun e => hne ⟨(forall₂_nil h2).1 (List.append_eq_nil_iff.1 e).1, (forall₂_nil g2).1 (List.append_eq_nil_iff.1 e).2⟩) g3 (scale_iff.2 rfl)
          rw [hlen g2] at this
          simpa using this
      · have e : fraction dig (c :: r) = ([], c :: r) := by
          unfold fraction
          split
          · rename_i h; simp only [List.cons.injEq] at h; exact absurd h.1 hc
          · rfl
        simp only [e, List.append_nil] at h
        split at h
        · cases h
        · rename_i hne
          cases h
          subst h1
          have := Numeral.whole (b := b) (eb := eb) (low := low) (up := up) (row_iff.2 ⟨_, h2, rfl⟩)
            (fun e => hne ⟨(forall₂_nil h2).1 e, trivial⟩) h3 (by simpa using hc) (scale_iff.2 rfl)
          simpa using this
  · intro h
    cases h with
    | @whole ip rest n f h hn hr hp hf =>
      obtain ⟨ds, h1, rfl⟩ := row_iff.1 h
      rw [scale_iff] at hf
      subst hf
      have e : fraction dig rest = ([], rest) := by
        unfold fraction
        split
        · simp at hp
        · rfl
      unfold numeral
      simp only [span_append hdig h1 hr, e]
      rw [if_neg (fun h => hn ((forall₂_nil h1).2 h.1))]
      simp
    | @point ip fp rest n f h hn hr hf =>
      obtain ⟨ds, h1, rfl⟩ := row_iff.1 h
      rw [scale_iff] at hf
      subst hf
      have hl := hlen h1
      rw [← List.take_append_drop ip.length ds] at h1 ⊢
      obtain ⟨g1, g2⟩ := forall₂_append (by simp at hl; simp; omega) h1
      generalize ds.take ip.length = d1 at *
      generalize ds.drop ip.length = d2 at *
      unfold numeral
      rw [List.append_assoc]
      simp only [span_append hdig g1 (rest := '.' :: fp ++ rest) (hdot rfl)]
      simp only [List.cons_append, fraction, span_append hdig g2 hr]
      rw [if_neg]
      · rw [hlen g2]
      · rintro ⟨e1, e2⟩
        exact hn (by rw [(forall₂_nil g1).2 e1, (forall₂_nil g2).2 e2]; rfl)

theorem numeral_none {eb : ℕ} {low up : Char} {s : Str} :
    numeral dig b eb low up s = none ↔ ¬ ∃ c d t, Digit b c d ∧ (s = c :: t ∨ s = '.' :: c :: t) := by
  have key : ∀ r : Str, (span dig r).1 = [] ↔ ¬ ∃ c d t, Digit b c d ∧ r = c :: t := by
    intro r
    obtain ⟨cs, h1, h2, h3⟩ := span_split hdig r
    constructor
    · rintro h ⟨c, d, t, hd, e⟩
      have := (forall₂_nil h2).2 h
      subst this
      rw [List.nil_append] at h1
      rw [← h1] at h3
      exact h3 c d (by rw [e]; rfl) hd
    · intro h
      cases cs with
      | nil => exact (forall₂_nil h2).1 rfl
      | cons c cs =>
        cases h2' : (span dig r).1 with
        | nil => rfl
        | cons d ds =>
          rw [h2'] at h2
          cases h2 with
          | cons hd _ => exact absurd ⟨c, d, _, hd, h1⟩ h
  unfold numeral
  simp only [ite_eq_left_iff, reduceCtorEq, imp_false, not_not]
  constructor
  · rintro ⟨h1, h2⟩ ⟨c, d, t, hd, rfl | rfl⟩
    · exact (key _).1 h1 ⟨c, d, t, hd, rfl⟩
    · have e : span dig ('.' :: c :: t) = ([], '.' :: c :: t) := by
        have := span_append hdig (cs := []) (ds := []) .nil (rest := '.' :: c :: t)
          (by intro x y hx; simp only [List.head?_cons, Option.some.injEq] at hx; subst hx; exact dot_digit hb)
        simpa using this
      rw [e] at h2
      simp only [fraction] at h2
      exact (key _).1 h2 ⟨c, d, t, hd, rfl⟩
  · intro h
    have h1 : (span dig s).1 = [] := (key s).2 (fun ⟨c, d, t, hd, e⟩ => h ⟨c, d, t, hd, .inl e⟩)
    refine ⟨h1, ?_⟩
    obtain ⟨cs, g1, g2, g3⟩ := span_split hdig s
    have := (forall₂_nil g2).2 h1
    subst this
    rw [List.nil_append] at g1
    rw [← g1]
    unfold fraction
    split
    · rename_i r
      exact (key r).2 (fun ⟨c, d, t, hd, e⟩ => h ⟨c, d, t, hd, .inr (by rw [e])⟩)
    · rfl

end Base

theorem hex_numeral (x : Char) (t : Str) : Hex ('0' :: x :: t) ↔ (x = 'x' ∨ x = 'X') ∧ numeral hexVal 16 2 'p' 'P' t ≠ none := by
  rw [Ne, numeral_none hex_iff le_rfl, not_not]
  constructor
  · rintro ⟨y, c, d, u, hy, hd, h | h⟩ <;> cases h
    · exact ⟨hy, c, d, u, hd, .inl rfl⟩
    · exact ⟨hy, c, d, u, hd, .inr rfl⟩
  · rintro ⟨hx, c, d, u, hd, rfl | rfl⟩
    · exact ⟨x, c, d, u, hx, hd, .inl rfl⟩
    · exact ⟨x, c, d, u, hx, hd, .inr rfl⟩

theorem magnitude_iff (s : Str) (q : ℚ) : magnitude s = some q ↔ Magnitude s q := by
  have hd := @numeral_iff 10 digitVal dec_iff (by norm_num) 10 'e' 'E'
  have hh := @numeral_iff 16 hexVal hex_iff le_rfl 2 'p' 'P'
  by_cases h : Hex s
  · have h' := h
    obtain ⟨x, c, d, t, hx, hcd, e⟩ := h'
    obtain ⟨u, rfl⟩ : ∃ u, s = '0' :: x :: u := by rcases e with rfl | rfl <;> exact ⟨_, rfl⟩
    obtain ⟨-, hn⟩ := (hex_numeral x u).1 h
    have em : magnitude ('0' :: x :: u) = numeral hexVal 16 2 'p' 'P' u := by
      simp only [magnitude, hx, if_true]
      cases hq : numeral hexVal 16 2 'p' 'P' u with
      | none => exact absurd hq hn
      | some q => rfl
    rw [em, hh]
    constructor
    · exact .hex h
    · intro hm
      generalize hs : '0' :: x :: u = s at hm
      cases hm with
      | dec h' => exact absurd (hs ▸ h) h'
      | hex _ hn => cases hs; exact hn
  · have em : magnitude s = numeral digitVal 10 10 'e' 'E' s := by
      unfold magnitude
      split
      · rename_i x t
        split
        · rename_i hx
          cases hq : numeral hexVal 16 2 'p' 'P' t with
          | some q => exact absurd ((hex_numeral x t).2 ⟨hx, by simp [hq]⟩) h
          | none =>
            symm
            rw [hd]
            have hz : Row 10 ['0'] 0 := Row.snoc (s := []) (d := 0) .nil ⟨by norm_num, .inl ⟨by norm_num, rfl⟩⟩
            have hxd : ∀ d, ¬ Digit 10 x d := by
              intro d hd
              rw [← dec_iff] at hd
              rcases hx with rfl | rfl <;> simp [digitVal] at hd
            have := Numeral.whole (eb := 10) (low := 'e') (up := 'E') (rest := x :: t) (f := 1) hz (by simp)
              (by intro c d hc; simp only [List.head?_cons, Option.some.injEq] at hc; subst hc; exact hxd d)
              (by rcases hx with rfl | rfl <;> simp)
              (.none (by
                intro c sg d n u hc _ _ he
                simp only [List.cons_append, List.cons.injEq] at he
                rcases hx with rfl | rfl <;> rcases hc with rfl | rfl <;> exact absurd he.1 (by decide)))
            simpa using this
        · rfl
      · rfl
    rw [em, hd]
    constructor
    · exact .dec h
    · intro hm
      cases hm with
      | dec _ hn => exact hn
      | hex h' => exact absurd h' h

/-! ## Rounding -/

open Ieee in
theorem nearest_cast (q : ℚ) : rne (q : ℝ) = nearest q := by
  have hf : ⌊(q : ℝ)⌋ = ⌊q⌋ := Rat.floor_cast q
  unfold rne nearest
  rw [hf]
  have e1 : ((q : ℝ) - (⌊q⌋ : ℤ) < 1 / 2) ↔ q - ⌊q⌋ < 1 / 2 := by
    constructor
    · intro h; have : ((q - ⌊q⌋ : ℚ) : ℝ) < ((1 / 2 : ℚ) : ℝ) := by push_cast; exact h
      exact_mod_cast this
    · intro h; have : ((q - ⌊q⌋ : ℚ) : ℝ) < ((1 / 2 : ℚ) : ℝ) := by exact_mod_cast h
      push_cast at this; exact this
  have e2 : (1 / 2 < (q : ℝ) - (⌊q⌋ : ℤ)) ↔ 1 / 2 < q - ⌊q⌋ := by
    constructor
    · intro h; have : ((1 / 2 : ℚ) : ℝ) < ((q - ⌊q⌋ : ℚ) : ℝ) := by push_cast; exact h
      exact_mod_cast this
    · intro h; have : ((1 / 2 : ℚ) : ℝ) < ((q - ⌊q⌋ : ℚ) : ℝ) := by exact_mod_cast h
      push_cast at this; exact this
  simp only [e1, e2, Int.even_iff]

theorem log_cast (q : ℚ) : Int.log 2 |(q : ℝ)| = Int.log 2 |q| := by
  by_cases h : q = 0
  · simp [h]
  · have h0 : 0 < |q| := abs_pos.2 h
    have h1 := Int.zpow_log_le_self (b := 2) (by norm_num) h0
    have h2 := Int.lt_zpow_succ_log_self (b := 2) (by norm_num) |q|
    have := Ieee.log_eq (x := |(q : ℝ)|) (k := Int.log 2 |q|) (by have := (Rat.cast_le (K := ℝ)).2 h1; push_cast at this; exact this)
      (by have := (Rat.cast_lt (K := ℝ)).2 h2; push_cast at this; exact this)
    rwa [abs_abs] at this

theorem round_cast (q : ℚ) : ((round q : ℚ) : ℝ) = Ieee.binary32.fl (q : ℝ) := by
  have e : Ieee.binary32.ulpExp (q : ℝ) = lastExp q := by
    unfold Ieee.Fmt.ulpExp lastExp
    rw [log_cast]
    simp only [Ieee.binary32]
    congr 1
    push_cast
    ring
  unfold round Ieee.Fmt.fl
  rw [e, ← nearest_cast]
  push_cast
  rfl

theorem good32 : Ieee.Spec.Good Ieee.binary32 := ⟨by simp [Ieee.binary32], by simp [Ieee.binary32]⟩

theorem num_cast (v : ℚ) : Ieee.Spec.Num Ieee.binary32 (v : ℝ) ↔ FloatNum v := by
  simp only [Ieee.Spec.Num, FloatNum, Ieee.binary32]
  constructor
  · rintro ⟨m, e, h1, h2, h3, h4⟩
    exact ⟨m, e, h1, h2, h3, Rat.cast_injective (α := ℝ) (by rw [h4]; push_cast; rfl)⟩
  · rintro ⟨m, e, h1, h2, h3, h4⟩
    exact ⟨m, e, h1, h2, h3, by rw [h4]; push_cast; rfl⟩

theorem num_rat {u : ℝ} (h : Ieee.Spec.Num Ieee.binary32 u) : ∃ v : ℚ, u = v ∧ FloatNum v := by
  obtain ⟨m, e, h1, h2, h3, rfl⟩ := h
  exact ⟨m * 2 ^ e, by push_cast; rfl, m, e, h1, h2, h3, rfl⟩

theorem spec_cast (q v : ℚ) : Ieee.Spec.Nearest Ieee.binary32 (q : ℝ) (v : ℝ) ↔ Nearest q v := by
  have hd : ∀ a b : ℚ, |(a : ℝ) - b| = ((|a - b| : ℚ) : ℝ) := by intro a b; push_cast; rfl
  unfold Ieee.Spec.Nearest Nearest
  rw [num_cast]
  refine and_congr Iff.rfl (and_congr ?_ (imp_congr ?_ ?_))
  · constructor
    · intro h u hu
      have := h u ((num_cast u).2 hu)
      rw [hd, hd] at this
      exact_mod_cast this
    · intro h u hu
      obtain ⟨u, rfl, hu'⟩ := num_rat hu
      rw [hd, hd]
      exact_mod_cast h u hu'
  · constructor
    · rintro ⟨u, hu, h1, h2⟩
      obtain ⟨u, rfl, hu'⟩ := num_rat hu
      rw [hd, hd] at h2
      exact ⟨u, hu', by exact_mod_cast h1, by exact_mod_cast h2⟩
    · rintro ⟨u, hu, h1, h2⟩
      refine ⟨u, (num_cast u).2 hu, by exact_mod_cast h1, ?_⟩
      rw [hd, hd, h2]
  · simp only [Ieee.binary32]
    constructor
    · rintro ⟨m, e, h1, h2, h3, h4, h5, h6⟩
      exact ⟨m, e, h1, h2, h3, h4, Rat.cast_injective (α := ℝ) (by rw [h5]; push_cast; rfl), h6⟩
    · rintro ⟨m, e, h1, h2, h3, h4, h5, h6⟩
      exact ⟨m, e, h1, h2, h3, h4, by rw [h5]; push_cast; rfl, h6⟩

theorem over_cast (q : ℚ) : Ieee.Spec.Over Ieee.binary32 (q : ℝ) ↔ 2 ^ 128 - 2 ^ 103 ≤ |q| := by
  unfold Ieee.Spec.Over
  simp only [Ieee.binary32]
  have e : ((2 : ℝ) ^ 24 - 1 / 2) * 2 ^ (104 : ℤ) = ((2 ^ 128 - 2 ^ 103 : ℚ) : ℝ) := by
    push_cast
    norm_num
  rw [e, ← Rat.cast_abs]
  exact_mod_cast Iff.rfl

theorem round_large (q : ℚ) : 2 ^ 128 ≤ |round q| ↔ 2 ^ 128 - 2 ^ 103 ≤ |q| := by
  rw [← over_cast, ← Ieee.over_iff good32, ← round_cast]
  have e : (2 : ℝ) ^ Ieee.binary32.p * 2 ^ Ieee.binary32.qmax = ((2 ^ 128 : ℚ) : ℝ) := by simp only [Ieee.binary32]; push_cast; norm_num
  constructor
  · intro h
    have h1 : ((2 ^ 128 : ℚ) : ℝ) ≤ ((|round q| : ℚ) : ℝ) := by exact_mod_cast h
    rw [Rat.cast_abs] at h1
    refine lt_of_lt_of_le ?_ h1
    rw [← e]
    unfold Ieee.Fmt.top
    exact mul_lt_mul_of_pos_right (by linarith) (Ieee.two_pos _)
  · intro h
    have := Ieee.grid_above_top good32.p (Ieee.grid_abs' (by rw [round_cast]; exact Ieee.fl_grid _ _)) h
    rw [e, ← Rat.cast_abs] at this
    exact_mod_cast this

theorem nearest_round {q v : ℚ} (h : |q| < 2 ^ 128 - 2 ^ 103) : Nearest q v ↔ v = round q := by
  rw [← spec_cast, Ieee.nearest_iff (by simp [Ieee.binary32]) good32.q (by rw [over_cast]; exact not_le.2 h), ← round_cast]
  exact_mod_cast Iff.rfl

theorem becomes_iff (q v : ℚ) : Becomes q v ↔ erange q = false ∧ v = round q := by
  unfold Becomes erange
  rw [decide_eq_false_iff_not, not_or, round_large, not_le, not_and_or, not_not, not_lt]
  constructor
  · rintro ⟨h1, h2, h3⟩
    have := (nearest_round h2).1 h1
    exact ⟨⟨h2, h3.imp (fun h => by rw [← this, h]) id⟩, this⟩
  · rintro ⟨⟨h1, h2⟩, h3⟩
    exact ⟨(nearest_round h1).2 h3, h1, h2.imp (fun h => by rw [h3, h]) id⟩

end Verif.CmdLine.FloatText
