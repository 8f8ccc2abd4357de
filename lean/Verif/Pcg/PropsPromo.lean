import Verif.Pcg.Promo
import Verif.Pcg.PropsOutput

/-!
# Engines whose state is narrower than `int` (C94, C96, C100, C159)
-/

namespace Verif.Pcg
open Spec

/-! ## The check agrees with arithmetic modulo `2 ^ w` -/

/-- The widths whose products may leave `int`. -/
def Mid (w : Nat) : Prop := 16 ≤ w ∧ w < 32

/-- The result is `v`, or the width is one of those above and the computation is undefined. -/
def Agrees (w : Nat) (o v : Outcome α) : Prop := o = v ∨ (Mid w ∧ o = .ub)

theorem Agrees.bind {o : Outcome α} {a : α} {f : α → Outcome β} {r : Outcome β}
    (h : Agrees w o (.ok a)) (hf : Agrees w (f a) r) : Agrees w (o >>= f) r := by
  rcases h with rfl | ⟨hm, rfl⟩
  · exact hf
  · exact .inr ⟨hm, rfl⟩

theorem arith_agrees {w n : Nat} {v : BitVec w} (hv : BitVec.ofNat w n = v)
    (hn : w < 16 → n < 2 ^ 31) : Agrees w (arith w n) (.ok v) := by
  unfold arith
  by_cases h : w < 32 ∧ 2 ^ 31 ≤ n
  · rw [if_pos h]
    exact .inr ⟨⟨by
      by_contra hc
      have := hn (by omega)
      omega, h.1⟩, rfl⟩
  · rw [if_neg h, hv]; exact .inl rfl

theorem small_bound {w a b c : Nat} (hw : w < 16) (ha : a ≤ 2 ^ w) (hb : b < 2 ^ w) (hc : c < 2 ^ w) :
    a * b + c < 2 ^ 31 := by
  have h1 : (2 : Nat) ^ w ≤ 2 ^ 15 := Nat.pow_le_pow_right (by omega) (by omega)
  have h2 : a * b ≤ 2 ^ 15 * 2 ^ 15 := Nat.mul_le_mul (by omega) (by omega)
  omega

theorem ofNat_mul_add (a b c : BitVec w) : BitVec.ofNat w (a.toNat * b.toNat + c.toNat) = a * b + c := by
  apply BitVec.eq_of_toNat_eq
  simp [BitVec.toNat_add, BitVec.toNat_mul]

theorem ofNat_mul' (a b : BitVec w) : BitVec.ofNat w (a.toNat * b.toNat) = a * b := by
  apply BitVec.eq_of_toNat_eq
  simp [BitVec.toNat_mul]

theorem ofNat_add' (a b : BitVec w) : BitVec.ofNat w (a.toNat + b.toNat) = a + b := by
  apply BitVec.eq_of_toNat_eq
  simp [BitVec.toNat_add]

theorem ofNat_succ_mul (a b : BitVec w) : BitVec.ofNat w ((a.toNat + 1) * b.toNat) = (a + 1#w) * b := by
  apply BitVec.eq_of_toNat_eq
  simp only [BitVec.toNat_ofNat, BitVec.toNat_mul, BitVec.toNat_add, Nat.mod_mul_mod]
  conv_rhs => rw [Nat.mul_mod, Nat.add_mod_mod, ← Nat.mul_mod]

theorem arith_mul_add (a b c : BitVec w) :
    Agrees w (arith w (a.toNat * b.toNat + c.toNat)) (.ok (a * b + c)) :=
  arith_agrees (ofNat_mul_add a b c) fun h => small_bound h a.isLt.le b.isLt c.isLt

theorem arith_mul (a b : BitVec w) : Agrees w (arith w (a.toNat * b.toNat)) (.ok (a * b)) :=
  arith_agrees (ofNat_mul' a b) fun h => by
    have := small_bound h a.isLt.le b.isLt (Nat.two_pow_pos w); omega

theorem arith_add (a b : BitVec w) : Agrees w (arith w (a.toNat + b.toNat)) (.ok (a + b)) :=
  arith_agrees (ofNat_add' a b) fun h => by
    have h1 : (2 : Nat) ^ w ≤ 2 ^ 15 := Nat.pow_le_pow_right (by omega) (by omega)
    have := a.isLt; have := b.isLt; omega

theorem arith_succ_mul (a b : BitVec w) :
    Agrees w (arith w ((a.toNat + 1) * b.toNat)) (.ok ((a + 1#w) * b)) :=
  arith_agrees (ofNat_succ_mul a b) fun h => by
    have := small_bound h (show a.toNat + 1 ≤ 2 ^ w from a.isLt) b.isLt (Nat.two_pow_pos w); omega

theorem bumpC_agrees (p : Par w) (s : BitVec w) : Agrees w (bumpC p s) (.ok (bump p s)) :=
  arith_mul_add s p.mult p.inc

theorem initC_agrees (p : Par w) (s : BitVec w) : Agrees w (initC p s) (.ok (init p s)) := by
  unfold initC init
  by_cases h : p.mcg = true
  · rw [if_pos h, if_pos h]; exact .inl rfl
  · rw [if_neg h, if_neg h]
    exact (arith_add s p.inc).bind (bumpC_agrees p _)

theorem nextC_agrees (p : Par w) (prev : Bool) {f : BitVec w → Outcome (BitVec x)}
    {g : BitVec w → BitVec x} (hf : ∀ s, Agrees w (f s) (.ok (g s))) (s : BitVec w) :
    Agrees w (nextC p prev f s) (.ok (next p prev g s)) := by
  unfold nextC next
  refine (bumpC_agrees p s).bind ((hf _).bind ?_)
  cases prev <;> exact .inl rfl

theorem advanceLoopC_agrees (n : Nat) : ∀ delta aM aP cM cP : BitVec w, delta.toNat = n →
    Agrees w (advanceLoopC delta aM aP cM cP) (.ok (advanceLoop delta aM aP cM cP)) := by
  induction n using Nat.strong_induction_on with
  | _ n ih =>
    intro delta aM aP cM cP hd
    unfold advanceLoopC advanceLoop
    by_cases h : 0 < delta.toNat
    · rw [dif_pos h, dif_pos h]
      have hlt : (delta >>> 1).toNat < n := by
        rw [BitVec.toNat_ushiftRight, Nat.shiftRight_eq_div_pow]; omega
      by_cases hb : delta &&& 1#w ≠ 0#w
      · simp only [if_pos hb]
        exact (arith_mul aM cM).bind ((arith_mul_add aP cM cP).bind ((arith_succ_mul cM cP).bind
          ((arith_mul cM cM).bind (ih _ hlt _ _ _ _ _ rfl))))
      · simp only [if_neg hb]
        exact Agrees.bind (.inl rfl) (Agrees.bind (.inl rfl) ((arith_succ_mul cM cP).bind
          ((arith_mul cM cM).bind (ih _ hlt _ _ _ _ _ rfl))))
    · rw [dif_neg h, dif_neg h]; exact .inl rfl

theorem advanceC_agrees (p : Par w) (s d : BitVec w) :
    Agrees w (advanceC p s d) (.ok (advance p s d)) := by
  unfold advanceC advance advance'
  exact (advanceLoopC_agrees _ d _ _ _ _ rfl).bind (arith_mul_add _ s _)

theorem backstepC_agrees (p : Par w) (s d : BitVec w) :
    Agrees w (backstepC p s d) (.ok (backstep p s d)) := advanceC_agrees p s (-d)

theorem distanceLoopC_agrees (dbg : Bool) (fuel : Nat) : ∀ cur new mask bit dist mult plus : BitVec w,
    Agrees w (distanceLoopC dbg fuel cur new mask bit dist mult plus)
      (distanceLoop dbg fuel cur new mask bit dist mult plus) := by
  induction fuel with
  | zero => intros; exact .inl rfl
  | succ fuel ih =>
    intro cur new mask bit dist mult plus
    unfold distanceLoopC distanceLoop
    by_cases h : cur &&& mask = new &&& mask
    · rw [if_pos h, if_pos h]; exact .inl rfl
    · rw [if_neg h, if_neg h]
      by_cases hb : cur &&& bit ≠ new &&& bit
      · simp only [if_pos hb]
        refine (arith_mul_add cur mult plus).bind ?_
        by_cases ha : dbg = true ∧ (cur * mult + plus) &&& bit ≠ new &&& bit
        · rw [if_pos ha, if_pos ha]; exact .inl rfl
        · rw [if_neg ha, if_neg ha]
          exact (arith_succ_mul mult plus).bind ((arith_mul mult mult).bind (ih ..))
      · simp only [if_neg hb]
        refine Agrees.bind (.inl rfl) ?_
        by_cases ha : dbg = true ∧ cur &&& bit ≠ new &&& bit
        · rw [if_pos ha, if_pos ha]; exact .inl rfl
        · rw [if_neg ha, if_neg ha]
          exact (arith_succ_mul mult plus).bind ((arith_mul mult mult).bind (ih ..))

theorem minusC_agrees (dbg : Bool) (fuel : Nat) (p : Par w) (a b : BitVec w) :
    Agrees w (minusC dbg fuel p a b) (minus dbg fuel p a b) := by
  unfold minusC minus distance distance'
  rcases distanceLoopC_agrees dbg fuel b a (BitVec.allOnes w) (if p.mcg then 4#w else 1#w) 0#w p.mult p.inc
    with h | ⟨hm, h⟩
  · rw [h]; exact .inl rfl
  · rw [h]; exact .inr ⟨hm, rfl⟩

theorem rxsMXsC_agrees (x : Nat) (mult s : BitVec w) :
    Agrees w (rxsMXsC x mult s) (.ok (rxsMXs x mult s)) := by
  unfold rxsMXsC rxsMXs
  exact (arith_mul _ mult).bind (.inl rfl)

theorem unRxsMXsC_agrees (unmult v : BitVec w) :
    Agrees w (unRxsMXsC unmult v) (unRxsMXs unmult v) := by
  unfold unRxsMXsC unRxsMXs
  simp only
  cases unxorshift v w ((2 * w + 2) / 3) with
  | ok u => exact (arith_mul u unmult).bind (.inl rfl)
  | _ => exact .inl rfl

/-! ## All sizes but 16 bits (C159) -/

theorem Agrees.eq {o v : Outcome α} (h : Agrees w o v) (hw : w < 16 ∨ 32 ≤ w) : o = v := by
  rcases h with h | ⟨⟨h1, h2⟩, -⟩
  · exact h
  · omega

/-- **C159**: with a state of less than 16 bits the promoted arithmetic stays within `int`, and with 32 bits
or more there is no promotion: every operation is defined and computes modulo `2 ^ w`, for every
multiplier, increment and state. -/
theorem C159_sizes (hw : w < 16 ∨ 32 ≤ w) (p : Par w) (s d t : BitVec w) :
    bumpC p s = .ok (bump p s) ∧ initC p s = .ok (init p s) ∧
    (∀ prev {x} (f : BitVec w → BitVec x), nextC p prev (fun u => .ok (f u)) s = .ok (next p prev f s)) ∧
    advanceC p s d = .ok (advance p s d) ∧ backstepC p s d = .ok (backstep p s d) ∧
    (∀ dbg fuel, minusC dbg fuel p s t = minus dbg fuel p s t) ∧
    (∀ x, rxsMXsC x p.mult s = .ok (rxsMXs x p.mult s)) ∧
    unRxsMXsC p.mult s = unRxsMXs p.mult s :=
  ⟨(bumpC_agrees p s).eq hw, (initC_agrees p s).eq hw,
    fun prev _ _ => (nextC_agrees p prev (fun _ => .inl rfl) s).eq hw, (advanceC_agrees p s d).eq hw,
    (backstepC_agrees p s d).eq hw, fun dbg fuel => (minusC_agrees dbg fuel p s t).eq hw,
    fun x => (rxsMXsC_agrees x p.mult s).eq hw, (unRxsMXsC_agrees p.mult s).eq hw⟩

/-- **C159**: whatever the size, an operation that is defined computes modulo `2 ^ w`. -/
theorem C159_defined (p : Par w) (s d t : BitVec w) :
    (∀ v, bumpC p s = .ok v → v = bump p s) ∧ (∀ v, initC p s = .ok v → v = init p s) ∧
    (∀ v, advanceC p s d = .ok v → v = advance p s d) ∧
    (∀ v, backstepC p s d = .ok v → v = backstep p s d) ∧
    (∀ dbg fuel v, minusC dbg fuel p s t = .ok v → minus dbg fuel p s t = .ok v) ∧
    (∀ x v, rxsMXsC x p.mult s = .ok v → v = rxsMXs x p.mult s) ∧
    (∀ v, unRxsMXsC p.mult s = .ok v → unRxsMXs p.mult s = .ok v) := by
  have aux : ∀ {α : Type} {o : Outcome α} {v u : α}, Agrees w o (.ok u) → o = .ok v → v = u := by
    rintro α o v u (rfl | ⟨-, rfl⟩) h
    · cases h; rfl
    · cases h
  have aux' : ∀ {α : Type} {o r : Outcome α} {v : α}, Agrees w o r → o = .ok v → r = .ok v := by
    rintro α o r v (rfl | ⟨-, rfl⟩) h
    · exact h
    · cases h
  exact ⟨fun _ => aux (bumpC_agrees p s), fun _ => aux (initC_agrees p s), fun _ => aux (advanceC_agrees p s d),
    fun _ => aux (backstepC_agrees p s d), fun dbg fuel _ => aux' (minusC_agrees dbg fuel p s t),
    fun x _ => aux (rxsMXsC_agrees x p.mult s), fun _ => aux' (unRxsMXsC_agrees p.mult s)⟩

/-! ## Sixteen bits -/

theorem arith_lt {w n : Nat} (h : n < 2 ^ 31) : arith w n = .ok (BitVec.ofNat w n) :=
  if_neg (by omega)

theorem arith_ge {n : Nat} (h : 2 ^ 31 ≤ n) : arith 16 n = .ub := if_pos ⟨by omega, h⟩

theorem bump16 {p : Par 16} (hp : p.mult = mult16) (s : BitVec 16) : bumpC p s = .ok (bump p s) := by
  have h1 := s.isLt
  have h2 := p.inc.isLt
  have h3 : p.mult.toNat = 12829 := by rw [hp]; rfl
  rw [bumpC, arith_lt (by rw [h3]; omega), ofNat_mul_add]; rfl

/-- **C159**: seeding an engine with a 16-bit state and drawing from it are defined, with every output
function that does not itself multiply, for every stream. -/
theorem C159_draw {p : Par 16} (hp : p.mult = mult16) (s : BitVec 16) :
    initC p s = .ok (init p s) ∧
    ∀ prev {x} (f : BitVec 16 → BitVec x), nextC p prev (fun u => .ok (f u)) s = .ok (next p prev f s) := by
  constructor
  · unfold initC init
    have h1 := s.isLt
    have h2 := p.inc.isLt
    by_cases h : p.mcg = true
    · rw [if_pos h, if_pos h]
    · rw [if_neg h, if_neg h, arith_lt (by omega), ofNat_add']
      exact bump16 hp _
  · intro prev x f
    unfold nextC next
    rw [bump16 hp]
    cases prev <;> rfl

/-- The multiplier after `j` squarings. -/
def curMult : Nat → Nat
  | 0 => 12829
  | j + 1 => curMult j * curMult j % 65536

theorem curMult_seven : curMult 7 = 51713 := by decide

theorem arith_cases (n : Nat) :
    arith 16 n = .ub ∨ n < 2 ^ 31 ∧ arith 16 n = .ok (BitVec.ofNat 16 n) := by
  rcases Nat.lt_or_ge n (2 ^ 31) with h | h
  · exact .inr ⟨h, arith_lt h⟩
  · exact .inl (arith_ge h)

/-- One round of the loop of `advance`: undefined, or the multiplier is squared. -/
theorem advanceLoopC_step (delta aM aP cM cP : BitVec 16) (h : 0 < delta.toNat) :
    advanceLoopC delta aM aP cM cP = .ub ∨
      cM.toNat * cM.toNat < 2 ^ 31 ∧ (cM.toNat + 1) * cP.toNat < 2 ^ 31 ∧
      ∃ aM' aP', advanceLoopC delta aM aP cM cP =
        advanceLoopC (delta >>> 1) aM' aP' (cM * cM) ((cM + 1#16) * cP) := by
  have step : ∀ aM' aP' : BitVec 16,
      (do let curPlus' ← arith 16 ((cM.toNat + 1) * cP.toNat)
          let curMult' ← arith 16 (cM.toNat * cM.toNat)
          advanceLoopC (delta >>> 1) aM' aP' curMult' curPlus' : Outcome _) = .ub ∨
      cM.toNat * cM.toNat < 2 ^ 31 ∧ (cM.toNat + 1) * cP.toNat < 2 ^ 31 ∧
      (do let curPlus' ← arith 16 ((cM.toNat + 1) * cP.toNat)
          let curMult' ← arith 16 (cM.toNat * cM.toNat)
          advanceLoopC (delta >>> 1) aM' aP' curMult' curPlus' : Outcome _) =
        advanceLoopC (delta >>> 1) aM' aP' (cM * cM) ((cM + 1#16) * cP) := by
    intro aM' aP'
    rcases arith_cases ((cM.toNat + 1) * cP.toNat) with h1 | ⟨h4, h1⟩
    · rw [h1]; exact .inl rfl
    rw [h1, Outcome.bind_ok]
    rcases arith_cases (cM.toNat * cM.toNat) with h2 | ⟨h3, h2⟩
    · rw [h2]; exact .inl rfl
    rw [h2, Outcome.bind_ok, ofNat_mul', ofNat_succ_mul]
    exact .inr ⟨h3, h4, rfl⟩
  rw [advanceLoopC, dif_pos h]
  by_cases hb : delta &&& 1#16 ≠ 0#16
  · simp only [if_pos hb]
    rcases arith_cases (aM.toNat * cM.toNat) with h1 | ⟨-, h1⟩
    · rw [h1]; exact .inl rfl
    rw [h1, Outcome.bind_ok]
    rcases arith_cases (aP.toNat * cM.toNat + cP.toNat) with h2 | ⟨-, h2⟩
    · rw [h2]; exact .inl rfl
    rw [h2, Outcome.bind_ok]
    rcases step (BitVec.ofNat 16 (aM.toNat * cM.toNat)) (BitVec.ofNat 16 (aP.toNat * cM.toNat + cP.toNat))
      with h | ⟨h3, h4, h⟩
    · exact .inl h
    · exact .inr ⟨h3, h4, _, _, h⟩
  · simp only [if_neg hb, Outcome.bind_ok]
    rcases step aM aP with h | ⟨h3, h4, h⟩
    · exact .inl h
    · exact .inr ⟨h3, h4, _, _, h⟩

theorem mult_step {c : BitVec 16} {j : Nat} (h : c.toNat = curMult j) : (c * c).toNat = curMult (j + 1) := by
  rw [BitVec.toNat_mul, h]; rfl

theorem advanceLoopC_ub (k : Nat) : ∀ (j : Nat), j + k = 7 → ∀ delta aM aP cM cP : BitVec 16,
    cM.toNat = curMult j → 2 ^ k ≤ delta.toNat → advanceLoopC delta aM aP cM cP = .ub := by
  induction k with
  | zero =>
    intro j hj delta aM aP cM cP hc hd
    rcases advanceLoopC_step delta aM aP cM cP (by omega) with h | ⟨h, -⟩
    · exact h
    · obtain rfl : j = 7 := hj
      rw [hc, curMult_seven] at h
      omega
  | succ k ih =>
    intro j hj delta aM aP cM cP hc hd
    have : 0 < 2 ^ k := Nat.two_pow_pos k
    rcases advanceLoopC_step delta aM aP cM cP (by omega) with h | ⟨-, -, _, _, h⟩
    · exact h
    · rw [h]
      refine ih (j + 1) (by omega) _ _ _ _ _ (mult_step hc) ?_
      rw [BitVec.toNat_ushiftRight, Nat.shiftRight_eq_div_pow]
      omega

/-- **C94 fails** for the engines with a 16-bit state: `advance` and `discard` by 128 or more overflow
`int`, for every stream and every state. -/
theorem C94_sixteen_bits {p : Par 16} (hp : p.mult = mult16) (s d : BitVec 16) (hd : 128 ≤ d.toNat) :
    advanceC p s d = .ub := by
  rw [advanceC, advanceLoopC_ub 7 0 rfl d _ _ _ _ (by rw [hp]; rfl) hd]
  rfl

theorem advanceLoopC_odd {delta aM aP cM cP : BitVec 16} (h : delta &&& 1#16 ≠ 0#16)
    (h1 : aM.toNat * cM.toNat < 2 ^ 31) (h2 : aP.toNat * cM.toNat + cP.toNat < 2 ^ 31)
    (h3 : (cM.toNat + 1) * cP.toNat < 2 ^ 31) (h4 : cM.toNat * cM.toNat < 2 ^ 31) :
    advanceLoopC delta aM aP cM cP =
      advanceLoopC (delta >>> 1) (aM * cM) (aP * cM + cP) (cM * cM) ((cM + 1#16) * cP) := by
  have hd : 0 < delta.toNat := by
    have := (and_one_ne delta).mp h; omega
  conv_lhs => rw [advanceLoopC]
  rw [dif_pos hd]
  simp only [if_pos h]
  rw [arith_lt h1, arith_lt h2, arith_lt h3, arith_lt h4]
  simp only [Outcome.bind_ok, ofNat_mul', ofNat_mul_add, ofNat_succ_mul]

theorem advanceLoopC_even {delta aM aP cM cP : BitVec 16} (h : ¬ delta &&& 1#16 ≠ 0#16)
    (hd : 0 < delta.toNat)
    (h3 : (cM.toNat + 1) * cP.toNat < 2 ^ 31) (h4 : cM.toNat * cM.toNat < 2 ^ 31) :
    advanceLoopC delta aM aP cM cP =
      advanceLoopC (delta >>> 1) aM aP (cM * cM) ((cM + 1#16) * cP) := by
  conv_lhs => rw [advanceLoopC]
  rw [dif_pos hd]
  simp only [if_neg h]
  rw [arith_lt h3, arith_lt h4]
  simp only [Outcome.bind_ok, ofNat_mul', ofNat_succ_mul]

theorem advanceLoopC_zero (aM aP cM cP : BitVec 16) :
    advanceLoopC 0#16 aM aP cM cP = .ok (aM, aP) := by
  rw [advanceLoopC, dif_neg (by decide)]

/-- Advancing by up to three never overflows. -/
theorem advance_small {p : Par 16} (hp : p.mult = mult16) (s d : BitVec 16) (hd : d.toNat ≤ 3) :
    advanceC p s d ≠ .ub := by
  obtain ⟨m, inc, mcg⟩ := p
  obtain rfl : m = mult16 := hp
  have hs := s.isLt
  have hi := inc.isLt
  have hs' : ∀ c : BitVec 16, c.toNat < 65536 := fun c => c.isLt
  have fin : ∀ (a : BitVec 16), a.toNat < 32767 → ∀ b : BitVec 16, arith 16 (a.toNat * s.toNat + b.toNat) ≠ .ub := by
    intro a ha b
    have h2 := hs' b
    have : a.toNat * s.toNat ≤ 32766 * 65535 := Nat.mul_le_mul (by omega) (by omega)
    rw [arith_lt (by omega)]
    exact nofun
  have e1 : mult16.toNat = 12829 := rfl
  have e2 : (mult16 * mult16).toNat = 22345 := by decide
  have cases4 : d = 0#16 ∨ d = 1#16 ∨ d = 2#16 ∨ d = 3#16 := by
    have : d = BitVec.ofNat 16 d.toNat := by simp
    rcases (show d.toNat = 0 ∨ d.toNat = 1 ∨ d.toNat = 2 ∨ d.toNat = 3 by omega) with h | h | h | h <;>
      rw [h] at this <;> simp [this]
  unfold advanceC
  dsimp only
  rcases cases4 with rfl | rfl | rfl | rfl
  · rw [advanceLoopC_zero, Outcome.bind_ok]
    exact fin 1#16 (by decide) _
  · rw [advanceLoopC_odd (by decide) (by decide) (by simp only [BitVec.toNat_ofNat]; omega) (by simp only [e1]; omega) (by decide),
      show (1#16 >>> 1) = 0#16 from rfl, advanceLoopC_zero, Outcome.bind_ok]
    exact fin (1#16 * mult16) (by decide) _
  · rw [advanceLoopC_even (by decide) (by decide) (by simp only [e1]; omega) (by decide),
      show (2#16 >>> 1) = 1#16 from rfl]
    have h1 := hs' ((mult16 + 1#16) * inc)
    rw [advanceLoopC_odd (by decide) (by decide) (by simp only [BitVec.toNat_ofNat]; omega) (by simp only [e2]; omega)
        (by decide),
      show (1#16 >>> 1) = 0#16 from rfl, advanceLoopC_zero, Outcome.bind_ok]
    exact fin (1#16 * (mult16 * mult16)) (by decide) _
  · rw [advanceLoopC_odd (by decide) (by decide) (by simp only [BitVec.toNat_ofNat]; omega) (by simp only [e1]; omega) (by decide),
      show (3#16 >>> 1) = 1#16 from rfl]
    have h1 := hs' ((mult16 + 1#16) * inc)
    have h2 := hs' (0#16 * mult16 + inc)
    rw [advanceLoopC_odd (by decide) (by decide) (by simp only [e2]; omega) (by simp only [e2]; omega)
        (by decide),
      show (1#16 >>> 1) = 0#16 from rfl, advanceLoopC_zero, Outcome.bind_ok]
    exact fin (1#16 * mult16 * (mult16 * mult16)) (by decide) _

/-- Advancing by four or more overflows on the stream with number 3, whatever the state. -/
theorem advance_four (s d : BitVec 16) (hd : 4 ≤ d.toNat) :
    advanceC ⟨mult16, setStream 3#16, false⟩ s d = .ub := by
  have sh : ∀ (u : BitVec 16), (u >>> 1).toNat = u.toNat / 2 := fun u => by
    rw [BitVec.toNat_ushiftRight, Nat.shiftRight_eq_div_pow]
  have ub : advanceLoopC d 1#16 0#16 mult16 (setStream 3#16) = .ub := by
    rcases advanceLoopC_step d 1#16 0#16 mult16 (setStream 3#16) (by omega) with h | ⟨-, -, a, b, h⟩
    · exact h
    rw [h]
    rcases advanceLoopC_step (d >>> 1) a b (mult16 * mult16) ((mult16 + 1#16) * setStream 3#16)
      (by rw [sh]; omega) with h | ⟨-, -, a, b, h⟩
    · exact h
    rw [h]
    rcases advanceLoopC_step (d >>> 1 >>> 1) a b (mult16 * mult16 * (mult16 * mult16))
      ((mult16 * mult16 + 1#16) * ((mult16 + 1#16) * setStream 3#16))
      (by rw [sh, sh]; omega) with h | ⟨-, h, -⟩
    · exact h
    · exact absurd h (by decide)
  unfold advanceC
  dsimp only
  rw [ub]
  rfl

/-- **C94, partial**: the distances by which every 16-bit engine can be advanced from every state are 0, 1,
2 and 3. -/
theorem C94_sixteen_bits_safe_partial (d : BitVec 16) :
    (∀ (p : Par 16) (s : BitVec 16), Good p → p.mult = mult16 →
      advanceC p s d = .ok (advance p s d)) ↔ d.toNat ≤ 3 := by
  constructor
  · intro h
    by_contra hc
    have h1 := h ⟨mult16, setStream 3#16, false⟩ 0#16 ⟨by decide, by decide⟩ rfl
    rw [advance_four _ _ (by omega)] at h1
    cases h1
  · intro hd p s _ hp
    rcases advanceC_agrees p s d with h | ⟨-, h⟩
    · exact h
    · exact absurd h (advance_small hp s d hd)

/-- **C96 fails** for the engines with a 16-bit state: `backstep` by up to 65408 overflows, for every stream
and state. -/
theorem C96_sixteen_bits_backstep {p : Par 16} (hp : p.mult = mult16) (s d : BitVec 16) (h1 : 1 ≤ d.toNat)
    (h2 : d.toNat ≤ 65408) : backstepC p s d = .ub := by
  refine C94_sixteen_bits hp s (-d) ?_
  rw [BitVec.toNat_neg, Nat.mod_eq_of_lt (by omega)]
  omega

theorem distanceLoopC_step {dbg : Bool} {fuel : Nat} {cur new mask bit dist mult plus d : BitVec 16}
    (h : distanceLoopC dbg fuel cur new mask bit dist mult plus = .ok d) :
    d = dist ∨ mult.toNat * mult.toNat < 2 ^ 31 ∧ ∃ fuel cur' dist' plus', (dist' = dist ∨ dist' = dist ||| bit) ∧
      distanceLoopC dbg fuel cur' new mask (bit <<< 1) dist' (mult * mult) plus' = .ok d := by
  cases fuel with
  | zero => cases h
  | succ fuel =>
    unfold distanceLoopC at h
    by_cases hc : cur &&& mask = new &&& mask
    · rw [if_pos hc] at h; cases h; exact .inl rfl
    rw [if_neg hc] at h
    have step : ∀ cur' dist' : BitVec 16, (dist' = dist ∨ dist' = dist ||| bit) →
        (if dbg = true ∧ cur' &&& bit ≠ new &&& bit then (.assertFail : Outcome (BitVec 16))
          else do
            let plus' ← arith 16 ((mult.toNat + 1) * plus.toNat)
            let mult' ← arith 16 (mult.toNat * mult.toNat)
            distanceLoopC dbg fuel cur' new mask (bit <<< 1) dist' mult' plus') = .ok d →
        mult.toNat * mult.toNat < 2 ^ 31 ∧ ∃ fuel cur' dist' plus', (dist' = dist ∨ dist' = dist ||| bit) ∧
          distanceLoopC dbg fuel cur' new mask (bit <<< 1) dist' (mult * mult) plus' = .ok d := by
      intro cur' dist' hd h
      by_cases ha : dbg = true ∧ cur' &&& bit ≠ new &&& bit
      · rw [if_pos ha] at h; cases h
      rw [if_neg ha] at h
      rcases arith_cases ((mult.toNat + 1) * plus.toNat) with h1 | ⟨-, h1⟩
      · rw [h1] at h; cases h
      rw [h1, Outcome.bind_ok] at h
      rcases arith_cases (mult.toNat * mult.toNat) with h2 | ⟨h3, h2⟩
      · rw [h2] at h; cases h
      rw [h2, Outcome.bind_ok, ofNat_mul'] at h
      exact ⟨h3, _, _, _, _, hd, h⟩
    by_cases hb : cur &&& bit ≠ new &&& bit
    · simp only [if_pos hb] at h
      rcases arith_cases (cur.toNat * mult.toNat + plus.toNat) with h1 | ⟨-, h1⟩
      · rw [h1] at h; cases h
      rw [h1, Outcome.bind_ok] at h
      exact .inr (step _ _ (.inr rfl) h)
    · simp only [if_neg hb, Outcome.bind_ok] at h
      exact .inr (step _ _ (.inl rfl) h)

/-- The loop of `distance` over the first seven bits: what it returns is below the bit it has reached. -/
theorem distanceLoopC_early (dbg : Bool) (b k : Nat) (hb : b ≤ 2) : ∀ (fuel j : Nat), j + k = 7 →
    ∀ cur new mask bit dist mult plus : BitVec 16, mult.toNat = curMult j → bit.toNat = 2 ^ (j + b) →
    dist.toNat < 2 ^ (j + b) → ∀ d, distanceLoopC dbg fuel cur new mask bit dist mult plus = .ok d →
    d.toNat < 2 ^ (7 + b) := by
  induction k with
  | zero =>
    intro fuel j hj cur new mask bit dist mult plus hm hbit hdist d h
    obtain rfl : j = 7 := hj
    rcases distanceLoopC_step h with rfl | ⟨h, -⟩
    · exact hdist
    · rw [hm, curMult_seven] at h
      omega
  | succ k ih =>
    intro fuel j hj cur new mask bit dist mult plus hm hbit hdist d h
    have hpow : 2 ^ (j + 1 + b) = 2 * 2 ^ (j + b) := by
      rw [show j + 1 + b = (j + b) + 1 by omega, Nat.pow_succ, Nat.mul_comm]
    rcases distanceLoopC_step h with rfl | ⟨-, _, _, dist', _, hd, h⟩
    · exact lt_of_lt_of_le hdist (Nat.pow_le_pow_right (by omega) (by omega))
    · refine ih _ (j + 1) (by omega) _ _ _ _ _ _ _ (mult_step hm) ?_ ?_ d h
      · rw [BitVec.toNat_shiftLeft, hbit, hpow, Nat.shiftLeft_eq, Nat.pow_one, Nat.mul_comm,
          Nat.mod_eq_of_lt]
        rw [← hpow]
        exact Nat.pow_lt_pow_right (by omega) (by omega)
      · rcases hd with rfl | rfl
        · omega
        · rw [BitVec.toNat_or, Nat.or_comm, hbit, two_pow_or hdist]; omega

/-- **C96 fails** for the engines with a 16-bit state: subtracting engines that are 128 or more steps apart
overflows. -/
theorem C96_sixteen_bits_minus {p : Par 16} (hp : p.mult = mult16) (dbg : Bool) (fuel : Nat)
    (a b d : BitVec 16) (h : minus dbg fuel p a b = .ok d) (hd : 128 ≤ d.toNat) :
    minusC dbg fuel p a b = .ub := by
  rcases minusC_agrees dbg fuel p a b with h1 | ⟨-, h1⟩
  · exfalso
    rw [h] at h1
    have hm : p.mult.toNat = curMult 0 := by rw [hp]; rfl
    unfold minusC at h1
    cases hl : distanceLoopC dbg fuel b a (BitVec.allOnes 16) (if p.mcg then 4#16 else 1#16) 0#16 p.mult p.inc
      with
    | ok e =>
      rw [hl, Outcome.bind_ok] at h1
      by_cases hg : p.mcg = true
      · rw [if_pos hg] at hl h1
        have := distanceLoopC_early dbg 2 7 (by omega) fuel 0 rfl _ _ _ _ _ _ _ hm (by decide) (by decide) e hl
        cases h1
        rw [BitVec.toNat_ushiftRight, Nat.shiftRight_eq_div_pow] at hd
        omega
      · rw [if_neg hg] at hl h1
        have := distanceLoopC_early dbg 0 7 (by omega) fuel 0 rfl _ _ _ _ _ _ _ hm (by decide) (by decide) e hl
        cases h1
        omega
    | _ => rw [hl] at h1; cases h1
  · exact h1

/-- Two states of an engine that are `n` steps apart, with `n` at least 128 and below the period, cannot be
subtracted. -/
theorem C96_sixteen_bits {p : Par 16} (hg : Good p) (hp : p.mult = mult16) (dbg : Bool) {s : BitVec 16}
    (hs : Reach p s) (n : Nat) (h1 : 128 ≤ n) (h2 : n < period p) {t : BitVec 16}
    (ht : t.toNat = steps p.mult.toNat p.inc.toNat (2 ^ 16) n s.toNat) (fuel : Nat) (hf : 16 < fuel) :
    minusC dbg fuel p t s = .ub := by
  have hr : Reach p t := by
    rw [← bump_iter_toNat, BitVec.toNat_inj] at ht
    rw [ht]; exact iter_reach hg hs n
  obtain ⟨d, e1, e2, e3⟩ := C96_minus hg dbg hr hs fuel hf
  obtain ⟨m, -, hm⟩ := C95_all_states hg hs hr
  have u1 := hm d.toNat ⟨e3, by rw [← bump_iter_toNat, ← advance_iter, e2]⟩
  have u2 := hm n ⟨h2, ht.symm⟩
  exact C96_sixteen_bits_minus hp dbg fuel t s d e1 (by omega)

/-! ## The output function of `pcg16_once_insecure` -/

/-- **C100 fails** for the engines with 16-bit state and result: the output of a state overflows `int`
exactly when its xor-shift is at least 34543. -/
theorem C100_sixteen_bits (s : BitVec 16) :
    rxsMXsC 16 mcg16 s =
      if 34543 ≤ (s ^^^ s >>> (3 + s.toNat / 2 ^ 13)).toNat then .ub else .ok (rxsMXs 16 mcg16 s) := by
  have ht : topBits s 3 = s.toNat / 2 ^ 13 := topBits_eq s 3 (by omega)
  have ho : rxsOpbits 16 = 3 := by decide
  have hm : mcg16.toNat = 62169 := rfl
  unfold rxsMXsC rxsMXs
  simp only [ho, ht]
  by_cases h : 34543 ≤ (s ^^^ s >>> (3 + s.toNat / 2 ^ 13)).toNat
  · rw [if_pos h, arith_ge (by rw [hm]; omega)]; rfl
  · rw [if_neg h, arith_lt (by rw [hm]; omega), ofNat_mul']; rfl

/-- Its inverse never overflows. -/
theorem C100_sixteen_bits_unoutput (v : BitVec 16) : unRxsMXsC unmcg16 v = unRxsMXs unmcg16 v := by
  unfold unRxsMXsC unRxsMXs
  simp only
  cases unxorshift v 16 ((2 * 16 + 2) / 3) with
  | ok u =>
    have := u.isLt
    have hm : unmcg16.toNat = 28009 := rfl
    rw [Outcome.bind_ok, Outcome.bind_ok, arith_lt (by rw [hm]; omega), ofNat_mul']; rfl
  | _ => rfl

/-- The states whose output overflows: 30993 out of 65536. -/
theorem C100_sixteen_bits_count :
    (Finset.univ.filter fun s : BitVec 16 => rxsMXsC 16 mcg16 s = .ub).card = 30993 := by
  have hg : Function.Injective fun s : BitVec 16 => s ^^^ s >>> (3 + s.toNat / 2 ^ 13) := by
    intro a b hab
    apply (inj_of_unoutput C100_unoutput.2.1)
    have key : ∀ s : BitVec 16, rxsMXs 16 mcg16 s = (fun u : BitVec 16 =>
        (fun r : BitVec 16 => r ^^^ r >>> ((2 * 16 + 2) / 3)) (((u * mcg16) >>> (16 - 16)).setWidth 16))
          (s ^^^ s >>> (3 + s.toNat / 2 ^ 13)) := by
      intro s
      have ht : topBits s 3 = s.toNat / 2 ^ 13 := topBits_eq s 3 (by omega)
      have ho : rxsOpbits 16 = 3 := by decide
      unfold rxsMXs
      simp only [ho, ht]
    simp only at hab
    rw [key, key, hab]
  have h1 : (Finset.univ.filter fun s : BitVec 16 => rxsMXsC 16 mcg16 s = .ub).card =
      (Finset.univ.filter fun v : BitVec 16 => ¬ v.toNat < 34543).card := by
    refine Finset.card_bij (fun s _ => s ^^^ s >>> (3 + s.toNat / 2 ^ 13)) ?_ (fun a _ b _ h => hg h) ?_
    · intro s hs
      simp only [Finset.mem_filter, Finset.mem_univ, true_and] at hs ⊢
      rw [C100_sixteen_bits] at hs
      intro hlt
      rw [if_neg (by omega)] at hs
      cases hs
    · intro v hv
      obtain ⟨s, hs⟩ := (Finite.injective_iff_surjective.1 hg) v
      simp only [Finset.mem_filter, Finset.mem_univ, true_and] at hv
      refine ⟨s, ?_, hs⟩
      simp only [Finset.mem_filter, Finset.mem_univ, true_and]
      rw [C100_sixteen_bits, if_pos]
      simp only at hs
      rw [hs]; omega
  have h2 := Finset.card_filter_add_card_filter_not (s := (Finset.univ : Finset (BitVec 16)))
    (fun v => v.toNat < 34543)
  have h3 := card_below (x := 16) 34543 (by omega)
  have h4 : (Finset.univ : Finset (BitVec 16)).card = 65536 := by
    have := card_below (x := 16) (2 ^ 16) le_rfl
    rw [Finset.filter_true_of_mem (fun v _ => v.isLt)] at this
    exact this
  omega

/-- The state after `n` draws. -/
def Spec.drawN (draw : S → Outcome (α × S)) : Nat → S → Outcome S
  | 0, s => .ok s
  | n + 1, s => draw s >>= fun r => drawN draw n r.2

theorem drawN_cases (p : Par 16) (prev : Bool) (n : Nat) : ∀ s : BitVec 16,
    drawN (nextC p prev (rxsMXsC 16 mcg16)) n s = .ub ∨
    ∀ k < n, rxsMXsC 16 mcg16 ((bump p)^[k + (if prev then 0 else 1)] s) ≠ .ub := by
  induction n with
  | zero => intro s; exact .inr (by omega)
  | succ n ih =>
    intro s
    rw [drawN, nextC]
    rcases bumpC_agrees p s with hb | ⟨-, hb⟩
    · rw [hb, Outcome.bind_ok]
      have he : (if prev then s else bump p s) = (bump p)^[if prev then 0 else 1] s := by
        cases prev <;> rfl
      rcases rxsMXsC_agrees 16 mcg16 (if prev then s else bump p s) with ho | ⟨-, ho⟩
      · rw [ho, Outcome.bind_ok]
        rcases ih (bump p s) with h | h
        · exact .inl h
        · refine .inr ?_
          rintro (_ | k) hk
          · rw [Nat.zero_add, ← he, ho]; exact nofun
          · have := h k (by omega)
            rwa [← Function.iterate_succ_apply, show (k + (if prev then 0 else 1)).succ =
              k + 1 + (if prev then 0 else 1) by omega] at this
      · rw [ho]; exact .inl rfl
    · rw [hb]; exact .inl rfl

/-- **C100 fails**: an engine with 16-bit state and result, such as `pcg16_once_insecure`, overflows on the
way through its period, whatever its stream and wherever it starts; no sequence of `2 ^ 16` draws is
defined. -/
theorem C100_sixteen_bits_draws {p : Par 16} (hg : Good p) (hm : p.mcg = false) (prev : Bool)
    (s : BitVec 16) : drawN (nextC p prev (rxsMXsC 16 mcg16)) (2 ^ 16) s = .ub := by
  have hr : ∀ u, Reach p u := fun u h => by rw [hm] at h; cases h
  rcases drawN_cases p prev (2 ^ 16) s with h | h
  · exact h
  · exfalso
    obtain ⟨n, ⟨hn, he⟩, -⟩ := C95_all_states hg (hr ((bump p)^[if prev then 0 else 1] s)) (hr 65535#16)
    rw [← bump_iter_toNat, BitVec.toNat_inj] at he
    have hper : period p = 2 ^ 16 := by simp [period, hm]
    refine h n (by omega) ?_
    rw [Function.iterate_add_apply, he, C100_sixteen_bits, if_pos (by decide)]

/-! ## Cases -/

/-- `oneseq_xsh_rr_16_8`: a discard of 1000 is undefined from every state, one draw is not. -/
example (s : BitVec 16) : advanceC ⟨mult16, inc16, false⟩ s 1000#16 = .ub ∧
    nextC ⟨mult16, inc16, false⟩ true (fun u => .ok (xshRr 8 u)) s =
      .ok (next ⟨mult16, inc16, false⟩ true (xshRr 8) s) :=
  ⟨C94_sixteen_bits rfl s _ (by decide), (C159_draw rfl s).2 true _⟩

/-- `pcg16_once_insecure` on any stream. -/
example (seq s : BitVec 16) :
    drawN (nextC ⟨mult16, setStream seq, false⟩ true (rxsMXsC 16 mcg16)) (2 ^ 16) s = .ub :=
  C100_sixteen_bits_draws (C95_engines.2.2.1 seq) rfl true s

/-- A state whose output is defined, and one whose output is not. -/
example : rxsMXsC 16 mcg16 1#16 = .ok (rxsMXs 16 mcg16 1#16) ∧ rxsMXsC 16 mcg16 40000#16 = .ub := by
  rw [C100_sixteen_bits, C100_sixteen_bits]
  exact ⟨if_neg (by decide), if_pos (by decide)⟩

/-- Two steps apart and 200 steps apart. -/
example (s : BitVec 16) (dbg : Bool) {t : BitVec 16}
    (ht : t.toNat = steps 12829 47989 (2 ^ 16) 200 s.toNat) :
    minusC dbg 17 ⟨mult16, inc16, false⟩ t s = .ub :=
  C96_sixteen_bits (p := ⟨mult16, inc16, false⟩) C95_engines.1.2.1 rfl dbg (fun h => by cases h) 200 (by omega)
    (by decide) ht 17 (by omega)

end Verif.Pcg
