import Verif.Json.SpecWrite
import Verif.IntStr.Theorems

/-!
# A concrete number type for the examples

`RealOps` leaves `double` abstract. `demoOps` is one instance, used to show that the laws assumed in the theorems can be
met and to run concrete texts: reals are rational numbers, integers of more than 53 bits are rounded as for a
`double` (fractions are not), `strtod` accepts decimal numerals with fraction and exponent.
-/

namespace Verif.Json

open Verif

mutual
def decVal {R : Type} [DecidableEq R] : (a b : Val R) → Decidable (a = b)
  | .obj a, .obj b => match decObj a b with
    | isTrue h => isTrue (h ▸ rfl)
    | isFalse h => isFalse (by intro e; cases e; exact h rfl)
  | .arr a, .arr b => match decArr a b with
    | isTrue h => isTrue (h ▸ rfl)
    | isFalse h => isFalse (by intro e; cases e; exact h rfl)
  | .str a, .str b => if h : a = b then isTrue (h ▸ rfl) else isFalse (by intro e; cases e; exact h rfl)
  | .num a, .num b => if h : a = b then isTrue (h ▸ rfl) else isFalse (by intro e; cases e; exact h rfl)
  | .bln a, .bln b => if h : a = b then isTrue (h ▸ rfl) else isFalse (by intro e; cases e; exact h rfl)
  | .nll, .nll => isTrue rfl
  | .obj _, .arr _ | .obj _, .str _ | .obj _, .num _ | .obj _, .bln _ | .obj _, .nll => isFalse (by intro e; cases e)
  | .arr _, .obj _ | .arr _, .str _ | .arr _, .num _ | .arr _, .bln _ | .arr _, .nll => isFalse (by intro e; cases e)
  | .str _, .obj _ | .str _, .arr _ | .str _, .num _ | .str _, .bln _ | .str _, .nll => isFalse (by intro e; cases e)
  | .num _, .obj _ | .num _, .arr _ | .num _, .str _ | .num _, .bln _ | .num _, .nll => isFalse (by intro e; cases e)
  | .bln _, .obj _ | .bln _, .arr _ | .bln _, .str _ | .bln _, .num _ | .bln _, .nll => isFalse (by intro e; cases e)
  | .nll, .obj _ | .nll, .arr _ | .nll, .str _ | .nll, .num _ | .nll, .bln _ => isFalse (by intro e; cases e)

def decArr {R : Type} [DecidableEq R] : (a b : List (Val R)) → Decidable (a = b)
  | [], [] => isTrue rfl
  | [], _ :: _ => isFalse (by intro e; cases e)
  | _ :: _, [] => isFalse (by intro e; cases e)
  | a :: as, b :: bs => match decVal a b, decArr as bs with
    | isTrue h, isTrue h' => isTrue (by rw [h, h'])
    | isFalse h, _ => isFalse (by intro e; cases e; exact h rfl)
    | _, isFalse h => isFalse (by intro e; cases e; exact h rfl)

def decObj {R : Type} [DecidableEq R] : (a b : List (List Char × Val R)) → Decidable (a = b)
  | [], [] => isTrue rfl
  | [], _ :: _ => isFalse (by intro e; cases e)
  | _ :: _, [] => isFalse (by intro e; cases e)
  | (k, a) :: as, (l, b) :: bs => if hk : k = l then match decVal a b, decObj as bs with
      | isTrue h, isTrue h' => isTrue (by rw [h, h', hk])
      | isFalse h, _ => isFalse (by intro e; cases e; exact h rfl)
      | _, isFalse h => isFalse (by intro e; cases e; exact h rfl)
    else isFalse (by intro e; cases e; exact hk rfl)
end

instance {R : Type} [DecidableEq R] : DecidableEq (Val R) := decVal

/-- An integer rounded to 53 significant bits, ties to even. -/
def round53 (n : Nat) : Nat :=
  if n ≤ 2 ^ 53 then n
  else
    let u := 2 ^ (Nat.log2 n - 52)
    let q := n / u
    let r := n % u
    if 2 * r < u ∨ (2 * r = u ∧ q % 2 = 0) then q * u else (q + 1) * u

def roundInt (n : Int) : Int := if n < 0 then -(round53 n.natAbs : Int) else (round53 n.natAbs : Int)

/-- Truncation towards zero. -/
def ratTrunc (q : Rat) : Int := q.num.tdiv q.den

/-- `[+-]digits` of an exponent. -/
def demoExp (s : List Char) : Option (Int × Nat) :=
  let sg : Nat := match s with
    | '-' :: _ => 1
    | '+' :: _ => 1
    | _ => 0
  let ds := (s.drop sg).takeWhile Char.isDigit
  if ds = [] then none
  else
    let n : Int := Nat.ofDigitChars 10 ds 0
    some (if s.head? = some '-' then -n else n, sg + ds.length)

/-- `10 ^ e`. -/
def pow10 (e : Int) : Rat := if e < 0 then 1 / (10 ^ e.natAbs : Nat) else (10 ^ e.natAbs : Nat)

def demoStrtod (s : List Char) : Rat × Nat :=
  let sg : Nat := if s.head? = some '-' then 1 else 0
  let s1 := s.drop sg
  let d1 := s1.takeWhile Char.isDigit
  let s2 := s1.drop d1.length
  let d2 := if s2.head? = some '.' then (s2.drop 1).takeWhile Char.isDigit else []
  let n2 := if s2.head? = some '.' then 1 + d2.length else 0
  let s3 := s2.drop n2
  if d1 = [] ∧ d2 = [] then (0, 0)
  else
    let (e, n3) : Int × Nat := if s3.head? = some 'e' ∨ s3.head? = some 'E' then
        (match demoExp (s3.drop 1) with
          | some (e, n) => (e, n + 1)
          | none => (0, 0))
      else (0, 0)
    let m : Nat := Nat.ofDigitChars 10 (d1 ++ d2) 0
    let e' := e - d2.length
    let v : Rat := if e' = 0 then ((round53 m : Nat) : Rat) else (m : Rat) * pow10 e'
    (if s.head? = some '-' then -v else v, sg + d1.length + n2 + n3)

def demoOps : RealOps Rat where
  strtod := demoStrtod
  toInt q := let n := ratTrunc q; if -(2 ^ 63) ≤ n ∧ n < 2 ^ 63 then some n else none
  toUInt q := let n := ratTrunc q; if 0 ≤ n ∧ n < 2 ^ 64 then some n.toNat else none
  ofInt n := roundInt n
  eq a b := a == b
  isdigitHigh _ := none
  toText q :=
    if q.den = 1 then IntStr.intText q.num
    else
      let n := (q * 1000000).num.natAbs / (q * 1000000).den
      (if q < 0 then ['-'] else []) ++ IntStr.natText (n / 1000000) ++ '.' ::
        (List.replicate (6 - (IntStr.natText (n % 1000000)).length) '0' ++ IntStr.natText (n % 1000000))

theorem round53_small {n : Nat} (h : n ≤ 2 ^ 53) : round53 n = n := if_pos h

theorem takeWhile_digits {ds rest : List Char} (h : ∀ c ∈ ds, c.isDigit = true) (hr : Terminated rest) :
    (ds ++ rest).takeWhile Char.isDigit = ds := by
  induction ds with
  | nil =>
    cases rest with
    | nil => rfl
    | cons c t =>
      have := hr c rfl
      have hc : c.isDigit = false := by
        simp only [List.mem_cons, List.not_mem_nil, or_false] at this
        rcases this with rfl | rfl | rfl | rfl | rfl | rfl | rfl | rfl <;> decide
      simp [hc]
  | cons c t ih =>
    have h1 := h c List.mem_cons_self
    rw [List.cons_append, List.takeWhile_cons, if_pos h1, ih (fun d hd => h d (List.mem_cons_of_mem _ hd))]

theorem terminated_head {rest : List Char} (hr : Terminated rest) :
    rest.head? ≠ some '.' ∧ rest.head? ≠ some 'e' ∧ rest.head? ≠ some 'E' := by
  refine ⟨?_, ?_, ?_⟩ <;> intro h <;> have := hr _ h <;> simp at this

theorem demoStrtod_nat {n : Nat} {rest : List Char} (hr : Terminated rest) :
    demoStrtod (Nat.toDigits 10 n ++ rest) = (((round53 n : Nat) : Rat), (Nat.toDigits 10 n).length) ∧
    demoStrtod ('-' :: Nat.toDigits 10 n ++ rest)
      = (-((round53 n : Nat) : Rat), (Nat.toDigits 10 n).length + 1) := by
  have hd : ∀ c ∈ Nat.toDigits 10 n, c.isDigit = true := fun c hc =>
    Nat.isDigit_of_mem_toDigits (by omega) (by omega) hc
  have htw := takeWhile_digits hd hr
  obtain ⟨h1, h2, h3⟩ := terminated_head hr
  have hne : Nat.toDigits 10 n ≠ [] := Nat.toDigits_ne_nil
  have hm : Nat.ofDigitChars 10 (Nat.toDigits 10 n) 0 = n := Nat.ofDigitChars_ten_toDigits
  constructor
  · have hh : (Nat.toDigits 10 n ++ rest).head? ≠ some '-' := by
      cases hds : Nat.toDigits 10 n with
      | nil => exact absurd hds hne
      | cons c t =>
        have := hd c (by rw [hds]; exact List.mem_cons_self)
        simp only [List.cons_append, List.head?_cons, ne_eq, Option.some.injEq]
        rintro rfl; exact absurd this (by decide)
    have hh' : (Nat.toDigits 10 n).head? ≠ some '-' := by
      intro h; rw [List.head?_append, h] at hh; exact hh rfl
    simp [demoStrtod, hh', htw, h1, h2, h3, hne, hm]
  · simp [demoStrtod, htw, h1, h2, h3, hne, hm]; omega

theorem demo_laws : IntLaws demoOps where
  strtod_int n h rest hr := by
    unfold IntStr.intText IntStr.natText
    have hr53 := round53_small h
    by_cases hneg : n < 0
    · have := (demoStrtod_nat (n := n.natAbs) hr).2
      simp only [if_pos hneg, demoOps, roundInt]
      rw [this, hr53]
      have e : ((-(n.natAbs : Int) : Int) : Rat) = -((n.natAbs : Nat) : Rat) := by
        rw [Rat.intCast_neg]; rfl
      rw [e]
      simp
    · have := (demoStrtod_nat (n := n.natAbs) hr).1
      simp only [if_neg hneg, demoOps, roundInt]
      rw [this, hr53]
      rfl
  toInt_ofInt n h := by
    have hr53 := round53_small h
    have : roundInt n = n := by unfold roundInt; rw [hr53]; split <;> omega
    have ht : ratTrunc ((n : Int) : Rat) = n := by simp [ratTrunc]
    simp only [demoOps, this, ht]
    rw [if_pos]
    omega
  eq_ofInt n _ := by simp [demoOps]
  eq_symm a b := by 
    simp only [demoOps]
    by_cases h : a = b
    · subst h; rfl
    · rw [beq_eq_false_iff_ne.2 h, beq_eq_false_iff_ne.2 (Ne.symm h)]

end Verif.Json
