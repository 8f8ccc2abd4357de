import Mathlib.Data.Int.Log
import Mathlib.Data.Rat.Floor

/-!
# Numerals and the values of type `float`

Independent of the functions in `Float.lean`.
-/

namespace Verif.CmdLine.FloatSpec

/-- The character `c` is the digit `d` to the base `b`. -/
def Digit (b : ℕ) (c : Char) (d : ℕ) : Prop :=
  d < b ∧ ((d < 10 ∧ c = Char.ofNat (48 + d)) ∨ (10 ≤ d ∧ (c = Char.ofNat (87 + d) ∨ c = Char.ofNat (55 + d))))

/-- A row of digits, perhaps empty, and its value; most significant digit first. -/
inductive Row (b : ℕ) : List Char → ℕ → Prop where
  | nil : Row b [] 0
  | snoc {s : List Char} {n : ℕ} {c : Char} {d : ℕ} (h : Row b s n) (hd : Digit b c d) : Row b (s ++ [c]) (b * n + d)

/-- The text does not begin with a digit. -/
def NoDigit (b : ℕ) (s : List Char) : Prop := ∀ c d, s.head? = some c → ¬ Digit b c d

/-- The factor for the exponent a text begins with, 1 if there is none: one of two letters, perhaps a sign, decimal digits. -/
inductive Scale (low up : Char) (eb : ℕ) : List Char → ℚ → Prop where
  | pos {c : Char} {sg ds rest : List Char} {n : ℕ} (hc : c = low ∨ c = up) (hs : sg = [] ∨ sg = ['+']) (hd : Row 10 ds n) (hn : ds ≠ [])
      (hr : NoDigit 10 rest) : Scale low up eb (c :: sg ++ ds ++ rest) (eb ^ n)
  | neg {c : Char} {ds rest : List Char} {n : ℕ} (hc : c = low ∨ c = up) (hd : Row 10 ds n) (hn : ds ≠ [])
      (hr : NoDigit 10 rest) : Scale low up eb (c :: '-' :: ds ++ rest) (1 / eb ^ n)
  | none {s : List Char} (h : ∀ c sg d n t, c = low ∨ c = up → sg = [] ∨ sg = ['+'] ∨ sg = ['-'] → Digit 10 d n → s ≠ c :: sg ++ d :: t) :
      Scale low up eb s 1

/-- The longest numeral that the text begins with has the value `q`: digits to the base `b`, with or without a point, and an exponent to
the base `eb`. -/
inductive Numeral (b eb : ℕ) (low up : Char) : List Char → ℚ → Prop where
  | whole {ip rest : List Char} {n : ℕ} {f : ℚ} (h : Row b ip n) (hn : ip ≠ []) (hr : NoDigit b rest) (hp : rest.head? ≠ some '.')
      (hf : Scale low up eb rest f) : Numeral b eb low up (ip ++ rest) (n * f)
  | point {ip fp rest : List Char} {n : ℕ} {f : ℚ} (h : Row b (ip ++ fp) n) (hn : ip ++ fp ≠ []) (hr : NoDigit b rest)
      (hf : Scale low up eb rest f) : Numeral b eb low up (ip ++ '.' :: fp ++ rest) (n / b ^ fp.length * f)

/-- The text begins with a hexadecimal numeral: `0x` and a digit, before which there may be a point. -/
def Hex (s : List Char) : Prop :=
  ∃ x c d t, (x = 'x' ∨ x = 'X') ∧ Digit 16 c d ∧ (s = '0' :: x :: c :: t ∨ s = '0' :: x :: '.' :: c :: t)

/-- The text begins with a numeral for the number `q`, without sign. -/
inductive Magnitude : List Char → ℚ → Prop where
  | dec {s : List Char} {q : ℚ} (h : ¬ Hex s) (hn : Numeral 10 10 'e' 'E' s q) : Magnitude s q
  | hex {x : Char} {s : List Char} {q : ℚ} (h : Hex ('0' :: x :: s)) (hn : Numeral 16 2 'p' 'P' s q) : Magnitude ('0' :: x :: s) q

/-- The finite values of `float`. -/
def FloatNum (v : ℚ) : Prop := ∃ m e : ℤ, |m| < 2 ^ 24 ∧ -149 ≤ e ∧ e ≤ 104 ∧ v = m * 2 ^ e

/-- `v` is the `float` nearest to `q`; if there are two, the one whose last digit is even. -/
def Nearest (q v : ℚ) : Prop :=
  FloatNum v ∧ (∀ u, FloatNum u → |v - q| ≤ |u - q|) ∧
    ((∃ u, FloatNum u ∧ u ≠ v ∧ |u - q| = |v - q|) →
      ∃ m e : ℤ, |m| < 2 ^ 24 ∧ -149 ≤ e ∧ e ≤ 104 ∧ (2 ^ 23 ≤ |m| ∨ e = -149) ∧ v = m * 2 ^ e ∧ Even m)

/-- `q` becomes the `float` `v`. Numbers from half a unit of the last digit beyond the largest `float` on are refused, and so are the
numbers below the normal ones that are not exact. -/
def Becomes (q v : ℚ) : Prop :=
  Nearest q v ∧ |q| < 2 ^ 128 - 2 ^ 103 ∧ (v = q ∨ 2 ^ (-126 : ℤ) - 2 ^ (-151 : ℤ) ≤ |q|)

end Verif.CmdLine.FloatSpec
