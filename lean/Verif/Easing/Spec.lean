import Verif.Easing.Model

/-!
# What is asked of an easing function

An easing function is looked at from outside: what it gives for a time, a start value, a
change and a duration.  Of the model only the kind of results (`Res`) is used here.
-/

namespace Verif.Easing.Spec

/-- An easing function: time, start, change, duration. -/
abbrev Fn := ℝ → ℝ → ℝ → ℝ → Res

/-- It gives the start value at time zero. -/
def Starts (f : Fn) (b c d : ℝ) : Prop := f 0 b c d = .num b

/-- It gives the start value and the change at the end of the duration. -/
def Ends (f : Fn) (b c d : ℝ) : Prop := f d b c d = .num (b + c)

/-- A function of time has the value `m` at `t₀`, and close to `t₀` it has values as close
to `m` as is asked for. -/
def ContinuousWith (f : ℝ → Res) (t₀ m : ℝ) : Prop :=
  f t₀ = .num m ∧
  ∀ ε > 0, ∃ δ > 0, ∀ t, |t - t₀| < δ → ∃ v, f t = .num v ∧ |v - m| < ε

/-- `out` is `inn` turned by half a turn: what is left to go at a time is what `inn` has
gone when that much time is left. -/
def Mirror (inn out : Fn) (t b c d : ℝ) : Prop :=
  (∃ v, inn (d - t) b c d = .num v ∧ out t b c d = .num (b + c - (v - b))) ∨
  (∃ r, (∀ v, r ≠ .num v) ∧ inn (d - t) b c d = r ∧ out t b c d = r)

/-- `inOut` is made of two halves: `inn` to half of the change in the first half of the
duration, then `out` for the rest. -/
def Halves (inn out inOut : Fn) (t b c d : ℝ) : Prop :=
  (t / d < 1 / 2 → inOut t b c d = inn (2 * t) b (c / 2) d) ∧
  (1 / 2 ≤ t / d → inOut t b c d = out (2 * t - d) (b + c / 2) (c / 2) d)

/-- Between its ends the function stays between its end values. -/
def Between (f : Fn) (t b c d : ℝ) : Prop :=
  ∃ v, f t b c d = .num v ∧ min b (b + c) ≤ v ∧ v ≤ max b (b + c)

end Verif.Easing.Spec
