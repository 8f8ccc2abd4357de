/-!
# Outcomes of C++ calls

Shared by all areas of the model. A C++ call either returns a value, throws, fails an `assert`
(debug builds), runs into undefined behaviour, or does not terminate. These are kept apart; no model
function replaces a failing access by a default value.
-/

namespace Verif

/-- Result of running a piece of modelled C++ code.

* `ok a`       - returned `a`;
* `throw`      - left by an exception;
* `assertFail` - a `assert(...)` was false (what a debug build reports); where a model says so, also the end of the program
  by `std::terminate` or `abort`;
* `ub`         - undefined behaviour: out-of-range access, uninitialised or destroyed object, ...;
* `diverge`    - the fuel given to a loop ran out. -/
inductive Outcome (α : Type u) where
  | ok (a : α)
  | throw
  | assertFail
  | ub
  | diverge
  deriving Repr, DecidableEq

namespace Outcome

/-- Sequencing: the first non-`ok` outcome wins. -/
def bind {α : Type u} {β : Type v} : Outcome α → (α → Outcome β) → Outcome β
  | ok a, f => f a
  | throw, _ => throw
  | assertFail, _ => assertFail
  | ub, _ => ub
  | diverge, _ => diverge

instance : Monad Outcome where
  pure := ok
  bind := Outcome.bind

@[simp] theorem pure_eq {α : Type u} (a : α) : (pure a : Outcome α) = ok a := rfl
@[simp] theorem bind_ok {α β : Type u} (a : α) (f : α → Outcome β) :
    (ok a >>= f) = f a := rfl
@[simp] theorem bind_throw {α β : Type u} (f : α → Outcome β) :
    ((throw : Outcome α) >>= f) = throw := rfl
@[simp] theorem bind_assertFail {α β : Type u} (f : α → Outcome β) :
    ((assertFail : Outcome α) >>= f) = assertFail := rfl
@[simp] theorem bind_ub {α β : Type u} (f : α → Outcome β) :
    ((ub : Outcome α) >>= f) = ub := rfl
@[simp] theorem bind_diverge {α β : Type u} (f : α → Outcome β) :
    ((diverge : Outcome α) >>= f) = diverge := rfl

/-- A computation that succeeds: its two halves succeed. -/
theorem bind_eq_ok {α β : Type u} {x : Outcome α} {f : α → Outcome β} {b : β} :
    (x >>= f) = ok b ↔ ∃ a, x = ok a ∧ f a = ok b := by
  cases x <;> simp

/-- `assert(b)`. -/
def check (b : Bool) : Outcome Unit := if b then ok () else assertFail

@[simp] theorem check_true : check true = ok () := rfl
@[simp] theorem check_false : check false = assertFail := rfl

/-- An access that is defined only when the value exists. -/
def ofOption {α : Type u} : Option α → Outcome α
  | some a => ok a
  | none => ub

@[simp] theorem ofOption_some {α : Type u} (a : α) : ofOption (some a) = ok a := rfl
@[simp] theorem ofOption_none {α : Type u} : ofOption (none : Option α) = ub := rfl

end Outcome
end Verif
