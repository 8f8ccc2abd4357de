import Verif.Tmpl.LemmasTerm

/-! # More fuel does not change a result -/

namespace Verif.Tmpl

open Verif Spec

/-- `y` is `x`, unless `x` ran out of fuel. -/
def Le {α : Type} (x y : Outcome α) : Prop := x ≠ .diverge → y = x

theorem Le.refl {α : Type} (x : Outcome α) : Le x x := fun _ => rfl

theorem Le.bind {α β : Type} {x y : Outcome α} {f g : α → Outcome β} (h : Le x y) (hf : ∀ a, x = .ok a → Le (f a) (g a)) : Le (x >>= f) (y >>= g) := by
  intro hne
  have hx : x ≠ .diverge := by rintro rfl; exact hne rfl
  rw [h hx]
  cases x with
  | ok a => exact hf a rfl hne
  | throw => rfl
  | assertFail => rfl
  | ub => rfl
  | diverge => exact absurd rfl hx

theorem readKey_mono (dbg : Bool) (src : Str) : ∀ f i, Le (readKey dbg src f i) (readKey dbg src (f + 1) i) := by
  intro f
  induction f with
  | zero => intro i h; exact absurd rfl h
  | succ f ih =>
    intro i
    rw [readKey, readKey]
    refine Le.bind (.refl _) (fun c _ => ?_)
    split
    · exact .refl _
    · exact Le.bind (ih _) (fun _ _ => .refl _)

theorem findEnd_mono (dbg : Bool) (src key : Str) : ∀ f i, Le (findEnd dbg src key f i) (findEnd dbg src key (f + 1) i) := by
  intro f
  induction f with
  | zero => intro i h; exact absurd rfl h
  | succ f ih =>
    intro i
    rw [findEnd, findEnd]
    refine Le.bind (.refl _) (fun c _ => ?_)
    split
    · refine Le.bind (.refl _) (fun mj _ => ?_)
      simp only
      split
      · exact .refl _
      · exact ih _
    · exact ih _

theorem forDicts_mono {g g' : Dict → Bool → Outcome (Str × Bool)} (h : ∀ d s, Le (g d s) (g' d s)) : ∀ ds, Le (forDicts g ds) (forDicts g' ds) := by
  intro ds
  induction ds with
  | nil => exact .refl _
  | cons d ds ih =>
    cases ds with
    | nil => exact Le.bind (h d false) (fun _ _ => .refl _)
    | cons e ds =>
      have e1 : ∀ g, forDicts g (d :: e :: ds) = (do let (s, _) ← g d true; let t ← forDicts g (e :: ds); pure (s ++ t)) := fun g => by
        rw [forDicts]; simp
      rw [e1 g, e1 g']
      exact Le.bind (h d true) (fun _ _ => Le.bind ih (fun _ _ => .refl _))

theorem replaceSection_mono {dbg : Bool} {set : Settings} {src : Str} {g g' : List Dict → Nat → Nat → Bool → Outcome (Str × Bool)}
    (h : ∀ a b c d, Le (g a b c d) (g' a b c d)) (ch : List Dict) (k : Str) (a b c d : Nat) :
    Le (replaceSection dbg set src g ch k a b c d) (replaceSection dbg set src g' ch k a b c d) := by
  unfold replaceSection
  split
  · exact Le.bind (forDicts_mono (fun _ _ => h _ _ _ _) _) (fun _ _ => .refl _)
  · exact .refl _

theorem expand_mono (dbg : Bool) (set : Settings) (src : Str) : ∀ f ch i e sep, Le (expand dbg set src f ch i e sep) (expand dbg set src (f + 1) ch i e sep) := by
  intro f
  induction f with
  | zero => intro ch i e sep h; exact absurd rfl h
  | succ f ih =>
    intro ch i e sep
    rw [expand, expand]
    split
    · refine Le.bind (.refl _) (fun c _ => Le.bind (.refl _) (fun pl _ => ?_))
      split
      · exact Le.bind (ih _ _ _ _) (fun _ _ => .refl _)
      · refine Le.bind (.refl _) (fun kj _ => ?_)
        obtain ⟨kind, j⟩ := kj
        simp only
        refine Le.bind (readKey_mono _ _ _ _) (fun kj _ => Le.bind (.refl _) (fun _ _ => ?_))
        cases kind with
        | normal => exact Le.bind (ih _ _ _ _) (fun _ _ => .refl _)
        | separator => exact Le.bind (ih _ _ _ _) (fun _ _ => .refl _)
        | sect =>
          refine Le.bind (.refl _) (fun _ _ => Le.bind (findEnd_mono _ _ _ _ _) (fun ab _ => ?_))
          refine Le.bind (replaceSection_mono (fun _ _ _ _ => ih _ _ _ _) _ _ _ _ _ _) (fun _ _ => Le.bind (ih _ _ _ _) (fun _ _ => .refl _))
    · exact .refl _

theorem passes_mono (dbg : Bool) (set : Settings) (d : Dict) : ∀ f src, Le (passes dbg set d f src) (passes dbg set d (f + 1) src) := by
  intro f
  induction f with
  | zero => intro src h; exact absurd rfl h
  | succ f ih =>
    intro src
    rw [passes, passes]
    refine Le.bind (expand_mono _ _ _ _ _ _ _ _) (fun a _ => ?_)
    simp only
    split
    · exact ih _
    · exact .refl _

theorem getExpanded_mono (dbg : Bool) (set : Settings) (d : Dict) (src : Str) {f g : Nat} (h : f ≤ g) : Le (getExpanded dbg set d f src) (getExpanded dbg set d g src) := by
  induction h with
  | refl => exact .refl _
  | @step m _ ih =>
    intro hne
    have h1 := ih hne
    have h2 : Le (getExpanded dbg set d m src) (getExpanded dbg set d (m + 1) src) := Le.bind (passes_mono _ _ _ _ _) (fun _ _ => .refl _)
    rw [← h1] at hne ⊢
    exact h2 hne

end Verif.Tmpl
