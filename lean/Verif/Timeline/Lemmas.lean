import Verif.Timeline.Spec
import Mathlib.Data.List.Induction

/-!
# Lemmas about timelines
-/

namespace Verif.Timeline

open Verif

variable {F : Type} (o : Ops F) (env : List Event → Nat → Bool)

theorem indexAt_ne {n k : Nat} (h : k < n) : indexAt n k ≠ -1 := by
  unfold indexAt; rw [if_neg (by omega)]; omega

theorem indexAt_lt {n k : Nat} (h : k < n) : indexAt n k = k := by
  unfold indexAt; rw [if_neg (by omega)]

theorem indexAt_self (n : Nat) : indexAt n n = -1 := by
  unfold indexAt; rw [if_pos rfl]

theorem next_at (t : TL F) (k : Nat) (hk : k < t.cmds.length) (h : t.cIdx = indexAt t.cmds.length k) :
    t.next = .ok { t with cIdx := indexAt t.cmds.length (k + 1) } := by
  unfold TL.next
  rw [h, if_neg (indexAt_ne hk), indexAt_lt hk]
  simp only
  rw [if_neg (by omega)]
  unfold indexAt
  by_cases hh : k + 1 = t.cmds.length
  · rw [if_pos hh, if_pos (by omega)]
  · rw [if_neg hh, if_neg (by omega)]; rfl

theorem current_at (t : TL F) (k : Nat) (c : Cmd F) (hc : t.cmds[k]? = some c) (h : t.cIdx = indexAt t.cmds.length k) :
    t.current = .ok (k, c) := by
  have hk : k < t.cmds.length := by
    rw [List.getElem?_eq_some_iff] at hc; exact hc.1
  unfold TL.current
  rw [h, indexAt_lt hk, if_neg (by omega)]
  simp [hc]

theorem runActs_emits (t : TL F) (log : List Event) (as : List Act) (h : ∀ a ∈ as, a.isEmit = true) :
    ∃ l, runActs t log as = (t, log ++ l) ∧ emitted l = Cmd.emits (.act as : Cmd F) ∧
      ∀ e ∈ l, ∃ n, e = Event.emit n := by
  induction as generalizing log with
  | nil => exact ⟨[], by simp [runActs], rfl, by simp⟩
  | cons a as ih =>
    have ha := h a (by simp)
    cases a with
    | emit n =>
      obtain ⟨l, h1, h2, h3⟩ := ih (log ++ [.emit n]) (fun x hx => h x (by simp [hx]))
      refine ⟨.emit n :: l, by simp [runActs, h1], ?_, ?_⟩
      · simp only [emitted, Cmd.emits] at h2 ⊢
        simp [h2]
      · simpa using h3
    | _ => simp [Act.isEmit] at ha

theorem emitted_append (a b : List Event) : emitted (a ++ b) = emitted a ++ emitted b := by
  simp [emitted]

/-- One `Do` in the loop. -/
theorem loop_act (fuel : Nat) (t : TL F) (log : List Event) (ft : F) (k : Nat) (as : List Act)
    (hc : t.cmds[k]? = some (.act as)) (hi : t.cIdx = indexAt t.cmds.length k) (hs : ∀ a ∈ as, a.isEmit = true)
    (hr : t.ready = true) :
    ∃ l, emitted l = Cmd.emits (.act as : Cmd F) ∧
      loop o env (fuel + 1) t log ft =
        loop o env fuel { t with cIdx := indexAt t.cmds.length (k + 1), remainder := o.zero } (log ++ l) ft := by
  have hk : k < t.cmds.length := by
    rw [List.getElem?_eq_some_iff] at hc; exact hc.1
  obtain ⟨l, h1, h2, h3⟩ := runActs_emits t log as hs
  refine ⟨l, h2, ?_⟩
  rw [loop, if_neg (by rw [hi]; exact indexAt_ne hk)]
  simp only [exec, current_at t k _ hc hi, Outcome.bind_ok, h1, next_at t k hk hi, Outcome.pure_eq, hr, if_true]

/-- A run of `Do`s. -/
theorem loop_acts (fuel : Nat) (t : TL F) (log : List Event) (ft : F) (k : Nat) (ds rest : List (Cmd F))
    (hd : t.cmds.drop k = ds ++ rest) (hds : ∀ c ∈ ds, c.isDo = true ∧ c.Simple) (hk : k ≤ t.cmds.length)
    (hi : t.cIdx = indexAt t.cmds.length k) (hr : t.ready = true) (hz : t.remainder = o.zero) :
    ∃ l, emitted l = ds.flatMap Cmd.emits ∧
      loop o env (fuel + ds.length) t log ft =
        loop o env fuel { t with cIdx := indexAt t.cmds.length (k + ds.length) } (log ++ l) ft := by
  induction ds generalizing t log k with
  | nil =>
    refine ⟨[], rfl, ?_⟩
    have : ({ t with cIdx := indexAt t.cmds.length (k + 0) } : TL F) = t := by rw [Nat.add_zero, ← hi]
    simp only [List.length_nil, Nat.add_zero, List.append_nil] at this ⊢
    rw [this]
  | cons c ds ih =>
    obtain ⟨h1, h2⟩ := hds c (by simp)
    cases c with
    | act as =>
      have hc : t.cmds[k]? = some (.act as) := by
        have := congrArg (·[0]?) hd
        simpa using this
      have hkl : k < t.cmds.length := by
        rw [List.getElem?_eq_some_iff] at hc; exact hc.1
      obtain ⟨l1, e1, g1⟩ := loop_act o env (fuel + ds.length) t log ft k as hc hi h2 hr
      obtain ⟨l2, e2, g2⟩ := ih { t with cIdx := indexAt t.cmds.length (k + 1), remainder := o.zero } (log ++ l1) (k + 1)
        (by simp only [← List.drop_drop, hd]; simp) (fun c hc => hds c (by simp [hc])) hkl rfl hr rfl
      refine ⟨l1 ++ l2, by simp [emitted_append, e1, e2], ?_⟩
      rw [List.length_cons, ← Nat.add_assoc, g1, g2, List.append_assoc]
      simp only [hz]
      rw [show k + 1 + ds.length = k + (ds.length + 1) by omega]
    | wait _ _ => simp [Cmd.isDo] at h1
    | waitLoop _ _ => simp [Cmd.isDo] at h1
    | go _ _ _ => simp [Cmd.isDo] at h1

/-- The end of the command list. -/
theorem loop_end (fuel : Nat) (t : TL F) (log : List Event) (ft : F) (h : t.cIdx = -1) :
    loop o env (fuel + 1) t log ft = .ok (t.stop, log) := by
  rw [loop, if_pos h]

/-- A `Wait` that goes on. -/
theorem loop_wait_more (fuel : Nat) (t : TL F) (log : List Event) (ft : F) (k : Nat) (time cur : F)
    (hc : t.cmds[k]? = some (.wait time cur)) (hi : t.cIdx = indexAt t.cmds.length k)
    (hp : o.pos (o.sub cur (o.add ft t.remainder)) = true) :
    loop o env (fuel + 1) t log ft =
      .ok ({ t with ready := false, remainder := o.zero,
                    cmds := t.cmds.set k (.wait time (o.sub cur (o.add ft t.remainder))) }, log) := by
  have hk : k < t.cmds.length := by
    rw [List.getElem?_eq_some_iff] at hc; exact hc.1
  rw [loop, if_neg (by rw [hi]; exact indexAt_ne hk)]
  simp only [exec, current_at t k _ hc hi, Outcome.bind_ok, hp, if_true, Outcome.pure_eq, Bool.false_eq_true, if_false]

/-- A `Wait` that ends. -/
theorem loop_wait_done (fuel : Nat) (t : TL F) (log : List Event) (ft : F) (k : Nat) (time cur : F)
    (hc : t.cmds[k]? = some (.wait time cur)) (hi : t.cIdx = indexAt t.cmds.length k)
    (hp : o.pos (o.sub cur (o.add ft t.remainder)) = false) :
    loop o env (fuel + 1) t log ft =
      .ok ({ t with ready := false, remainder := o.zero, cIdx := indexAt t.cmds.length (k + 1),
                    cmds := t.cmds.set k (.wait time time) }, log) := by
  have hk : k < t.cmds.length := by
    rw [List.getElem?_eq_some_iff] at hc; exact hc.1
  rw [loop, if_neg (by rw [hi]; exact indexAt_ne hk)]
  have hn := next_at ({ t with ready := false, remainder := o.sub cur (o.add ft t.remainder) } : TL F) k hk hi
  simp only [exec, current_at t k _ hc hi, Outcome.bind_ok, hp, Outcome.pure_eq, Bool.false_eq_true, if_false, hn]

/-- A `WaitWhile` or `WaitUntil`. -/
theorem loop_waitLoop (fuel : Nat) (t : TL F) (log : List Event) (ft : F) (k : Nat) (w : Bool) (p : Nat)
    (hc : t.cmds[k]? = some (.waitLoop w p)) (hi : t.cIdx = indexAt t.cmds.length k) :
    loop o env (fuel + 1) t log ft =
      .ok ({ t with ready := false, remainder := o.zero,
                    cIdx := indexAt t.cmds.length (if env log p = w then k else k + 1) }, log ++ [.asked p]) := by
  have hk : k < t.cmds.length := by
    rw [List.getElem?_eq_some_iff] at hc; exact hc.1
  rw [loop, if_neg (by rw [hi]; exact indexAt_ne hk)]
  have hn := next_at ({ t with ready := false } : TL F) k hk hi
  by_cases he : env log p = w
  · simp [exec, current_at t k _ hc hi, he, hi]
  · simp [exec, current_at t k _ hc hi, he, hn]

end Verif.Timeline
