import Verif.Delegate.Model

/-! # C14: a delegate calls every handler once, in insertion order -/

namespace Verif.Delegate

open Verif

variable {H Arg W R : Type} (grow : Nat → Nat) (sem : H → Arg → W → W × R × List (Edit H))

/-! ### Specification -/

/-- Functions added since the last clear. -/
def handlers (os : List (Op H Arg)) : List H :=
  os.foldl (fun hs o => match o with | .add h => hs ++ [h] | .clear => [] | .call _ => hs) []

/-- Call each of the functions once, in this order, threading the program state. -/
def callAll (arg : Arg) : List H → W → W × List R
  | [], w => (w, [])
  | h :: hs, w =>
    let (w', r, _) := sem h arg w
    let (w'', rs) := callAll arg hs w'
    (w'', r :: rs)

/-- The program state and the results after a history, given the functions present at its start. -/
def specRun : List (Op H Arg) → List H → W → W × List (List R)
  | [], _, w => (w, [])
  | .add h :: os, hs, w => specRun os (hs ++ [h]) w
  | .clear :: os, _, w => specRun os [] w
  | .call arg :: os, hs, w =>
    let (w', rs) := callAll sem arg hs w
    let (w'', rss) := specRun os hs w'
    (w'', rs :: rss)

/-- Handlers leave the delegate that runs them alone. -/
def Quiet : Prop := ∀ h arg w, (sem h arg w).2.2 = []

/-! ### Lemmas -/

variable {grow sem}

theorem execFrom_quiet (hq : Quiet sem) (arg : Arg) (d : Dlg H) :
    ∀ (n i : Nat) (w : W), i + n = d.funcs.length →
      execFrom grow sem arg n i d w =
        .ok (d, (callAll sem arg (d.funcs.drop i) w).1, (callAll sem arg (d.funcs.drop i) w).2) := by
  intro n
  induction n with
  | zero =>
    intro i w h
    rw [List.drop_of_length_le (by omega)]
    rfl
  | succ n ih =>
    intro i w h
    have hi : i < d.funcs.length := by omega
    rw [execFrom, List.getElem?_eq_getElem hi, List.drop_eq_getElem_cons hi]
    simp only [hq _ _ _, List.foldl_nil, ne_eq, not_true_eq_false, if_false, callAll]
    rw [ih (i + 1) _ (by omega)]
    simp

theorem run_quiet (hq : Quiet sem) (os : List (Op H Arg)) : ∀ (d : Dlg H) (w : W),
    ∃ d', run grow sem os d w = .ok (d', specRun sem os d.funcs w) ∧
      d'.funcs = os.foldl (fun hs o => match o with | .add h => hs ++ [h] | .clear => [] | .call _ => hs) d.funcs := by
  induction os with
  | nil => intro d w; exact ⟨d, rfl, rfl⟩
  | cons o os ih =>
    intro d w
    cases o with
    | add h =>
      obtain ⟨d', e, hf⟩ := ih (d.add grow h) w
      have : (d.add grow h).funcs = d.funcs ++ [h] := by unfold Dlg.add; split <;> rfl
      exact ⟨d', by rw [run, e, this]; rfl, by rw [hf, this]; rfl⟩
    | clear =>
      obtain ⟨d', e, hf⟩ := ih d.clear w
      exact ⟨d', by rw [run, e]; rfl, by rw [hf]; rfl⟩
    | call arg =>
      obtain ⟨d', e, hf⟩ := ih d (callAll sem arg d.funcs w).1
      refine ⟨d', ?_, by rw [hf]; rfl⟩
      rw [run, Dlg.call, execFrom_quiet hq arg d d.funcs.length 0 w (by omega)]
      simp [e, specRun]

/-! ### Property theorems -/

/-- C14. For every history of `+=`, `clear` and calls, whatever the handlers do to the rest of the program:
each call runs exactly the functions added since the last clear, once each, in the order added, each on the
state its predecessor left, and returns their results in that order; the delegate itself ends up with the
functions added since the last clear. -/
theorem C14_delegate_calls_each_once_in_order (hq : Quiet sem) (os : List (Op H Arg)) (w : W) :
    ∃ d, run grow sem os Dlg.new w = .ok (d, specRun sem os [] w) ∧ d.funcs = handlers os ∧
      (d.isEmpty = true ↔ handlers os = []) := by
  obtain ⟨d, e, hf⟩ := run_quiet (grow := grow) hq os Dlg.new w
  refine ⟨d, e, hf, ?_⟩
  have hf : d.funcs = handlers os := hf
  rw [Dlg.isEmpty, hf, List.isEmpty_iff]

/-- C14, seen through a log: if every handler notes its own name and argument in the program state, a call
after the history `os` appends precisely the names of the handlers added since the last clear. -/
theorem C14_log_of_a_call (res : H → Arg → R) (os : List (Op H Arg)) (arg : Arg) :
    let sem : H → Arg → List (H × Arg) → List (H × Arg) × R × List (Edit H) :=
      fun h a w => (w ++ [(h, a)], res h a, [])
    ∀ w, ∃ d w1 rss, run grow sem os Dlg.new w = .ok (d, w1, rss) ∧
      d.call grow sem arg w1 =
        .ok (d, w1 ++ (handlers os).map (fun h => (h, arg)), (handlers os).map (fun h => res h arg)) := by
  intro sem w
  have hq : Quiet sem := fun _ _ _ => rfl
  obtain ⟨d, e, hf⟩ := run_quiet (grow := grow) hq os Dlg.new w
  refine ⟨d, _, _, e, ?_⟩
  rw [Dlg.call, execFrom_quiet hq arg d d.funcs.length 0 _ (by omega), List.drop_zero]
  have hf : d.funcs = handlers os := hf
  rw [hf]
  generalize (specRun sem os Dlg.new.funcs w).fst = w1
  have : ∀ hs w1, callAll sem arg hs w1 =
      (w1 ++ hs.map (fun h => (h, arg)), hs.map (fun h => res h arg)) := by
    intro hs
    induction hs with
    | nil => intro w; simp [callAll]
    | cons h hs ih => intro w; simp [callAll, sem] at ih ⊢; simp [ih]
  rw [this]

/-- Handlers may add functions to the delegate running them as long as the vector does not reallocate: the
call then runs the functions present when it started, and the new ones are there afterwards. -/
theorem C14_adding_within_capacity (arg : Arg) (d : Dlg H) (w : W)
    (hadd : ∀ h arg w, ∀ e ∈ (sem h arg w).2.2, ∃ h', e = Edit.add h')
    (hcap : ∀ (h : H) (arg : Arg) (w : W), d.funcs.length + d.funcs.length * (sem h arg w).2.2.length ≤ d.cap)
    (k : Nat) (hk : ∀ h arg w, (sem h arg w).2.2.length = k) :
    ∃ d' new, d.call grow sem arg w =
        .ok (d', (callAll sem arg d.funcs w).1, (callAll sem arg d.funcs w).2) ∧
      d'.funcs = d.funcs ++ new ∧ new.length = d.funcs.length * k := by
  -- edits that stay within capacity
  have hed : ∀ (es : List (Edit H)) (c : Dlg H), (∀ e ∈ es, ∃ h', e = Edit.add h') →
      c.funcs.length + es.length ≤ c.cap →
      ∃ new, es.foldl (Dlg.edit grow) c = { c with funcs := c.funcs ++ new } ∧ new.length = es.length := by
    intro es
    induction es with
    | nil => intro c _ _; exact ⟨[], by simp, rfl⟩
    | cons e es ih =>
      intro c he hc
      obtain ⟨h', rfl⟩ := he e (by simp)
      simp only [List.length_cons] at hc
      have e1 : c.edit grow (.add h') = { c with funcs := c.funcs ++ [h'] } := by
        rw [Dlg.edit, Dlg.add, if_pos (by omega)]
      obtain ⟨new, e2, hn⟩ := ih { c with funcs := c.funcs ++ [h'] } (fun e h => he e (by simp [h]))
        (by simp; omega)
      exact ⟨h' :: new, by rw [List.foldl_cons, e1, e2]; simp, by simp [hn]⟩
  have main : ∀ (n i : Nat) (c : Dlg H) (w : W) (acc : List H), c.funcs = d.funcs ++ acc →
      c.cap = d.cap → i + n = d.funcs.length → acc.length = i * k →
      ∃ d' new, execFrom grow sem arg n i c w =
        .ok (d', (callAll sem arg (d.funcs.drop i) w).1, (callAll sem arg (d.funcs.drop i) w).2) ∧
        d'.funcs = d.funcs ++ new ∧ new.length = d.funcs.length * k := by
    intro n
    induction n with
    | zero =>
      intro i c w acc hc hcap' hi hacc
      refine ⟨c, acc, ?_, hc, by rw [hacc]; congr 1⟩
      rw [List.drop_of_length_le (by omega)]
      rfl
    | succ n ih =>
      intro i c w acc hc hcap' hi hacc
      have hlt : i < d.funcs.length := by omega
      have hget : c.funcs[i]? = some d.funcs[i] := by
        rw [hc, List.getElem?_append_left hlt, List.getElem?_eq_getElem hlt]
      have hle : acc.length + k ≤ d.funcs.length * k := by
        rw [hacc, ← Nat.succ_mul]; exact Nat.mul_le_mul_right k hlt
      have hcapk := hcap d.funcs[i] arg w
      rw [hk] at hcapk
      obtain ⟨new, e2, hn⟩ := hed (sem d.funcs[i] arg w).2.2 c (hadd _ _ _) (by
        rw [hk, hc, hcap', List.length_append]; omega)
      obtain ⟨d', new', e3, h3⟩ := ih (i + 1) { c with funcs := c.funcs ++ new } (sem d.funcs[i] arg w).1
        (acc ++ new) (by simp [hc]) hcap' (by omega)
        (by rw [List.length_append, hacc, hn, hk, Nat.succ_mul])
      refine ⟨d', new', ?_, h3⟩
      rw [execFrom, hget, List.drop_eq_getElem_cons hlt]
      simp only [e2, ne_eq, not_true_eq_false, if_false, callAll]
      rw [e3]
      simp
  obtain ⟨d', new, e, h⟩ := main d.funcs.length 0 d w [] (by simp) rfl (by omega) (by simp)
  exact ⟨d', new, by rw [Dlg.call, e]; simp, h⟩

/-- The condition on handlers is needed: a handler that clears the running delegate, or adds to it when the
vector is full, makes the call undefined. -/
theorem C14_editing_the_running_delegate_is_ub :
    (run (H := Nat) (Arg := Unit) (W := Unit) (R := Nat) (fun n => 2 * n + 1)
      (fun h _ w => (w, h, [.clear])) [.add 1, .call ()] Dlg.new ()) = .ub ∧
    (run (H := Nat) (Arg := Unit) (W := Unit) (R := Nat) (fun n => 2 * n + 1)
      (fun h _ w => (w, h, [.add 2])) [.add 1, .call ()] Dlg.new ()) = .ub := by
  decide

theorem edits_gen_le (es : List (Edit H)) : ∀ d : Dlg H, d.gen ≤ (es.foldl (Dlg.edit grow) d).gen := by
  induction es with
  | nil => intro d; exact Nat.le_refl _
  | cons e es ih =>
    intro d
    rw [List.foldl_cons]
    refine Nat.le_trans ?_ (ih _)
    cases e with
    | add h =>
      rw [Dlg.edit, Dlg.add]
      split
      · exact Nat.le_refl _
      · exact Nat.le_succ _
    | clear => exact Nat.le_succ _

/-- A handler that clears the delegate running it makes the call undefined: whatever the delegate, the program, and the
other things the handler does. -/
theorem C14_clearing_while_running_is_ub (arg : Arg) (d : Dlg H) (w : W) (h : H) (hs : List H) (hd : d.funcs = h :: hs)
    (hc : Edit.clear ∈ (sem h arg w).2.2) : d.call grow sem arg w = .ub := by
  rw [Dlg.call, hd, List.length_cons, execFrom, hd]
  simp only [List.getElem?_cons_zero]
  rw [if_pos]
  obtain ⟨e1, e2, he⟩ := List.append_of_mem hc
  rw [he, List.foldl_append, List.foldl_cons]
  have h1 := edits_gen_le (grow := grow) e1 d
  have h2 := edits_gen_le (grow := grow) e2 ((e1.foldl (Dlg.edit grow) d).edit grow .clear)
  have h3 : ((e1.foldl (Dlg.edit grow) d).edit grow .clear).gen = (e1.foldl (Dlg.edit grow) d).gen + 1 := rfl
  omega

/-- A handler that adds a function to the delegate running it when the vector is full makes the call undefined. -/
theorem C14_adding_when_full_is_ub (arg : Arg) (d : Dlg H) (w : W) (h : H) (hs : List H) (hd : d.funcs = h :: hs)
    (hfull : d.funcs.length = d.cap) (h' : H) (es : List (Edit H)) (hc : (sem h arg w).2.2 = .add h' :: es) :
    d.call grow sem arg w = .ub := by
  have hfull' : ¬ d.funcs.length < d.cap := by omega
  rw [Dlg.call, hd, List.length_cons, execFrom, hd]
  simp only [List.getElem?_cons_zero]
  rw [if_pos]
  rw [hc, List.foldl_cons]
  have h2 := edits_gen_le (grow := grow) es (d.edit grow (.add h'))
  have h3 : (d.edit grow (.add h')).gen = d.gen + 1 := by rw [Dlg.edit, Dlg.add, if_neg hfull']
  omega

/-! ### The hypotheses are satisfiable -/

/-- Reachable delegates for the last two theorems. -/
example : ((Dlg.new.add (fun n => 2 * n + 1) 1).add (fun n => 2 * n + 1) 2 : Dlg Nat) =
      { funcs := [1, 2], cap := 3, gen := 2 } ∧
    (Dlg.new.add (fun n => 2 * n + 1) 1 : Dlg Nat) = { funcs := [1], cap := 1, gen := 1 } := by decide

/-- Each handler multiplies the program state by ten and adds its name. -/
def exSem (h : Nat) (a : Nat) (w : Nat) : Nat × Nat × List (Edit Nat) := (10 * w + h, h + a, [])

example : Quiet exSem := fun _ _ _ => rfl

example : (run (fun n => 2 * n + 1) exSem [.add 9, .clear, .add 1, .add 2, .call 5, .add 3, .call 0] Dlg.new 0).bind
    (fun r => .ok r.2) = .ok (12123, [[6, 7], [1, 2, 3]]) := by decide

example : (Dlg.call (H := Nat) (Arg := Unit) (W := Unit) (R := Nat) (fun n => 2 * n + 1)
    (fun h _ w => (w, h, [.add (h + 10)])) { funcs := [1, 2], cap := 4, gen := 0 } () ()) =
    .ok ({ funcs := [1, 2, 11, 12], cap := 4, gen := 0 }, (), [1, 2]) := by decide

end Verif.Delegate
