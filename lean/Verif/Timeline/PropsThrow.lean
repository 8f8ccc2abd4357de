import Verif.Timeline.Throw
import Verif.Timeline.LemmasRun

/-!
# Theorems: timelines whose actions throw (C155)
-/

namespace Verif.Timeline.Throw

open Verif Spec

variable {F : Type} {o : Ops F} {env thr thrP : List Event → Nat → Bool}

theorem runActs_never (h : ∀ log n, thr log n = false) : ∀ (as : List Act) (t : TL F) (log : List Event),
    runActs thr t log as = ((Timeline.runActs t log as).1, (Timeline.runActs t log as).2, false) := by
  intro as
  induction as with
  | nil => intro t log; rfl
  | cons a as ih =>
    intro t log
    cases a with
    | emit n => rw [runActs, if_neg (by simp [h]), ih]; rfl
    | _ => rw [runActs, ih]; rfl

theorem exec_never (h : ∀ log n, thr log n = false) (hP : ∀ log n, thrP log n = false) (t : TL F) (log : List Event) (ft : F) :
    exec o env thr thrP t log ft = (Timeline.exec o env t log ft >>= fun r => .ok (r.1, r.2, false)) := by
  unfold exec Timeline.exec
  cases hc : t.current with
  | ok x =>
    obtain ⟨k, c⟩ := x
    simp only [Outcome.bind_ok]
    cases c with
    | act as =>
      simp only [runActs_never h, Bool.false_eq_true, if_false]
      cases (Timeline.runActs t log as).1.next <;> rfl
    | waitLoop w p =>
      simp only [hP, Bool.false_eq_true, if_false]
      split
      · cases TL.next { t with ready := false } <;> rfl
      · rfl
    | wait time cur => rfl
    | go a b c => rfl
  | _ => rfl

theorem loop_never (h : ∀ log n, thr log n = false) (hP : ∀ log n, thrP log n = false) : ∀ (fuel : Nat) (t : TL F) (log : List Event) (ft : F),
    loop o env thr thrP fuel t log ft = (Timeline.loop o env fuel t log ft >>= fun r => .ok (r.1, r.2, false)) := by
  intro fuel
  induction fuel with
  | zero => intro t log ft; rfl
  | succ fuel ih =>
    intro t log ft
    unfold loop Timeline.loop
    by_cases hi : t.cIdx = -1
    · rw [if_pos hi, if_pos hi]; rfl
    · rw [if_neg hi, if_neg hi, exec_never h hP]
      cases Timeline.exec o env t log (o.add ft t.remainder) with
      | ok r =>
        simp only [Outcome.bind_ok, Bool.false_eq_true, if_false]
        by_cases hr : r.1.ready = true
        · rw [if_pos hr, if_pos hr]; exact ih _ _ _
        · rw [if_neg hr, if_neg hr]; rfl
      | _ => rfl

/-- **C155 (no exception).** Without exceptions this is the timeline of C49-C52. -/
theorem C155_conservative (h : ∀ log n, thr log n = false) (hP : ∀ log n, thrP log n = false) (fuel : Nat) (t : TL F) (log : List Event) (ft : F) :
    update o env thr thrP fuel t log ft = (Timeline.update o env fuel t log ft >>= fun r => .ok (r.1, r.2, false)) := by
  unfold update Timeline.update
  by_cases hf : t.finished = true
  · rw [if_pos hf, if_pos hf]; rfl
  · rw [if_neg hf, if_neg hf]; exact loop_never h hP _ _ _ _

/-- The effects of the `k`-th command. -/
abbrev emitsAt (cmds : List (Cmd F)) (k : Nat) : List Nat := (cmds[k]?.map Cmd.emits).getD []

theorem runActs_simple (t : TL F) : ∀ (as : List Act) (log : List Event), (∀ a ∈ as, a.isEmit = true) →
    ∃ l x, runActs thr t log as = (t, log ++ l, x) ∧ emitted l <+: Cmd.emits (.act as : Cmd F) ∧
      (x = false → emitted l = Cmd.emits (.act as : Cmd F)) ∧ (x = true → emitted l ≠ Cmd.emits (.act as : Cmd F)) := by
  intro as
  induction as with
  | nil => intro log _; exact ⟨[], false, by simp [runActs], by simp [emitted], fun _ => rfl, by simp⟩
  | cons a as ih =>
    intro log h
    cases a with
    | emit n =>
      by_cases ht : thr log n = true
      · refine ⟨[], true, by simp [runActs, ht], by simp [emitted], by simp, fun _ => by simp [emitted, Cmd.emits]⟩
      · obtain ⟨l, x, h1, h2, h3, h4⟩ := ih (log ++ [.emit n]) (fun a ha => h a (List.mem_cons_of_mem _ ha))
        have e : emitted (Event.emit n :: l) = n :: emitted l := by simp [emitted]
        have e' : Cmd.emits (.act (.emit n :: as) : Cmd F) = n :: Cmd.emits (.act as : Cmd F) := by simp [Cmd.emits]
        refine ⟨.emit n :: l, x, by rw [runActs, if_neg ht, h1]; simp, ?_, ?_, ?_⟩
        · rw [e, e']; exact List.prefix_cons_inj n |>.2 h2
        · intro hx; rw [e, e', h3 hx]
        · intro hx; rw [e, e']; simpa using h4 hx
    | stop => exact absurd (h .stop (by simp)) (by simp [Act.isEmit])
    | start => exact absurd (h .start (by simp)) (by simp [Act.isEmit])
    | jumpTo k => exact absurd (h (.jumpTo k) (by simp)) (by simp [Act.isEmit])
    | reset => exact absurd (h .reset (by simp)) (by simp [Act.isEmit])

/-- The states of a timeline without jumps; `a` attempts were given up. -/
structure Inv (o : Ops F) (cmds : List (Cmd F)) (t : TL F) (log : List Event) (k a : Nat) : Prop where
  like : Like t.cmds cmds
  le : k ≤ cmds.length
  idx : t.cIdx = indexAt cmds.length k
  zero : t.remainder = o.zero
  tried : Tried (emitsAt cmds) k (emitted log) a
  fin : t.finished = true → k = cmds.length

theorem emitsAt_like {cmds : List (Cmd F)} {t : TL F} (h : Like t.cmds cmds) {k : Nat} {c : Cmd F} (hc : t.cmds[k]? = some c) :
    emitsAt cmds k = c.emits := by
  have := congrArg (·[k]?) h
  simp only [List.getElem?_map, hc, Option.map_some] at this
  unfold emitsAt
  cases hd : cmds[k]? with
  | none => rw [hd] at this; cases this
  | some d =>
    rw [hd] at this
    simp only [Option.map_some, Option.some.injEq] at this
    simp only [Option.map_some, Option.getD_some]
    rw [← emits_reset c, this, emits_reset]

theorem next_inv {cmds : List (Cmd F)} {t : TL F} {k : Nat} (hk : k < cmds.length) (hl : Like t.cmds cmds) (hi : t.cIdx = indexAt cmds.length k) :
    t.next = .ok { t with cIdx := indexAt cmds.length (k + 1) } := by
  have := hl.length
  rw [next_at t k (by omega) (by rw [hi, this]), this]

theorem tried_pass {cmds : List (Cmd F)} {k a : Nat} {es : List Nat} (h : Tried (emitsAt cmds) k es a) (he : emitsAt cmds k = []) :
    Tried (emitsAt cmds) (k + 1) es a := by
  have := Tried.done h
  rw [he, List.append_nil] at this
  exact this

/-- One command. -/
theorem exec_inv {cmds : List (Cmd F)} (hs : ∀ c ∈ cmds, c.Simple) {t : TL F} {log : List Event} {k a : Nat} (h : Inv o cmds t log k a)
    (hf : t.finished = false) (hk : k < cmds.length) (ft : F) :
    ∃ t' log' x k', exec o env thr thrP t log ft = .ok (t', log', x) ∧ t'.finished = false ∧
      (x = true → k' = k ∧ ∃ a', a ≤ a' ∧ a' ≤ a + 1 ∧ Inv o cmds t' log' k a') ∧
      (x = false → Inv o cmds { t' with remainder := o.zero } log' k' a ∧ (t'.ready = true → k' = k + 1)) := by
  have hlen := h.like.length
  obtain ⟨c, hc⟩ : ∃ c, t.cmds[k]? = some c := ⟨t.cmds[k]'(by omega), by simp [hlen, hk]⟩
  have hcur := current_at t k c hc (by rw [hlen]; exact h.idx)
  have hsc : c.Simple := h.like.simple hs c (List.mem_of_getElem? hc)
  have hem := emitsAt_like h.like hc
  have hne : k + 1 ≤ cmds.length := hk
  unfold exec
  rw [hcur, Outcome.bind_ok]
  cases c with
  | act as =>
    obtain ⟨l, x, h1, h2, h3, h4⟩ := runActs_simple (thr := thr) t as log hsc
    dsimp only
    rw [h1]
    dsimp only
    cases x with
    | true =>
      rw [if_pos rfl]
      refine ⟨t, log ++ l, true, k, rfl, hf, fun _ => ⟨rfl, a + 1, by omega, by omega, ⟨h.like, h.le, h.idx, h.zero, ?_, h.fin⟩⟩, by simp⟩
      rw [emitted_append]
      refine .failed _ h.tried ?_ ?_
      · rw [hem]; exact h2
      · rw [hem]; exact h4 rfl
    | false =>
      rw [if_neg (by simp), next_inv hk h.like h.idx, Outcome.bind_ok]
      refine ⟨_, log ++ l, false, k + 1, rfl, hf, by simp, fun _ => ⟨⟨h.like, hne, rfl, rfl, ?_, by simp [hf]⟩, fun _ => rfl⟩⟩
      rw [emitted_append, h3 rfl, ← hem]
      exact .done h.tried
  | go => exact hsc.elim
  | waitLoop w p =>
    dsimp only
    by_cases ht : thrP log p = true
    · rw [if_pos ht]
      exact ⟨_, log, true, k, rfl, hf, fun _ => ⟨rfl, a, by omega, by omega, ⟨h.like, h.le, h.idx, h.zero, h.tried, h.fin⟩⟩, by simp⟩
    · rw [if_neg ht]
      have hlog : emitted (log ++ [Event.asked p]) = emitted log := by simp [emitted]
      split
      · have hn := next_inv (t := { t with ready := false }) hk h.like h.idx
        rw [hn, Outcome.bind_ok]
        refine ⟨_, _, false, k + 1, rfl, hf, by simp, fun _ => ⟨⟨h.like, hne, rfl, rfl, ?_, by simp [hf]⟩, fun _ => rfl⟩⟩
        rw [hlog]
        exact tried_pass h.tried hem
      · refine ⟨_, _, false, k, rfl, hf, by simp, fun _ => ⟨⟨h.like, h.le, h.idx, rfl, ?_, by simp [hf]⟩, by simp⟩⟩
        rw [hlog]; exact h.tried
  | wait time cur =>
    dsimp only
    unfold Timeline.exec
    rw [hcur, Outcome.bind_ok]
    dsimp only
    split
    · rw [Outcome.pure_eq, Outcome.bind_ok]
      exact ⟨_, _, false, k, rfl, hf, by simp, fun _ => ⟨⟨(like_set t.cmds k (.wait time cur) (.wait time (o.sub cur ft)) hc rfl).trans h.like, h.le, h.idx, rfl, h.tried, by simp [hf]⟩, by simp⟩⟩
    · have hn := next_inv (t := { t with ready := false, remainder := o.sub cur ft }) hk h.like h.idx
      rw [hn, Outcome.bind_ok, Outcome.pure_eq, Outcome.bind_ok]
      exact ⟨_, _, false, k + 1, rfl, hf, by simp, fun _ => ⟨⟨(like_set t.cmds k (.wait time cur) (.wait time time) hc rfl).trans h.like, hne, rfl, rfl, tried_pass h.tried hem, by simp [hf]⟩, fun _ => rfl⟩⟩

theorem loop_inv {cmds : List (Cmd F)} (hs : ∀ c ∈ cmds, c.Simple) (ft : F) : ∀ (fuel : Nat) (t : TL F) (log : List Event) (k a : Nat),
    Inv o cmds t log k a → t.finished = false → cmds.length - k < fuel →
    ∃ t' log' x k' a', loop o env thr thrP fuel t log ft = .ok (t', log', x) ∧ Inv o cmds t' log' k' a' ∧ a ≤ a' ∧
      a' ≤ a + (if x then 1 else 0) ∧ (x = true → t'.finished = false) := by
  intro fuel
  induction fuel with
  | zero => intro t log k a _ _ hf; omega
  | succ fuel ih =>
    intro t log k a h hf hfuel
    unfold loop
    by_cases hk : k = cmds.length
    · rw [if_pos (by rw [h.idx, hk, indexAt_self])]
      exact ⟨_, log, false, k, a, rfl, ⟨h.like, h.le, h.idx, h.zero, h.tried, fun _ => hk⟩, Nat.le_refl _, by simp, by simp⟩
    · have hk' : k < cmds.length := by have := h.le; omega
      rw [if_neg (by rw [h.idx]; exact indexAt_ne hk')]
      obtain ⟨t', log', x, k', h1, h2, h3, h4⟩ := exec_inv (env := env) (thr := thr) (thrP := thrP) hs h hf hk' (o.add ft t.remainder)
      rw [h1, Outcome.bind_ok]
      dsimp only
      cases x with
      | true =>
        obtain ⟨_, a', b1, b2, b3⟩ := h3 rfl
        rw [if_pos rfl]
        exact ⟨t', log', true, k, a', rfl, b3, b1, by simpa using b2, fun _ => h2⟩
      | false =>
        obtain ⟨b1, b2⟩ := h4 rfl
        rw [if_neg (by simp)]
        by_cases hr : t'.ready = true
        · rw [if_pos hr]
          have := b2 hr
          subst this
          exact ih _ _ _ _ b1 h2 (by omega)
        · rw [if_neg hr]
          exact ⟨_, log', false, k', a, rfl, b1, Nat.le_refl _, by simp, by simp⟩

theorem updates_inv {cmds : List (Cmd F)} (hs : ∀ c ∈ cmds, c.Simple) {fuel : Nat} (hfuel : cmds.length < fuel)
    (env thr thrP : Nat → List Event → Nat → Bool) : ∀ (fts : List F) (r : Nat) (t : TL F) (log : List Event) (k a : Nat), Inv o cmds t log k a →
    ∃ t' log' xs k' a', updates o env thr thrP fuel r t log fts = .ok (t', log', xs) ∧ xs.length = fts.length ∧ Inv o cmds t' log' k' a' ∧
      a ≤ a' ∧ a' ≤ a + xs.count true ∧ (xs.getLast? = some true → t'.finished = false) := by
  intro fts
  induction fts with
  | nil => intro r t log k a h; exact ⟨t, log, [], k, a, rfl, rfl, h, by simp, by simp, by simp⟩
  | cons ft fts ih =>
    intro r t log k a h
    have one : ∃ t' log' x k' a', update o (env r) (thr r) (thrP r) fuel t log ft = .ok (t', log', x) ∧ Inv o cmds t' log' k' a' ∧ a ≤ a' ∧
        a' ≤ a + (if x then 1 else 0) ∧ (x = true → t'.finished = false) := by
      unfold update
      by_cases hf : t.finished = true
      · rw [if_pos hf]; exact ⟨t, log, false, k, a, rfl, h, by simp, by simp, by simp⟩
      · rw [if_neg hf]
        exact loop_inv hs ft fuel _ log k a ⟨h.like, h.le, h.idx, h.zero, h.tried, h.fin⟩ (by simpa using hf) (by omega)
    obtain ⟨t1, log1, x, k1, a1, e1, e2, e3, e4, e5⟩ := one
    obtain ⟨t2, log2, xs, k2, a2, g1, g0, g2, g3, g4, g5⟩ := ih (r + 1) t1 log1 k1 a1 e2
    refine ⟨t2, log2, x :: xs, k2, a2, ?_, by simp [g0], g2, by omega, ?_, ?_⟩
    · rw [updates, e1, Outcome.bind_ok]
      dsimp only
      rw [g1]; rfl
    · rw [List.count_cons]
      cases x <;> simp at e4 ⊢ <;> omega
    · intro hx
      cases xs with
      | nil =>
        cases fts with
        | nil =>
          cases g1
          exact e5 (by simpa using hx)
        | cons => simp at g0
      | cons y ys => exact g5 (by simpa [List.getLast?_cons_cons] using hx)

/-- **C155 (retry).** A timeline without jumps whose actions and predicates may throw at any moment, updated again and again: every update
returns or is left by an exception, nothing undefined happens. Always some commands are completed, in their order; the one that follows
is the current one, and it is what the next update starts with. An action left by an exception is begun anew; only exceptions
make that happen. The timeline finishes when all commands are completed, never by an exception. -/
theorem C155_retry (cmds : List (Cmd F)) (hs : ∀ c ∈ cmds, c.Simple) (fuel : Nat) (hfuel : cmds.length < fuel)
    (env thr thrP : Nat → List Event → Nat → Bool) (fts : List F) :
    ∃ t0 t log xs k a, (TL.init o true).appends cmds = .ok t0 ∧ updates o env thr thrP fuel 0 t0 [] fts = .ok (t, log, xs) ∧
      xs.length = fts.length ∧ k ≤ cmds.length ∧ Tried (fun k => (cmds[k]?.map Cmd.emits).getD []) k (emitted log) a ∧ a ≤ xs.count true ∧
      t.cIdx = (if k < cmds.length then (k : Int) else -1) ∧ t.cmds.map Cmd.reset = cmds.map Cmd.reset ∧
      (t.finished = true → k = cmds.length) ∧ (xs.getLast? = some true → t.finished = false) := by
  obtain ⟨t, log, xs, k, a, h1, h2, h3, _, h4, h5⟩ := updates_inv (o := o) hs hfuel env thr thrP fts 0
    ⟨cmds, indexAt cmds.length 0, o.zero, true, false⟩ [] 0 0 ⟨rfl, Nat.zero_le _, rfl, rfl, .start, by simp⟩
  refine ⟨_, t, log, xs, k, a, appends_init o cmds, h1, h2, h3.le, h3.tried, by omega, ?_, h3.like, h3.fin, h5⟩
  rw [h3.idx]
  have := h3.le
  by_cases hk : k < cmds.length
  · rw [if_pos hk, indexAt_lt hk]
  · rw [if_neg hk, show k = cmds.length by omega, indexAt_self]

/-- What `Tried` says in terms of lists: without attempts given up, the effects are those of the completed commands. -/
theorem tried_none {emits : Nat → List Nat} {k : Nat} {es : List Nat} {a : Nat} (h : Tried emits k es a) (ha : a = 0) :
    es = (List.range k).flatMap emits := by
  induction h with
  | start => rfl
  | done h ih => rw [ih ha, List.range_succ, List.flatMap_append]; simp
  | failed p h _ _ _ => omega

/-- **C155 (at least once).** Whatever was given up, the effects of the completed commands are among the effects, in order. -/
theorem C155_at_least_once {emits : Nat → List Nat} {k : Nat} {es : List Nat} {a : Nat} (h : Tried emits k es a) :
    ((List.range k).flatMap emits).Sublist es := by
  induction h with
  | start => exact List.Sublist.refl _
  | done h ih =>
    rw [List.range_succ, List.flatMap_append]
    refine ih.append ?_
    simp
  | failed p h _ _ ih => exact ih.trans (List.sublist_append_left _ _)

/-- **C155 (example).** The second effect of the first action throws in the first update: the first effect happens twice. -/
theorem C155_example : ∃ t, updates (⟨0, (· + ·), (· - ·), fun a => decide (0 < a)⟩ : Ops Int) (fun _ _ _ => true) (fun r _ n => r == 0 && n == 2)
    (fun _ _ _ => false) 9 0 ⟨[.act [.emit 1, .emit 2], .act [.emit 3]], 0, 0, true, false⟩ [] [1, 1] =
      .ok (t, [.emit 1, .emit 1, .emit 2, .emit 3], [true, false]) ∧ t.finished = true := by
  refine ⟨_, rfl, by decide +kernel⟩

end Verif.Timeline.Throw
