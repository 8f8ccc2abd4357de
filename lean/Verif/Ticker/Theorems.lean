import Verif.Ticker.Spec
import Mathlib.Data.List.Induction

/-!
# Ticker: C54
-/

namespace Verif.Ticker

theorem since_nil {F : Type} (p : Seen F → Bool) : since p [] = [] := rfl

theorem since_concat {F : Type} (p : Seen F → Bool) (h : List (Seen F)) (s : Seen F) :
    since p (h ++ [s]) = if p s then [] else since p h ++ [s] := by
  unfold since
  rw [List.reverse_append]
  simp only [List.reverse_singleton, List.singleton_append, List.takeWhile_cons]
  cases p s <;> simp

theorem run_concat {F : Type} (o : Ops F) (t : Ticker F) (ops : List (Op F)) (op : Op F) :
    run o t (ops ++ [op]) =
      let r := run o t ops
      let q := step o r.1 op
      (q.1, r.2 ++ [⟨op, r.1.running, q.2⟩]) := by
  induction ops generalizing t with
  | nil => rfl
  | cons a ops ih => simp only [List.cons_append, run, ih]

/-- What the members hold after a history. -/
structure Good (first : ℚ) (t : Ticker ℚ) (h : List (Seen ℚ)) : Prop where
  current : t.current = ((since Seen.restarts h).map Seen.time).sum
  total : t.total = ((since Seen.clearsTotal h).map Seen.time).sum
  ticks : t.ticks = ((since Seen.clearsTicks h).countP Seen.ticked) % 2 ^ 64
  target : t.target = targetAfter first h
  loop : t.loop = loopAfter h

theorem targetAfter_concat {F : Type} (first : F) (h : List (Seen F)) (s : Seen F) :
    targetAfter first (h ++ [s]) = match s.op with | .updateTo _ t' => t' | .restartTo t' => t' | _ => targetAfter first h := by
  unfold targetAfter; rw [List.foldl_append]; rfl

theorem loopAfter_concat {F : Type} (h : List (Seen F)) (s : Seen F) :
    loopAfter (h ++ [s]) = match s.op with | .setLoop b => b | _ => loopAfter h := by
  unfold loopAfter; rw [List.foldl_append]; rfl

theorem good_update (first : ℚ) (t : Ticker ℚ) (h : List (Seen ℚ)) (ft : ℚ) (op : Op ℚ) (tg : ℚ)
    (g : Good first t h) (hop : op = .update ft ∧ tg = t.target ∨ op = .updateTo ft tg) :
    Good first (({ t with target := tg } : Ticker ℚ).update exact ft).1
      (h ++ [⟨op, t.running, some (({ t with target := tg } : Ticker ℚ).update exact ft).2⟩]) ∧
    ((({ t with target := tg } : Ticker ℚ).update exact ft).2 = true ↔
      tg ≤ ((since Seen.restarts h).map Seen.time).sum + if t.running then ft else 0) := by
  obtain ⟨g1, g2, g3, g4, g5⟩ := g
  have htime : ∀ r, Seen.time ⟨op, t.running, r⟩ = if t.running then ft else 0 := by
    intro r
    rcases hop with ⟨rfl, _⟩ | rfl <;> rfl
  have hres : ∀ r, Seen.restarts ⟨op, t.running, r⟩ = (r == some true) := by
    intro r
    rcases hop with ⟨rfl, _⟩ | rfl <;> simp [Seen.restarts, Seen.ticked]
  have hct : ∀ r, Seen.clearsTicks ⟨op, t.running, r⟩ = false := by
    intro r
    rcases hop with ⟨rfl, _⟩ | rfl <;> rfl
  have hcT : ∀ r, Seen.clearsTotal ⟨op, t.running, r⟩ = false := by
    intro r
    rcases hop with ⟨rfl, _⟩ | rfl <;> rfl
  have htg : ∀ r, targetAfter first (h ++ [⟨op, t.running, r⟩]) = tg := by
    intro r
    rw [targetAfter_concat]
    rcases hop with ⟨rfl, h⟩ | rfl
    · simp only; rw [h, g4]
    · rfl
  have hlp : ∀ r, loopAfter (h ++ [⟨op, t.running, r⟩]) = loopAfter h := by
    intro r
    rw [loopAfter_concat]
    rcases hop with ⟨rfl, h⟩ | rfl <;> rfl
  simp only [Ticker.update, exact, Ticker.resetCurrent]
  rw [← g1]
  by_cases hlt : t.current + (if t.running = true then ft else 0) < tg
  · simp only [hlt, decide_true, if_true]
    refine ⟨⟨?_, ?_, ?_, ?_, ?_⟩, ?_⟩
    · simp [since_concat, hres, htime, g1]
    · simp [since_concat, hcT, htime, g2]
    · simp [since_concat, hct, Seen.ticked, g3]
    · rw [htg]
    · rw [hlp]; exact g5
    · simpa using hlt
  · simp only [hlt, decide_false, Bool.false_eq_true, if_false]
    refine ⟨⟨?_, ?_, ?_, ?_, ?_⟩, ?_⟩
    · simp [since_concat, hres]
    · simp [since_concat, hcT, htime, g2]
    · simp [since_concat, hct, Seen.ticked, g3]
    · rw [htg]
    · rw [hlp]; exact g5
    · simpa using hlt

theorem good_step (first : ℚ) (t : Ticker ℚ) (h : List (Seen ℚ)) (op : Op ℚ) (g : Good first t h) :
    Good first (step exact t op).1 (h ++ [⟨op, t.running, (step exact t op).2⟩]) := by
  have g0 := g
  obtain ⟨g1, g2, g3, g4, g5⟩ := g
  cases op with
  | update ft => exact (good_update first t h ft _ t.target g0 (.inl ⟨rfl, rfl⟩)).1
  | updateTo ft tg => exact (good_update first t h ft _ tg g0 (.inr rfl)).1
  | _ =>
    constructor <;>
    simp [step, since_concat, Seen.restarts, Seen.ticked, Seen.time, Seen.clearsTotal, Seen.clearsTicks, targetAfter_concat,
      loopAfter_concat, Ticker.pause, Ticker.resume, Ticker.stop, Ticker.restart, Ticker.restartTo, Ticker.resetCurrent,
      Ticker.resetTicks, Ticker.resetTotal, Ticker.resetAll, Ticker.setLoop, exact, g1, g2, g3, g4, g5]

theorem good_run (first : ℚ) (running : Bool) (ops : List (Op ℚ)) :
    Good first (run exact (Ticker.init exact first running) ops).1 (run exact (Ticker.init exact first running) ops).2 := by
  induction ops using List.reverseRecOn with
  | nil => constructor <;> simp [run, Ticker.init, since, targetAfter, loopAfter, exact]
  | append_singleton ops op ih =>
    rw [run_concat]
    exact good_step first _ _ op ih

/-- C54. After any history of calls: the time to the next tick is the running frame time since the last tick or restart, the
total is the running frame time since it was reset, and the tick count is the number of reported ticks since it was reset
(modulo the range of `size_t`). -/
theorem C54_state (first : ℚ) (running : Bool) (ops : List (Op ℚ)) :
    let r := run exact (Ticker.init exact first running) ops
    r.1.current = ((since Seen.restarts r.2).map Seen.time).sum ∧
    r.1.total = ((since Seen.clearsTotal r.2).map Seen.time).sum ∧
    r.1.ticks = ((since Seen.clearsTicks r.2).countP Seen.ticked) % 2 ^ 64 ∧
    r.1.target = targetAfter first r.2 ∧ r.1.loop = loopAfter r.2 := by
  have g := good_run first running ops
  exact ⟨g.current, g.total, g.ticks, g.target, g.loop⟩

/-- C54. After any history, an update reports a tick exactly if the running time since the last tick or restart, including this
update, reaches the target in force. -/
theorem C54_tick_iff (first : ℚ) (running : Bool) (ops : List (Op ℚ)) (ft : ℚ) :
    let r := run exact (Ticker.init exact first running) ops
    ((r.1.update exact ft).2 = true ↔
      targetAfter first r.2 ≤ ((since Seen.restarts r.2).map Seen.time).sum + if r.1.running then ft else 0) ∧
    ∀ tg, (r.1.updateTo exact ft tg).2 = true ↔
      tg ≤ ((since Seen.restarts r.2).map Seen.time).sum + if r.1.running then ft else 0 := by
  have g := good_run first running ops
  refine ⟨?_, fun tg => (good_update first _ _ ft _ tg g (.inr rfl)).2⟩
  have := (good_update first _ _ ft _ _ g (.inl ⟨rfl, rfl⟩)).2
  rw [g.target] at this
  rw [← this]
  have e := g.target
  rw [← e]

/-- C54, when a ticker runs: pausing and stopping end it, resuming and restarting start it, a tick leaves it running exactly if
it loops, and no other call changes it. For every arithmetic. -/
theorem C54_running {F : Type} (o : Ops F) (t : Ticker F) (op : Op F) :
    let r := step o t op
    ((op = .pause ∨ op = .stop) → r.1.running = false) ∧
    ((op = .resume ∨ op = .restart ∨ ∃ tg, op = .restartTo tg) → r.1.running = true) ∧
    (r.2 = some true → r.1.running = t.loop ∧ r.1.current = o.zero) ∧
    ((r.2 = some false ∨ op = .resetCurrent ∨ op = .resetTicks ∨ op = .resetTotal ∨ op = .resetAll ∨ ∃ b, op = .setLoop b) →
      r.1.running = t.running) := by
  cases op with
  | update ft =>
    simp only [step, Ticker.update, Ticker.resetCurrent]
    split <;> simp
  | updateTo ft tg =>
    simp only [step, Ticker.updateTo, Ticker.update, Ticker.resetCurrent]
    split <;> simp
  | _ => simp [step, Ticker.pause, Ticker.resume, Ticker.stop, Ticker.restart, Ticker.restartTo, Ticker.resetCurrent,
      Ticker.resetTicks, Ticker.resetTotal, Ticker.resetAll, Ticker.setLoop]

theorem current_lt (first : ℚ) (running : Bool) (ops : List (Op ℚ)) (hpos : 0 < first)
    (ht : ∀ op ∈ ops, ∀ ft tg, op ≠ .updateTo ft tg ∧ op ≠ .restartTo tg) :
    let t := (run exact (Ticker.init exact first running) ops).1
    t.current < t.target ∧ t.target = first := by
  induction ops using List.reverseRecOn with
  | nil => simpa [run, Ticker.init, exact] using hpos
  | append_singleton ops op ih =>
    have ih := ih (fun op h => ht op (by simp [h]))
    have hop := ht op (by simp)
    rw [run_concat]
    simp only at ih ⊢
    generalize (run exact (Ticker.init exact first running) ops).1 = t at ih ⊢
    obtain ⟨h1, h2⟩ := ih
    have hz : 0 < t.target := by rw [h2]; exact hpos
    cases op with
    | update ft =>
      simp only [step, Ticker.update, exact, Ticker.resetCurrent]
      by_cases hlt : t.current + (if t.running = true then ft else 0) < t.target
      · simp only [hlt, decide_true, if_true]
        exact ⟨trivial, h2⟩
      · simp only [hlt, decide_false, Bool.false_eq_true, if_false]
        exact ⟨hz, h2⟩
    | updateTo ft tg => exact absurd rfl (hop ft tg).1
    | restartTo tg => exact absurd rfl (hop 0 tg).2
    | _ => simp [step, Ticker.pause, Ticker.stop, Ticker.resume, Ticker.restart, Ticker.setLoop, Ticker.resetCurrent,
        Ticker.resetTicks, Ticker.resetTotal, Ticker.resetAll, exact, h2 ▸ h1, h2, hpos]

/-- C54, a paused ticker does not tick: while the target is positive and never changed, no update between a moment when the
ticker is not running and the next `resume` or `restart` reports a tick. -/
theorem C54_paused_partial (first : ℚ) (running : Bool) (ops more : List (Op ℚ)) (hpos : 0 < first)
    (ht : ∀ op ∈ ops, ∀ ft tg, op ≠ .updateTo ft tg ∧ op ≠ .restartTo tg)
    (hp : (run exact (Ticker.init exact first running) ops).1.running = false)
    (hm : ∀ op ∈ more, op ≠ .resume ∧ op ≠ .restart ∧ ∀ ft tg, op ≠ .updateTo ft tg ∧ op ≠ .restartTo tg) :
    ∀ s ∈ (run exact (run exact (Ticker.init exact first running) ops).1 more).2, s.ticked = false := by
  obtain ⟨h1, h2⟩ := current_lt first running ops hpos ht
  generalize (run exact (Ticker.init exact first running) ops).1 = t at hp h1 h2 ⊢
  have hz : 0 < t.target := by rw [h2]; exact hpos
  clear h2
  induction more generalizing t with
  | nil => simp [run]
  | cons op more ih =>
    have key : (step exact t op).1.running = false ∧ (step exact t op).2 ≠ some true ∧
        (step exact t op).1.current < (step exact t op).1.target ∧ 0 < (step exact t op).1.target := by
      have := hm op (by simp)
      cases op with
      | update ft => simp [step, Ticker.update, exact, hp, h1, hz]
      | updateTo ft tg => exact absurd rfl (this.2.2 ft tg).1
      | setLoop b => simp [step, Ticker.setLoop, hp, h1, hz]
      | resume => exact absurd rfl this.1
      | restart => exact absurd rfl this.2.1
      | restartTo tg => exact absurd rfl (this.2.2 0 tg).2
      | _ => simp [step, Ticker.pause, Ticker.stop, Ticker.resetCurrent, Ticker.resetTicks, Ticker.resetTotal,
          Ticker.resetAll, exact, hp, h1, hz]
    obtain ⟨k1, k2, k3, k4⟩ := key
    simp only [run, List.mem_cons]
    rintro s (rfl | hs)
    · simp only [Seen.ticked, beq_eq_false_iff_ne]
      exact k2
    · exact ih (fun x hx => hm x (by simp [hx])) _ k1 k3 k4 s hs

/-- A history that meets the hypotheses of `C54_paused_partial`. -/
example : (run exact (Ticker.init exact 10 true) [.update 6, .pause]).1.running = false := by decide +kernel

/-- C54 fails in general: an update that lowers the target below the time already counted makes a paused ticker tick; a ticker
whose target is not positive ticks at every update, paused or not. -/
theorem C54_paused_ticks :
    ((run exact (Ticker.init exact 10 true) [.update 5, .pause, .updateTo 1 3]).2.map Seen.ticked) = [false, false, true] ∧
    ((run exact (Ticker.init exact 0 true) [.pause, .update 1, .setLoop false, .update 1, .update 1]).2.map Seen.ticked) =
      [false, true, false, true, true] := by
  constructor <;> decide +kernel

/-- C54: the time by which a tick overshoots the target does not count for the next tick. -/
theorem C54_overshoot_dropped (t : Ticker ℚ) (ft : ℚ) (h : (t.update exact ft).2 = true) :
    (t.update exact ft).1.current = 0 := by
  revert h
  simp only [Ticker.update, exact, Ticker.resetCurrent]
  by_cases hlt : t.current + (if t.running = true then ft else 0) < t.target
  · simp only [hlt, decide_true, if_true]
    exact fun h => absurd h (by decide)
  · simp only [hlt, decide_false, Bool.false_eq_true, if_false]
    exact fun _ => trivial

/-- A non-trivial history: two ticks, a pause, a reset. -/
example : let r := run exact (Ticker.init exact 10 true) [.update 6, .update 6, .pause, .update 9, .resume, .update 3,
        .resetTotal, .setLoop false, .update 8, .update 20];
    r.2.map Seen.ticked = [false, true, false, false, false, false, false, false, true, false] ∧
    r.1.ticks = 2 ∧ r.1.total = 8 ∧ r.1.running = false ∧ r.1.current = 0 := by
  decide +kernel

end Verif.Ticker
