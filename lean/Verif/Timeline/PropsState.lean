import Verif.Timeline.Theorems

/-!
# C123: the position a timeline reports, and clearing it
-/

namespace Verif.Timeline

open Verif

variable {F : Type} (o : Ops F) (env : List Event → Nat → Bool)

/-- **C123 (position).** After any number of updates of a timeline without jumps, the reported position is the number of commands
completed — as long as there is one left. When all are completed it is `0`, as if none were. -/
theorem C123_position_partial (cmds : List (Cmd F)) (hs : ∀ c ∈ cmds, c.Simple) (fuel : Nat) (hfuel : cmds.length < fuel)
    (fts : List F) :
    ∃ t0 t log k, (TL.init o true).appends cmds = .ok t0 ∧ updates o env fuel t0 [] fts = .ok (t, log) ∧ k ≤ cmds.length ∧
      emitted log = (cmds.take k).flatMap Cmd.emits ∧ (t.finished = true → k = cmds.length) ∧
      t.getCurrentIndex = if k < cmds.length then (k : Int) else 0 := by
  obtain ⟨t, log, k, h1, h2⟩ := reach_updates o env hs hfuel fts (reach_init o cmds)
  refine ⟨_, t, log, k, appends_init o cmds, h1, h2.le, h2.done, h2.fin, ?_⟩
  have hl := h2.like.length
  by_cases hk : k < cmds.length
  · rw [TL.getCurrentIndex, h2.idx, if_neg (indexAt_ne hk), indexAt_lt hk, if_pos (by omega), if_pos hk]
  · have : k = cmds.length := by have := h2.le; omega
    subst this
    rw [TL.getCurrentIndex, h2.idx, indexAt_self, if_pos rfl, if_neg hk]

/-- Hypotheses met: after one update of `Do, Wait, Do` the wait is the current command. -/
example : (updates exact (fun _ _ => true) 5 ⟨[.act [.emit 1], .wait 10 10, .act [.emit 2]], 0, 0, true, false⟩ [] [1] >>=
    fun r => .ok (r.1.getCurrentIndex, emitted r.2)) = .ok (1, [1]) := by decide +kernel

/-- **C123, violated.** The reported position cannot tell a timeline at its first command from one that is done. -/
theorem C123_ambiguous (as : List Act) (ha : ∀ a ∈ as, a.isEmit = true) (ft : F) :
    ∃ t0 t log, (TL.init o true).appends [.act as] = .ok t0 ∧ update o env 2 t0 [] ft = .ok (t, log) ∧
      t0.finished = false ∧ t.finished = true ∧ t0.getCurrentIndex = 0 ∧ t.getCurrentIndex = 0 := by
  obtain ⟨l, -, h⟩ := loop_act o env 1 ⟨[.act as], 0, o.zero, true, false⟩ [] ft 0 as rfl rfl ha rfl
  refine ⟨_, ⟨[.act as], -1, o.zero, false, true⟩, l, appends_init o _, ?_, rfl, rfl, rfl, rfl⟩
  rw [update, if_neg (by simp)]
  exact h

/-- After jumping to a position outside (or with a negative index other than `-1`) the position reported is `-1`, respectively
that negative number. -/
theorem C123_outside (t : TL F) (i : Int) :
    (t.cmds.length ≤ i → (t.jumpTo i).getCurrentIndex = -1) ∧ (i < -1 → (t.jumpTo i).getCurrentIndex = i) := by
  constructor
  · intro h
    have h1 : ¬ (t.jumpTo i).cIdx = -1 := by show ¬ i = -1; omega
    have h2 : ¬ (t.jumpTo i).cIdx < (t.jumpTo i).cmds.length := by show ¬ i < t.cmds.length; omega
    rw [TL.getCurrentIndex, if_neg h1, if_neg h2]
  · intro h
    have h1 : ¬ (t.jumpTo i).cIdx = -1 := by show ¬ i = -1; omega
    have h2 : (t.jumpTo i).cIdx < (t.jumpTo i).cmds.length := by show i < t.cmds.length; omega
    rw [TL.getCurrentIndex, if_neg h1, if_pos h2]; rfl

theorem updates_finished (fuel : Nat) (t : TL F) (log : List Event) (fts : List F) (h : t.finished = true) :
    updates o env fuel t log fts = .ok (t, log) := by
  induction fts with
  | nil => rfl
  | cons ft fts ih => simp [updates, update, h, ih]

/-- Appending to any timeline without a current command. -/
theorem appends_null (t : TL F) (hi : t.cIdx = -1) (cmds : List (Cmd F)) :
    t.appends cmds = .ok { t with cmds := t.cmds ++ cmds, cIdx := if cmds = [] then -1 else t.cmds.length } := by
  cases cmds with
  | nil => simp [TL.appends, ← hi]
  | cons c cs =>
    have key : ∀ (cs : List (Cmd F)) (t : TL F), t.cIdx ≠ -1 → t.appends cs = .ok { t with cmds := t.cmds ++ cs } := by
      intro cs
      induction cs with
      | nil => intro t _; simp [TL.appends]
      | cons c cs ih =>
        intro t ht
        have : t.append c = .ok { t with cmds := t.cmds ++ [c] } := by
          unfold TL.append TL.insert
          rw [if_neg (by omega)]
          simp [ht]
        simp only [TL.appends, this, Outcome.bind_ok]
        rw [ih _ (by exact ht)]
        simp
    have : t.append c = .ok { t with cmds := t.cmds ++ [c], cIdx := t.cmds.length } := by
      unfold TL.append TL.insert
      rw [if_neg (by omega)]
      simp [hi]
    simp only [TL.appends, this, Outcome.bind_ok]
    rw [key _ _ (by simp)]
    simp

/-- **C123 (clearing).** `clear` leaves no command, wherever the timeline was; nothing runs afterwards, not even commands added
later, until `start` (or `reset`) is called; then those commands run from the first on, like on a new timeline. -/
theorem C123_clear (t : TL F) (hz : t.remainder = o.zero) (cmds : List (Cmd F)) (fuel : Nat) (log : List Event) (fts : List F) :
    t.clear.cmds = [] ∧ t.clear.getCurrentIndex = 0 ∧
    ∃ t1, t.clear.appends cmds = .ok t1 ∧ updates o env fuel t1 log fts = .ok (t1, log) ∧
      (TL.init o true).appends cmds = .ok t1.start := by
  refine ⟨rfl, rfl, _, appends_null t.clear rfl cmds, updates_finished o env fuel _ log fts rfl, ?_⟩
  rw [appends_init]
  cases cmds with
  | nil => simp [TL.clear, TL.start, indexAt, hz]
  | cons c cs => simp [TL.clear, TL.start, indexAt, hz]

/-- Hypotheses met: clearing a timeline in the middle of a wait. -/
example : (updates exact (fun _ _ => true) 5 ⟨[.act [.emit 1], .wait 10 10, .act [.emit 2]], 0, 0, true, false⟩ [] [1] >>=
    fun r => r.1.clear.appends [.act [.emit 3]] >>= fun t => update exact (fun _ _ => true) 5 t r.2 1 >>= fun r =>
    update exact (fun _ _ => true) 5 r.1.start r.2 1 >>= fun r' => .ok (emitted r.2, emitted r'.2)) = .ok ([1], [1, 3]) := by
  decide +kernel

end Verif.Timeline
