import Verif.Timeline.Edit
import Verif.Timeline.Lemmas
import Mathlib.Data.List.InsertIdx
import Mathlib.Data.List.TakeDrop
import Mathlib.Algebra.BigOperators.Group.List.Basic

/-!
# C134: actions that add and clear commands of their own timeline
-/

namespace Verif.Timeline.Edit

open Verif List

variable {F : Type} (o : Ops F) (env : List EEvent → Nat → Bool) (prog : ETL F → List EEvent → Nat → List (EAct F))

/-! ## Specification -/

/-- The name of the action of a command. -/
def ECmd.name : ECmd F → Option Nat
  | .act a => some a
  | _ => none

/-- A command that does not jump. -/
def ECmd.NoGo : ECmd F → Prop
  | .go _ _ _ => False
  | _ => True

/-- The actions that have been started, in order. -/
def ran (log : List EEvent) : List Nat :=
  log.filterMap fun e => match e with
    | .ran a => some a
    | _ => none

/-- A step of an action that does something visible, stops or starts the timeline, or adds a command without jumps behind the command
that is running. -/
def EAct.Gentle (t : ETL F) : EAct F → Prop
  | .emit _ => True
  | .stop => True
  | .start => True
  | .append c => c.NoGo
  | .insert i c => c.NoGo ∧ t.cIdx < i ∧ i ≤ t.cmds.length
  | _ => False

/-- Does a step add a command? -/
def EAct.isAdd : EAct F → Bool
  | .append _ => true
  | .insert _ _ => true
  | _ => false

/-- All actions consist of such steps when they run as one of the commands. -/
def Gentle : Prop := ∀ t log a, 0 ≤ t.cIdx → t.cIdx < t.cmds.length → ∀ s ∈ prog t log a, s.Gentle t

/-- The life of a timeline: it is made, commands without jumps are added (inserted behind the current one), it is started, stopped and
updated. -/
inductive Life : ETL F → List EEvent → Prop
  | new (start : Bool) : Life (ETL.init o start) []
  | append {t log} (c : ECmd F) {t'} : Life t log → c.NoGo → t.append c = .ok t' → Life t' log
  | insert {t log} (i : Int) (c : ECmd F) {t'} : Life t log → c.NoGo → t.cIdx ≠ -1 → t.cIdx < i →
      t.insert i c = .ok t' → Life t' log
  | start {t log} : Life t log → Life t.start log
  | stop {t log} : Life t log → Life t.stop log
  | update {t log} (fuel : Nat) (ft : F) {t' log'} : Life t log → update o env prog fuel t log ft = .ok (t', log') →
      Life t' log'

/-- `done` are the commands behind us, `rest` those to come. -/
structure At (t : ETL F) (log : List EEvent) (k : Nat) : Prop where
  le : k ≤ t.cmds.length
  idx : t.cIdx = indexAt t.cmds.length k
  log : ran log = (t.cmds.take k).filterMap ECmd.name
  nogo : ∀ c ∈ t.cmds, c.NoGo

/-! ## Steps -/

theorem insert_ok (t : ETL F) (i : Nat) (c : ECmd F) (h : i ≤ t.cmds.length) (hc : t.cIdx ≠ -1) :
    t.insert i c = .ok { t with cmds := t.cmds.insertIdx i c } := by
  rw [ETL.insert, if_neg (by omega)]
  simp [hc]

theorem append_ok (t : ETL F) (c : ECmd F) (hc : t.cIdx ≠ -1) : t.append c = .ok { t with cmds := t.cmds ++ [c] } := by
  rw [ETL.append, insert_ok t _ c (Nat.le_refl _) hc, List.insertIdx_length_self]

/-- What gentle steps do: everything up to position `k` stays, commands are added behind. -/
theorem steps_gentle (w : ECmd F → Nat) (B : Nat) (k : Nat) (as : List (EAct F)) : ∀ (t t0 : ETL F) (log : List EEvent),
    t.cIdx = k → t0.cIdx = k → k < t.cmds.length → t0.cmds.length ≤ t.cmds.length → (∀ c ∈ t.cmds, c.NoGo) →
    (∀ s ∈ as, s.Gentle t0) →
    (∀ s ∈ as, ∀ c, (s = .append c ∨ ∃ i, s = .insert i c) → w c ≤ B) →
    ∃ t' log', runSteps t log as = .ok (t', log') ∧ t'.cIdx = k ∧ t'.alive = t.alive ∧ t'.remainder = t.remainder ∧
      t'.cmds.take (k + 1) = t.cmds.take (k + 1) ∧ t.cmds <+ t'.cmds ∧ ran log' = ran log ∧ log <+: log' ∧ (∀ c ∈ t'.cmds, c.NoGo) ∧
      (t'.cmds.map w).sum ≤ (t.cmds.map w).sum + (as.filter EAct.isAdd).length * B ∧
      ((∀ s ∈ as, s ≠ .stop) → t.ready = true → t'.ready = true) ∧
      ((∀ s ∈ as, s ≠ .stop) → t.finished = false → t'.finished = false) := by
  induction as with
  | nil =>
    intro t t0 log h _ hk _ hn _ _
    exact ⟨t, log, rfl, h, rfl, rfl, rfl, List.Sublist.refl _, rfl, List.prefix_rfl, hn, by simp, fun _ h => h, fun _ h => h⟩
  | cons a as ih =>
    intro t t0 log h h0 hk hl hn hg hw
    have hga := hg a List.mem_cons_self
    have hg' := fun s hs => hg s (List.mem_cons_of_mem _ hs)
    have hw' := fun s hs => hw s (List.mem_cons_of_mem _ hs)
    have hneg : t.cIdx ≠ -1 := by omega
    cases a with
    | emit n =>
      obtain ⟨t', log', e, h1, h2, h3, h4, h5, h6, hp, h7, h8, h9, h10⟩ := ih t t0 (log ++ [.ev (.emit n)]) h h0 hk hl hn hg' hw'
      refine ⟨t', log', e, h1, h2, h3, h4, h5, ?_, ?_, h7, ?_, fun hs => h9 (fun s m => hs s (List.mem_cons_of_mem _ m)),
        fun hs => h10 (fun s m => hs s (List.mem_cons_of_mem _ m))⟩
      · rw [h6]; simp [ran]
      · exact (List.prefix_append _ _).trans hp
      · exact h8
    | stop =>
      obtain ⟨t', log', e, h1, h2, h3, h4, h5, h6, hp, h7, h8, h9, h10⟩ := ih t.stop t0 log h h0 hk hl hn hg' hw'
      refine ⟨t', log', e, h1, h2, h3, h4, h5, h6, hp, h7, h8, fun hs => absurd rfl (hs _ List.mem_cons_self),
        fun hs => absurd rfl (hs _ List.mem_cons_self)⟩
    | start =>
      obtain ⟨t', log', e, h1, h2, h3, h4, h5, h6, hp, h7, h8, h9, h10⟩ := ih t.start t0 log h h0 hk hl hn hg' hw'
      refine ⟨t', log', e, h1, h2, h3, h4, h5, h6, hp, h7, h8, fun hs _ => h9 (fun s m => hs s (List.mem_cons_of_mem _ m)) rfl,
        fun hs _ => h10 (fun s m => hs s (List.mem_cons_of_mem _ m)) rfl⟩
    | jumpTo i => exact absurd hga (by simp [EAct.Gentle])
    | reset => exact absurd hga (by simp [EAct.Gentle])
    | clear => exact absurd hga (by simp [EAct.Gentle])
    | append c =>
      obtain ⟨t', log', e, h1, h2, h3, h4, h5, h6, hp, h7, h8, h9, h10⟩ := ih { t with cmds := t.cmds ++ [c] } t0 log h h0
        (by simp; omega) (by simp; omega)
        (by intro d hd; rcases List.mem_append.1 hd with hd | hd
            · exact hn d hd
            · rw [List.mem_singleton.1 hd]; exact hga) hg' hw'
      refine ⟨t', log', ?_, h1, h2, h3, ?_, (List.sublist_append_left _ _).trans h5, h6, hp, h7, ?_,
        fun hs => h9 (fun s m => hs s (List.mem_cons_of_mem _ m)), fun hs => h10 (fun s m => hs s (List.mem_cons_of_mem _ m))⟩
      · rw [runSteps, append_ok t c hneg, Outcome.bind_ok]; exact e
      · rw [h4, List.take_append_of_le_length (by omega)]
      · have := hw _ List.mem_cons_self c (.inl rfl)
        refine h8.trans ?_
        simp only [List.map_append, List.sum_append, List.map_cons, List.map_nil, List.sum_cons, List.sum_nil]
        rw [List.filter_cons_of_pos rfl, List.length_cons, Nat.succ_mul]
        omega
    | insert i c =>
      obtain ⟨hc, hi1, hi2⟩ := hga
      obtain ⟨i, rfl⟩ : ∃ j : Nat, i = j := ⟨i.toNat, by omega⟩
      have hil : i ≤ t.cmds.length := by omega
      obtain ⟨t', log', e, h1, h2, h3, h4, h5, h6, hp, h7, h8, h9, h10⟩ := ih { t with cmds := t.cmds.insertIdx i c } t0 log h h0
        (by have := List.length_le_length_insertIdx (l := t.cmds) (x := c) (i := i); simp only; omega)
        (by have := List.length_le_length_insertIdx (l := t.cmds) (x := c) (i := i); simp only; omega)
        (by intro d hd; rcases List.eq_or_mem_of_mem_insertIdx hd with hd | hd
            · rw [hd]; exact hc
            · exact hn d hd) hg' hw'
      refine ⟨t', log', ?_, h1, h2, h3, ?_, (List.sublist_insertIdx _ _ _).trans h5, h6, hp, h7, ?_,
        fun hs => h9 (fun s m => hs s (List.mem_cons_of_mem _ m)), fun hs => h10 (fun s m => hs s (List.mem_cons_of_mem _ m))⟩
      · rw [runSteps, insert_ok t i c hil hneg, Outcome.bind_ok]; exact e
      · rw [h4, List.take_insertIdx_eq_take_of_le _ _ _ _ (by omega)]
      · have := hw _ List.mem_cons_self c (.inr ⟨_, rfl⟩)
        refine h8.trans ?_
        have hs : ((t.cmds.insertIdx i c).map w).sum = w c + (t.cmds.map w).sum := by
          have := ((List.perm_insertIdx c t.cmds hil).map w).sum_eq
          simpa using this
        simp only [hs]
        rw [List.filter_cons_of_pos rfl, List.length_cons, Nat.succ_mul]
        omega

theorem next_at (t : ETL F) (k : Nat) (hk : k < t.cmds.length) (h : t.cIdx = k) :
    t.next = .ok { t with cIdx := indexAt t.cmds.length (k + 1) } := by
  rw [ETL.next, h, if_neg (by omega)]
  simp only []
  rw [if_neg (by omega)]
  congr 2
  rw [indexAt]
  by_cases e : k + 1 = t.cmds.length
  · rw [if_pos (by omega), if_pos e]
  · rw [if_neg (by omega), if_neg e]; omega

theorem sum_drop (w : ECmd F → Nat) (l : List (ECmd F)) (k : Nat) :
    (l.map w).sum = ((l.take k).map w).sum + ((l.drop k).map w).sum := by
  rw [← List.sum_append, ← List.map_append, List.take_append_drop]

/-- Changing the time left of a wait. -/
theorem set_wait (l : List (ECmd F)) (k : Nat) (time cur cur' : F) (h : l[k]? = some (.wait time cur)) :
    (∀ i, ((l.set k (.wait time cur')).take i).filterMap ECmd.name = (l.take i).filterMap ECmd.name) ∧
    (l.set k (.wait time cur')).map ECmd.reset = l.map ECmd.reset ∧
    ((∀ c ∈ l, c.NoGo) → ∀ c ∈ l.set k (.wait time cur'), c.NoGo) := by
  obtain ⟨hk, e⟩ := List.getElem?_eq_some_iff.1 h
  have hs : l.set k (.wait time cur') = l.take k ++ .wait time cur' :: l.drop (k + 1) := List.set_eq_take_append_cons_drop.trans (if_pos hk)
  have hl : l = l.take k ++ .wait time cur :: l.drop (k + 1) := by
    rw [← e, List.getElem_cons_drop, List.take_append_drop]
  refine ⟨fun i => ?_, ?_, ?_⟩
  · rw [hs]
    conv => rhs; rw [hl]
    rw [List.take_append, List.take_append, List.filterMap_append, List.filterMap_append]
    congr 1
    cases i - (l.take k).length with
    | zero => rfl
    | succ j => rfl
  · rw [hs]
    conv => rhs; rw [hl]
    simp [ECmd.reset]
  · intro hn c hc
    rcases List.mem_or_eq_of_mem_set hc with hc | rfl
    · exact hn c hc
    · trivial

/-- One command of a timeline without jumps and with gentle actions. -/
theorem exec_at (hp : Gentle prog) (w : ECmd F → Nat) (b : Nat → Nat)
    (hw : ∀ t log a, ∀ s ∈ prog t log a, ∀ c, (s = .append c ∨ ∃ i, s = .insert i c) → w c ≤ b a)
    (t : ETL F) (log : List EEvent) (k : Nat) (h : At t log k) (hk : k < t.cmds.length) (ft : F) :
    ∃ t' log' k', exec o env prog t log ft = .ok (t', log') ∧ At t' log' k' ∧ k ≤ k' ∧ log <+: log' ∧
      t.cmds.map ECmd.reset <+ t'.cmds.map ECmd.reset ∧
      ((∀ t log a, .stop ∉ prog t log a) → t.finished = false → t'.finished = false) ∧
      (t'.ready = true → k' = k + 1 ∧ ∃ a, t.cmds[k]? = some (.act a) ∧
        ((t'.cmds.drop (k + 1)).map w).sum ≤ ((t.cmds.drop (k + 1)).map w).sum +
          ((prog t log a).filter EAct.isAdd).length * b a) := by
  have hi : t.cIdx = k := by rw [h.idx, indexAt_lt hk]
  have hcur : t.current = .ok (k, t.cmds[k]) := by
    rw [ETL.current, if_neg (by omega), hi, Int.toNat_natCast, List.getElem?_eq_getElem hk]
  have hget : t.cmds[k]? = some t.cmds[k] := List.getElem?_eq_getElem hk
  have htake : ∀ l : List (ECmd F), l[k]? = some t.cmds[k] → l.take (k + 1) = l.take k ++ [t.cmds[k]] := by
    intro l hl
    rw [List.take_add_one, hl]; rfl
  rw [exec, hcur, Outcome.bind_ok]
  cases hc : t.cmds[k] with
  | act a =>
    rw [hc] at htake hget
    obtain ⟨t', log', e, h1, h2, h3, h4, h5, h6, hpre, h7, h8, h9, h10⟩ := steps_gentle w (b a) k (prog t log a)
      { t with alive := true } t (log ++ [.ran a]) hi hi hk (Nat.le_refl _) h.nogo (hp t log a (by omega) (by omega)) (hw t log a)
    have hk' : k < t'.cmds.length := Nat.lt_of_lt_of_le hk h5.length_le
    refine ⟨{ t' with cIdx := indexAt t'.cmds.length (k + 1) }, log', k + 1, ?_, ⟨hk', rfl, ?_, h7⟩, Nat.le_succ _,
      (List.prefix_append _ _).trans hpre, h5.map _, fun hs hf => h10 (fun s hm e => hs t log a (e ▸ hm)) hf, fun _ => ⟨rfl, a, hget, ?_⟩⟩
    · simp only [e, Outcome.bind_ok, h2, Bool.not_true, Bool.false_eq_true, if_false, next_at t' k hk' h1]
      rfl
    · show ran log' = (t'.cmds.take (k + 1)).filterMap _
      rw [h6, h4]
      show ran (log ++ [.ran a]) = (t.cmds.take (k + 1)).filterMap _
      rw [htake _ hget, List.filterMap_append, ← h.log]
      simp [ran, ECmd.name]
    · have e1 := sum_drop w t'.cmds (k + 1)
      have e2 := sum_drop w t.cmds (k + 1)
      rw [h4] at e1
      simp only at e1 h8 ⊢
      omega
  | wait time cur =>
    rw [hc] at htake hget
    have hname : (t.cmds.take (k + 1)).filterMap ECmd.name = (t.cmds.take k).filterMap ECmd.name := by
      rw [htake _ hget, List.filterMap_append]; simp [ECmd.name]
    by_cases hpos : o.pos (o.sub cur ft) = true
    · obtain ⟨s1, s2, s3⟩ := set_wait t.cmds k time cur (o.sub cur ft) hget
      refine ⟨{ t with ready := false, cmds := t.cmds.set k (.wait time (o.sub cur ft)) }, log, k, ?_,
        ⟨by simpa using h.le, by simpa using h.idx, by simpa [s1] using h.log, s3 h.nogo⟩, Nat.le_refl _, List.prefix_rfl,
        by simp only [s2]; exact List.Sublist.refl _, fun _ hf => hf, fun hr => by cases hr⟩
      simp only [hpos, if_true]
      rfl
    · obtain ⟨s1, s2, s3⟩ := set_wait t.cmds k time cur time hget
      have hn := next_at { t with ready := false, remainder := o.sub cur ft } k hk hi
      refine ⟨⟨t.cmds.set k (.wait time time), indexAt t.cmds.length (k + 1), o.sub cur ft, false, t.finished, t.alive⟩,
        log, k + 1, ?_,
        ⟨by simp; omega, by simp, by simp only [s1, hname]; exact h.log, s3 h.nogo⟩, Nat.le_succ _, List.prefix_rfl,
        by simp only [s2]; exact List.Sublist.refl _, fun _ hf => hf, fun hr => by cases hr⟩
      simp only [if_neg hpos, hn, Outcome.bind_ok]
      rfl
  | waitLoop wh p =>
    rw [hc] at htake hget
    have hname : (t.cmds.take (k + 1)).filterMap ECmd.name = (t.cmds.take k).filterMap ECmd.name := by
      rw [htake _ hget, List.filterMap_append]; simp [ECmd.name]
    have hran : ran (log ++ [.ev (.asked p)]) = ran log := by simp [ran]
    by_cases hans : env log p ≠ wh
    · have hn := next_at { t with ready := false } k hk hi
      refine ⟨{ t with ready := false, cIdx := indexAt t.cmds.length (k + 1) }, log ++ [.ev (.asked p)], k + 1, ?_,
        ⟨hk, rfl, by rw [hran]; simp only [hname]; exact h.log, h.nogo⟩, Nat.le_succ _, List.prefix_append _ _,
        List.Sublist.refl _, fun _ hf => hf, fun hr => by cases hr⟩
      simp only [if_pos hans, hn, Outcome.bind_ok]
      rfl
    · refine ⟨{ t with ready := false }, log ++ [.ev (.asked p)], k, ?_,
        ⟨h.le, h.idx, by rw [hran]; exact h.log, h.nogo⟩, Nat.le_refl _, List.prefix_append _ _,
        List.Sublist.refl _, fun _ hf => hf, fun hr => by cases hr⟩
      simp only [if_neg hans]
      rfl
  | go target n cur => exact absurd (h.nogo _ (List.getElem_mem hk)) (by rw [hc]; simp [ECmd.NoGo])

theorem stop_at {t : ETL F} {log : List EEvent} {k : Nat} (h : At t log k) : At t.stop log k := ⟨h.le, h.idx, h.log, h.nogo⟩

theorem rem_at {t : ETL F} {log : List EEvent} {k : Nat} (h : At t log k) (r : F) : At { t with remainder := r } log k :=
  ⟨h.le, h.idx, h.log, h.nogo⟩

theorem ready_at {t : ETL F} {log : List EEvent} {k : Nat} (h : At t log k) (r f : Bool) :
    At { t with ready := r, finished := f } log k := ⟨h.le, h.idx, h.log, h.nogo⟩

/-- The loop of an update: it does not return, or it leaves the timeline further on. -/
theorem loop_at (hp : Gentle prog) (fuel : Nat) : ∀ (t : ETL F) (log : List EEvent) (k : Nat) (ft : F), At t log k →
    loop o env prog fuel t log ft = .diverge ∨
    ∃ t' log' k', loop o env prog fuel t log ft = .ok (t', log') ∧ At t' log' k' ∧ k ≤ k' ∧ log <+: log' ∧
      t.cmds.map ECmd.reset <+ t'.cmds.map ECmd.reset ∧
      ((∀ t log a, .stop ∉ prog t log a) → t.finished = false → t'.finished = true → k' = t'.cmds.length) := by
  induction fuel with
  | zero => intro t log k ft _; exact .inl rfl
  | succ fuel ih =>
    intro t log k ft h
    rw [loop]
    by_cases hk : k = t.cmds.length
    · rw [if_pos (by rw [h.idx, hk, indexAt_self])]
      exact .inr ⟨t.stop, log, k, rfl, stop_at h, Nat.le_refl _, List.prefix_rfl, List.Sublist.refl _, fun _ _ _ => hk⟩
    · have hk : k < t.cmds.length := by have := h.le; omega
      rw [if_neg (by rw [h.idx]; exact indexAt_ne hk)]
      obtain ⟨t1, log1, k1, e, h1, h2, h3, h4, h5, h6⟩ := exec_at o env prog hp (fun _ => 0) (fun _ => 0)
        (fun _ _ _ _ _ _ _ => Nat.le_refl _) t log k h hk (o.add ft t.remainder)
      rw [e, Outcome.bind_ok]
      simp only
      by_cases hr : t1.ready = true
      · rw [if_pos hr]
        rcases ih { t1 with remainder := o.zero } log1 k1 ft (rem_at h1 _) with hd | ⟨t2, log2, k2, e2, g1, g2, g3, g4, g5⟩
        · exact .inl hd
        · exact .inr ⟨t2, log2, k2, e2, g1, h2.trans g2, h3.trans g3, h4.trans g4, fun hs hf => g5 hs (h5 hs hf)⟩
      · rw [if_neg hr]
        refine .inr ⟨_, log1, k1, rfl, rem_at h1 _, h2, h3, h4, fun hs hf hf' => ?_⟩
        have := h5 hs hf
        rw [show t1.finished = true from hf'] at this; cases this

theorem update_at (hp : Gentle prog) (fuel : Nat) (t : ETL F) (log : List EEvent) (k : Nat) (ft : F) (h : At t log k) :
    update o env prog fuel t log ft = .diverge ∨
    ∃ t' log' k', update o env prog fuel t log ft = .ok (t', log') ∧ At t' log' k' ∧ k ≤ k' ∧ log <+: log' ∧
      t.cmds.map ECmd.reset <+ t'.cmds.map ECmd.reset ∧
      ((∀ t log a, .stop ∉ prog t log a) → t.finished = false → t'.finished = true → k' = t'.cmds.length) := by
  rw [update]
  by_cases hf : t.finished = true
  · rw [if_pos hf]
    exact .inr ⟨t, log, k, rfl, h, Nat.le_refl _, List.prefix_rfl, List.Sublist.refl _, fun _ h => by rw [hf] at h; cases h⟩
  · rw [if_neg hf]
    exact loop_at o env prog hp fuel _ log k ft (ready_at h true t.finished)

theorem life_at (hp : Gentle prog) {t : ETL F} {log : List EEvent} (h : Life o env prog t log) : ∃ k, At t log k := by
  induction h with
  | new start =>
    refine ⟨0, ?_⟩
    cases start <;> exact ⟨Nat.le_refl _, rfl, rfl, by intro c hc; cases hc⟩
  | @append t log c t' _ hc e ih =>
    obtain ⟨k, h⟩ := ih
    refine ⟨k, ?_⟩
    by_cases hk : k = t.cmds.length
    · have hi : t.cIdx = -1 := by rw [h.idx, hk, indexAt_self]
      have : t' = { t with cmds := t.cmds ++ [c], cIdx := t.cmds.length } := by
        rw [ETL.append, ETL.insert, if_neg (by omega)] at e
        simp only [hi, if_true, Int.toNat_natCast, List.insertIdx_length_self] at e
        injection e with e; exact e.symm
      rw [this]
      refine ⟨by simp [hk], by simp [indexAt, hk], ?_, ?_⟩
      · simp only [List.take_append_of_le_length h.le]; exact h.log
      · intro d hd
        rcases List.mem_append.1 hd with hd | hd
        · exact h.nogo d hd
        · rw [List.mem_singleton.1 hd]; exact hc
    · have hk : k < t.cmds.length := by have := h.le; omega
      rw [append_ok t c (by rw [h.idx]; exact indexAt_ne hk)] at e
      injection e with e
      rw [← e]
      refine ⟨by simp; omega, ?_, ?_, ?_⟩
      · rw [show (ETL.cIdx _) = t.cIdx from rfl, h.idx, indexAt_lt hk, indexAt_lt (by simp; omega)]
      · simp only [List.take_append_of_le_length h.le]; exact h.log
      · intro d hd
        rcases List.mem_append.1 hd with hd | hd
        · exact h.nogo d hd
        · rw [List.mem_singleton.1 hd]; exact hc
  | @insert t log i c t' _ hc h1 h2 e ih =>
    obtain ⟨k, h⟩ := ih
    refine ⟨k, ?_⟩
    have hk : k < t.cmds.length := by
      have := h.le
      rcases Nat.lt_or_eq_of_le this with hlt | he
      · exact hlt
      · exact absurd (by rw [h.idx, he, indexAt_self]) h1
    have hi : t.cIdx = k := by rw [h.idx, indexAt_lt hk]
    obtain ⟨i, rfl⟩ : ∃ j : Nat, i = j := ⟨i.toNat, by omega⟩
    have hil : i ≤ t.cmds.length := by
      by_contra hcon
      rw [ETL.insert, if_pos (by omega)] at e; cases e
    rw [insert_ok t i c hil h1] at e
    injection e with e
    rw [← e]
    have hlen := List.length_le_length_insertIdx (l := t.cmds) (x := c) (i := i)
    refine ⟨by simp only; omega, ?_, ?_, ?_⟩
    · rw [show (ETL.cIdx _) = t.cIdx from rfl, hi, indexAt_lt (by simp only; omega)]
    · simp only [List.take_insertIdx_eq_take_of_le _ _ _ _ (show k ≤ i by omega)]; exact h.log
    · intro d hd
      rcases List.eq_or_mem_of_mem_insertIdx hd with hd | hd
      · rw [hd]; exact hc
      · exact h.nogo d hd
  | start _ ih => obtain ⟨k, h⟩ := ih; exact ⟨k, ready_at h true false⟩
  | stop _ ih => obtain ⟨k, h⟩ := ih; exact ⟨k, stop_at h⟩
  | update fuel ft _ e ih =>
    obtain ⟨k, h⟩ := ih
    rcases update_at o env prog hp fuel _ _ k ft h with hd | ⟨t2, log2, k2, e2, g, _⟩
    · rw [hd] at e; cases e
    · rw [e2] at e; cases e; exact ⟨k2, g⟩

/-! ## Theorems -/

/-- **C134 (order).** In the whole life of a timeline, with commands added from outside and by its own actions behind the current
command, there is at every moment a part of the commands that is done and a part to come. The actions started so far are exactly
those of the done part, each once, in the order of the commands; the current command is the first of the others. -/
theorem C134_order (hp : Gentle prog) {t : ETL F} {log : List EEvent} (h : Life o env prog t log) :
    ∃ done rest, t.cmds = done ++ rest ∧ ran log = done.filterMap ECmd.name ∧
      t.cIdx = if rest = [] then -1 else (done.length : Int) := by
  obtain ⟨k, h⟩ := life_at o env prog hp h
  refine ⟨t.cmds.take k, t.cmds.drop k, (List.take_append_drop _ _).symm, h.log, ?_⟩
  rw [h.idx, indexAt]
  have := h.le
  by_cases hk : k = t.cmds.length
  · rw [if_pos hk, if_pos (by rw [List.drop_eq_nil_iff]; omega)]
  · rw [if_neg hk, if_neg (by rw [List.drop_eq_nil_iff]; omega), List.length_take, Nat.min_eq_left h.le]

/-- **C134 (safe, nothing is lost).** An update returns or goes on for ever, but nothing undefined happens; if it returns, all
commands are still there in their order (up to the time left of waits), what happened before is unchanged, and if the timeline is
now finished, although no action stops it, nothing is left to come. -/
theorem C134_update (hp : Gentle prog) {t : ETL F} {log : List EEvent} (h : Life o env prog t log) (fuel : Nat) (ft : F) :
    update o env prog fuel t log ft = .diverge ∨
    ∃ t' log', update o env prog fuel t log ft = .ok (t', log') ∧ log <+: log' ∧
      t.cmds.map ECmd.reset <+ t'.cmds.map ECmd.reset ∧
      ((∀ t log a, .stop ∉ prog t log a) → t.finished = false → t'.finished = true →
        t'.cIdx = -1 ∧ ran log' = t'.cmds.filterMap ECmd.name) := by
  obtain ⟨k, h⟩ := life_at o env prog hp h
  rcases update_at o env prog hp fuel t log k ft h with hd | ⟨t', log', k', e, g, _, g2, g3, g4⟩
  · exact .inl hd
  · refine .inr ⟨t', log', e, g2, g3, fun hs hf hf' => ?_⟩
    have hk := g4 hs hf hf'
    refine ⟨by rw [g.idx, hk, indexAt_self], by rw [g.log, hk, List.take_length]⟩

/-- The most commands a chain of additions can make out of one action: each action of rank `r + 1` adds at most `B` commands, with
actions of smaller rank. -/
def work (B : Nat) : Nat → Nat
  | 0 => 1
  | r + 1 => 1 + B * work B r

theorem work_pos (B r : Nat) : 1 ≤ work B r := by cases r <;> simp [work]

/-- The work in a command. -/
def ECmd.work (B : Nat) (rank : Nat → Nat) : ECmd F → Nat
  | .act a => Edit.work B (rank a)
  | _ => 1

/-- Every action adds at most `B` commands, and actions of smaller rank only. -/
def Bounded (B : Nat) (rank : Nat → Nat) : Prop :=
  ∀ t log a, ((prog t log a).filter EAct.isAdd).length ≤ B ∧ (rank a = 0 → (prog t log a).filter EAct.isAdd = []) ∧
    ∀ s ∈ prog t log a, ∀ c, (s = .append c ∨ ∃ i, s = .insert i c) → ∀ a', c = .act a' → rank a' < rank a

theorem work_mono (B : Nat) {r s : Nat} (h : r ≤ s) (hB : 1 ≤ B) : work B r ≤ work B s := by
  induction h with
  | refl => exact Nat.le_refl _
  | step _ ih => 
    refine ih.trans ?_
    rw [work]
    have := Nat.le_mul_of_pos_left (work B ‹_›) hB
    omega

theorem loop_returns (hp : Gentle prog) (B : Nat) (rank : Nat → Nat) (hB : Bounded prog B rank) (fuel : Nat) :
    ∀ (t : ETL F) (log : List EEvent) (k : Nat) (ft : F), At t log k →
    ((t.cmds.drop k).map (ECmd.work B rank)).sum < fuel → loop o env prog fuel t log ft ≠ .diverge := by
  induction fuel with
  | zero => intro t log k ft _ h; omega
  | succ fuel ih =>
    intro t log k ft h hf
    rw [loop]
    by_cases hk : k = t.cmds.length
    · rw [if_pos (by rw [h.idx, hk, indexAt_self])]; simp
    · have hk : k < t.cmds.length := by have := h.le; omega
      rw [if_neg (by rw [h.idx]; exact indexAt_ne hk)]
      obtain ⟨t1, log1, k1, e, h1, h2, h3, h4, h5, h6⟩ := exec_at o env prog hp (ECmd.work B rank)
        (fun a => work B (rank a - 1)) (by
          intro t log a s hs c hc
          have hadd : ((prog t log a).filter EAct.isAdd) ≠ [] := by
            refine List.ne_nil_of_mem (a := s) (List.mem_filter.2 ⟨hs, ?_⟩)
            rcases hc with rfl | ⟨i, rfl⟩ <;> rfl
          have hB1 : 1 ≤ B := by
            have := (hB t log a).1
            have := List.length_pos_of_ne_nil hadd
            omega
          cases c with
          | act a' =>
            have := (hB t log a).2.2 s hs _ hc a' rfl
            exact work_mono B (by omega) hB1
          | _ => exact work_pos _ _) t log k h hk (o.add ft t.remainder)
      rw [e, Outcome.bind_ok]
      simp only
      by_cases hr : t1.ready = true
      · rw [if_pos hr]
        obtain ⟨rfl, a, ha, hsum⟩ := h6 hr
        refine ih _ log1 (k + 1) ft (rem_at h1 _) ?_
        refine Nat.lt_of_le_of_lt hsum ?_
        have hd : t.cmds.drop k = .act a :: t.cmds.drop (k + 1) := by
          rw [List.drop_eq_getElem_cons hk, (List.getElem?_eq_some_iff.1 ha).2]
        rw [hd, List.map_cons, List.sum_cons] at hf
        have hwork : ((prog t log a).filter EAct.isAdd).length * work B (rank a - 1) + 1 ≤ (ECmd.act a : ECmd F).work B rank := by
          rw [ECmd.work]
          cases hra : rank a with
          | zero => rw [(hB t log a).2.1 hra]; simp [work]
          | succ r =>
            rw [work, Nat.succ_sub_one]
            have := Nat.mul_le_mul_right (work B r) (hB t log a).1
            omega
        omega
      · rw [if_neg hr]; simp

/-- **C134 (updates return).** If every action adds at most `B` commands, and only with actions of smaller rank, every update returns:
it runs no more commands than the work that is left. -/
theorem C134_returns (hp : Gentle prog) (B : Nat) (rank : Nat → Nat) (hB : Bounded prog B rank) {t : ETL F} {log : List EEvent}
    (h : Life o env prog t log) (fuel : Nat) (hf : (t.cmds.map (ECmd.work B rank)).sum < fuel) (ft : F) :
    ∃ t' log', update o env prog fuel t log ft = .ok (t', log') := by
  obtain ⟨k, hk⟩ := life_at o env prog hp h
  rcases C134_update o env prog hp h fuel ft with hd | ⟨t', log', e, _⟩
  · exfalso
    rw [update] at hd
    split at hd
    · cases hd
    · refine loop_returns o env prog hp B rank hB fuel { t with ready := true } log k ft (ready_at hk true t.finished) ?_ hd
      have := sum_drop (ECmd.work B rank) t.cmds k
      simp only
      omega
  · exact ⟨t', log', e⟩

/-- **C134 fails**: an action that appends itself again (a natural way to repeat something) keeps the update from returning. -/
theorem C134_self_append_never_returns (a : Nat) (ha : ∀ t log, prog t log a = [.append (.act a)]) (t : ETL F) (log : List EEvent)
    (pre : List (ECmd F)) (hc : t.cmds = pre ++ [.act a]) (hi : t.cIdx = pre.length) (hf : t.finished = false) (ft : F)
    (fuel : Nat) : update o env prog fuel t log ft = .diverge := by
  rw [update, if_neg (by simp [hf])]
  have key : ∀ (fuel : Nat) (t : ETL F) (log : List EEvent) (pre : List (ECmd F)), t.cmds = pre ++ [.act a] →
      t.cIdx = pre.length → t.ready = true → loop o env prog fuel t log ft = .diverge := by
    intro fuel
    induction fuel with
    | zero => intros; rfl
    | succ fuel ih =>
      intro t log pre hc hi hr
      rw [loop, if_neg (by omega)]
      have hcur : t.current = .ok (pre.length, .act a) := by
        rw [ETL.current, if_neg (by omega), hi, Int.toNat_natCast, hc, List.getElem?_append_right (Nat.le_refl _)]
        simp
      have hs : runSteps { t with alive := true } (log ++ [.ran a]) (prog t log a)
          = .ok ({ t with alive := true, cmds := t.cmds ++ [.act a] }, log ++ [.ran a]) := by
        rw [ha, runSteps, append_ok _ _ (by simp only; omega)]; rfl
      have hn := next_at { t with alive := true, cmds := t.cmds ++ [.act a] } pre.length (by simp [hc]) hi
      rw [exec, hcur, Outcome.bind_ok]
      simp only [hs, Outcome.bind_ok, Bool.not_true, Bool.false_eq_true, if_false, hn]
      simp only [Outcome.pure_eq, Outcome.bind_ok, hr, if_true]
      refine ih _ _ (pre ++ [.act a]) (by simp [hc]) ?_ rfl
      simp [hc, indexAt]
  exact key fuel _ log pre hc hi rfl

/-- **C134 fails**: an action that inserts a command at or before its own position is pushed one place on and run again, for
ever. -/
theorem C134_insert_before_never_returns (a : Nat)
    (ha : ∀ t log, 0 ≤ t.cIdx → ∃ i : Nat, ∃ c, prog t log a = [.insert i c] ∧ (i : Int) ≤ t.cIdx) (t : ETL F) (log : List EEvent)
    (k : Nat) (hc : t.cmds[k]? = some (.act a)) (hi : t.cIdx = k) (hf : t.finished = false) (ft : F)
    (fuel : Nat) : update o env prog fuel t log ft = .diverge := by
  rw [update, if_neg (by simp [hf])]
  have key : ∀ (fuel : Nat) (t : ETL F) (log : List EEvent) (k : Nat), t.cmds[k]? = some (.act a) →
      t.cIdx = k → t.ready = true → loop o env prog fuel t log ft = .diverge := by
    intro fuel
    induction fuel with
    | zero => intros; rfl
    | succ fuel ih =>
      intro t log k hc hi hr
      have hk := (List.getElem?_eq_some_iff.1 hc).1
      rw [loop, if_neg (by omega)]
      have hcur : t.current = .ok (k, .act a) := by
        rw [ETL.current, if_neg (by omega), hi, Int.toNat_natCast, hc]
      obtain ⟨i, c, hp, hik⟩ := ha t log (by omega)
      have hil : i ≤ t.cmds.length := by omega
      have hs : runSteps { t with alive := true } (log ++ [.ran a]) (prog t log a)
          = .ok ({ t with alive := true, cmds := t.cmds.insertIdx i c }, log ++ [.ran a]) := by
        rw [hp, runSteps, insert_ok { t with alive := true } i c hil (by omega : t.cIdx ≠ -1)]; rfl
      have hlen : (t.cmds.insertIdx i c).length = t.cmds.length + 1 := List.length_insertIdx_of_le_length hil c
      have hn := next_at { t with alive := true, cmds := t.cmds.insertIdx i c } k (by simp only [hlen]; omega) hi
      rw [exec, hcur, Outcome.bind_ok]
      simp only [hs, Outcome.bind_ok, Bool.not_true, Bool.false_eq_true, if_false, hn]
      simp only [Outcome.pure_eq, Outcome.bind_ok, hr, if_true]
      refine ih _ _ (k + 1) ?_ ?_ rfl
      · simp only
        rw [List.getElem?_insertIdx_of_gt (by omega)]
        exact hc
      · simp only [hlen, indexAt]
        rw [if_neg (by omega)]
  exact key fuel _ log k hc hi rfl

theorem runSteps_dead (as : List (EAct F)) : ∀ (t : ETL F) (log : List EEvent), (t.alive = false ∨ .clear ∈ as) →
    (runSteps t log as = .ub ∨ ∃ t' log', runSteps t log as = .ok (t', log') ∧ t'.alive = false) := by
  induction as with
  | nil =>
    intro t log h
    exact .inr ⟨t, log, rfl, by simpa using h⟩
  | cons a as ih =>
    intro t log h
    have h' : a ≠ .clear → (t.alive = false ∨ .clear ∈ as) := by
      intro hne
      rcases h with h | h
      · exact .inl h
      · rcases List.mem_cons.1 h with e | h
        · exact absurd e.symm hne
        · exact .inr h
    have hins : ∀ i c, a ≠ .clear → (t.insert i c >>= fun t => runSteps t log as) = .ub ∨
        ∃ t' log', (t.insert i c >>= fun t => runSteps t log as) = .ok (t', log') ∧ t'.alive = false := by
      intro i c hne
      rw [ETL.insert]
      split
      · exact .inl rfl
      · rw [Outcome.bind_ok]
        apply ih
        rcases h' hne with h | h
        · left; split <;> exact h
        · exact .inr h
    cases a with
    | clear => exact ih _ _ (.inl rfl)
    | append c => exact hins _ c (by simp)
    | insert i c => exact hins i c (by simp)
    | _ => exact ih _ _ (h' (by simp))

/-- **C134 fails**: an action must not clear its own timeline: it destroys itself while it runs. -/
theorem C134_clear_is_undefined (t : ETL F) (log : List EEvent) (ft : F) (fuel k a : Nat) (hc : t.cmds[k]? = some (.act a))
    (hi : t.cIdx = k) (hf : t.finished = false) (ha : ∀ t log, .clear ∈ prog t log a) :
    update o env prog (fuel + 1) t log ft = .ub := by
  have hcur : ({ t with ready := true } : ETL F).current = .ok (k, .act a) := by
    rw [ETL.current, if_neg (by simp only; omega)]
    simp only [hi, Int.toNat_natCast, hc]
  rw [update, if_neg (by simp [hf]), loop, if_neg (by simp only; omega), exec, hcur, Outcome.bind_ok]
  simp only
  rcases runSteps_dead (prog { t with ready := true } log a) { t with ready := true, alive := true } (log ++ [.ran a])
      (.inr (ha _ _)) with e | ⟨t', log', e, hd⟩
  · simp [e]
  · simp [e, hd]

/-! ## The model without editing -/

/-- Without the beginnings of actions. -/
def events (log : List EEvent) : List Event :=
  log.filterMap fun e => match e with
    | .ev e => some e
    | _ => none

def liftAct : Act → EAct F
  | .emit n => .emit n
  | .stop => .stop
  | .start => .start
  | .jumpTo i => .jumpTo i
  | .reset => .reset

/-- The same command, with the steps of the action in place of its name. -/
def ECmd.base (body : Nat → List Act) : ECmd F → Cmd F
  | .act a => .act (body a)
  | .wait time cur => .wait time cur
  | .waitLoop w p => .waitLoop w p
  | .go target times cur => .go target times cur

def ETL.base (body : Nat → List Act) (t : ETL F) : TL F :=
  ⟨t.cmds.map (ECmd.base body), t.cIdx, t.remainder, t.ready, t.finished⟩

theorem runSteps_base (body : Nat → List Act) (as : List Act) : ∀ (t : ETL F) (log : List EEvent),
    ∃ t' log', runSteps t log (as.map liftAct) = .ok (t', log') ∧ t'.alive = t.alive ∧
      runActs (t.base body) (events log) as = (t'.base body, events log') := by
  induction as with
  | nil => intro t log; exact ⟨t, log, rfl, rfl, rfl⟩
  | cons a as ih =>
    intro t log
    cases a with
    | emit n =>
      obtain ⟨t', log', e, h1, h2⟩ := ih t (log ++ [.ev (.emit n)])
      refine ⟨t', log', e, h1, ?_⟩
      rw [runActs, ← h2]; simp [events]
    | stop => exact ih t.stop log
    | start => exact ih t.start log
    | jumpTo i => exact ih (t.jumpTo i) log
    | reset =>
      obtain ⟨t', log', e, h1, h2⟩ := ih t.reset log
      refine ⟨t', log', e, h1, ?_⟩
      rw [runActs, ← h2]
      congr 1
      simp only [TL.reset, ETL.reset, ETL.base, TL.start, ETL.start, List.map_map, List.isEmpty_map]
      congr 2
      funext c
      cases c <;> rfl

theorem next_base (body : Nat → List Act) (t : ETL F) :
    (t.base body).next = (t.next >>= fun t => .ok (t.base body)) := by
  rw [TL.next, ETL.next]
  simp only [ETL.base, List.length_map]
  split
  · rfl
  · split <;> rfl

theorem current_base (body : Nat → List Act) (t : ETL F) :
    (t.base body).current = (t.current >>= fun r => .ok (r.1, r.2.base body)) := by
  rw [TL.current, ETL.current]
  simp only [ETL.base, List.getElem?_map]
  split
  · rfl
  · cases t.cmds[t.cIdx.toNat]? <;> rfl

theorem exec_base (body : Nat → List Act) (env : List Event → Nat → Bool) (t : ETL F) (log : List EEvent) (ft : F) :
    Timeline.exec o env (t.base body) (events log) ft =
      (exec o (fun log => env (events log)) (fun _ _ a => (body a).map liftAct) t log ft >>= fun r =>
        .ok (r.1.base body, events r.2)) := by
  rw [Timeline.exec, exec, current_base]
  cases hc : t.current with
  | ok r =>
    obtain ⟨i, c⟩ := r
    simp only [Outcome.bind_ok]
    cases c with
    | act a =>
      obtain ⟨t', log', e, h1, h2⟩ := runSteps_base body (body a) { t with alive := true } (log ++ [.ran a])
      have h3 : events (log ++ [.ran a]) = events log := by simp [events]
      rw [h3] at h2
      have h2 : runActs (t.base body) (events log) (body a) = (t'.base body, events log') := h2
      simp only [ECmd.base, h2, e, Outcome.bind_ok, h1, Bool.not_true, Bool.false_eq_true, if_false, next_base]
      cases t'.next <;> rfl
    | wait time cur =>
      simp only [ECmd.base]
      split
      · simp only [ETL.base, List.map_set, Outcome.pure_eq, Outcome.bind_ok, ECmd.base]
      · have hn := next_base body { t with ready := false, remainder := o.sub cur ft }
        simp only [ETL.base] at hn ⊢
        rw [hn]
        cases ({ t with ready := false, remainder := o.sub cur ft } : ETL F).next with
        | ok t1 => simp [List.map_set, ECmd.base]
        | _ => rfl
    | waitLoop w p =>
      simp only [ECmd.base]
      have he : events (log ++ [.ev (.asked p)]) = events log ++ [.asked p] := by simp [events]
      split
      · have hn := next_base body { t with ready := false }
        simp only [ETL.base] at hn ⊢
        rw [hn]
        cases ({ t with ready := false } : ETL F).next with
        | ok t1 => simp [he]
        | _ => rfl
      · simp [ETL.base, he]
    | go target n cur =>
      simp only [ECmd.base]
      have he : ∀ e, events (log ++ [.ev e]) = events log ++ [e] := fun e => by simp [events]
      split
      · rw [next_base]
        cases t.next with
        | ok t1 => simp [he]
        | _ => rfl
      · simp [ETL.base, TL.jumpTo, ETL.jumpTo, List.map_set, ECmd.base, he]
  | _ => rfl

theorem loop_base (body : Nat → List Act) (env : List Event → Nat → Bool) (fuel : Nat) : ∀ (t : ETL F) (log : List EEvent) (ft : F),
    Timeline.loop o env fuel (t.base body) (events log) ft =
      (loop o (fun log => env (events log)) (fun _ _ a => (body a).map liftAct) fuel t log ft >>= fun r =>
        .ok (r.1.base body, events r.2)) := by
  induction fuel with
  | zero => intros; rfl
  | succ fuel ih =>
    intro t log ft
    rw [Timeline.loop, loop]
    by_cases hi : t.cIdx = -1
    · rw [if_pos (show (t.base body).cIdx = -1 from hi), if_pos hi]; rfl
    · rw [if_neg (show ¬ (t.base body).cIdx = -1 from hi), if_neg hi]
      have := exec_base o body env t log (o.add ft t.remainder)
      rw [show (t.base body).remainder = t.remainder from rfl, this]
      cases exec o (fun log => env (events log)) (fun _ _ a => (body a).map liftAct) t log (o.add ft t.remainder) with
      | ok r =>
        obtain ⟨t1, log1⟩ := r
        simp only [Outcome.bind_ok]
        have h1 : (t1.base body).ready = t1.ready := rfl
        rw [h1]
        by_cases hr : t1.ready = true
        · rw [if_pos hr, if_pos hr]
          exact ih { t1 with remainder := o.zero } log1 ft
        · rw [if_neg hr, if_neg hr]; rfl
      | _ => rfl

/-- **C134 (same as before).** Without additions and clearing, this model and that of C49-C52 and C72 are the same. -/
theorem C134_conservative (body : Nat → List Act) (env : List Event → Nat → Bool) (fuel : Nat) (t : ETL F) (log : List EEvent)
    (ft : F) :
    Timeline.update o env fuel (t.base body) (events log) ft =
      (update o (fun log => env (events log)) (fun _ _ a => (body a).map liftAct) fuel t log ft >>= fun r =>
        .ok (r.1.base body, events r.2)) := by
  rw [Timeline.update, update]
  by_cases hf : t.finished = true
  · rw [if_pos (show (t.base body).finished = true from hf), if_pos hf]; rfl
  · rw [if_neg (show ¬ (t.base body).finished = true from hf), if_neg hf]
    exact loop_base o body env fuel { t with ready := true } log ft

/-! ## Examples -/

/-- Action 1 appends action 2 and inserts a wait right behind itself; action 2 does something visible; the others do
nothing. -/
def demoProg : ETL ℚ → List EEvent → Nat → List (EAct ℚ) := fun t _ a =>
  match a with
  | 1 => [.append (.act 2), .insert (t.cIdx + 1) (.wait 1 1)]
  | 2 => [.emit 7]
  | _ => []

/-- From the start: action 1, the inserted wait; then the command appended from outside, then action 2. -/
example : (do
    let t ← (ETL.init exact true).append (.act 1)
    let t ← t.append (.act 9)
    let (t, log) ← update exact (fun _ _ => true) demoProg 9 t [] 1
    let (t, log) ← update exact (fun _ _ => true) demoProg 9 t log 1
    let (t, log) ← update exact (fun _ _ => true) demoProg 9 t log 1
    .ok (t.cmds, t.finished, ran log)) = .ok ([.act 1, .wait 1 1, .act 9, .act 2], true, [1, 9, 2]) := by decide +kernel

theorem demo_gentle : Gentle demoProg := by
  intro t log a h0 h1 s hs
  unfold demoProg at hs
  split at hs
  · simp only [List.mem_cons, List.not_mem_nil, or_false] at hs
    rcases hs with rfl | rfl
    · trivial
    · exact ⟨trivial, by omega, by omega⟩
  · simp only [List.mem_cons, List.not_mem_nil, or_false] at hs
    rw [hs]; trivial
  · cases hs

theorem demo_bounded : Bounded demoProg 2 (fun a => if a = 1 then 1 else 0) := by
  intro t log a
  unfold demoProg
  split
  · refine ⟨Nat.le_refl 2, by simp, ?_⟩
    intro s hs c hc a' e
    simp only [List.mem_cons, List.not_mem_nil, or_false] at hs
    rcases hs with rfl | rfl <;> rcases hc with h | ⟨i, h⟩ <;> simp at h
    · rw [← h] at e; cases e; decide
    · rw [← h.2] at e; cases e
  · refine ⟨by decide, fun _ => rfl, ?_⟩
    intro s hs c hc
    simp only [List.mem_cons, List.not_mem_nil, or_false] at hs
    rcases hc with h | ⟨i, h⟩ <;> rw [hs] at h <;> cases h
  · exact ⟨by simp, fun _ => rfl, fun s hs => by cases hs⟩

/-- A timeline with action 1. -/
theorem demo_life : Life exact (fun _ _ => true) demoProg ⟨[.act 1], 0, 0, true, false, true⟩ [] :=
  .append (.act 1) (.new true) trivial rfl

example := C134_order exact (fun _ _ => true) demoProg demo_gentle demo_life

example := C134_update exact (fun _ _ => true) demoProg demo_gentle demo_life 4 1

example : ∃ t' log', update exact (fun _ _ => true) demoProg 4 ⟨[.act 1], 0, 0, true, false, true⟩ [] 1 = .ok (t', log') :=
  C134_returns exact (fun _ _ => true) demoProg demo_gentle 2 _ demo_bounded demo_life 4 (by decide) 1

/-- Actions as in the three false claims. -/
def badProg : ETL ℚ → List EEvent → Nat → List (EAct ℚ) := fun t _ a =>
  match a with
  | 3 => [.append (.act 3)]
  | 4 => [.insert t.cIdx.toNat (.wait 1 1)]
  | 5 => [.emit 1, .clear, .append (.act 1)]
  | _ => []

example (fuel : Nat) : update exact (fun _ _ => true) badProg fuel ⟨[.act 1, .act 3], 1, 0, true, false, true⟩ [] 1 = .diverge :=
  C134_self_append_never_returns exact _ badProg 3 (fun _ _ => rfl) _ [] [.act 1] rfl rfl rfl 1 fuel

example (fuel : Nat) : update exact (fun _ _ => true) badProg (fuel + 1) ⟨[.act 1, .act 5], 1, 0, true, false, true⟩ [] 1 = .ub :=
  C134_clear_is_undefined exact _ badProg _ [] 1 fuel 1 5 rfl rfl rfl (fun _ _ => by simp [badProg])

example (fuel : Nat) : update exact (fun _ _ => true) badProg fuel ⟨[.act 1, .act 4, .act 1], 1, 0, true, false, true⟩ [] 1
    = .diverge :=
  C134_insert_before_never_returns exact _ badProg 4 (fun t _ h => ⟨t.cIdx.toNat, .wait 1 1, rfl, by omega⟩) _ [] 1 rfl rfl rfl 1 fuel

example := C134_conservative exact (fun a => if a = 0 then [.emit 1, .stop] else [.jumpTo 0]) (fun _ _ => true) 7
  ⟨[.act 0, .wait 1 1, .act 1], 0, 0, true, false, true⟩ [] 1

end Verif.Timeline.Edit
