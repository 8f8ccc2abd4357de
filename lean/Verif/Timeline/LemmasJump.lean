import Verif.Timeline.LemmasRun
import Mathlib.Tactic.Tauto

/-!
# Runs of timelines with jumps
-/

namespace Verif.Timeline

open Verif

variable {F : Type} (o : Ops F) (env : List Event → Nat → Bool)

/-- Something that holds before and after each command holds after an update. -/
theorem loop_inv (P : TL F → List Event → Prop)
    (hstop : ∀ t log, t.cIdx = -1 → P t log → P t.stop log)
    (hexec : ∀ t log ft t' log', P t log → exec o env t log ft = .ok (t', log') → P { t' with remainder := o.zero } log')
    (fuel : Nat) (t : TL F) (log : List Event) (ft : F) (t' : TL F) (log' : List Event) (h : P t log)
    (e : loop o env fuel t log ft = .ok (t', log')) : P t' log' := by
  induction fuel generalizing t log with
  | zero => simp [loop] at e
  | succ fuel ih =>
    rw [loop] at e
    split at e
    · simp only [Outcome.ok.injEq, Prod.mk.injEq] at e
      obtain ⟨rfl, rfl⟩ := e
      exact hstop _ _ (by assumption) h
    · obtain ⟨⟨t1, log1⟩, e1, e2⟩ := Outcome.bind_eq_ok.1 e
      have h1 := hexec _ _ _ _ _ h e1
      simp only at e2
      split at e2
      · exact ih _ _ h1 e2
      · simp only [Outcome.ok.injEq, Prod.mk.injEq] at e2
        obtain ⟨rfl, rfl⟩ := e2
        exact h1

theorem updates_inv (P : TL F → List Event → Prop)
    (hready : ∀ t log, P t log → P { t with ready := true } log)
    (hstop : ∀ t log, t.cIdx = -1 → P t log → P t.stop log)
    (hexec : ∀ t log ft t' log', P t log → exec o env t log ft = .ok (t', log') → P { t' with remainder := o.zero } log')
    (fuel : Nat) (fts : List F) (t : TL F) (log : List Event) (t' : TL F) (log' : List Event) (h : P t log)
    (e : updates o env fuel t log fts = .ok (t', log')) : P t' log' := by
  induction fts generalizing t log with
  | nil =>
    simp only [updates, Outcome.ok.injEq, Prod.mk.injEq] at e
    obtain ⟨rfl, rfl⟩ := e
    exact h
  | cons ft fts ih =>
    rw [updates] at e
    obtain ⟨⟨t1, log1⟩, e1, e2⟩ := Outcome.bind_eq_ok.1 e
    refine ih t1 log1 ?_ e2
    unfold update at e1
    split at e1
    · simp only [Outcome.ok.injEq, Prod.mk.injEq] at e1
      obtain ⟨rfl, rfl⟩ := e1
      exact h
    · exact loop_inv o env P hstop hexec fuel _ _ _ _ _ (hready _ _ h) e1

theorem next_ok (t t' : TL F) (h : t.next = .ok t') :
    t' = { t with cIdx := t'.cIdx } := by
  unfold TL.next at h
  split at h
  · simp only [Outcome.ok.injEq] at h; subst h; rfl
  · simp only at h
    split at h
    · simp at h
    · simp only [Outcome.ok.injEq] at h; subst h; rfl

/-- What one command does to the commands and the log. -/
inductive Did (cmds : List (Cmd F)) : List (Cmd F) → List Event → Prop where
  | act (as : List Act) (l : List Event) (cmds' : List (Cmd F)) (hm : .act as ∈ cmds)
      (hl : ∀ e ∈ l, ∃ n, e = .emit n) (hc : cmds' = cmds ∨ (.reset ∈ as ∧ cmds' = cmds.map Cmd.reset)) : Did cmds cmds' l
  | wait (i : Nat) (time cur cur' : F) (h : cmds[i]? = some (.wait time cur)) :
      Did cmds (cmds.set i (.wait time cur')) []
  | ask (p : Nat) : Did cmds cmds [.asked p]
  | jump (i : Nat) (target : Int) (times cur : Nat) (h : cmds[i]? = some (.go target times (cur + 1))) :
      Did cmds (cmds.set i (.go target times cur)) [.jumped i]
  | pass (i : Nat) (target : Int) (times : Nat) (h : cmds[i]? = some (.go target times 0)) :
      Did cmds cmds [.passed i]

theorem reset_reset (c : Cmd F) : c.reset.reset = c.reset := by cases c <;> rfl

theorem runActs_did (as : List Act) (t : TL F) (log : List Event) :
    ∃ l, (runActs t log as).2 = log ++ l ∧ (∀ e ∈ l, ∃ n, e = .emit n) ∧ (runActs t log as).1.remainder = t.remainder ∧
      ((runActs t log as).1.cmds = t.cmds ∨ (.reset ∈ as ∧ (runActs t log as).1.cmds = t.cmds.map Cmd.reset)) := by
  induction as generalizing t log with
  | nil => exact ⟨[], by simp [runActs], by simp, rfl, .inl rfl⟩
  | cons a as ih =>
    cases a with
    | emit n =>
      obtain ⟨l, h1, h2, h3, h4⟩ := ih t (log ++ [.emit n])
      refine ⟨.emit n :: l, by simp [runActs, h1], by simpa using h2, h3, ?_⟩
      rcases h4 with h4 | ⟨h4, h5⟩
      · exact .inl h4
      · exact .inr ⟨List.mem_cons_of_mem _ h4, h5⟩
    | stop =>
      obtain ⟨l, h1, h2, h3, h4⟩ := ih t.stop log
      refine ⟨l, by simp [runActs, h1], h2, h3, ?_⟩
      rcases h4 with h4 | ⟨h4, h5⟩
      · exact .inl h4
      · exact .inr ⟨List.mem_cons_of_mem _ h4, h5⟩
    | start =>
      obtain ⟨l, h1, h2, h3, h4⟩ := ih t.start log
      refine ⟨l, by simp [runActs, h1], h2, h3, ?_⟩
      rcases h4 with h4 | ⟨h4, h5⟩
      · exact .inl h4
      · exact .inr ⟨List.mem_cons_of_mem _ h4, h5⟩
    | jumpTo i =>
      obtain ⟨l, h1, h2, h3, h4⟩ := ih (t.jumpTo i) log
      refine ⟨l, by simp [runActs, h1], h2, h3, ?_⟩
      rcases h4 with h4 | ⟨h4, h5⟩
      · exact .inl h4
      · exact .inr ⟨List.mem_cons_of_mem _ h4, h5⟩
    | reset =>
      obtain ⟨l, h1, h2, h3, h4⟩ := ih t.reset log
      refine ⟨l, by simp [runActs, h1], h2, h3, .inr ⟨List.mem_cons_self .., ?_⟩⟩
      rcases h4 with h4 | ⟨h4, h5⟩
      · exact h4
      · have : (t.reset).cmds.map Cmd.reset = t.cmds.map Cmd.reset := by
          simp only [TL.reset, TL.start, List.map_map]
          congr 1
          funext c
          exact reset_reset c
        exact h5.trans this

theorem current_ok (t : TL F) (i : Nat) (c : Cmd F) (h : t.current = .ok (i, c)) : t.cmds[i]? = some c ∧ t.cIdx = i := by
  unfold TL.current at h
  split at h
  · simp at h
  · split at h
    · simp at h
    · rename_i hc
      simp only [Outcome.ok.injEq, Prod.mk.injEq] at h
      obtain ⟨rfl, rfl⟩ := h
      exact ⟨hc, by omega⟩

theorem exec_did (t : TL F) (log : List Event) (ft : F) (t' : TL F) (log' : List Event)
    (e : exec o env t log ft = .ok (t', log')) : ∃ l, log' = log ++ l ∧ Did t.cmds t'.cmds l := by
  unfold exec at e
  obtain ⟨⟨i, c⟩, e1, e2⟩ := Outcome.bind_eq_ok.1 e
  obtain ⟨hc, _⟩ := current_ok t i c e1
  cases c with
  | act as =>
    obtain ⟨l, h1, h2, _, h4⟩ := runActs_did as t log
    simp only at e2
    obtain ⟨t1, e3, e4⟩ := Outcome.bind_eq_ok.1 e2
    simp only [Outcome.pure_eq, Outcome.ok.injEq, Prod.mk.injEq] at e4
    obtain ⟨rfl, rfl⟩ := e4
    refine ⟨l, h1, .act as l _ (List.mem_of_getElem? hc) h2 ?_⟩
    rw [next_ok _ _ e3]
    exact h4
  | wait time cur =>
    simp only at e2
    split at e2
    · simp only [Outcome.pure_eq, Outcome.ok.injEq, Prod.mk.injEq] at e2
      obtain ⟨rfl, rfl⟩ := e2
      exact ⟨[], by simp, .wait i time cur _ hc⟩
    · obtain ⟨t1, e3, e4⟩ := Outcome.bind_eq_ok.1 e2
      simp only [Outcome.pure_eq, Outcome.ok.injEq, Prod.mk.injEq] at e4
      obtain ⟨rfl, rfl⟩ := e4
      refine ⟨[], by simp, ?_⟩
      rw [next_ok _ _ e3]
      exact .wait i time cur _ hc
  | waitLoop w p =>
    simp only at e2
    split at e2
    · obtain ⟨t1, e3, e4⟩ := Outcome.bind_eq_ok.1 e2
      simp only [Outcome.pure_eq, Outcome.ok.injEq, Prod.mk.injEq] at e4
      obtain ⟨rfl, rfl⟩ := e4
      refine ⟨_, rfl, ?_⟩
      rw [next_ok _ _ e3]
      exact .ask p
    · simp only [Outcome.pure_eq, Outcome.ok.injEq, Prod.mk.injEq] at e2
      obtain ⟨rfl, rfl⟩ := e2
      exact ⟨_, rfl, .ask p⟩
  | go target times cur =>
    simp only at e2
    split at e2
    · rename_i h0
      subst h0
      obtain ⟨t1, e3, e4⟩ := Outcome.bind_eq_ok.1 e2
      simp only [Outcome.pure_eq, Outcome.ok.injEq, Prod.mk.injEq] at e4
      obtain ⟨rfl, rfl⟩ := e4
      refine ⟨_, rfl, ?_⟩
      rw [next_ok _ _ e3]
      exact .pass i target times hc
    · rename_i h0
      simp only [Outcome.pure_eq, Outcome.ok.injEq, Prod.mk.injEq] at e2
      obtain ⟨rfl, rfl⟩ := e2
      refine ⟨_, rfl, .jump i target times (cur - 1) ?_⟩
      rw [hc, Nat.sub_add_cancel (by omega)]

theorem did_like {a b : List (Cmd F)} {l : List Event} (h : Did a b l) : Like b a := by
  cases h with
  | act as l cmds' hm hl hc =>
    rcases hc with rfl | ⟨_, rfl⟩
    · rfl
    · unfold Like
      rw [List.map_map]
      congr 1
      funext c
      exact reset_reset c
  | wait i time cur cur' h => exact like_set _ _ _ _ h rfl
  | ask p => rfl
  | jump i target times cur h => exact like_set _ _ _ _ h rfl
  | pass i target times h => rfl

/-- Updates keep the commands, up to how far they have got. -/
theorem updates_like (fuel : Nat) (fts : List F) (t : TL F) (log : List Event) (t' : TL F) (log' : List Event)
    (e : updates o env fuel t log fts = .ok (t', log')) : Like t'.cmds t.cmds :=
  updates_inv o env (fun u _ => Like u.cmds t.cmds) (fun _ _ h => h) (fun _ _ _ h => h)
    (fun u log ft u' log' h e => by
      obtain ⟨l, _, hd⟩ := exec_did o env u log ft u' log' e
      exact (did_like hd).trans h) fuel fts t log t' log' rfl e

theorem like_go {a b : List (Cmd F)} (h : Like a b) {g : Nat} {target : Int} {times cur : Nat}
    (hb : b[g]? = some (.go target times cur)) : ∃ cur', a[g]? = some (.go target times cur') := by
  have h1 : (a.map Cmd.reset)[g]? = some (.go target times times) := by rw [h]; simp [hb, Cmd.reset]
  rw [List.getElem?_map] at h1
  cases ha : a[g]? with
  | none => simp [ha] at h1
  | some c =>
    rw [ha] at h1
    cases c <;> simp [Cmd.reset] at h1
    obtain ⟨rfl, rfl⟩ := h1
    exact ⟨_, rfl⟩

theorem like_noReset {a b : List (Cmd F)} (h : Like a b) (hb : ∀ c ∈ b, c.NoReset) : ∀ c ∈ a, c.NoReset := by
  intro c hc
  have : c.reset ∈ b.map Cmd.reset := by rw [← h]; exact List.mem_map_of_mem hc
  obtain ⟨d, hd, e⟩ := List.mem_map.1 this
  have := hb d hd
  cases c <;> cases d <;> simp_all [Cmd.reset, Cmd.NoReset]

/-- The account of a `Go`: its jumps and what it has left. -/
structure Account (cmds : List (Cmd F)) (g : Nat) (target : Int) (n cur : Nat) (t : TL F) (l : List Event) : Prop where
  like : Like t.cmds cmds
  acc : ∃ cur', t.cmds[g]? = some (.go target n cur') ∧ times (.jumped g) l + cur' = cur
  pass : ∀ a b, l = a ++ .passed g :: b → times (.jumped g) a = cur ∧ times (.jumped g) b = 0

theorem times_append (e : Event) (a b : List Event) : times e (a ++ b) = times e a + times e b := by
  simp [times]

theorem account_exec {cmds : List (Cmd F)} (hs : ∀ c ∈ cmds, c.NoReset) {g : Nat} {target : Int} {n cur : Nat} {t : TL F}
    {l0 l : List Event} {cmds' : List (Cmd F)} (h : Account cmds g target n cur t l0) (hd : Did t.cmds cmds' l)
    (t' : TL F) (ht : t'.cmds = cmds') : Account cmds g target n cur t' (l0 ++ l) := by
  obtain ⟨cur', hg, hacc⟩ := h.acc
  have hns := like_noReset h.like hs
  -- when the account does not change
  have quiet : t'.cmds[g]? = t.cmds[g]? → times (.jumped g) l = 0 → (∀ e ∈ l, e ≠ .passed g) →
      Account cmds g target n cur t' (l0 ++ l) := by
    intro h1 h2 h3
    refine ⟨ht ▸ (did_like hd).trans h.like, ⟨cur', by rw [h1, hg], by rw [times_append]; omega⟩, ?_⟩
    intro a b e
    rcases List.append_eq_append_iff.1 e with ⟨a', rfl, h5⟩ | ⟨c', rfl, h5⟩
    · exact absurd rfl (h3 (.passed g) (by rw [h5]; simp))
    · cases c' with
      | nil =>
        simp only [List.nil_append] at h5
        exact absurd rfl (h3 (.passed g) (by rw [← h5]; simp))
      | cons x c' =>
        simp only [List.cons_append, List.cons.injEq] at h5
        obtain ⟨rfl, rfl⟩ := h5
        obtain ⟨p1, p2⟩ := h.pass a c' rfl
        exact ⟨p1, by rw [times_append]; omega⟩
  cases hd with
  | act as l cmds' hm hl hc =>
    have : cmds' = t.cmds := by
      rcases hc with rfl | ⟨h1, _⟩
      · rfl
      · exact absurd rfl (hns _ hm _ h1)
    apply quiet
    · rw [ht, this]
    · unfold times
      rw [List.count_eq_zero]
      intro hm
      obtain ⟨n, hn⟩ := hl _ hm
      cases hn
    · intro e he e'
      obtain ⟨n, hn⟩ := hl _ he
      rw [hn] at e'; cases e'
  | wait i time c0 c1 hi =>
    apply quiet
    · rw [ht, List.getElem?_set_ne]
      rintro rfl
      rw [hi] at hg; cases hg
    · rfl
    · simp
  | ask p => exact quiet (by rw [ht]) rfl (by simp)
  | jump i tg n' c0 hi =>
    by_cases hig : i = g
    · subst hig
      rw [hi] at hg
      simp only [Option.some.injEq, Cmd.go.injEq] at hg
      obtain ⟨rfl, rfl, rfl⟩ := hg
      have hil := (List.getElem?_eq_some_iff.1 hi).1
      refine ⟨ht ▸ (like_set _ _ _ (.go tg n' c0) hi rfl).trans h.like, ⟨c0, ?_, ?_⟩, ?_⟩
      · rw [ht]; simp [hil]
      · rw [times_append]; simp [times] at hacc ⊢; omega
      · intro a b e
        rcases List.append_eq_append_iff.1 e with ⟨a', rfl, h5⟩ | ⟨c', rfl, h5⟩
        · cases a' with
          | nil => simp at h5
          | cons x a' => simp at h5
        · cases c' with
          | nil => simp at h5
          | cons x c' =>
            simp only [List.cons_append, List.cons.injEq] at h5
            obtain ⟨rfl, rfl⟩ := h5
            obtain ⟨p1, p2⟩ := h.pass a c' rfl
            rw [times_append] at hacc
            simp [times] at hacc p1 p2
            omega
    · apply quiet
      · rw [ht, List.getElem?_set_ne hig]
      · simp [times, List.count_cons, hig]
      · simp
  | pass i tg n' hi =>
    by_cases hig : i = g
    · subst hig
      rw [hi] at hg
      simp only [Option.some.injEq, Cmd.go.injEq] at hg
      obtain ⟨rfl, rfl, rfl⟩ := hg
      refine ⟨ht ▸ h.like, ⟨0, by rw [ht, hi], by rw [times_append]; simp [times] at hacc ⊢; omega⟩, ?_⟩
      intro a b e
      rcases List.append_eq_append_iff.1 e with ⟨a', rfl, h5⟩ | ⟨c', rfl, h5⟩
      · cases a' with
        | nil =>
          simp only [List.nil_append, List.cons.injEq, List.append_nil] at h5 ⊢
          exact ⟨by omega, by simp [← h5.2, times]⟩
        | cons x a' => simp at h5
      · cases c' with
        | nil =>
          simp only [List.nil_append, List.cons.injEq, List.append_nil] at h5 hacc
          exact ⟨by omega, by simp [h5.2, times]⟩
        | cons x c' =>
          simp only [List.cons_append, List.cons.injEq] at h5
          obtain ⟨rfl, rfl⟩ := h5
          obtain ⟨p1, p2⟩ := h.pass a c' rfl
          exact ⟨p1, by rw [times_append, p2]; simp [times]⟩
    · refine quiet (by rw [ht]) (by simp [times]) ?_
      intro e he
      simp only [List.mem_singleton] at he
      rw [he]
      intro h; injection h with h; exact hig h

end Verif.Timeline
