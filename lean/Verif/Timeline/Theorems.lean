import Verif.Timeline.LemmasLoop
import Mathlib.Tactic.Linarith
import Mathlib.Tactic.Ring

/-!
# Timelines: theorems

C49 order of commands, C50 waits, C51 jumps, C52 insertion, C72 actions that control the timeline. `env` answers the
predicates of waits; `fuel` bounds the commands run in one update, any large enough number gives the same result.
-/

namespace Verif.Timeline

open Verif

variable {F : Type} (o : Ops F) (env : List Event → Nat → Bool)

theorem set_same (l : List (Cmd F)) (k : Nat) (c : Cmd F) (h : l[k]? = some c) : l.set k c = l := by
  apply List.ext_getElem?
  intro i
  by_cases hi : k = i
  · subst hi
    rw [List.getElem?_set_self (List.getElem?_eq_some_iff.1 h).1, h]
  · rw [List.getElem?_set_ne hi]

/-- One command of an update that goes on. -/
theorem update_step (fuel : Nat) (t t1 t2 : TL F) (log log1 : List Event) (ft : F) (hf : t.finished = false) (hi : t.cIdx ≠ -1)
    (e : exec o env { t with ready := true } log (o.add ft t.remainder) = .ok (t1, log1)) (hr : t1.ready = true)
    (h1 : t2.cmds = t1.cmds) (h2 : t2.cIdx = t1.cIdx) (h3 : t2.remainder = o.zero) (h4 : t2.finished = t1.finished)
    (h5 : t2.finished = false) : update o env (fuel + 1) t log ft = update o env fuel t2 log1 ft := by
  have e1 : update o env (fuel + 1) t log ft = loop o env (fuel + 1) { t with ready := true } log ft := by
    unfold update; rw [if_neg (by simp [hf])]
  have e2 : update o env fuel t2 log1 ft = loop o env fuel { t1 with remainder := o.zero } log1 ft := by
    unfold update; rw [if_neg (by simp [h5])]
    congr 1
    cases t1; cases t2
    simp_all
  rw [e1, e2, loop, if_neg hi, e]
  simp only [Outcome.bind_ok]
  rw [if_pos hr]

theorem insertIdx_split (l : List (Cmd F)) (i : Nat) (c : Cmd F) (h : i ≤ l.length) :
    l.insertIdx i c = l.take i ++ c :: l.drop i := by
  induction l generalizing i with
  | nil => simp at h; subst h; rfl
  | cons x l ih =>
    cases i with
    | zero => rfl
    | succ i => simp [ih i (by simpa using h)]

/-! ## C49: order -/

/-- C49. A timeline made of actions and waits runs its actions in the order they were appended, each once: after any number of
updates the effects seen so far are a beginning of the effects of all commands in order, and once it is finished they are
exactly those. Every update returns. -/
theorem C49_order (cmds : List (Cmd F)) (hs : ∀ c ∈ cmds, c.Simple) (fuel : Nat) (hfuel : cmds.length < fuel) (fts : List F) :
    ∃ t0 t log, (TL.init o true).appends cmds = .ok t0 ∧ updates o env fuel t0 [] fts = .ok (t, log) ∧
      emitted log <+: cmds.flatMap Cmd.emits ∧
      (t.finished = true → emitted log = cmds.flatMap Cmd.emits) := by
  obtain ⟨t, log, k, e, h⟩ := reach_updates o env hs hfuel fts (reach_init o cmds)
  refine ⟨_, t, log, appends_init o cmds, e, ?_, ?_⟩
  · rw [h.done]
    conv_rhs => rw [← List.take_append_drop k cmds, List.flatMap_append]
    exact List.prefix_append _ _
  · intro hf
    rw [h.done, h.fin hf, List.take_length]

/-- C49. One update, from any moment of such a run: if the timeline is not finished, the update performs exactly the actions up
to the next wait, or up to the end; in the latter case the timeline is finished; in the former it is not, and the wait at which
the update stopped is still current or the command after it is. -/
theorem C49_update (cmds : List (Cmd F)) (hs : ∀ c ∈ cmds, c.Simple) (fuel : Nat) (hfuel : cmds.length < fuel) (fts : List F)
    (ft : F) (t0 t t' : TL F) (log log' : List Event) (h0 : (TL.init o true).appends cmds = .ok t0)
    (e : updates o env fuel t0 [] fts = .ok (t, log)) (hf : t.finished = false)
    (e' : update o env fuel t log ft = .ok (t', log')) :
    ∃ before run after : List (Cmd F), cmds = before ++ run ++ after ∧
      t.cIdx = (if before.length = cmds.length then -1 else (before.length : Int)) ∧
      emitted log = before.flatMap Cmd.emits ∧
      (∀ c ∈ run, c.isDo = true) ∧ (∀ c ∈ after.head?, c.isDo = false) ∧
      emitted log' = (before ++ run).flatMap Cmd.emits ∧
      (t'.finished = true ↔ after = []) ∧
      (after ≠ [] → t'.cIdx = ((before ++ run).length : Int) ∨
        t'.cIdx = (if after.length = 1 then -1 else ((before ++ run).length + 1 : Int))) := by
  rw [appends_init] at h0
  simp only [Outcome.ok.injEq] at h0
  subst h0
  obtain ⟨t1, log1, k, e1, h⟩ := reach_updates o env hs hfuel fts (reach_init o cmds)
  rw [e] at e1
  simp only [Outcome.ok.injEq, Prod.mk.injEq] at e1
  obtain ⟨rfl, rfl⟩ := e1
  have hl := h.like.length
  obtain ⟨t2, l, f1, f2, f3, f4, f5⟩ := update_simple o env fuel t log ft k (h.like.simple hs) (by rw [hl]; exact h.le)
    (by rw [hl]; exact h.idx) h.zero hf (by omega) _ rfl
  rw [e'] at f1
  simp only [Outcome.ok.injEq, Prod.mk.injEq] at f1
  obtain ⟨rfl, rfl⟩ := f1
  have hdo : ∀ (a b : List (Cmd F)), Like a b →
      (a.takeWhile Cmd.isDo).length = (b.takeWhile Cmd.isDo).length := by
    intro a
    induction a with
    | nil =>
      intro b hab
      have := hab.length
      cases b with
      | nil => rfl
      | cons => simp at this
    | cons x a ih =>
      intro b hab
      cases b with
      | nil => have := hab.length; simp at this
      | cons y b =>
        have hxy : x.reset = y.reset ∧ Like a b := by simpa [Like] using hab
        have : x.isDo = y.isDo := by rw [← isDo_reset x, ← isDo_reset y, hxy.1]
        simp only [List.takeWhile_cons, this]
        split
        · simp only [List.length_cons]; rw [ih b hxy.2]
        · rfl
  have hdrop : Like (t.cmds.drop k) (cmds.drop k) := by
    unfold Like
    rw [List.map_drop, List.map_drop, h.like]
  have hrun := hdo _ _ hdrop
  have hsplit := List.takeWhile_append_dropWhile (p := Cmd.isDo) (l := cmds.drop k)
  have hbl : (cmds.take k).length = k := by rw [List.length_take]; have := h.le; omega
  refine ⟨cmds.take k, (cmds.drop k).takeWhile Cmd.isDo, (cmds.drop k).dropWhile Cmd.isDo, ?_, ?_, h.done, ?_, ?_, ?_, ?_, ?_⟩
  · rw [List.append_assoc, hsplit, List.take_append_drop]
  · rw [h.idx, hbl]; rfl
  · intro c hc; exact List.all_eq_true.1 List.all_takeWhile c hc
  · intro c hc
    have := List.head?_dropWhile_not Cmd.isDo (cmds.drop k)
    rw [hc] at this
    simpa using this
  · rw [emitted_append, h.done, f2, List.flatMap_append]
    congr 1
    have e1 := takeWhile_emits t.cmds k _ rfl
    have e2 := takeWhile_emits cmds k _ rfl
    rw [hrun, h.like.emits, e2, h.like.emits] at e1
    exact (List.append_cancel_left e1).symm
  · have hlen := congrArg List.length hsplit
    rw [List.length_append, List.length_drop, ← hrun] at hlen
    have hle := h.le
    rcases f5 with ⟨f5, f6, _⟩ | ⟨f5, f6, _⟩
    · rw [f6]
      refine ⟨fun _ => List.eq_nil_of_length_eq_zero (by omega), fun _ => rfl⟩
    · rw [f6]
      refine ⟨fun hh => absurd hh (by simp), fun hh => ?_⟩
      rw [hh] at hlen
      simp only [List.length_nil] at hlen
      omega
  · have hlen := congrArg List.length hsplit
    rw [List.length_append, List.length_drop] at hlen
    have hle := h.le
    rw [List.length_append, hbl]
    intro hne
    have hpos := List.length_pos_iff.2 hne
    rw [hrun] at f5
    have key : ∀ b : Bool, t'.cIdx = indexAt t.cmds.length (if b = true then k + ((cmds.drop k).takeWhile Cmd.isDo).length
        else k + ((cmds.drop k).takeWhile Cmd.isDo).length + 1) →
        t'.cIdx = ((k + ((cmds.drop k).takeWhile Cmd.isDo).length : Nat) : Int) ∨
        t'.cIdx = (if ((cmds.drop k).dropWhile Cmd.isDo).length = 1 then -1
          else ((k + ((cmds.drop k).takeWhile Cmd.isDo).length : Nat) + 1 : Int)) := by
      intro b hb
      rw [hb, hl]
      cases b with
      | true => left; simp only [if_true, indexAt]; rw [if_neg (by omega)]
      | false =>
        right
        simp only [Bool.false_eq_true, if_false, indexAt]
        by_cases h1 : ((cmds.drop k).dropWhile Cmd.isDo).length = 1
        · rw [if_pos (by omega), if_pos h1]
        · rw [if_neg (by omega), if_neg h1]; omega
    rcases f5 with ⟨f5, _⟩ | ⟨_, _, ⟨_, cur, _, _, f7⟩ | ⟨_, _, _, _, b, f7⟩⟩
    · omega
    · exact key (o.pos (o.sub cur (o.add ft o.zero))) f7
    · exact key b f7

/-- C49. It does finish: a timeline of actions and time waits, updated with steps none of which is shorter than any of the
waits, is finished, with all its effects, after one more update than it has waits. -/
theorem C49_finishes (cmds : List (Cmd F)) (hs : ∀ c ∈ cmds, c.Simple ∧ c.Fresh ∧ ∀ w p, c ≠ .waitLoop w p)
    (fuel : Nat) (hfuel : cmds.length < fuel) (fts : List F)
    (hlong : ∀ ft ∈ fts, ∀ time, .wait time time ∈ cmds → o.pos (o.sub time (o.add ft o.zero)) = false)
    (hn : (cmds.filter (fun c => !c.isDo)).length < fts.length) :
    ∃ t0 t log, (TL.init o true).appends cmds = .ok t0 ∧ updates o env fuel t0 [] fts = .ok (t, log) ∧
      t.finished = true ∧ emitted log = cmds.flatMap Cmd.emits := by
  have hsimple : ∀ c ∈ cmds, c.Simple := fun c hc => (hs c hc).1
  -- all waits from position `k` on still have their full time
  have key : ∀ (fts : List F) (t : TL F) (log : List Event) (k : Nat), Reach o cmds t log k → t.cmds = cmds →
      (∀ ft ∈ fts, ∀ time, .wait time time ∈ cmds → o.pos (o.sub time (o.add ft o.zero)) = false) →
      (t.finished = true ∨ ((cmds.drop k).filter (fun c => !c.isDo)).length < fts.length) →
      ∃ t' log', updates o env fuel t log fts = .ok (t', log') ∧ t'.finished = true ∧
        emitted log' = cmds.flatMap Cmd.emits := by
    intro fts
    induction fts with
    | nil =>
      intro t log k h hc _ hlt
      rcases hlt with hf | hlt
      · exact ⟨t, log, rfl, hf, by rw [h.done, h.fin hf, List.take_length]⟩
      · simp at hlt
    | cons ft fts ih =>
      intro t log k h hc hlong hlt
      have hlong' := fun ft' hft' => hlong ft' (List.mem_cons_of_mem _ hft')
      cases hf : t.finished with
      | true =>
        obtain ⟨t', log', e, f⟩ := ih t log k h hc hlong' (.inl hf)
        exact ⟨t', log', by simp [updates, update, hf, e], f⟩
      | false =>
        obtain ⟨t1, l, f1, f2, f3, f4, f5⟩ := update_simple o env fuel t log ft k (hc ▸ hsimple) (hc ▸ h.le) (hc ▸ h.idx)
          h.zero hf (hc ▸ hfuel) _ rfl
        obtain ⟨t1', log1', k1, g1, g2⟩ := reach_update o env hsimple hfuel h ft
        rw [f1] at g1
        simp only [Outcome.ok.injEq, Prod.mk.injEq] at g1
        obtain ⟨rfl, rfl⟩ := g1
        rw [hc] at f5
        rcases f5 with ⟨f5, f6, f7⟩ | ⟨f5, f6, ⟨time, cur, f7, f8, f9⟩ | ⟨w, p, f7, _⟩⟩
        · -- the end
          have hf1 : t1.finished = true := f6
          have hstay : ∀ fts : List F, updates o env fuel t1 (log ++ l) fts = .ok (t1, log ++ l) := by
            intro fts
            induction fts with
            | nil => rfl
            | cons ft fts ih => simp [updates, update, hf1, ih]
          exact ⟨t1, log ++ l, by simp [updates, f1, hstay], hf1, by rw [g2.done, g2.fin hf1, List.take_length]⟩
        · -- a wait, which ends
          have hm := List.mem_of_getElem? f7
          have hcur : cur = time := (hs _ hm).2.1
          subst hcur
          have hp := hlong ft (List.mem_cons_self ..) cur hm
          rw [hp] at f8 f9
          simp only [Bool.false_eq_true, if_false] at f8 f9
          have hset : cmds.set (k + ((cmds.drop k).takeWhile Cmd.isDo).length) (.wait cur cur) = cmds :=
            set_same _ _ _ f7
          have hk1 : k1 = k + ((cmds.drop k).takeWhile Cmd.isDo).length + 1 := by
            have h1 := g2.idx
            have h2 := g2.le
            rw [f9] at h1
            unfold indexAt at h1
            split at h1 <;> split at h1 <;> omega
          have hlen : ((cmds.drop k1).filter (fun c => !c.isDo)).length + 1 =
              ((cmds.drop k).filter (fun c => !c.isDo)).length := by
            have e1 : cmds.drop k = (cmds.drop k).takeWhile Cmd.isDo ++ cmds.drop (k + ((cmds.drop k).takeWhile Cmd.isDo).length) := by
              have h1 := List.takeWhile_append_dropWhile (p := Cmd.isDo) (l := cmds.drop k)
              generalize (cmds.drop k).takeWhile Cmd.isDo = a at h1 ⊢
              generalize (cmds.drop k).dropWhile Cmd.isDo = b at h1
              rw [← List.drop_drop, ← h1]; simp
            have e2 : cmds.drop (k + ((cmds.drop k).takeWhile Cmd.isDo).length) = .wait cur cur :: cmds.drop k1 := by
              obtain ⟨h1, h2⟩ := List.getElem?_eq_some_iff.1 f7
              rw [List.drop_eq_getElem_cons h1, h2, hk1]
            rw [e1, e2, List.filter_append]
            have e3 : ((cmds.drop k).takeWhile Cmd.isDo).filter (fun c => !c.isDo) = [] := by
              rw [List.filter_eq_nil_iff]
              intro c hc
              have := List.all_eq_true.1 List.all_takeWhile c hc
              simp [this]
            rw [e3]
            simp [Cmd.isDo]
          rcases hlt with hlt | hlt
          · simp [hf] at hlt
          · obtain ⟨t', log', e, f⟩ := ih t1 (log ++ l) k1 g2 (by rw [f8]; exact hset) hlong'
              (.inr (by simp only [List.length_cons] at hlt; omega))
            exact ⟨t', log', by simp [updates, f1, e], f⟩
        · exact absurd rfl ((hs _ (List.mem_of_getElem? f7)).2.2 w p)
  obtain ⟨t, log, e, f⟩ := key fts _ [] 0 (reach_init o cmds) rfl hlong (.inr (by simpa using hn))
  exact ⟨_, t, log, appends_init o cmds, e, f⟩

/-- C49. What is missing: a wait that comes to its end also ends the update, so an action behind a wait is never performed in the
update in which the wait is over, however long the frame. -/
theorem C49_stops_at_finished_wait (fuel : Nat) (time ft : F) (as : List Act) (ha : ∀ a ∈ as, a.isEmit = true)
    (hp : o.pos (o.sub time (o.add ft o.zero)) = false) :
    ∃ t0, (TL.init o true).appends [.wait time time, .act as] = .ok t0 ∧
      update o env (fuel + 3) t0 [] ft = .ok ({ t0 with cIdx := 1, ready := false }, []) := by
  refine ⟨_, appends_init o _, ?_⟩
  simp [update, loop, indexAt, exec, TL.current, TL.next, hp]

example : ∃ t0, (TL.init exact true).appends [.wait 1 1, .act [.emit 7]] = .ok t0 ∧
    update exact (fun _ _ => true) 10 t0 [] 5 = .ok ({ t0 with cIdx := 1, ready := false }, []) :=
  C49_stops_at_finished_wait exact _ 7 1 5 _ (by simp [Act.isEmit]) (by decide +kernel)

/-- A run: two actions, a wait of two seconds, an action, with frames of one second. -/
example : (do
    let t ← (TL.init exact true).appends [.act [.emit 1], .act [.emit 2, .emit 3], .wait 2 2, .act [.emit 4]]
    let (t, l1) ← update exact (fun _ _ => true) 10 t [] 1
    let (t, l2) ← update exact (fun _ _ => true) 10 t l1 1
    let (t, l3) ← update exact (fun _ _ => true) 10 t l2 1
    pure (emitted l1, emitted l2, emitted l3, t.finished)) = .ok ([1, 2, 3], [1, 2, 3], [1, 2, 3, 4], true) := by
  decide +kernel

/-! ## C50: waits -/

/-- The wait at position `k` is current. -/
structure Waiting (o : Ops F) (t : TL F) (k : Nat) (time cur : F) : Prop where
  current : t.cIdx = k
  command : t.cmds[k]? = some (.wait time cur)
  running : t.finished = false
  clean : t.remainder = o.zero

/-- C50, any arithmetic. While the differences `cur - ft₁`, `cur - ft₁ - ft₂`, … stay positive, updates leave the wait current,
do nothing visible and change nothing else. -/
theorem C50_waits (fuel : Nat) (fts : List F) (t : TL F) (log : List Event) (k : Nat) (time cur : F)
    (h : Waiting o t k time cur)
    (hp : ∀ p, p <+: fts → p ≠ [] → o.pos (p.foldl (fun c ft => o.sub c (o.add ft o.zero)) cur) = true) :
    ∃ t', updates o env (fuel + 1) t log fts = .ok (t', log) ∧
      Waiting o t' k time (fts.foldl (fun c ft => o.sub c (o.add ft o.zero)) cur) ∧
      t'.cmds = t.cmds.set k (.wait time (fts.foldl (fun c ft => o.sub c (o.add ft o.zero)) cur)) := by
  induction fts generalizing t cur with
  | nil =>
    exact ⟨t, rfl, h, (set_same _ _ _ h.command).symm⟩
  | cons ft fts ih =>
    have hk := (List.getElem?_eq_some_iff.1 h.command).1
    have hi : t.cIdx = indexAt t.cmds.length k := by rw [h.current, indexAt, if_neg (by omega)]
    have h1 : o.pos (o.sub cur (o.add ft o.zero)) = true := hp [ft] (by simp) (by simp)
    have hu := loop_wait_more o env fuel { t with ready := true } log ft k time cur h.command hi (by simpa [h.clean] using h1)
    obtain ⟨t', e, hw, hc⟩ := ih
        { t with ready := false, remainder := o.zero, cmds := t.cmds.set k (.wait time (o.sub cur (o.add ft o.zero))) }
        (o.sub cur (o.add ft o.zero))
      ⟨h.current, by simp [hk], h.running, rfl⟩ (by
        intro p hp' hne
        have := hp (ft :: p) (by simpa using hp') (by simp)
        simpa using this)
    refine ⟨t', ?_, hw, ?_⟩
    · rw [updates, update, if_neg (by simp [h.running]), hu]
      simpa [h.clean] using e
    · rw [hc]; simp

/-- C50, any arithmetic. The first update that makes the difference non-positive ends the wait: the next command is current, the
wait has its full time again, nothing visible happened. -/
theorem C50_ends (fuel : Nat) (t : TL F) (log : List Event) (ft : F) (k : Nat) (time cur : F) (h : Waiting o t k time cur)
    (hp : o.pos (o.sub cur (o.add ft o.zero)) = false) :
    update o env (fuel + 1) t log ft =
      .ok ({ t with cIdx := if k + 1 = t.cmds.length then -1 else k + 1, ready := false,
                    cmds := t.cmds.set k (.wait time time) }, log) := by
  have hk := (List.getElem?_eq_some_iff.1 h.command).1
  have hi : t.cIdx = indexAt t.cmds.length k := by rw [h.current, indexAt, if_neg (by omega)]
  have hu := loop_wait_done o env fuel { t with ready := true } log ft k time cur h.command hi (by simpa [h.clean] using hp)
  rw [update, if_neg (by simp [h.running]), hu]
  have := h.clean
  simp only [indexAt, Outcome.ok.injEq, Prod.mk.injEq, and_true]
  rw [← this]
  congr 1

/-- C50. `append<WaitWhile>(p)` waits as long as `p` answers true: in an update at which it is current, the predicate is asked once, and the
next command becomes current if and only if the answer is false. Nothing else is executed in this update. -/
theorem C50_wait_while (fuel : Nat) (t : TL F) (log : List Event) (ft : F) (k p : Nat) (hc : t.cIdx = k) (hk : t.cmds[k]? = some (.waitLoop true p))
    (hr : t.finished = false) (h0 : t.remainder = o.zero) :
    update o env (fuel + 1) t log ft =
      .ok ({ t with ready := false, cIdx := if env log p = true then k else if k + 1 = t.cmds.length then -1 else k + 1 }, log ++ [.asked p]) := by
  have hlt := (List.getElem?_eq_some_iff.1 hk).1
  have hi : t.cIdx = indexAt t.cmds.length k := by rw [hc, indexAt, if_neg (by omega)]
  have hu := loop_waitLoop o env fuel { t with ready := true } log ft k true p hk hi
  rw [update, if_neg (by simp [hr]), hu]
  cases env log p <;> simp [indexAt, ← h0, hc] <;> omega

/-- C50. `append<WaitUntil>(p)` waits until `p` answers true. -/
theorem C50_wait_until (fuel : Nat) (t : TL F) (log : List Event) (ft : F) (k p : Nat) (hc : t.cIdx = k) (hk : t.cmds[k]? = some (.waitLoop false p))
    (hr : t.finished = false) (h0 : t.remainder = o.zero) :
    update o env (fuel + 1) t log ft =
      .ok ({ t with ready := false, cIdx := if env log p = false then k else if k + 1 = t.cmds.length then -1 else k + 1 }, log ++ [.asked p]) := by
  have hlt := (List.getElem?_eq_some_iff.1 hk).1
  have hi : t.cIdx = indexAt t.cmds.length k := by rw [hc, indexAt, if_neg (by omega)]
  have hu := loop_waitLoop o env fuel { t with ready := true } log ft k false p hk hi
  rw [update, if_neg (by simp [hr]), hu]
  cases env log p <;> simp [indexAt, ← h0, hc] <;> omega

theorem foldl_sub (fts : List ℚ) (c : ℚ) : fts.foldl (fun c ft => exact.sub c (exact.add ft exact.zero)) c = c - fts.sum := by
  induction fts generalizing c with
  | nil => simp
  | cons ft fts ih => rw [List.foldl_cons, ih, List.sum_cons]; simp only [exact]; ring

/-- C50, exact arithmetic. A wait of `time` is over in the first update in which the frame times since it became current sum up
to at least `time`, and not before. -/
theorem C50_time_partial (fuel : Nat) (fts : List ℚ) (ft : ℚ) (t : TL ℚ) (log : List Event) (k : Nat) (time : ℚ)
    (h : Waiting exact t k time time)
    (hless : ∀ p, p <+: fts → p ≠ [] → p.sum < time) (hreach : time ≤ fts.sum + ft) :
    ∃ t' t'', updates exact env (fuel + 1) t log fts = .ok (t', log) ∧ t'.cIdx = k ∧
      update exact env (fuel + 1) t' log ft = .ok (t'', log) ∧
      t''.cIdx = (if k + 1 = t.cmds.length then -1 else (k : Int) + 1) ∧ t''.cmds = t.cmds := by
  obtain ⟨t', e, hw, hc⟩ := C50_waits exact env fuel fts t log k time time h (by
    intro p hp hne
    rw [foldl_sub]
    have := hless p hp hne
    simp only [exact, decide_eq_true_eq]
    linarith)
  rw [foldl_sub] at hw hc
  have hend := C50_ends exact env fuel t' log ft k time (time - fts.sum) hw (by
    simp only [exact, decide_eq_false_iff_not]
    linarith)
  have hk := (List.getElem?_eq_some_iff.1 h.command).1
  refine ⟨t', _, e, hw.current, hend, ?_, ?_⟩
  · simp only [hc, List.length_set]
  · simp only [hc, List.set_set]
    exact set_same _ _ _ h.command

/-- A wait of two seconds that is current. -/
example : Waiting exact ⟨[.act [.emit 1], .wait 2 2, .act [.emit 2]], 1, 0, false, false⟩ 1 2 2 :=
  ⟨rfl, rfl, rfl, rfl⟩

example : (∀ p : List ℚ, p <+: [1/2, 1] → p ≠ [] → p.sum < 2) ∧ (2 : ℚ) ≤ ([1/2, 1] : List ℚ).sum + 1 := by
  refine ⟨?_, by norm_num⟩
  intro p hp hne
  rw [List.prefix_iff_eq_take] at hp
  have hl : p.length = 0 ∨ p.length = 1 ∨ 2 ≤ p.length := by omega
  rcases hl with hl | hl | hl
  · exact absurd (List.length_eq_zero_iff.1 hl) hne
  · rw [hp, hl]; norm_num
  · rw [hp, List.take_of_length_le (by simpa using hl)]; norm_num

/-- C50 fails for the rest: what a frame has left over when a wait ends is lost. The state after such an update does not depend on
the frame time. -/
theorem C50_overshoot_lost (fuel : Nat) (t : TL F) (log : List Event) (ft ft' : F) (k : Nat) (time cur : F)
    (h : Waiting o t k time cur) (hp : o.pos (o.sub cur (o.add ft o.zero)) = false)
    (hp' : o.pos (o.sub cur (o.add ft' o.zero)) = false) :
    update o env (fuel + 1) t log ft = update o env (fuel + 1) t log ft' := by
  rw [C50_ends o env fuel t log ft k time cur h hp, C50_ends o env fuel t log ft' k time cur h hp']

/-- Two waits of one second each, then an action: after frames of 1.5 and 0.5 seconds, two seconds in total, the second wait
still has half a second to go. -/
theorem C50_two_waits_witness :
    (do
      let t ← (TL.init exact true).appends [.wait 1 1, .wait 1 1, .act [.emit 1]]
      updates exact (fun _ _ => true) 10 t [] [3/2, 1/2]) =
    .ok (⟨[.wait 1 1, .wait 1 (1/2), .act [.emit 1]], 1, 0, false, false⟩, []) := by
  decide +kernel

/-! ## C51: jumps -/

/-- C51. Along any run of a timeline whose actions do not reset it, whatever its other commands do: the jumps a `Go` with `cur`
jumps left has made and those it has left add up to `cur`, so it never jumps more often; and whenever control goes on past it,
it has jumped exactly `cur` times, and will not jump again. -/
theorem C51_counts (fuel : Nat) (fts : List F) (t t' : TL F) (log log' : List Event) (hs : ∀ c ∈ t.cmds, c.NoReset)
    (e : updates o env fuel t log fts = .ok (t', log')) (g : Nat) (target : Int) (n cur : Nat)
    (hg : t.cmds[g]? = some (.go target n cur)) :
    ∃ l, log' = log ++ l ∧
      (∃ left, t'.cmds[g]? = some (.go target n left) ∧ times (.jumped g) l + left = cur) ∧
      (∀ a b, l = a ++ .passed g :: b → times (.jumped g) a = cur ∧ times (.jumped g) b = 0) := by
  have := updates_inv o env (fun u lg => ∃ l, lg = log ++ l ∧ Account t.cmds g target n cur u l)
    (fun u lg ⟨l, h1, h2⟩ => ⟨l, h1, h2.like, h2.acc, h2.pass⟩)
    (fun u lg _ ⟨l, h1, h2⟩ => ⟨l, h1, h2.like, h2.acc, h2.pass⟩)
    (fun u lg ft u' lg' ⟨l, h1, h2⟩ e => by
      obtain ⟨l', e1, hd⟩ := exec_did o env u lg ft u' lg' e
      exact ⟨l ++ l', by rw [e1, h1, List.append_assoc], account_exec hs h2 hd _ rfl⟩)
    fuel fts t log t' log' ⟨[], by simp, rfl, ⟨cur, hg, by simp [times]⟩, by simp⟩ e
  obtain ⟨l, h1, h2⟩ := this
  exact ⟨l, h1, h2.acc, h2.pass⟩

/-- C51. Where a jump goes: with jumps left, the update continues at the target with one jump less; with none left, it continues
with the command after the `Go`. -/
theorem C51_jump_target (fuel : Nat) (t : TL F) (log : List Event) (ft : F) (g : Nat) (target : Int) (n cur : Nat)
    (hg : t.cmds[g]? = some (.go target n cur)) (hi : t.cIdx = g) (hf : t.finished = false) :
    update o env (fuel + 1) t log ft =
      if cur = 0 then
        update o env fuel { t with remainder := o.zero, cIdx := if g + 1 = t.cmds.length then -1 else g + 1 } (log ++ [.passed g]) ft
      else
        update o env fuel { t with remainder := o.zero, cIdx := target, cmds := t.cmds.set g (.go target n (cur - 1)) }
          (log ++ [.jumped g]) ft := by
  have hk := (List.getElem?_eq_some_iff.1 hg).1
  have hi' : t.cIdx = indexAt t.cmds.length g := by rw [hi, indexAt, if_neg (by omega)]
  have hn := next_at ({ t with ready := true } : TL F) g hk hi'
  have hcur := current_at ({ t with ready := true } : TL F) g _ hg hi'
  have hne : t.cIdx ≠ -1 := by omega
  by_cases h0 : cur = 0
  · rw [if_pos h0]
    refine update_step o env fuel t { t with ready := true, cIdx := indexAt t.cmds.length (g + 1) } _ log _ ft hf hne ?_
      rfl rfl ?_ rfl rfl hf
    · simp only [exec, hcur, Outcome.bind_ok, h0, if_true, hn, Outcome.pure_eq]
    · simp only [indexAt]; split <;> simp
  · rw [if_neg h0]
    refine update_step o env fuel t { t with cIdx := target, ready := true, cmds := t.cmds.set g (.go target n (cur - 1)) } _
      log _ ft hf hne ?_ rfl rfl rfl rfl rfl hf
    simp only [exec, hcur, Outcome.bind_ok, h0, if_false, Outcome.pure_eq, TL.jumpTo]

/-- C51. A loop: a timeline of `pre`, `body`, a jump back to the start of `body` with count `n`, and `post` performs the actions
of `pre`, then those of `body` `n + 1` times, then those of `post`, in this order. Waits may occur anywhere. -/
theorem C51_loop (pre body post : List (Cmd F)) (n : Nat) (hs : ∀ c ∈ pre ++ body ++ post, c.Simple) (fuel : Nat) (fts : List F)
    (t0 t : TL F) (log : List Event) (h0 : (TL.init o true).appends (pre ++ body ++ [.go pre.length n n] ++ post) = .ok t0)
    (e : updates o env fuel t0 [] fts = .ok (t, log)) :
    let all := pre.flatMap Cmd.emits ++ (List.replicate (n + 1) (body.flatMap Cmd.emits)).flatten ++ post.flatMap Cmd.emits
    emitted log <+: all ∧ (t.finished = true → emitted log = all) := by
  rw [appends_init] at h0
  simp only [Outcome.ok.injEq] at h0
  subst h0
  have := updates_inv o env (fun u lg => ∃ k c, InLoop pre body post n u lg k c)
    (fun u lg ⟨k, c, h⟩ => ⟨k, c, h.like, h.le, h.idx, h.left, h.done, h.fin⟩)
    (fun u lg hi ⟨k, c, h⟩ => ⟨k, c, inLoop_stop h hi⟩)
    (fun u lg ft u' lg' ⟨k, c, h⟩ e => by
      obtain ⟨k', c', h'⟩ := inLoop_exec o env hs h ft e
      exact ⟨k', c', h'.like, h'.le, h'.idx, h'.left, h'.done, h'.fin⟩)
    fuel fts ⟨_, _, o.zero, true, false⟩ [] t log ⟨0, n, rfl, Nat.zero_le _, rfl, by
        rw [List.append_assoc, List.getElem?_append_right (by simp)]; simp, by
        simp [emitted, toGo, List.replicate_succ], by simp⟩ e
  obtain ⟨k, c, h⟩ := this
  refine ⟨⟨_, h.done⟩, fun hf => ?_⟩
  have hd := h.done
  have hk := h.fin hf
  have hl := h.like.length
  simp only [List.length_append, List.length_singleton] at hl
  rw [hk, toGo, if_neg (by omega), List.drop_eq_nil_of_le (by omega)] at hd
  simpa using hd

/-- C51. Updates end: with actions that leave the timeline alone and jumps to existing commands, every update returns, having run
no more commands than the jumps left allow. -/
theorem C51_terminates (cmds : List (Cmd F)) (hs : ∀ c ∈ cmds, c.Tame cmds.length) (fuel : Nat)
    (hfuel : ((cmds.map Cmd.jumps).sum + 1) * (cmds.length + 1) ≤ fuel) (fts : List F) :
    ∃ t0 t log, (TL.init o true).appends cmds = .ok t0 ∧ updates o env fuel t0 [] fts = .ok (t, log) := by
  obtain ⟨t, l, k, e, _⟩ := updates_good o env fuel fts ⟨cmds, indexAt cmds.length 0, o.zero, true, false⟩ [] 0
    ⟨hs, Nat.zero_le _, rfl⟩ hfuel
  exact ⟨_, t, _, appends_init o cmds, e⟩

theorem reset_fresh (c : Cmd F) (h : c.Fresh) : c.reset = c := by
  cases c <;> simp_all [Cmd.Fresh, Cmd.reset]

/-- C51. `reset` starts over: after any run of a timeline made of fresh commands, `reset` gives back the timeline as it was before
the run, with all counts and times. -/
theorem C51_reset (cmds : List (Cmd F)) (hs : ∀ c ∈ cmds, c.Fresh) (fuel : Nat) (fts : List F) (t0 t : TL F) (log : List Event)
    (h0 : (TL.init o true).appends cmds = .ok t0) (e : updates o env fuel t0 [] fts = .ok (t, log)) : t.reset = t0 := by
  rw [appends_init] at h0
  simp only [Outcome.ok.injEq] at h0
  subst h0
  have hl := updates_like o env fuel fts _ [] t log e
  have hz : t.remainder = o.zero :=
    updates_inv o env (fun u _ => u.remainder = o.zero) (fun _ _ h => h) (fun _ _ _ h => h) (fun _ _ _ _ _ _ _ => rfl)
      fuel fts _ [] t log rfl e
  have hmap : t.cmds.map Cmd.reset = cmds := by
    rw [hl]
    conv_rhs => rw [← List.map_id cmds]
    exact List.map_congr_left (fun c hc => reset_fresh c (hs c hc))
  have hlen : t.cmds.length = cmds.length := hl.length
  simp only [TL.reset, TL.start, hmap, hz, TL.mk.injEq, true_and, and_true]
  cases hc : t.cmds with
  | nil =>
    have : cmds.length = 0 := by rw [← hlen, hc]; rfl
    simp [indexAt, this]
  | cons x xs =>
    have : cmds.length = xs.length + 1 := by rw [← hlen, hc]; rfl
    simp [indexAt, this]

/-- A loop with a wait in it, run to the end with frames longer than the wait. -/
example : (do
    let t ← (TL.init exact true).appends [.act [.emit 1], .act [.emit 2], .wait 1 1, .go 1 2 2, .act [.emit 3]]
    let (t, l1) ← update exact (fun _ _ => true) 10 t [] 1
    let (t, l2) ← update exact (fun _ _ => true) 10 t l1 1
    let (t, l3) ← update exact (fun _ _ => true) 10 t l2 1
    let (t, l4) ← update exact (fun _ _ => true) 10 t l3 1
    pure (emitted l1, emitted l2, emitted l3, emitted l4, t.finished)) =
    .ok ([1, 2], [1, 2, 2], [1, 2, 2, 2], [1, 2, 2, 2, 3], true) := by
  decide +kernel

/-- The counts are per timeline run, not per pass: a loop inside a loop repeats in the first pass of the outer loop only. -/
theorem C51_nested_witness :
    (do
      let t ← (TL.init exact true).appends [.act [.emit 1], .act [.emit 2], .go 1 2 2, .go 0 1 1]
      let (t, l) ← update exact (fun _ _ => true) 100 t [] 1
      pure (emitted l, t.finished)) = .ok ([1, 2, 2, 2, 1, 2], true) := by
  decide +kernel

/-! ## C52: insertion -/

/-- C52. Insertion puts the command at the given position and moves the later ones by one. Behind the current command (in
particular at the end) it leaves the current command and everything before it as they are. -/
theorem C52_insert_partial (t : TL F) (k i : Nat) (c : Cmd F) (hk : t.cIdx = k) (hi : k < i) (hl : i ≤ t.cmds.length) :
    ∃ t', t.insert i c = .ok t' ∧ t'.cmds = t.cmds.take i ++ c :: t.cmds.drop i ∧ t'.cIdx = k ∧
      (∀ j ≤ k, t'.cmds[j]? = t.cmds[j]?) ∧ t'.finished = t.finished ∧ t'.remainder = t.remainder ∧ t'.ready = t.ready := by
  have hins : t.cmds.insertIdx i c = t.cmds.take i ++ c :: t.cmds.drop i := insertIdx_split _ _ _ hl
  refine ⟨{ t with cmds := t.cmds.insertIdx i c }, ?_, hins, hk, ?_, rfl, rfl, rfl⟩
  · unfold TL.insert
    rw [if_neg (by omega)]
    simp only [Int.toNat_natCast]
    rw [if_neg (by omega)]
  · intro j hj
    simp only
    rw [hins, List.getElem?_append_left (by simp; omega), List.getElem?_take_of_lt (by omega)]

/-- C52. `append` on a timeline with a current command. -/
theorem C52_append (t : TL F) (k : Nat) (c : Cmd F) (hk : t.cIdx = k) (hl : k < t.cmds.length) :
    t.append c = .ok { t with cmds := t.cmds ++ [c] } := by
  unfold TL.append TL.insert
  rw [if_neg (by omega)]
  simp only [Int.toNat_natCast, List.insertIdx_length_self]
  rw [if_neg (by omega)]

/-- C52. When nothing was left, the new command is the current one. If it is an action and the timeline is not finished, the next
update performs it first. -/
theorem C52_insert_null (t : TL F) (i : Nat) (c : Cmd F) (hk : t.cIdx = -1) (hl : i ≤ t.cmds.length) :
    t.insert i c = .ok { t with cmds := t.cmds.take i ++ c :: t.cmds.drop i, cIdx := i } := by
  unfold TL.insert
  rw [if_neg (by omega)]
  simp only [Int.toNat_natCast, insertIdx_split _ _ _ hl]
  rw [if_pos hk]

/-- C52. An action appended to a timeline that had run out of commands, and was started again, is what the next update performs;
without `start` the update does nothing. -/
theorem C52_append_finished (fuel : Nat) (t : TL F) (log : List Event) (ft : F) (n : Nat) (hk : t.cIdx = -1)
    (hf : t.finished = true) :
    ∃ t', t.append (.act [.emit n]) = .ok t' ∧
      update o env fuel t' log ft = .ok (t', log) ∧
      update o env (fuel + 2) t'.start log ft =
        .ok ({ t' with cIdx := -1, remainder := o.zero, ready := false, finished := true }, log ++ [.emit n]) := by
  have h := C52_insert_null t t.cmds.length (.act [.emit n]) hk (Nat.le_refl _)
  refine ⟨_, h, ?_, ?_⟩
  · simp [update, hf]
  · have hcur := current_at (⟨t.cmds.take t.cmds.length ++ .act [.emit n] :: t.cmds.drop t.cmds.length, t.cmds.length, t.remainder,
      true, false⟩ : TL F) t.cmds.length (.act [.emit n]) (by simp) (by rw [indexAt, if_neg (by simp)])
    have hn := next_at (⟨t.cmds.take t.cmds.length ++ .act [.emit n] :: t.cmds.drop t.cmds.length, t.cmds.length, t.remainder,
      true, false⟩ : TL F) t.cmds.length (by simp) (by rw [indexAt, if_neg (by simp)])
    rw [update_step o env (fuel + 1) _ ⟨t.cmds.take t.cmds.length ++ .act [.emit n] :: t.cmds.drop t.cmds.length,
        indexAt (t.cmds.take t.cmds.length ++ .act [.emit n] :: t.cmds.drop t.cmds.length).length (t.cmds.length + 1), t.remainder,
        true, false⟩ ⟨t.cmds.take t.cmds.length ++ .act [.emit n] :: t.cmds.drop t.cmds.length,
        indexAt (t.cmds.take t.cmds.length ++ .act [.emit n] :: t.cmds.drop t.cmds.length).length (t.cmds.length + 1), o.zero, true,
        false⟩ log (log ++ [.emit n]) ft rfl (show (t.cmds.length : Int) ≠ -1 by omega)
      (by simp only [exec, TL.start, hcur, Outcome.bind_ok, runActs, hn, Outcome.pure_eq]) rfl rfl rfl rfl rfl rfl]
    simp [update, loop, indexAt, TL.stop]

/-- C52 fails elsewhere: after an insertion at or before the current position, the position stays, so another command is current:
the new one, or the one before the current one, which then runs again. -/
theorem C52_insert_before (t : TL F) (k i : Nat) (c : Cmd F) (hk : t.cIdx = k) (hi : i ≤ k) (hl : k < t.cmds.length) :
    ∃ t', t.insert i c = .ok t' ∧ t'.cIdx = k ∧ t'.cmds[k]? = if i = k then some c else t.cmds[k - 1]? := by
  have hins : t.cmds.insertIdx i c = t.cmds.take i ++ c :: t.cmds.drop i := insertIdx_split _ _ _ (by omega)
  refine ⟨{ t with cmds := t.cmds.insertIdx i c }, ?_, hk, ?_⟩
  · unfold TL.insert
    rw [if_neg (by omega)]
    simp only [Int.toNat_natCast]
    rw [if_neg (by omega)]
  · simp only
    rw [hins, List.getElem?_append_right (by simp; omega), List.length_take, Nat.min_eq_left (by omega)]
    by_cases h : i = k
    · rw [if_pos h, h]; simp
    · rw [if_neg h]
      obtain ⟨d, hd⟩ : ∃ d, k - i = d + 1 := ⟨k - i - 1, by omega⟩
      rw [hd, List.getElem?_cons_succ, List.getElem?_drop]
      congr 1
      omega

/-- An action runs twice because a command is inserted in front of the list. -/
theorem C52_runs_twice_witness :
    (do
      let t ← (TL.init exact true).appends [.act [.emit 1], .wait 1 1, .act [.emit 2]]
      let (t, l) ← update exact (fun _ _ => true) 10 t [] (1/2)
      let t ← t.insert 0 (.act [.emit 3])
      let (t, l) ← updates exact (fun _ _ => true) 10 t l [1, 1]
      pure (emitted l, t.finished)) = .ok ([1, 1, 2], true) := by
  decide +kernel

/-! ## C72: actions that control the timeline -/

/-- C72. An action that stops the timeline ends the update right after it; the rest of the action is still performed, the command
behind it is current, and later updates do nothing until the timeline is started again. -/
theorem C72_stop (fuel : Nat) (t : TL F) (log : List Event) (ft : F) (k : Nat) (as bs : List Nat)
    (hc : t.cmds[k]? = some (.act (as.map .emit ++ .stop :: bs.map .emit))) (hi : t.cIdx = k) (hf : t.finished = false) :
    ∃ t', update o env (fuel + 1) t log ft = .ok (t', log ++ as.map .emit ++ bs.map .emit) ∧ t'.finished = true ∧
      t'.cIdx = (if k + 1 = t.cmds.length then -1 else (k : Int) + 1) ∧ t'.cmds = t.cmds ∧
      (∀ fts log', updates o env fuel t' log' fts = .ok (t', log')) := by
  have hk := (List.getElem?_eq_some_iff.1 hc).1
  have hi' : t.cIdx = indexAt t.cmds.length k := by rw [hi, indexAt, if_neg (by omega)]
  have hcur := current_at ({ t with ready := true } : TL F) k _ hc hi'
  have hemit : ∀ (ns : List Nat) (rest : List Act) (t : TL F) (log : List Event),
      runActs t log (ns.map .emit ++ rest) = runActs t (log ++ ns.map .emit) rest := by
    intro ns
    induction ns with
    | nil => intro rest t log; simp
    | cons n ns ih => intro rest t log; simp [runActs, ih]
  have hrun : runActs ({ t with ready := true } : TL F) log (as.map .emit ++ .stop :: bs.map .emit) =
      (({ t with ready := true } : TL F).stop, log ++ as.map .emit ++ bs.map .emit) := by
    rw [hemit, runActs]
    have := hemit bs [] ({ t with ready := true } : TL F).stop (log ++ as.map .emit)
    rw [List.append_nil] at this
    rw [this, runActs]
  have hn := next_at (({ t with ready := true } : TL F).stop) k hk hi'
  have hfix : ∀ t' : TL F, t'.finished = true → ∀ fts log', updates o env fuel t' log' fts = .ok (t', log') := by
    intro t' ht' fts
    induction fts with
    | nil => intro log'; rfl
    | cons ft fts ih => intro log'; simp [updates, update, ht', ih]
  refine ⟨{ t with finished := true, ready := false, remainder := o.zero, cIdx := indexAt t.cmds.length (k + 1) }, ?_, rfl, ?_, rfl,
    hfix _ rfl⟩
  · rw [update, if_neg (by simp [hf]), loop, if_neg (by simp only; omega)]
    simp only [exec, hcur, Outcome.bind_ok, hrun, hn, Outcome.pure_eq]
    simp [TL.stop]
  · simp only [indexAt]; split <;> simp

/-- C72. `jumpTo i` from within an action does not continue at command `i` but at the one behind it: leaving the action advances
the position once more. -/
theorem C72_jump_off_by_one (fuel : Nat) (t : TL F) (log : List Event) (ft : F) (k i : Nat)
    (hc : t.cmds[k]? = some (.act [.jumpTo i])) (hi : t.cIdx = k) (hf : t.finished = false) (hl : i < t.cmds.length) :
    update o env (fuel + 1) t log ft =
      update o env fuel { t with remainder := o.zero, cIdx := if i + 1 = t.cmds.length then -1 else i + 1 } log ft := by
  have hk := (List.getElem?_eq_some_iff.1 hc).1
  have hi' : t.cIdx = indexAt t.cmds.length k := by rw [hi, indexAt, if_neg (by omega)]
  have hcur := current_at ({ t with ready := true } : TL F) k _ hc hi'
  have hn := next_at ({ t with ready := true, cIdx := (i : Int) } : TL F) i hl
    (show (i : Int) = indexAt t.cmds.length i by rw [indexAt, if_neg (by omega)])
  refine update_step o env fuel t { t with ready := true, cIdx := indexAt t.cmds.length (i + 1) } _ log _ ft hf (by omega) ?_
    rfl rfl ?_ rfl rfl hf
  · simp only [exec, hcur, Outcome.bind_ok, runActs, TL.jumpTo, hn, Outcome.pure_eq]
  · simp only [indexAt]; split <;> simp

/-- C72. From outside, between updates, `jumpTo i` continues at command `i`. -/
theorem C72_jump_outside (fuel : Nat) (t : TL F) (log : List Event) (ft : F) (i n : Nat)
    (hc : t.cmds[i]? = some (.act [.emit n])) (hf : t.finished = false) :
    update o env (fuel + 1) (t.jumpTo i) log ft =
      update o env fuel { t with remainder := o.zero, cIdx := if i + 1 = t.cmds.length then -1 else i + 1 } (log ++ [.emit n]) ft := by
  have hk := (List.getElem?_eq_some_iff.1 hc).1
  have hi' : (i : Int) = indexAt t.cmds.length i := by rw [indexAt, if_neg (by omega)]
  have hcur := current_at ({ t with ready := true, cIdx := (i : Int) } : TL F) i _ hc hi'
  have hn := next_at ({ t with ready := true, cIdx := (i : Int) } : TL F) i hk hi'
  refine update_step o env fuel (t.jumpTo i) { t with ready := true, cIdx := indexAt t.cmds.length (i + 1) } _ log _ ft hf
    (show (i : Int) ≠ -1 by omega) ?_ rfl rfl ?_ rfl rfl hf
  · simp only [exec, TL.jumpTo, hcur, Outcome.bind_ok, runActs, hn, Outcome.pure_eq]
  · simp only [indexAt]; split <;> simp

/-- C72. A timeline that resets itself from an action skips its first command from then on. -/
theorem C72_reset_skips_first (fuel : Nat) (t : TL F) (log : List Event) (ft : F) (k : Nat)
    (hc : t.cmds[k]? = some (.act [.reset])) (hi : t.cIdx = k) (hf : t.finished = false) :
    update o env (fuel + 1) t log ft =
      update o env fuel { t with cmds := t.cmds.map Cmd.reset, remainder := o.zero,
                                 cIdx := if t.cmds.length = 1 then -1 else 1 } log ft := by
  have hk := (List.getElem?_eq_some_iff.1 hc).1
  have hi' : t.cIdx = indexAt t.cmds.length k := by rw [hi, indexAt, if_neg (by omega)]
  have hcur := current_at ({ t with ready := true } : TL F) k _ hc hi'
  have hne : t.cmds.isEmpty = false := by
    cases h : t.cmds with
    | nil => simp [h] at hk
    | cons => rfl
  have hr : ({ t with ready := true } : TL F).reset = ⟨t.cmds.map Cmd.reset, 0, t.remainder, true, false⟩ := by
    simp [TL.reset, TL.start, hne]
  have hn := next_at (⟨t.cmds.map Cmd.reset, 0, t.remainder, true, false⟩ : TL F) 0 (by simp; omega)
    (show (0 : Int) = indexAt (t.cmds.map Cmd.reset).length 0 by rw [indexAt, if_neg (by simp; omega)]; rfl)
  refine update_step o env fuel t ⟨t.cmds.map Cmd.reset, indexAt t.cmds.length 1, t.remainder, true, false⟩ _ log _ ft hf (by omega) ?_
    rfl rfl ?_ rfl hf hf
  · simp only [exec, hcur, Outcome.bind_ok, runActs, hr, hn, Outcome.pure_eq, List.length_map]
  · simp only [indexAt]
    by_cases h1 : t.cmds.length = 1
    · rw [if_pos h1, if_pos h1.symm]
    · rw [if_neg h1, if_neg (Ne.symm h1)]; rfl

/-- The three of them at work. -/
example : (do
    let t ← (TL.init exact true).appends [.act [.emit 1], .act [.emit 2, .stop, .emit 3], .act [.emit 4, .jumpTo 4], .act [.emit 5],
      .act [.emit 6], .act [.emit 7]]
    let (t, l1) ← update exact (fun _ _ => true) 10 t [] 1
    let (t, l2) ← update exact (fun _ _ => true) 10 t.start l1 1
    pure (emitted l1, emitted l2, t.finished)) = .ok ([1, 2, 3], [1, 2, 3, 4, 7], true) := by
  decide +kernel

end Verif.Timeline
