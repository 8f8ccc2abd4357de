import Verif.Timeline.System

/-!
# Theorems: timelines that drive other timelines (C154)
-/

namespace Verif.Timeline.System

open Verif Spec

variable {F : Type} {o : Ops F} {env : Nat → List Event → Nat → Bool} {react : Nat → Nat → List (Nat × Call F)}

@[simp] theorem put_tl_same (s : Sys F) (i t l) : (s.put i t l).tl i = t := by simp [Sys.put]
@[simp] theorem put_log_same (s : Sys F) (i t l) : (s.put i t l).log i = l := by simp [Sys.put]
@[simp] theorem put_trace (s : Sys F) (i t l) : (s.put i t l).trace = s.trace := rfl
theorem put_tl_ne (s : Sys F) (i t l) {j : Nat} (h : j ≠ i) : (s.put i t l).tl j = s.tl j := by simp [Sys.put, h]
theorem put_log_ne (s : Sys F) (i t l) {j : Nat} (h : j ≠ i) : (s.put i t l).log j = s.log j := by simp [Sys.put, h]

theorem callsOf_append (j : Nat) (a b : List (Ev F)) : callsOf j (a ++ b) = callsOf j a ++ callsOf j b := by
  simp [callsOf]
theorem effectsOf_append (j : Nat) (a b : List (Ev F)) : effectsOf j (a ++ b) = effectsOf j a ++ effectsOf j b := by
  simp [effectsOf]

theorem emitted_app (a b : List Event) : emitted (a ++ b) = emitted a ++ emitted b := by
  simp [emitted]

theorem alone_append (e : List Event → Nat → Bool) (fuel : Nat) : ∀ (a b : List (Call F)) (t : TL F) (l : List Event),
    alone o e fuel t l (a ++ b) = (alone o e fuel t l a >>= fun r => alone o e fuel r.1 r.2 b) := by
  intro a
  induction a with
  | nil => intro b t l; rfl
  | cons c a ih =>
    intro b t l
    cases c with
    | update ft =>
      simp only [List.cons_append, alone]
      cases Timeline.update o e fuel t l ft with
      | ok r => simp only [Outcome.bind_ok]; rw [ih]
      | _ => rfl
    | _ => simp only [List.cons_append, alone]; rw [ih]

/-- More fuel does not change the result of a timeline. -/
theorem loop_mono (e : List Event → Nat → Bool) : ∀ (f g : Nat) (t : TL F) (l : List Event) (ft : F) (r : TL F × List Event), f ≤ g →
    Timeline.loop o e f t l ft = .ok r → Timeline.loop o e g t l ft = .ok r := by
  intro f
  induction f with
  | zero => intro g t l ft r _ h; cases h
  | succ f ih =>
    intro g t l ft r hg h
    obtain ⟨g, rfl⟩ : ∃ n, g = n + 1 := ⟨g - 1, by omega⟩
    unfold Timeline.loop at h ⊢
    by_cases hi : t.cIdx = -1
    · rw [if_pos hi] at h ⊢; exact h
    · rw [if_neg hi] at h ⊢
      obtain ⟨x, h1, h2⟩ := Outcome.bind_eq_ok.1 h
      rw [h1, Outcome.bind_ok]
      dsimp only at h2 ⊢
      by_cases hr : x.1.ready = true
      · rw [if_pos hr] at h2 ⊢; exact ih g _ _ _ _ (by omega) h2
      · rw [if_neg hr] at h2 ⊢; exact h2

/-- What an update of timeline `i` does to the others, and the calls and effects meanwhile. -/
structure Inner (o : Ops F) (env : Nat → List Event → Nat → Bool) (rank : Nat → Nat) (g i : Nat) (s s' : Sys F) (tr : List (Ev F)) : Prop where
  trace : s'.trace = s.trace ++ tr
  own : callsOf i tr = []
  emit : ∀ j, emitted (s'.log j) = emitted (s.log j) ++ effectsOf j tr
  alone : ∀ j, j ≠ i → alone o (env j) g (s.tl j) (s.log j) (callsOf j tr) = .ok (s'.tl j, s'.log j)
  high : ∀ j, j ≠ i → rank i ≤ rank j → s'.tl j = s.tl j ∧ s'.log j = s.log j ∧ callsOf j tr = [] ∧ effectsOf j tr = []

/-- What calls do to all. -/
structure Outer (o : Ops F) (env : Nat → List Event → Nat → Bool) (rank : Nat → Nat) (g r : Nat) (s s' : Sys F) (tr : List (Ev F)) : Prop where
  trace : s'.trace = s.trace ++ tr
  emit : ∀ j, emitted (s'.log j) = emitted (s.log j) ++ effectsOf j tr
  alone : ∀ j, Spec.alone o (env j) g (s.tl j) (s.log j) (callsOf j tr) = .ok (s'.tl j, s'.log j)
  high : ∀ j, r ≤ rank j → s'.tl j = s.tl j ∧ s'.log j = s.log j ∧ callsOf j tr = [] ∧ effectsOf j tr = []

/-- What is to be shown of `update`. -/
def UpdOk (o : Ops F) (env : Nat → List Event → Nat → Bool) (react : Nat → Nat → List (Nat × Call F)) (rank : Nat → Nat) (g : Nat)
    (upd : Nat → Sys F → F → Outcome (Sys F)) : Prop :=
  ∀ i s ft s', upd i s ft = .ok s' → ∃ tr, Effects react i tr ∧ Inner o env rank g i s s' tr ∧
    Timeline.update o (env i) g (s.tl i) (s.log i) ft = .ok (s'.tl i, s'.log i)

variable {rank : Nat → Nat} {g : Nat}

theorem Outer.trans {r : Nat} {s s' s'' : Sys F} {a b : List (Ev F)} (h : Outer o env rank g r s s' a) (h' : Outer o env rank g r s' s'' b) :
    Outer o env rank g r s s'' (a ++ b) where
  trace := by rw [h'.trace, h.trace, List.append_assoc]
  emit j := by rw [h'.emit, h.emit, effectsOf_append, List.append_assoc]
  alone j := by
    rw [callsOf_append, alone_append, h.alone, Outcome.bind_ok]
    exact h'.alone j
  high j hj := by
    obtain ⟨a1, a2, a3, a4⟩ := h.high j hj
    obtain ⟨b1, b2, b3, b4⟩ := h'.high j hj
    exact ⟨b1.trans a1, b2.trans a2, by rw [callsOf_append, a3, b3]; rfl, by rw [effectsOf_append, a4, b4]; rfl⟩

/-- A call that is no update. -/
theorem outer_put {r : Nat} (s : Sys F) (j : Nat) (c : Call F) (t : TL F) (hr : rank j < r)
    (ht : Spec.alone o (env j) g (s.tl j) (s.log j) [c] = .ok (t, s.log j)) :
    Outer o env rank g r s (Sys.put { s with trace := s.trace ++ [.call j c] } j t (s.log j)) [.call j c] where
  trace := rfl
  emit k := by
    by_cases e : k = j
    · subst e; simp [effectsOf]
    · rw [put_log_ne _ _ _ _ e]; simp [effectsOf]
  alone k := by
    by_cases e : k = j
    · subst e; simpa [callsOf] using ht
    · rw [put_log_ne _ _ _ _ e, put_tl_ne _ _ _ _ e]
      have : callsOf k [Ev.call j c] = [] := by simp [callsOf, Ne.symm e]
      rw [this]; rfl
  high k hk := by
    have e : k ≠ j := by rintro rfl; omega
    rw [put_log_ne _ _ _ _ e, put_tl_ne _ _ _ _ e]
    simp [callsOf, effectsOf, Ne.symm e]

theorem call_spec {upd : Nat → Sys F → F → Outcome (Sys F)} (hu : UpdOk o env react rank g upd) {r : Nat} {s s' : Sys F} {j : Nat} {c : Call F}
    (hr : rank j < r) (h : call upd s j c = .ok s') :
    ∃ tr, Outer o env rank g r s s' tr ∧ ∀ cs es, Calls react cs es → Calls react ((j, c) :: cs) (tr ++ es) := by
  cases c with
  | update ft =>
    obtain ⟨tr, h1, h2, h3⟩ := hu j _ ft s' h
    refine ⟨.call j (.update ft) :: tr, ⟨?_, ?_, ?_, ?_⟩, fun cs es hc => .update h1 hc⟩
    · rw [h2.trace]; simp
    · intro k; rw [h2.emit]; simp [effectsOf]
    · intro k
      by_cases e : k = j
      · subst e
        have : callsOf k (.call k (.update ft) :: tr) = [.update ft] := by
          have := h2.own
          simp only [callsOf] at this ⊢
          rw [List.filterMap_cons, this]; simp
        rw [this, Spec.alone]
        have h3' : Timeline.update o (env k) g (s.tl k) (s.log k) ft = .ok (s'.tl k, s'.log k) := h3
        rw [h3']; rfl
      · have : callsOf k (.call j (.update ft) :: tr) = callsOf k tr := by simp [callsOf, Ne.symm e]
        rw [this]
        exact h2.alone k e
    · intro k hk
      have e : k ≠ j := by rintro rfl; omega
      obtain ⟨a1, a2, a3, a4⟩ := h2.high k e (by omega)
      refine ⟨a1, a2, ?_, ?_⟩
      · simpa [callsOf, Ne.symm e] using a3
      · simpa [effectsOf] using a4
  | stop => cases h; exact ⟨_, outer_put s j _ _ hr rfl, fun cs es hc => .other (by simp) hc⟩
  | start => cases h; exact ⟨_, outer_put s j _ _ hr rfl, fun cs es hc => .other (by simp) hc⟩
  | jumpTo i => cases h; exact ⟨_, outer_put s j _ _ hr rfl, fun cs es hc => .other (by simp) hc⟩
  | reset => cases h; exact ⟨_, outer_put s j _ _ hr rfl, fun cs es hc => .other (by simp) hc⟩

theorem Outer.refl {r : Nat} (s : Sys F) : Outer o env rank g r s s [] :=
  ⟨by simp, by simp [effectsOf], by intro j; rfl, by simp [callsOf, effectsOf]⟩

theorem calls_spec {upd : Nat → Sys F → F → Outcome (Sys F)} (hu : UpdOk o env react rank g upd) {r : Nat} : ∀ (cs : List (Nat × Call F)) {s s' : Sys F},
    (∀ c ∈ cs, rank c.1 < r) → calls upd s cs = .ok s' → ∃ tr, Calls react cs tr ∧ Outer o env rank g r s s' tr := by
  intro cs
  induction cs with
  | nil => intro s s' _ h; cases h; exact ⟨[], .nil, Outer.refl s⟩
  | cons c cs ih =>
    intro s s' hr h
    obtain ⟨j, c⟩ := c
    obtain ⟨s1, h1, h2⟩ := Outcome.bind_eq_ok.1 h
    obtain ⟨tr, a1, a2⟩ := call_spec hu (hr (j, c) (by simp)) h1
    obtain ⟨tr', b1, b2⟩ := ih (fun c hc => hr c (List.mem_cons_of_mem _ hc)) h2
    exact ⟨tr ++ tr', a2 _ _ b1, a1.trans b2⟩

theorem Inner.trans {i : Nat} {s s' s'' : Sys F} {a b : List (Ev F)} (h : Inner o env rank g i s s' a) (h' : Inner o env rank g i s' s'' b) :
    Inner o env rank g i s s'' (a ++ b) where
  trace := by rw [h'.trace, h.trace, List.append_assoc]
  own := by rw [callsOf_append, h.own, h'.own]; rfl
  emit j := by rw [h'.emit, h.emit, effectsOf_append, List.append_assoc]
  alone j hj := by
    rw [callsOf_append, alone_append, h.alone j hj, Outcome.bind_ok]
    exact h'.alone j hj
  high j hi hj := by
    obtain ⟨a1, a2, a3, a4⟩ := h.high j hi hj
    obtain ⟨b1, b2, b3, b4⟩ := h'.high j hi hj
    exact ⟨b1.trans a1, b2.trans a2, by rw [callsOf_append, a3, b3]; rfl, by rw [effectsOf_append, a4, b4]; rfl⟩

/-- Only timeline `i` changes, without a visible effect. -/
theorem inner_put {i : Nat} (s : Sys F) (t : TL F) (l : List Event) (hl : emitted l = emitted (s.log i)) :
    Inner o env rank g i s (s.put i t l) [] where
  trace := by simp
  own := rfl
  emit j := by
    by_cases e : j = i
    · subst e; simp [effectsOf, hl]
    · rw [put_log_ne _ _ _ _ e]; simp [effectsOf]
  alone j hj := by rw [put_log_ne _ _ _ _ hj, put_tl_ne _ _ _ _ hj]; rfl
  high j hj _ := by rw [put_log_ne _ _ _ _ hj, put_tl_ne _ _ _ _ hj]; exact ⟨rfl, rfl, rfl, rfl⟩

theorem Effects.append {i : Nat} {a b : List (Ev F)} (ha : Effects react i a) (hb : Effects react i b) : Effects react i (a ++ b) := by
  generalize ha' : a = a' at ha
  have : ∀ n (a : List (Ev F)), a.length ≤ n → Effects react i a → Effects react i (a ++ b) := by
    intro n
    induction n with
    | zero => intro a hn h; cases h with
      | nil => exact hb
      | cons => simp at hn
    | succ n ih => intro a hn h; cases h with
      | nil => exact hb
      | cons h1 h2 =>
        rw [List.append_assoc]
        refine .cons h1 (ih _ ?_ h2)
        simp at hn; omega
  exact this _ _ (Nat.le_refl _) ha

theorem runActs_spec {upd : Nat → Sys F → F → Outcome (Sys F)} (hu : UpdOk o env react rank g upd) (hl : Layered react rank) (i : Nat) :
    ∀ (as : List Act) {s s' : Sys F}, runActs react upd i s as = .ok s' →
      ∃ tr, Effects react i tr ∧ Inner o env rank g i s s' tr ∧ Timeline.runActs (s.tl i) (s.log i) as = (s'.tl i, s'.log i) := by
  intro as
  induction as with
  | nil => intro s s' h; cases h; exact ⟨[], .nil, ⟨by simp, rfl, by simp [effectsOf], fun _ _ => rfl, fun _ _ _ => ⟨rfl, rfl, rfl, rfl⟩⟩, rfl⟩
  | cons a as ih =>
    intro s s' h
    have simple : ∀ t : TL F, runActs react upd i (s.put i t (s.log i)) as = .ok s' →
        ∃ tr, Effects react i tr ∧ Inner o env rank g i s s' tr ∧ Timeline.runActs t (s.log i) as = (s'.tl i, s'.log i) := by
      intro t ht
      obtain ⟨tr, h1, h2, h3⟩ := ih ht
      rw [put_tl_same, put_log_same] at h3
      exact ⟨tr, h1, (inner_put s t (s.log i) rfl).trans h2, h3⟩
    cases a with
    | stop => exact simple _ h
    | start => exact simple _ h
    | jumpTo k => exact simple _ h
    | reset => exact simple _ h
    | emit n =>
      obtain ⟨s1, h1, h2⟩ := Outcome.bind_eq_ok.1 h
      obtain ⟨tr, a1, a2⟩ := calls_spec hu (react i n) (hl i n) h1
      obtain ⟨tr', b1, b2, b3⟩ := ih h2
      obtain ⟨e1, e2, e3, e4⟩ := a2.high i (Nat.le_refl _)
      rw [put_tl_same] at e1
      rw [put_log_same] at e2
      refine ⟨(.effect i n :: tr) ++ tr', .cons a1 b1, Inner.trans ⟨?_, ?_, ?_, ?_, ?_⟩ b2, ?_⟩
      · rw [a2.trace]; simp
      · simpa [callsOf] using e3
      · intro j
        rw [a2.emit]
        by_cases e : j = i
        · subst e
          rw [put_log_same, emitted_app]
          simp [effectsOf, emitted]
        · rw [put_log_ne _ _ _ _ e]
          simp [effectsOf, Ne.symm e]
      · intro j hj
        have := a2.alone j
        rw [put_log_ne _ _ _ _ hj, put_tl_ne _ _ _ _ hj] at this
        simpa [callsOf] using this
      · intro j hj hr
        obtain ⟨c1, c2, c3, c4⟩ := a2.high j hr
        rw [put_tl_ne _ _ _ _ hj] at c1
        rw [put_log_ne _ _ _ _ hj] at c2
        exact ⟨c1, c2, by simpa [callsOf] using c3, by simpa [effectsOf, Ne.symm hj] using c4⟩
      · rw [e1, e2] at b3
        exact b3

theorem exec_noemit (e : List Event → Nat → Bool) (t : TL F) (l : List Event) (ft : F) (k : Nat) (c : Cmd F) (hc : t.current = .ok (k, c))
    (hn : ∀ as, c ≠ .act as) (r : TL F × List Event) (h : Timeline.exec o e t l ft = .ok r) : emitted r.2 = emitted l := by
  unfold Timeline.exec at h
  rw [hc, Outcome.bind_ok] at h
  cases c with
  | act as => exact absurd rfl (hn as)
  | wait time cur =>
    dsimp only at h
    split at h
    · cases h; rfl
    · obtain ⟨x, _, h2⟩ := Outcome.bind_eq_ok.1 h
      cases h2; rfl
  | waitLoop w p =>
    dsimp only at h
    split at h
    · obtain ⟨x, _, h2⟩ := Outcome.bind_eq_ok.1 h
      cases h2; simp [emitted]
    · cases h; simp [emitted]
  | go target times cur =>
    dsimp only at h
    split at h
    · obtain ⟨x, _, h2⟩ := Outcome.bind_eq_ok.1 h
      cases h2; simp [emitted]
    · cases h; simp [emitted]

theorem exec_spec {upd : Nat → Sys F → F → Outcome (Sys F)} (hu : UpdOk o env react rank g upd) (hl : Layered react rank) {i : Nat} {s s' : Sys F}
    {ft : F} (h : exec o env react upd i s ft = .ok s') :
    ∃ tr, Effects react i tr ∧ Inner o env rank g i s s' tr ∧ Timeline.exec o (env i) (s.tl i) (s.log i) ft = .ok (s'.tl i, s'.log i) := by
  unfold exec at h
  obtain ⟨⟨k, c⟩, h1, h2⟩ := Outcome.bind_eq_ok.1 h
  have other : (∀ as, c ≠ .act as) → (Timeline.exec o (env i) (s.tl i) (s.log i) ft >>= fun r => .ok (s.put i r.1 r.2)) = .ok s' →
      ∃ tr, Effects react i tr ∧ Inner o env rank g i s s' tr ∧ Timeline.exec o (env i) (s.tl i) (s.log i) ft = .ok (s'.tl i, s'.log i) := by
    intro hn h
    obtain ⟨r, h3, h4⟩ := Outcome.bind_eq_ok.1 h
    cases h4
    refine ⟨[], .nil, inner_put s _ _ (exec_noemit _ _ _ _ _ _ h1 hn _ h3), ?_⟩
    rw [put_tl_same, put_log_same]; exact h3
  cases c with
  | act as =>
    dsimp only at h2
    obtain ⟨s1, h3, h4⟩ := Outcome.bind_eq_ok.1 h2
    obtain ⟨t, h5, h6⟩ := Outcome.bind_eq_ok.1 h4
    cases h6
    obtain ⟨tr, a1, a2, a3⟩ := runActs_spec hu hl i as h3
    refine ⟨tr, a1, ?_, ?_⟩
    · have := a2.trans (inner_put (o := o) (env := env) (rank := rank) (g := g) s1 t (s1.log i) rfl)
      simpa using this
    · unfold Timeline.exec
      rw [h1, Outcome.bind_ok]
      dsimp only
      rw [a3]
      dsimp only
      rw [h5, put_tl_same, put_log_same]; rfl
  | wait time cur => exact other (by simp) h2
  | waitLoop w p => exact other (by simp) h2
  | go target times cur => exact other (by simp) h2

theorem loop_eq (fuel i : Nat) (s : Sys F) (ft : F) : loop o env react (fuel + 1) i s ft =
    if (s.tl i).cIdx = -1 then .ok (s.put i (s.tl i).stop (s.log i))
    else exec o env react (update o env react fuel) i s (o.add ft (s.tl i).remainder) >>= fun s =>
      if ((s.put i { s.tl i with remainder := o.zero } (s.log i)).tl i).ready then
        loop o env react fuel i (s.put i { s.tl i with remainder := o.zero } (s.log i)) ft
      else .ok (s.put i { s.tl i with remainder := o.zero } (s.log i)) := rfl

theorem loop_spec (hl : Layered react rank) : ∀ f, f ≤ g → ∀ (i : Nat) (s : Sys F) (ft : F) (s' : Sys F), loop o env react f i s ft = .ok s' →
    ∃ tr, Effects react i tr ∧ Inner o env rank g i s s' tr ∧ Timeline.loop o (env i) f (s.tl i) (s.log i) ft = .ok (s'.tl i, s'.log i) := by
  intro f
  induction f with
  | zero => intro _ i s ft s' h; cases h
  | succ f ih =>
    intro hf i s ft s' h
    have hu : UpdOk o env react rank g (update o env react f) := by
      intro i s ft s' h
      unfold update at h
      by_cases hfin : (s.tl i).finished = true
      · rw [if_pos hfin] at h
        cases h
        refine ⟨[], .nil, ⟨by simp, rfl, by simp [effectsOf], fun _ _ => rfl, fun _ _ _ => ⟨rfl, rfl, rfl, rfl⟩⟩, ?_⟩
        unfold Timeline.update; rw [if_pos hfin]
      · rw [if_neg hfin] at h
        obtain ⟨tr, a1, a2, a3⟩ := ih (by omega) _ _ _ _ h
        rw [put_tl_same, put_log_same] at a3
        refine ⟨tr, a1, (inner_put s _ (s.log i) rfl).trans a2, ?_⟩
        unfold Timeline.update; rw [if_neg hfin]
        exact loop_mono _ _ _ _ _ _ _ (by omega) a3
    rw [loop_eq] at h
    unfold Timeline.loop
    by_cases hi : (s.tl i).cIdx = -1
    · rw [if_pos hi] at h ⊢
      cases h
      refine ⟨[], .nil, inner_put s _ _ rfl, ?_⟩
      rw [put_tl_same, put_log_same]
    · rw [if_neg hi] at h ⊢
      obtain ⟨s1, h1, h2⟩ := Outcome.bind_eq_ok.1 h
      obtain ⟨tr, a1, a2, a3⟩ := exec_spec hu hl h1
      rw [a3, Outcome.bind_ok]
      dsimp only
      have a4 := a2.trans (inner_put (o := o) (env := env) (rank := rank) (g := g) s1 { s1.tl i with remainder := o.zero } (s1.log i) rfl)
      rw [List.append_nil] at a4
      rw [put_tl_same] at h2
      by_cases hr : (s1.tl i).ready = true
      · rw [if_pos hr] at h2 ⊢
        obtain ⟨tr', b1, b2, b3⟩ := ih (by omega) _ _ _ _ h2
        rw [put_tl_same, put_log_same] at b3
        exact ⟨tr ++ tr', Verif.Timeline.System.Effects.append a1 b1, a4.trans b2, b3⟩
      · rw [if_neg hr] at h2 ⊢
        cases h2
        refine ⟨tr, a1, a4, ?_⟩
        rw [put_tl_same, put_log_same]

theorem update_ok (hl : Layered react rank) (f : Nat) (hf : f ≤ g) : UpdOk o env react rank g (update o env react f) := by
  intro i s ft s' h
  unfold update at h
  by_cases hfin : (s.tl i).finished = true
  · rw [if_pos hfin] at h
    cases h
    refine ⟨[], .nil, ⟨by simp, rfl, by simp [effectsOf], fun _ _ => rfl, fun _ _ _ => ⟨rfl, rfl, rfl, rfl⟩⟩, ?_⟩
    unfold Timeline.update; rw [if_pos hfin]
  · rw [if_neg hfin] at h
    obtain ⟨tr, a1, a2, a3⟩ := loop_spec hl f hf _ _ _ _ h
    rw [put_tl_same, put_log_same] at a3
    refine ⟨tr, a1, (inner_put s _ (s.log i) rfl).trans a2, ?_⟩
    unfold Timeline.update; rw [if_neg hfin]
    exact loop_mono _ _ _ _ _ _ _ hf a3

/-- **C154 (layers).** Timelines whose actions only call timelines of lower rank: a program that returns has made its calls in order, each
effect of an action has made the calls it should at once, and every timeline is in the state, and has had the effects, that it has
alone if it gets its calls in that order. -/
theorem C154_layers (hl : Layered react rank) (fuel : Nat) (s s' : Sys F) (cs : List (Nat × Call F)) (h : run o env react fuel s cs = .ok s') :
    ∃ tr, s'.trace = s.trace ++ tr ∧ Calls react cs tr ∧ ∀ j,
      alone o (env j) fuel (s.tl j) (s.log j) (callsOf j tr) = .ok (s'.tl j, s'.log j) ∧
      emitted (s'.log j) = emitted (s.log j) ++ effectsOf j tr := by
  obtain ⟨m, hm⟩ : ∃ m, ∀ c ∈ cs, rank c.1 < m := by
    clear h
    induction cs with
    | nil => exact ⟨0, by simp⟩
    | cons c cs ih =>
      obtain ⟨m, hm⟩ := ih
      refine ⟨max m (rank c.1 + 1), ?_⟩
      intro d hd
      rcases List.mem_cons.1 hd with rfl | hd
      · omega
      · have := hm d hd; omega
  obtain ⟨tr, h1, h2⟩ := calls_spec (update_ok (g := fuel) hl fuel (Nat.le_refl _)) cs hm h
  exact ⟨tr, h2.trace, h1, fun j => ⟨h2.alone j, h2.emit j⟩⟩

/-! ## Updates return -/

/-- A timeline of `n` commands without jumps, whose actions have effects only, in a proper position. -/
def Fine (n : Nat) (t : TL F) : Prop :=
  (∀ c ∈ t.cmds, c.Simple) ∧ t.cmds.length = n ∧ (t.cIdx = -1 ∨ (0 ≤ t.cIdx ∧ t.cIdx < n))

theorem fine_next {n : Nat} {t : TL F} (h : Fine n t) : ∃ i, t.next = .ok { t with cIdx := i } ∧ Fine n { t with cIdx := i } ∧
    (t.cIdx ≠ -1 → i = -1 ∨ i = t.cIdx + 1) := by
  obtain ⟨h1, h2, h3⟩ := h
  unfold TL.next
  by_cases e : t.cIdx = -1
  · exact ⟨t.cIdx, by rw [if_pos e], ⟨h1, h2, h3⟩, fun h => absurd e h⟩
  · rw [if_neg e]
    dsimp only
    rw [if_neg (by omega)]
    refine ⟨_, rfl, ⟨h1, h2, ?_⟩, fun _ => ?_⟩
    · dsimp only; split <;> omega
    · split <;> simp

theorem fine_reset {n : Nat} {t : TL F} (h : Fine n t) : Fine n t.reset := by
  obtain ⟨h1, h2, h3⟩ := h
  refine ⟨?_, by simp [TL.reset, TL.start, h2], ?_⟩
  · intro c hc
    simp only [TL.reset, TL.start, List.mem_map] at hc
    obtain ⟨d, hd, rfl⟩ := hc
    have := h1 d hd
    cases d <;> exact this
  · simp only [TL.reset, TL.start]
    by_cases hc : t.cmds = []
    · simp [hc]
    · have : 0 < t.cmds.length := List.length_pos_iff.2 hc
      simp [hc]; omega

theorem fine_current {n : Nat} {t : TL F} (h : Fine n t) (hi : t.cIdx ≠ -1) : ∃ k c, t.current = .ok (k, c) ∧ t.cmds[k]? = some c ∧ c.Simple := by
  obtain ⟨h1, h2, h3⟩ := h
  have h4 : t.cIdx.toNat < t.cmds.length := by omega
  refine ⟨t.cIdx.toNat, t.cmds[t.cIdx.toNat], ?_, by simp [h4], h1 _ (List.getElem_mem h4)⟩
  unfold TL.current
  rw [if_neg (by omega)]
  simp [h4]

theorem fine_exec {n : Nat} {t : TL F} (h : Fine n t) (e : List Event → Nat → Bool) (l : List Event) (ft : F) (k : Nat) (c : Cmd F)
    (hc : t.current = .ok (k, c)) (hs : c.Simple) (hn : ∀ as, c ≠ .act as) :
    ∃ t' l', Timeline.exec o e t l ft = .ok (t', l') ∧ t'.ready = false ∧ Fine n t' := by
  have hset : ∀ {t : TL F} {d : Cmd F}, Fine n t → d.Simple → Fine n { t with cmds := t.cmds.set k d } := by
    intro t d h hd
    refine ⟨fun c hc => ?_, by simp [h.2.1], h.2.2⟩
    rcases List.mem_or_eq_of_mem_set hc with hc | rfl
    · exact h.1 c hc
    · exact hd
  have hready : Fine n { t with ready := false } := h
  unfold Timeline.exec
  rw [hc, Outcome.bind_ok]
  cases c with
  | act as => exact absurd rfl (hn as)
  | go => exact hs.elim
  | wait time cur =>
    dsimp only
    split
    · exact ⟨_, _, rfl, rfl, hset hready trivial⟩
    · have hrem : Fine n { t with ready := false, remainder := o.sub cur ft } := h
      obtain ⟨i, a1, a2, _⟩ := fine_next hrem
      rw [a1]
      exact ⟨_, _, rfl, rfl, hset a2 trivial⟩
  | waitLoop w p =>
    dsimp only
    split
    · obtain ⟨i, a1, a2, _⟩ := fine_next hready
      rw [a1]
      exact ⟨_, _, rfl, rfl, a2⟩
    · exact ⟨_, _, rfl, rfl, h⟩

/-- All timelines are fine. -/
def AllFine (len : Nat → Nat) (s : Sys F) : Prop := ∀ j, Fine (len j) (s.tl j)

theorem AllFine.put {len : Nat → Nat} {s : Sys F} (h : AllFine len s) {i : Nat} {t : TL F} {l : List Event} (ht : Fine (len i) t) :
    AllFine len (s.put i t l) := by
  intro j
  by_cases e : j = i
  · subst e; rw [put_tl_same]; exact ht
  · rw [put_tl_ne _ _ _ _ e]; exact h j

/-- Calls that jump, jump to a command or to the end. -/
def JumpsOk (len : Nat → Nat) (cs : List (Nat × Call F)) : Prop :=
  ∀ j k, (j, Call.jumpTo k) ∈ cs → k = -1 ∨ (0 ≤ k ∧ k < len j)

/-- `update` of the timelines of rank below `r` returns. -/
def Returns (o : Ops F) (env : Nat → List Event → Nat → Bool) (react : Nat → Nat → List (Nat × Call F)) (rank len : Nat → Nat) (r : Nat) : Prop :=
  ∀ i, rank i < r → ∀ s, AllFine len s → ∀ ft, ∃ n s', AllFine len s' ∧ ∀ fuel, n ≤ fuel → update o env react fuel i s ft = .ok s'

theorem calls_return {len : Nat → Nat} {r : Nat} (hr : Returns o env react rank len r) : ∀ (cs : List (Nat × Call F)), (∀ c ∈ cs, rank c.1 < r) →
    JumpsOk len cs → ∀ s, AllFine len s → ∃ n s', AllFine len s' ∧ ∀ fuel, n ≤ fuel → calls (update o env react fuel) s cs = .ok s' := by
  intro cs
  induction cs with
  | nil => intro _ _ s hs; exact ⟨0, s, hs, fun _ _ => rfl⟩
  | cons c cs ih =>
    intro hc hj s hs
    obtain ⟨j, c⟩ := c
    have ih' := ih (fun c h => hc c (List.mem_cons_of_mem _ h)) (fun j k h => hj j k (List.mem_cons_of_mem _ h))
    have one : ∃ n s', AllFine len s' ∧ ∀ fuel, n ≤ fuel → call (update o env react fuel) s j c = .ok s' := by
      have hs' : AllFine len { s with trace := s.trace ++ [.call j c] } := hs
      cases c with
      | update ft =>
        obtain ⟨n, s', h1, h2⟩ := hr j (hc (j, .update ft) (by simp)) _ hs' ft
        exact ⟨n, s', h1, h2⟩
      | stop => exact ⟨0, _, hs'.put (t := (s.tl j).stop) (l := s.log j) (hs j), fun _ _ => rfl⟩
      | start => exact ⟨0, _, hs'.put (t := (s.tl j).start) (l := s.log j) (hs j), fun _ _ => rfl⟩
      | jumpTo k => exact ⟨0, _, hs'.put (t := (s.tl j).jumpTo k) (l := s.log j) ⟨(hs j).1, (hs j).2.1, hj j k (by simp)⟩, fun _ _ => rfl⟩
      | reset => exact ⟨0, _, hs'.put (fine_reset (hs j)), fun _ _ => rfl⟩
    obtain ⟨n, s1, a1, a2⟩ := one
    obtain ⟨m, s2, b1, b2⟩ := ih' s1 a1
    refine ⟨max n m, s2, b1, fun fuel hf => ?_⟩
    rw [calls, a2 fuel (by omega), Outcome.bind_ok]
    exact b2 fuel (by omega)

theorem acts_return {len : Nat → Nat} {i : Nat} (hl : Layered react rank) (hj : ∀ i n, JumpsOk len (react i n))
    (hr : Returns o env react rank len (rank i)) : ∀ (as : List Act), (∀ a ∈ as, a.isEmit = true) → ∀ s, AllFine len s →
    ∃ n s', AllFine len s' ∧ s'.tl i = s.tl i ∧ ∀ fuel, n ≤ fuel → runActs react (update o env react fuel) i s as = .ok s' := by
  intro as
  induction as with
  | nil => intro _ s hs; exact ⟨0, s, hs, rfl, fun _ _ => rfl⟩
  | cons a as ih =>
    intro ha s hs
    cases a with
    | emit k =>
      have hs' : AllFine len { (s.put i (s.tl i) (s.log i ++ [.emit k])) with trace := s.trace ++ [.effect i k] } :=
        hs.put (l := s.log i ++ [.emit k]) (hs i)
      obtain ⟨n, s1, a1, a2⟩ := calls_return hr (react i k) (hl i k) (hj i k) _ hs'
      obtain ⟨m, s2, b1, b2, b3⟩ := ih (fun a h => ha a (List.mem_cons_of_mem _ h)) s1 a1
      refine ⟨max n m, s2, b1, ?_, fun fuel hf => ?_⟩
      · obtain ⟨_, _, h2⟩ := calls_spec (update_ok (g := n) hl n (Nat.le_refl _)) (react i k) (hl i k) (a2 n (Nat.le_refl _))
        rw [b2, (h2.high i (Nat.le_refl _)).1, put_tl_same]
      · have := a2 fuel (by omega)
        rw [runActs]
        rw [put_trace, this, Outcome.bind_ok]
        exact b3 fuel (by omega)
    | stop => exact absurd (ha .stop (by simp)) (by simp [Act.isEmit])
    | start => exact absurd (ha .start (by simp)) (by simp [Act.isEmit])
    | jumpTo k => exact absurd (ha (.jumpTo k) (by simp)) (by simp [Act.isEmit])
    | reset => exact absurd (ha .reset (by simp)) (by simp [Act.isEmit])

theorem loop_returns {len : Nat → Nat} {i : Nat} (hl : Layered react rank) (hj : ∀ i n, JumpsOk len (react i n))
    (hr : Returns o env react rank len (rank i)) (ft : F) : ∀ (m : Nat) (s : Sys F), AllFine len s →
    ((s.tl i).cIdx ≠ -1 → (len i : Int) - (s.tl i).cIdx ≤ m) →
    ∃ n s', AllFine len s' ∧ ∀ fuel, n ≤ fuel → loop o env react fuel i s ft = .ok s' := by
  intro m
  induction m with
  | zero =>
    intro s hs hm
    have : (s.tl i).cIdx = -1 := by
      rcases (hs i).2.2 with h | h
      · exact h
      · by_cases e : (s.tl i).cIdx = -1
        · exact e
        · have := hm e; omega
    refine ⟨1, _, hs.put (t := (s.tl i).stop) (l := s.log i) (hs i), fun fuel hf => ?_⟩
    obtain ⟨fuel, rfl⟩ : ∃ n, fuel = n + 1 := ⟨fuel - 1, by omega⟩
    rw [loop_eq, if_pos this]
  | succ m ih =>
    intro s hs hm
    by_cases e : (s.tl i).cIdx = -1
    · refine ⟨1, _, hs.put (t := (s.tl i).stop) (l := s.log i) (hs i), fun fuel hf => ?_⟩
      obtain ⟨fuel, rfl⟩ : ∃ n, fuel = n + 1 := ⟨fuel - 1, by omega⟩
      rw [loop_eq, if_pos e]
    · have hm := hm e
      obtain ⟨k, c, h1, h2, h3⟩ := fine_current (hs i) e
      have other : (∀ as, c ≠ .act as) → (∀ upd, exec o env react upd i s (o.add ft (s.tl i).remainder) =
          (Timeline.exec o (env i) (s.tl i) (s.log i) (o.add ft (s.tl i).remainder) >>= fun r => .ok (s.put i r.1 r.2))) →
          ∃ n s', AllFine len s' ∧ ∀ fuel, n ≤ fuel → loop o env react fuel i s ft = .ok s' := by
        intro hn hx
        obtain ⟨t', l', a1, a2, a3⟩ := fine_exec (o := o) (hs i) (env i) (s.log i) (o.add ft (s.tl i).remainder) k c h1 h3 hn
        refine ⟨1, (s.put i t' l').put i { t' with remainder := o.zero } l', (hs.put a3).put a3, fun fuel hf => ?_⟩
        obtain ⟨fuel, rfl⟩ : ∃ n, fuel = n + 1 := ⟨fuel - 1, by omega⟩
        rw [loop_eq, if_neg e, hx, a1]
        simp only [Outcome.bind_ok, put_tl_same, put_log_same, a2]
        simp
      cases c with
      | act as =>
        obtain ⟨n, s1, a1, a2, a3⟩ := acts_return hl hj hr as h3 s hs
        obtain ⟨x, b1, b2, b3⟩ := fine_next (hs i)
        have hs2 : AllFine len (s1.put i { s.tl i with cIdx := x } (s1.log i)) := a1.put b2
        have hs3 : AllFine len ((s1.put i { s.tl i with cIdx := x } (s1.log i)).put i { s.tl i with cIdx := x, remainder := o.zero } (s1.log i)) :=
          hs2.put b2
        obtain ⟨n', s', c1, c2⟩ := ih _ hs3 (by
          rw [put_tl_same]
          intro hx
          have := b3 e
          dsimp only at hx ⊢
          omega)
        have hex : ∀ fuel, n ≤ fuel → exec o env react (update o env react fuel) i s (o.add ft (s.tl i).remainder) =
            .ok (s1.put i { s.tl i with cIdx := x } (s1.log i)) := by
          intro fuel hf
          unfold exec
          rw [h1, Outcome.bind_ok]
          dsimp only
          rw [a3 fuel hf, Outcome.bind_ok, a2, b1, Outcome.bind_ok]
        by_cases hrd : (s.tl i).ready = true
        · refine ⟨max n n' + 1, s', c1, fun fuel hf => ?_⟩
          obtain ⟨fuel, rfl⟩ : ∃ n, fuel = n + 1 := ⟨fuel - 1, by omega⟩
          rw [loop_eq, if_neg e, hex fuel (by omega), Outcome.bind_ok, put_tl_same, put_tl_same, put_log_same]
          dsimp only
          rw [if_pos hrd]
          exact c2 fuel (by omega)
        · refine ⟨n + 1, _, hs3, fun fuel hf => ?_⟩
          obtain ⟨fuel, rfl⟩ : ∃ n, fuel = n + 1 := ⟨fuel - 1, by omega⟩
          rw [loop_eq, if_neg e, hex fuel (by omega), Outcome.bind_ok, put_tl_same, put_tl_same, put_log_same]
          dsimp only
          rw [if_neg hrd]
      | wait time cur => exact other (by simp) (fun upd => by unfold exec; rw [h1, Outcome.bind_ok])
      | waitLoop w p => exact other (by simp) (fun upd => by unfold exec; rw [h1, Outcome.bind_ok])
      | go target times cur => exact h3.elim

theorem all_return {len : Nat → Nat} (hl : Layered react rank) (hj : ∀ i n, JumpsOk len (react i n)) : ∀ r, Returns o env react rank len r := by
  intro r
  induction r with
  | zero => intro i hi; omega
  | succ r ih =>
    intro i hi s hs ft
    by_cases hfin : (s.tl i).finished = true
    · exact ⟨0, s, hs, fun fuel _ => by unfold update; rw [if_pos hfin]⟩
    · have hr : Returns o env react rank len (rank i) := fun j hj => ih j (by omega)
      obtain ⟨n, s', h1, h2⟩ := loop_returns hl hj hr ft (len i + 1) (s.put i { s.tl i with ready := true } (s.log i)) (hs.put (hs i)) (by
        rw [put_tl_same]; have := (hs i).2.2; dsimp only; omega)
      refine ⟨n, s', h1, fun fuel hf => ?_⟩
      unfold update
      rw [if_neg hfin]
      exact h2 fuel hf

/-- **C154 (they return).** If moreover no timeline has a `Go`, no action stops, starts or moves its own timeline, and jumps lead to a
command, every program returns. -/
theorem C154_returns (hl : Layered react rank) (len : Nat → Nat) (hj : ∀ i n, JumpsOk len (react i n)) (s : Sys F) (hs : AllFine len s)
    (cs : List (Nat × Call F)) (hc : JumpsOk len cs) : ∃ n s', AllFine len s' ∧ ∀ fuel, n ≤ fuel → run o env react fuel s cs = .ok s' := by
  obtain ⟨m, hm⟩ : ∃ m, ∀ c ∈ cs, rank c.1 < m := by
    clear hc
    induction cs with
    | nil => exact ⟨0, by simp⟩
    | cons c cs ih =>
      obtain ⟨m, hm⟩ := ih
      refine ⟨max m (rank c.1 + 1), ?_⟩
      intro d hd
      rcases List.mem_cons.1 hd with rfl | hd
      · omega
      · have := hm d hd; omega
  exact calls_return (all_return hl hj m) cs hm hc s hs

/-! ## Circles -/

/-- The calls in `cs` reach an update of a timeline in `P` before they touch a timeline in `P` otherwise or update another one. -/
def Reaches (P : Nat → Prop) (cs : List (Nat × Call F)) : Prop :=
  ∃ pre q ft post, cs = pre ++ (q, .update ft) :: post ∧ P q ∧ ∀ c ∈ pre, ¬ P c.1 ∧ ∀ ft, c.2 ≠ .update ft

/-- The command that a timeline in `P` is at has an effect that reaches `P`; the effects before only touch other timelines. -/
def Turns (react : Nat → Nat → List (Nat × Call F)) (P : Nat → Prop) (p : Nat) (t : TL F) : Prop :=
  t.finished = false ∧ ∃ k as pre n post, t.current = .ok (k, .act as) ∧ as = pre ++ .emit n :: post ∧ Reaches P (react p n) ∧
    ∀ a ∈ pre, ∃ m, a = .emit m ∧ ∀ c ∈ react p m, ¬ P c.1 ∧ ∀ ft, c.2 ≠ .update ft

theorem calls_harmless {P : Nat → Prop} (upd : Nat → Sys F → F → Outcome (Sys F)) : ∀ (cs : List (Nat × Call F)) (s : Sys F),
    (∀ c ∈ cs, ¬ P c.1 ∧ ∀ ft, c.2 ≠ .update ft) → ∀ rest, ∃ s', calls upd s (cs ++ rest) = calls upd s' rest ∧ ∀ p, P p → s'.tl p = s.tl p := by
  intro cs
  induction cs with
  | nil => intro s _ rest; exact ⟨s, rfl, fun _ _ => rfl⟩
  | cons c cs ih =>
    intro s hc rest
    obtain ⟨j, c⟩ := c
    have hj : ∀ p, P p → p ≠ j := by rintro p hp rfl; exact (hc (p, c) (by simp)).1 hp
    have key : ∀ t : TL F, call upd s j c = .ok (Sys.put { s with trace := s.trace ++ [.call j c] } j t (s.log j)) →
        ∃ s', calls upd s ((j, c) :: cs ++ rest) = calls upd s' rest ∧ ∀ p, P p → s'.tl p = s.tl p := by
      intro t ht
      obtain ⟨s', h1, h2⟩ := ih (Sys.put { s with trace := s.trace ++ [.call j c] } j t (s.log j)) (fun c h => hc c (List.mem_cons_of_mem _ h)) rest
      refine ⟨s', ?_, fun p hp => by rw [h2 p hp, put_tl_ne _ _ _ _ (hj p hp)]⟩
      rw [List.cons_append, calls, ht, Outcome.bind_ok, h1]
    cases c with
    | update ft => exact absurd rfl ((hc (j, .update ft) (by simp)).2 ft)
    | stop => exact key _ rfl
    | start => exact key _ rfl
    | jumpTo k => exact key _ rfl
    | reset => exact key _ rfl

theorem acts_circle {P : Nat → Prop} (upd : Nat → Sys F → F → Outcome (Sys F)) (p n : Nat) (post : List Act) (hn : Reaches P (react p n))
    (hu : ∀ (s0 : Sys F), ∀ s, (∀ p, P p → s.tl p = s0.tl p) → (∀ p, P p → Turns react P p (s0.tl p)) → ∀ q, P q → ∀ ft, upd q s ft = .diverge) :
    ∀ (pre : List Act) (s : Sys F), (∀ q, P q → Turns react P q (s.tl q)) →
      (∀ a ∈ pre, ∃ m, a = .emit m ∧ ∀ c ∈ react p m, ¬ P c.1 ∧ ∀ ft, c.2 ≠ .update ft) →
      runActs react upd p s (pre ++ .emit n :: post) = .diverge := by
  intro pre
  induction pre with
  | nil =>
    intro s hs _
    obtain ⟨cs, q, ft, rest, e, hq, hc⟩ := hn
    have hkeep : ∀ p', P p' → (s.put p (s.tl p) (s.log p ++ [.emit n])).tl p' = s.tl p' := by
      intro p' _
      by_cases e : p' = p
      · subst e; rw [put_tl_same]
      · rw [put_tl_ne _ _ _ _ e]
    obtain ⟨s', h1, h2⟩ := calls_harmless upd cs { (s.put p (s.tl p) (s.log p ++ [.emit n])) with trace := s.trace ++ [.effect p n] } hc
      ((q, .update ft) :: rest)
    rw [List.nil_append, runActs]
    rw [put_trace, e, h1, calls]
    have : call upd s' q (.update ft) = .diverge :=
      hu s _ (fun p' hp' => by
        have := h2 p' hp'
        exact this.trans (hkeep p' hp')) hs q hq ft
    rw [this]; rfl
  | cons a pre ih =>
    intro s hs hpre
    obtain ⟨m, rfl, hm⟩ := hpre a (by simp)
    obtain ⟨s', h1, h2⟩ := calls_harmless upd (react p m) { (s.put p (s.tl p) (s.log p ++ [.emit m])) with trace := s.trace ++ [.effect p m] } hm []
    rw [List.append_nil] at h1
    rw [List.cons_append, runActs]
    rw [put_trace, h1]
    simp only [calls, Outcome.bind_ok]
    refine ih s' (fun q hq => ?_) (fun a h => hpre a (List.mem_cons_of_mem _ h))
    have : s'.tl q = s.tl q := by
      rw [h2 q hq]
      by_cases e : q = p
      · subst e; exact put_tl_same _ _ _ (s.log q ++ [.emit m])
      · exact put_tl_ne _ _ _ (s.log p ++ [.emit m]) e
    rw [this]; exact hs q hq

/-- **C154 (circles).** If every timeline of a set is running and at an action that updates a timeline of the set (its own, for instance), the
update of any of them never returns. -/
theorem C154_circles (P : Nat → Prop) (s : Sys F) (h : ∀ p, P p → Turns react P p (s.tl p)) (p : Nat) (hp : P p) (ft : F) (fuel : Nat) :
    update o env react fuel p s ft = .diverge := by
  induction fuel generalizing s p ft with
  | zero =>
    unfold update
    rw [if_neg (by rw [(h p hp).1]; simp)]; rfl
  | succ fuel ih =>
    unfold update
    rw [if_neg (by rw [(h p hp).1]; simp), loop_eq, put_tl_same]
    obtain ⟨hf, k, as, pre, n, post, hcur, rfl, hn, hpre⟩ := h p hp
    have hi : (s.tl p).cIdx ≠ -1 := by
      intro e
      unfold TL.current at hcur
      rw [if_pos (by omega)] at hcur
      cases hcur
    rw [if_neg hi]
    have hT : ∀ q, P q → Turns react P q ((s.put p { s.tl p with ready := true } (s.log p)).tl q) := by
      intro q hq
      by_cases e : q = p
      · subst e; rw [put_tl_same]; exact h q hq
      · rw [put_tl_ne _ _ _ _ e]; exact h q hq
    have : exec o env react (update o env react fuel) p (s.put p { s.tl p with ready := true } (s.log p)) (o.add ft (s.tl p).remainder) = .diverge := by
      unfold exec
      rw [put_tl_same]
      have hcur' : TL.current { s.tl p with ready := true } = .ok (k, .act (pre ++ .emit n :: post)) := hcur
      rw [hcur', Outcome.bind_ok]
      dsimp only
      rw [acts_circle (update o env react fuel) p n post hn (fun s0 s1 h1 h2 q hq ft => ih s1 (fun p hp => by rw [h1 p hp]; exact h2 p hp) q hq ft) pre _ hT hpre]
      rfl
    dsimp only
    rw [this]; rfl

/-- **C154 (after a stop).** The update of a timeline that has been stopped does nothing but being called, also during its own update. -/
theorem C154_stopped (fuel i : Nat) (s : Sys F) (ft : F) (cs : List (Nat × Call F)) :
    run o env react fuel s ((i, .stop) :: (i, .update ft) :: cs) =
      run o env react fuel { (s.put i (s.tl i).stop (s.log i)) with trace := s.trace ++ [.call i .stop, .call i (.update ft)] } cs := by
  unfold run
  rw [calls]
  simp only [call, Outcome.bind_ok]
  rw [calls]
  simp only [call, update]
  rw [if_pos (by simp [Sys.put, TL.stop]), Outcome.bind_ok]
  simp [Sys.put]

/-! ## Examples -/

/-- Whole numbers as time. -/
def intOps : Ops Int := ⟨0, (· + ·), (· - ·), fun a => decide (0 < a)⟩

/-- Timeline 0 drives timeline 1. -/
def drive : Nat → Nat → List (Nat × Call Int)
  | 0, 1 => [(1, .update 1)]
  | 0, 2 => [(1, .reset), (1, .update 3)]
  | _, _ => []

def two : Sys Int where
  tl i := if i = 0 then ⟨[.act [.emit 1], .wait 2 2, .act [.emit 2]], 0, 0, true, false⟩
    else if i = 1 then ⟨[.act [.emit 7], .wait 2 2, .act [.emit 8]], 0, 0, true, false⟩ else TL.init intOps true
  log _ := []
  trace := []

theorem drive_layered : Layered drive (fun i => if i = 0 then 1 else 0) := by
  intro i n c hc
  unfold drive at hc
  split at hc
  · simp at hc; simp [hc]
  · simp at hc; rcases hc with rfl | rfl <;> simp
  · simp at hc

/-- **C154 (example).** A timeline that drives another one, with two updates. -/
theorem C154_example : ∃ s', run intOps (fun _ _ _ => true) drive 9 two [(0, .update 1), (0, .update 1)] = .ok s' ∧
    s'.trace = [.call 0 (.update 1), .effect 0 1, .call 1 (.update 1), .effect 1 7, .call 0 (.update 1)] ∧
    ∃ s'', run intOps (fun _ _ _ => true) drive 9 s' [(0, .update 0)] = .ok s'' ∧
      s''.trace = s'.trace ++ [.call 0 (.update 0), .effect 0 2, .call 1 .reset, .call 1 (.update 3), .effect 1 7] ∧
      (s''.tl 0).finished = true ∧ (s''.tl 1).finished = false ∧ (s''.tl 1).cIdx = 2 := by
  refine ⟨_, rfl, by decide +kernel, _, rfl, by decide +kernel, by decide +kernel, by decide +kernel, by decide +kernel⟩

example : ∃ n s', AllFine (fun i => if i ≤ 1 then 3 else 0) s' ∧ ∀ fuel, n ≤ fuel →
    run intOps (fun _ _ _ => true) drive fuel two [(0, .update 1), (0, .update 1)] = .ok s' := by
  refine C154_returns drive_layered _ ?_ two ?_ _ ?_
  · intro i n j k h
    unfold drive at h
    split at h <;> simp at h
  · intro j
    unfold two Fine
    dsimp only
    by_cases h0 : j = 0
    · subst h0; simp [Cmd.Simple, Act.isEmit]
    · by_cases h1 : j = 1
      · subst h1; simp [Cmd.Simple, Act.isEmit]
      · rw [if_neg h0, if_neg h1, if_neg (by omega)]; simp [TL.init]
  · intro j k h; simp at h

/-- Two timelines that update each other. -/
def pingPong : Nat → Nat → List (Nat × Call Int)
  | i, _ => [(5, .reset), (1 - i, .update 1)]

example (fuel : Nat) : update intOps (fun _ _ _ => true) pingPong fuel 0
    ⟨fun _ => ⟨[.act [.emit 1]], 0, 0, true, false⟩, fun _ => [], []⟩ 1 = .diverge := by
  refine C154_circles (fun p => p = 0 ∨ p = 1) _ ?_ 0 (.inl rfl) 1 fuel
  intro p hp
  refine ⟨rfl, 0, [.emit 1], [], 1, [], rfl, rfl, ⟨[(5, .reset)], 1 - p, 1, [], rfl, by omega, by simp⟩, by simp⟩

end Verif.Timeline.System
