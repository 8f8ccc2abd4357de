import Verif.Timeline.LemmasJump

/-!
# Termination of updates, and loops
-/

namespace Verif.Timeline

open Verif

variable {F : Type} (o : Ops F) (env : List Event → Nat → Bool)

/-- What one command does, when actions leave the timeline alone. -/
inductive Step (n : Nat) (k : Nat) (t : TL F) : TL F → List Event → Prop where
  | act (as : List Act) (h : t.cmds[k]? = some (.act as)) (l : List Event)
      (hl : emitted l = (Cmd.act as : Cmd F).emits) : Step n k t { t with cIdx := indexAt n (k + 1) } l
  | wait (time cur cur' : F) (h : t.cmds[k]? = some (.wait time cur)) (b : Bool) (r : F) :
      Step n k t ⟨t.cmds.set k (.wait time cur'), indexAt n (if b then k else k + 1), r, false, t.finished⟩ []
  | ask (w : Bool) (p : Nat) (h : t.cmds[k]? = some (.waitLoop w p)) (b : Bool) :
      Step n k t { t with ready := false, cIdx := indexAt n (if b then k else k + 1) } [.asked p]
  | jump (target : Int) (times cur : Nat) (h : t.cmds[k]? = some (.go target times (cur + 1))) :
      Step n k t { t with cmds := t.cmds.set k (.go target times cur), cIdx := target } [.jumped k]
  | pass (target : Int) (times : Nat) (h : t.cmds[k]? = some (.go target times 0)) :
      Step n k t { t with cIdx := indexAt n (k + 1) } [.passed k]

theorem exec_step (t : TL F) (log : List Event) (ft : F) (n k : Nat) (hn : t.cmds.length = n) (hk : k < n)
    (hi : t.cIdx = indexAt n k) (ha : ∀ as, .act as ∈ t.cmds → ∀ a ∈ as, a.isEmit = true) :
    ∃ t' l, exec o env t log ft = .ok (t', log ++ l) ∧ Step n k t t' l := by
  subst hn
  obtain ⟨c, hc⟩ : ∃ c, t.cmds[k]? = some c := ⟨t.cmds[k], List.getElem?_eq_getElem hk⟩
  unfold exec
  rw [current_at t k c hc hi]
  simp only [Outcome.bind_ok]
  cases c with
  | act as =>
    obtain ⟨l, h1, h2⟩ := runActs_emits t log as (ha as (List.mem_of_getElem? hc))
    refine ⟨{ t with cIdx := indexAt t.cmds.length (k + 1) }, l, ?_, .act as hc l h2.1⟩
    simp only [h1, next_at t k hk hi, Outcome.bind_ok, Outcome.pure_eq]
  | wait time cur =>
    simp only
    by_cases hp : o.pos (o.sub cur ft) = true
    · rw [if_pos hp]
      refine ⟨_, [], by simp; rfl, ?_⟩
      have := Step.wait (t := t) (n := t.cmds.length) time cur (o.sub cur ft) hc true t.remainder
      rw [if_pos rfl, ← hi] at this
      exact this
    · rw [if_neg hp]
      have hn := next_at ({ t with ready := false, remainder := o.sub cur ft } : TL F) k hk hi
      simp only at hn
      simp only [hn, Outcome.bind_ok, Outcome.pure_eq]
      refine ⟨_, [], by simp; rfl, ?_⟩
      have := Step.wait (t := t) (n := t.cmds.length) time cur time hc false (o.sub cur ft)
      simpa using this
  | waitLoop w p =>
    simp only
    by_cases hp : env log p ≠ w
    · rw [if_pos hp]
      have hn := next_at ({ t with ready := false } : TL F) k hk hi
      simp only at hn
      simp only [hn, Outcome.bind_ok, Outcome.pure_eq]
      refine ⟨_, _, rfl, ?_⟩
      have := Step.ask (t := t) (n := t.cmds.length) w p hc false
      simpa using this
    · rw [if_neg hp]
      refine ⟨_, _, rfl, ?_⟩
      have := Step.ask (t := t) (n := t.cmds.length) w p hc true
      rw [if_pos rfl, ← hi] at this
      exact this
  | go target times cur =>
    simp only
    cases cur with
    | zero =>
      rw [if_pos rfl]
      simp only [next_at t k hk hi, Outcome.bind_ok, Outcome.pure_eq]
      exact ⟨_, _, rfl, .pass target times hc⟩
    | succ cur =>
      rw [if_neg (by omega)]
      exact ⟨_, _, rfl, .jump target times cur hc⟩

/-- The jumps that are left. -/
def credits (cmds : List (Cmd F)) : Nat := (cmds.map Cmd.jumps).sum

theorem credits_set (cmds : List (Cmd F)) (k : Nat) (c d : Cmd F) (h : cmds[k]? = some c) :
    credits (cmds.set k d) + c.jumps = credits cmds + d.jumps := by
  induction cmds generalizing k with
  | nil => simp at h
  | cons x xs ih =>
    cases k with
    | zero =>
      simp only [List.getElem?_cons_zero, Option.some.injEq] at h
      subst h
      simp only [List.set_cons_zero, credits, List.map_cons, List.sum_cons]
      omega
    | succ k =>
      simp only [List.getElem?_cons_succ] at h
      have := ih k h
      simp only [credits] at this
      simp only [List.set_cons_succ, credits, List.map_cons, List.sum_cons]
      omega

theorem credits_ge (cmds : List (Cmd F)) (k : Nat) (c : Cmd F) (h : cmds[k]? = some c) : c.jumps ≤ credits cmds := by
  have := credits_set cmds k c (.act []) h
  rw [show (Cmd.act [] : Cmd F).jumps = 0 from rfl] at this
  omega

theorem tame_reset (n : Nat) (c : Cmd F) : c.reset.Tame n ↔ c.Tame n := by cases c <;> exact Iff.rfl

theorem Like.tame {a b : List (Cmd F)} (n : Nat) (h : Like a b) (hb : ∀ c ∈ b, c.Tame n) : ∀ c ∈ a, c.Tame n := by
  intro c hc
  have : c.reset ∈ b.map Cmd.reset := by rw [← h]; exact List.mem_map_of_mem hc
  obtain ⟨d, hd, e⟩ := List.mem_map.1 this
  rw [← tame_reset, ← e, tame_reset]
  exact hb d hd

/-- The states of a well-behaved timeline. -/
structure Good (t : TL F) (k : Nat) : Prop where
  tame : ∀ c ∈ t.cmds, c.Tame t.cmds.length
  le : k ≤ t.cmds.length
  idx : t.cIdx = indexAt t.cmds.length k

theorem step_good {t t' : TL F} {k : Nat} {l : List Event} (h : Good t k) (hs : Step t.cmds.length k t t' l) (hk : k < t.cmds.length) :
    t'.cmds.length = t.cmds.length ∧ credits t'.cmds ≤ credits t.cmds ∧ ∃ k', Good t' k' ∧
      (t'.ready = true → credits t'.cmds * (t.cmds.length + 1) + (t.cmds.length - k') <
        credits t.cmds * (t.cmds.length + 1) + (t.cmds.length - k)) := by
  have set_tame : ∀ c d : Cmd F, t.cmds[k]? = some c → d.reset = c.reset →
      ∀ x ∈ t.cmds.set k d, x.Tame (t.cmds.set k d).length := by
    intro c d hc he
    rw [List.length_set]
    exact (like_set _ _ _ _ hc he).tame _ h.tame
  cases hs with
  | act as hc l hl => exact ⟨rfl, Nat.le_refl _, k + 1, ⟨h.tame, hk, rfl⟩, fun _ => by simp only; omega⟩
  | wait time cur cur' hc b r =>
    have := credits_set t.cmds k (.wait time cur) (.wait time cur') hc
    simp only [Cmd.jumps, Nat.add_zero] at this
    refine ⟨by simp, by simp only; omega, if b then k else k + 1, ⟨set_tame _ _ hc rfl, ?_, by simp⟩, by simp⟩
    simp only [List.length_set]; split <;> omega
  | ask w p hc b =>
    refine ⟨rfl, Nat.le_refl _, if b then k else k + 1, ⟨h.tame, ?_, rfl⟩, by simp⟩
    simp only; split <;> omega
  | jump target times cur hc =>
    have := credits_set t.cmds k (.go target times (cur + 1)) (.go target times cur) hc
    have hge := credits_ge _ _ _ hc
    simp only [Cmd.jumps] at this hge
    have htg : 0 ≤ target ∧ target < t.cmds.length := h.tame _ (List.mem_of_getElem? hc)
    have he : credits t.cmds = credits (t.cmds.set k (.go target times cur)) + 1 := by omega
    refine ⟨by simp, by simp only; omega, target.toNat, ⟨set_tame _ _ hc rfl, ?_, ?_⟩, ?_⟩
    · simp only [List.length_set]; omega
    · simp only [List.length_set, indexAt]; rw [if_neg (by omega)]; omega
    · intro _
      simp only
      rw [he, Nat.add_mul]
      omega
  | pass target times hc => exact ⟨rfl, Nat.le_refl _, k + 1, ⟨h.tame, hk, rfl⟩, fun _ => by simp only; omega⟩

theorem Good.acts {t : TL F} {k : Nat} (h : Good t k) : ∀ as, .act as ∈ t.cmds → ∀ a ∈ as, a.isEmit = true :=
  fun _ hm => h.tame _ hm

theorem loop_good (fuel : Nat) (t : TL F) (log : List Event) (ft : F) (k : Nat) (h : Good t k)
    (hfuel : credits t.cmds * (t.cmds.length + 1) + (t.cmds.length - k) < fuel) :
    ∃ t' l k', loop o env fuel t log ft = .ok (t', log ++ l) ∧ Good t' k' ∧ t'.cmds.length = t.cmds.length ∧
      credits t'.cmds ≤ credits t.cmds := by
  induction fuel generalizing t log k with
  | zero => omega
  | succ fuel ih =>
    by_cases hk : k = t.cmds.length
    · refine ⟨t.stop, [], k, ?_, ⟨h.tame, h.le, h.idx⟩, rfl, Nat.le_refl _⟩
      rw [loop_end _ _ _ _ _ _ (by rw [h.idx, hk, indexAt_self]), List.append_nil]
    · have hk' : k < t.cmds.length := by have := h.le; omega
      obtain ⟨t1, l, e1, hs⟩ := exec_step o env t log (o.add ft t.remainder) t.cmds.length k rfl hk' h.idx h.acts
      obtain ⟨hlen, hcr, k1, hg, hm⟩ := step_good h hs hk'
      rw [loop, if_neg (by rw [h.idx]; exact indexAt_ne hk')]
      simp only [e1, Outcome.bind_ok]
      cases hr : t1.ready with
      | false =>
        exact ⟨{ t1 with remainder := o.zero }, l, k1, by simp [hr], ⟨hg.tame, hg.le, hg.idx⟩, hlen, hcr⟩
      | true =>
        have hm := hm hr
        obtain ⟨t2, l2, k2, e2, hg2, hl2, hc2⟩ := ih { t1 with remainder := o.zero } (log ++ l) k1 ⟨hg.tame, hg.le, hg.idx⟩
          (by simp only [hlen]; omega)
        refine ⟨t2, l ++ l2, k2, ?_, hg2, hl2.trans hlen, Nat.le_trans hc2 hcr⟩
        rw [← List.append_assoc]
        simpa [hr] using e2

theorem update_good (fuel : Nat) (t : TL F) (log : List Event) (ft : F) (k : Nat) (h : Good t k)
    (hfuel : (credits t.cmds + 1) * (t.cmds.length + 1) ≤ fuel) :
    ∃ t' l k', update o env fuel t log ft = .ok (t', log ++ l) ∧ Good t' k' ∧ t'.cmds.length = t.cmds.length ∧
      credits t'.cmds ≤ credits t.cmds := by
  unfold update
  split
  · exact ⟨t, [], k, by simp, h, rfl, Nat.le_refl _⟩
  · refine loop_good o env fuel { t with ready := true } log ft k ⟨h.tame, h.le, h.idx⟩ ?_
    rw [Nat.add_mul] at hfuel
    simp only
    omega

theorem updates_good (fuel : Nat) (fts : List F) (t : TL F) (log : List Event) (k : Nat) (h : Good t k)
    (hfuel : (credits t.cmds + 1) * (t.cmds.length + 1) ≤ fuel) :
    ∃ t' l k', updates o env fuel t log fts = .ok (t', log ++ l) ∧ Good t' k' := by
  induction fts generalizing t log k with
  | nil => exact ⟨t, [], k, by simp [updates], h⟩
  | cons ft fts ih =>
    obtain ⟨t1, l1, k1, e1, h1, hl, hc⟩ := update_good o env fuel t log ft k h hfuel
    obtain ⟨t2, l2, k2, e2, h2⟩ := ih t1 (log ++ l1) k1 h1 (by
      rw [hl]; exact Nat.le_trans (Nat.mul_le_mul_right _ (by omega)) hfuel)
    exact ⟨t2, l1 ++ l2, k2, by simp [updates, e1, e2], h2⟩

/-! ## One loop -/

/-- What is still to be emitted at position `k` with `c` jumps left. -/
def toGo (pre body post : List (Cmd F)) (k c : Nat) : List Nat :=
  if k ≤ pre.length + body.length then
    ((pre ++ body).drop k).flatMap Cmd.emits ++ (List.replicate c (body.flatMap Cmd.emits)).flatten ++ post.flatMap Cmd.emits
  else (post.drop (k - (pre.length + body.length + 1))).flatMap Cmd.emits

/-- The states of a timeline with one loop. -/
structure InLoop (pre body post : List (Cmd F)) (n : Nat) (t : TL F) (log : List Event) (k c : Nat) : Prop where
  like : Like t.cmds (pre ++ body ++ [.go pre.length n n] ++ post)
  le : k ≤ t.cmds.length
  idx : t.cIdx = indexAt t.cmds.length k
  left : t.cmds[pre.length + body.length]? = some (.go pre.length n c)
  done : emitted log ++ toGo pre body post k c =
    pre.flatMap Cmd.emits ++ (List.replicate (n + 1) (body.flatMap Cmd.emits)).flatten ++ post.flatMap Cmd.emits
  fin : t.finished = true → k = t.cmds.length

section
variable {pre body post : List (Cmd F)} {n : Nat}

theorem toGo_next (k c : Nat) (x : Cmd F) (h : (pre ++ body ++ [.go pre.length n n] ++ post)[k]? = some x)
    (hk : k ≠ pre.length + body.length) :
    toGo pre body post k c = x.emits ++ toGo pre body post (k + 1) c := by
  unfold toGo
  by_cases h1 : k < pre.length + body.length
  · rw [if_pos (by omega), if_pos (by omega)]
    have hx : (pre ++ body)[k]? = some x := by
      rw [List.append_assoc, List.getElem?_append_left (by simpa using h1)] at h
      exact h
    obtain ⟨hl, hx⟩ := List.getElem?_eq_some_iff.1 hx
    rw [List.drop_eq_getElem_cons hl, hx]
    simp
  · rw [if_neg (by omega), if_neg (by omega)]
    have hx : post[k - (pre.length + body.length + 1)]? = some x := by
      rw [List.getElem?_append_right (by simp; omega)] at h
      simpa [Nat.add_assoc] using h
    obtain ⟨hl, hx⟩ := List.getElem?_eq_some_iff.1 hx
    rw [List.drop_eq_getElem_cons hl, hx]
    have : k + 1 - (pre.length + body.length + 1) = k - (pre.length + body.length + 1) + 1 := by omega
    rw [this]
    simp

theorem like_at {a b : List (Cmd F)} (h : Like a b) {k : Nat} {c : Cmd F} (hc : a[k]? = some c) :
    ∃ d, b[k]? = some d ∧ d.reset = c.reset := by
  have h1 : (b.map Cmd.reset)[k]? = some c.reset := by rw [← h]; simp [hc]
  rw [List.getElem?_map] at h1
  cases hb : b[k]? with
  | none => simp [hb] at h1
  | some d => rw [hb] at h1; exact ⟨d, rfl, by simpa using h1⟩

theorem emits_of_reset {c d : Cmd F} (h : d.reset = c.reset) : d.emits = c.emits := by
  rw [← emits_reset d, ← emits_reset c, h]

theorem inLoop_exec (hs : ∀ c ∈ pre ++ body ++ post, c.Simple) {t : TL F} {log : List Event} {k c : Nat}
    (h : InLoop pre body post n t log k c) (ft : F) {t' : TL F} {log' : List Event}
    (e : exec o env t log ft = .ok (t', log')) : ∃ k' c', InLoop pre body post n t' log' k' c' := by
  have hlen : t.cmds.length = pre.length + body.length + 1 + post.length := by
    rw [h.like.length]; simp; omega
  -- not at the end
  have hk : k < t.cmds.length := by
    rcases Nat.lt_or_ge k t.cmds.length with hk | hk
    · exact hk
    · exfalso
      have : k = t.cmds.length := Nat.le_antisymm h.le hk
      have hi := h.idx
      rw [this, indexAt_self] at hi
      simp only [exec, TL.current, hi] at e
      simp at e
  have ha : ∀ as, .act as ∈ t.cmds → ∀ a ∈ as, a.isEmit = true := by
    have hall : ∀ x ∈ pre ++ body ++ [.go pre.length n n] ++ post, x.Tame (pre.length + 1) := by
      intro x hx
      simp only [List.mem_append, List.mem_singleton] at hx hs
      have hsx : x.Simple → x.Tame (pre.length + 1) := by cases x <;> simp [Cmd.Simple, Cmd.Tame]
      rcases hx with ((hx | hx) | hx) | hx
      · exact hsx (hs x (.inl (.inl hx)))
      · exact hsx (hs x (.inl (.inr hx)))
      · rw [hx]; simp only [Cmd.Tame]; omega
      · exact hsx (hs x (.inr hx))
    intro as hm
    exact h.like.tame _ hall _ hm
  obtain ⟨t1, l, e1, hst⟩ := exec_step o env t log ft t.cmds.length k rfl hk h.idx ha
  rw [e] at e1
  simp only [Outcome.ok.injEq, Prod.mk.injEq] at e1
  obtain ⟨rfl, rfl⟩ := e1
  have hfin : t'.finished = true → t.finished = true := by cases hst <;> exact id
  have nofin : t.finished = true → ∀ k' m : Nat, k' = m := fun hf => absurd (h.fin hf) (by omega)
  -- a command other than the jump
  have other : ∀ x : Cmd F, t.cmds[k]? = some x → (∀ a b d, x ≠ .go a b d) → ∀ b : Bool, (b = true → x.emits = []) →
      emitted l = (if b then [] else x.emits) →
      t'.cIdx = indexAt t.cmds.length (if b then k else k + 1) →
      (t'.cmds = t.cmds ∨ ∃ d : Cmd F, d.reset = x.reset ∧ t'.cmds = t.cmds.set k d) →
      ∃ k' c', InLoop pre body post n t' (log ++ l) k' c' := by
    intro x hx hng b hb hem hidx hcm
    obtain ⟨y, hy, hyr⟩ := like_at h.like hx
    have hkg : k ≠ pre.length + body.length := by
      rintro rfl
      rw [h.left] at hx
      exact hng _ _ _ (Option.some.inj hx).symm
    have hl' : t'.cmds.length = t.cmds.length := by
      rcases hcm with hcm | ⟨d, _, hcm⟩ <;> rw [hcm]
      simp
    refine ⟨if b then k else k + 1, c, ?_, ?_, ?_, ?_, ?_, fun hf => nofin (hfin hf) _ _⟩
    · rcases hcm with hcm | ⟨d, hd, hcm⟩ <;> rw [hcm]
      · exact h.like
      · exact (like_set _ _ _ _ hx hd).trans h.like
    · rw [hl']; split <;> omega
    · rw [hl', hidx]
    · rcases hcm with hcm | ⟨d, hd, hcm⟩ <;> rw [hcm]
      · exact h.left
      · rw [List.getElem?_set_ne hkg]; exact h.left
    · rw [← h.done, emitted_append, hem]
      cases b with
      | true => simp
      | false =>
        rw [toGo_next (n := n) k c y hy hkg, emits_of_reset hyr]
        simp
  cases hst with
  | act as hc l hl => exact other _ hc (by simp) false (by simp) (by simpa using hl) (by simp) (.inl rfl)
  | wait time cur cur' hc b r =>
    exact other _ hc (by simp) b (fun _ => rfl) (by cases b <;> rfl) rfl (.inr ⟨.wait time cur', rfl, rfl⟩)
  | ask w p hc b => exact other _ hc (by simp) b (fun _ => rfl) (by cases b <;> rfl) rfl (.inl rfl)
  | jump target times cur hc =>
    have hkg : k = pre.length + body.length := by
      obtain ⟨y, hy, hyr⟩ := like_at h.like hc
      by_contra hne
      have hm : y ∈ pre ++ body ++ post := by
        have hmem := List.mem_of_getElem? hy
        simp only [List.mem_append, List.mem_singleton] at hmem ⊢
        rcases hmem with ((hm | hm) | hm) | hm
        · exact .inl (.inl hm)
        · exact .inl (.inr hm)
        · exfalso
          rcases Nat.lt_or_gt_of_ne hne with h1 | h1
          · have hy' := hy
            rw [List.append_assoc, List.getElem?_append_left (by simpa using h1)] at hy'
            have := hs y (List.mem_append_left _ (List.mem_of_getElem? hy'))
            rw [hm] at this
            exact this
          · have hy' := hy
            rw [List.getElem?_append_right (by simp; omega)] at hy'
            have := hs y (List.mem_append_right _ (List.mem_of_getElem? hy'))
            rw [hm] at this
            exact this
        · exact .inr hm
      have := hs y hm
      rw [← simple_reset, hyr] at this
      exact this
    subst hkg
    have hc' := hc
    rw [h.left] at hc'
    simp only [Option.some.injEq, Cmd.go.injEq] at hc'
    obtain ⟨rfl, rfl, rfl⟩ := hc'
    refine ⟨pre.length, cur, ⟨?_, ?_, ?_, ?_, ?_, fun hf => nofin hf _ _⟩⟩
    · exact (like_set _ _ _ (.go pre.length n cur) hc rfl).trans h.like
    · simp only [List.length_set]; omega
    · simp only [List.length_set, indexAt]; rw [if_neg (by omega)]
    · simp [hk]
    · rw [← h.done, emitted_append]
      simp [toGo, emitted, List.replicate_succ]
  | pass target times hc =>
    have hkg : k = pre.length + body.length := by
      obtain ⟨y, hy, hyr⟩ := like_at h.like hc
      by_contra hne
      have hsy : y.Simple := by
        rcases Nat.lt_or_gt_of_ne hne with h1 | h1
        · rw [List.append_assoc, List.getElem?_append_left (by simpa using h1)] at hy
          exact hs y (List.mem_append_left _ (List.mem_of_getElem? hy))
        · rw [List.getElem?_append_right (by simp; omega)] at hy
          exact hs y (List.mem_append_right _ (List.mem_of_getElem? hy))
      rw [← simple_reset, hyr] at hsy
      exact hsy
    subst hkg
    have hc' := hc
    rw [h.left] at hc'
    simp only [Option.some.injEq, Cmd.go.injEq] at hc'
    obtain ⟨rfl, rfl, rfl⟩ := hc'
    refine ⟨pre.length + body.length + 1, 0, ⟨h.like, ?_, ?_, h.left, ?_, fun hf => nofin hf _ _⟩⟩
    · simp only; omega
    · rfl
    · rw [← h.done, emitted_append]
      simp [toGo, emitted]

theorem inLoop_stop {t : TL F} {log : List Event} {k c : Nat} (h : InLoop pre body post n t log k c)
    (hi : t.cIdx = -1) : InLoop pre body post n t.stop log k c := by
  refine ⟨h.like, h.le, h.idx, h.left, h.done, fun _ => ?_⟩
  by_contra hne
  have := h.idx
  have hne' : k ≠ t.cmds.length := hne
  have hle := h.le
  rw [hi, indexAt, if_neg hne'] at this
  omega

end

end Verif.Timeline
