import Verif.Delegate.Reenter

/-! # C160: delegates whose handlers use the delegate that is calling them -/

namespace Verif.Delegate.Reenter

variable {H Arg R W : Type}

/-- What a call has to look like, given what the specification says and the capacity of the vector. -/
def Match (cap : Nat) (m : Res (St H W) α) : Res (List H × W) α → Prop
  | .ok a s => m = if s.1.length ≤ cap then .ok a ⟨s.1, cap, s.2⟩ else .ub
  | .threw s => m = if s.1.length ≤ cap then .threw ⟨s.1, cap, s.2⟩ else .ub
  | .ub => m = .ub
  | .diverge => m = .ub ∨ m = .diverge

/-- The functions that were there are still there. -/
def Grows (fs : List H) : Res (List H × W) α → Prop
  | .ok _ s => fs <+: s.1
  | .threw s => fs <+: s.1
  | _ => True

theorem Grows.mono {fs gs : List H} (h : fs <+: gs) {p : Res (List H × W) α} (hp : Grows gs p) : Grows fs p := by
  cases p with
  | ok a s => exact h.trans hp
  | threw s => exact h.trans hp
  | ub => trivial
  | diverge => trivial

theorem match_ub {cap : Nat} {fs : List H} {p : Res (List H × W) α} (hp : Grows fs p) (h : cap < fs.length) :
    Match cap (.ub : Res (St H W) α) p := by
  cases p with
  | ok a s =>
    have : fs.length ≤ s.1.length := List.IsPrefix.length_le hp
    exact (if_neg (by omega)).symm
  | threw s =>
    have : fs.length ≤ s.1.length := List.IsPrefix.length_le hp
    exact (if_neg (by omega)).symm
  | ub => rfl
  | diverge => exact .inl rfl

theorem runP_grows {nS : Arg → List H × W → Res (List H × W) (List R)}
    (hn : ∀ arg s, Grows s.1 (nS arg s)) (p : Prog H Arg R W) :
    ∀ s : List H × W, Grows s.1 (Spec.runP nS p s) := by
  induction p with
  | ret r => intro s; exact List.prefix_rfl
  | throw => intro s; exact List.prefix_rfl
  | get k ih => intro s; exact ih s.2 s
  | set w k ih => intro s; exact ih (s.1, w)
  | add h k ih => intro s; exact (ih (s.1 ++ [h], s.2)).mono (List.prefix_append _ _)
  | clear k ih => intro s; trivial
  | isEmpty k ih => intro s; exact ih _ s
  | call arg k ih =>
    intro s
    have h := hn arg s
    rw [Spec.runP]
    cases hc : nS arg s with
    | ok rs t => rw [hc] at h; exact (ih (some rs) t).mono h
    | threw t => rw [hc] at h; exact (ih none t).mono h
    | ub => trivial
    | diverge => trivial

theorem each_grows {nS : Arg → List H × W → Res (List H × W) (List R)} (body : H → Arg → Prog H Arg R W)
    (hn : ∀ arg s, Grows s.1 (nS arg s)) (arg : Arg) (hs : List H) :
    ∀ s : List H × W, Grows s.1 (Spec.each body nS arg hs s) := by
  induction hs with
  | nil => intro s; exact List.prefix_rfl
  | cons h hs ih =>
    intro s
    have h1 := runP_grows hn (body h arg) s
    rw [Spec.each]
    cases hc : Spec.runP nS (body h arg) s with
    | ok r t =>
      rw [hc] at h1
      have h2 := (ih t).mono h1
      simp only
      cases hd : Spec.each body nS arg hs t with
      | ok rs u => rw [hd] at h2; exact h2
      | threw u => rw [hd] at h2; exact h2
      | ub => trivial
      | diverge => trivial
    | threw t => rw [hc] at h1; exact h1
    | ub => trivial
    | diverge => trivial

theorem call_grows (body : H → Arg → Prog H Arg R W) (depth : Nat) : ∀ (arg : Arg) (s : List H × W),
    Grows s.1 (Spec.call body depth arg s) := by
  induction depth with
  | zero => intro arg s; trivial
  | succ depth ih => intro arg s; exact each_grows body ih arg s.1 s

theorem runP_match {cap : Nat} {nM : Arg → St H W → Res (St H W) (List R)}
    {nS : Arg → List H × W → Res (List H × W) (List R)} (hg : ∀ arg s, Grows s.1 (nS arg s))
    (hn : ∀ arg fs w, fs.length ≤ cap → Match cap (nM arg ⟨fs, cap, w⟩) (nS arg (fs, w)))
    (p : Prog H Arg R W) : ∀ (fs : List H) (w : W), fs.length ≤ cap →
      Match cap (runP nM p ⟨fs, cap, w⟩) (Spec.runP nS p (fs, w)) := by
  induction p with
  | ret r => intro fs w h; exact (if_pos h).symm
  | throw => intro fs w h; exact (if_pos h).symm
  | get k ih => intro fs w h; exact ih w fs w h
  | set v k ih => intro fs w h; exact ih fs v h
  | add g k ih =>
    intro fs w h
    rw [runP, Spec.runP]
    by_cases hc : fs.length < cap
    · rw [if_pos hc]
      exact ih (fs ++ [g]) w (by simp; omega)
    · rw [if_neg hc]
      exact match_ub (runP_grows hg k (fs ++ [g], w)) (by simp; omega)
  | clear k ih => intro fs w h; rfl
  | isEmpty k ih =>
    intro fs w h
    have : fs.isEmpty = decide (fs = []) := by cases fs <;> rfl
    rw [runP, Spec.runP]
    simp only [this]
    exact ih _ fs w h
  | call arg k ih =>
    intro fs w h
    have h1 := hn arg fs w h
    rw [runP, Spec.runP]
    cases hc : nS arg (fs, w) with
    | ok rs t =>
      rw [hc] at h1
      simp only [Match] at h1
      rw [h1]
      by_cases ht : t.1.length ≤ cap
      · rw [if_pos ht]; exact ih (some rs) t.1 t.2 ht
      · rw [if_neg ht]; exact match_ub (runP_grows hg (k (some rs)) t) (by omega)
    | threw t =>
      rw [hc] at h1
      simp only [Match] at h1
      rw [h1]
      by_cases ht : t.1.length ≤ cap
      · rw [if_pos ht]; exact ih none t.1 t.2 ht
      · rw [if_neg ht]; exact match_ub (runP_grows hg (k none) t) (by omega)
    | ub =>
      rw [hc] at h1
      simp only [Match] at h1
      rw [h1]
      exact rfl
    | diverge =>
      rw [hc] at h1
      rcases h1 with h1 | h1 <;> rw [h1]
      · exact .inl rfl
      · exact .inr rfl

theorem loop_match {cap : Nat} {nM : Arg → St H W → Res (St H W) (List R)}
    {nS : Arg → List H × W → Res (List H × W) (List R)} (hg : ∀ arg s, Grows s.1 (nS arg s))
    (hn : ∀ arg fs w, fs.length ≤ cap → Match cap (nM arg ⟨fs, cap, w⟩) (nS arg (fs, w)))
    (body : H → Arg → Prog H Arg R W) (arg : Arg) (n : Nat) : ∀ (i : Nat) (hs fs : List H) (w : W),
      hs.length = n → hs <+: fs.drop i → fs.length ≤ cap →
      Match cap (loop body nM arg n i ⟨fs, cap, w⟩) (Spec.each body nS arg hs (fs, w)) := by
  induction n with
  | zero =>
    intro i hs fs w hl _ h
    obtain rfl : hs = [] := List.length_eq_zero_iff.1 hl
    exact (if_pos h).symm
  | succ n ih =>
    intro i hs fs w hl hp h
    obtain _ | ⟨g, hs⟩ := hs
    · cases hl
    obtain ⟨tail, ht⟩ := hp
    have hg0 : fs[i]? = some g := by
      have : (fs.drop i)[0]? = some g := by rw [← ht]; rfl
      rw [List.getElem?_drop] at this
      exact this
    have h1 := runP_match hg hn (body g arg) fs w h
    have h2 := runP_grows hg (body g arg) (fs, w)
    rw [loop, Spec.each]
    simp only [hg0]
    cases hc : Spec.runP nS (body g arg) (fs, w) with
    | ok r t =>
      rw [hc] at h1 h2
      simp only [Match] at h1
      rw [h1]
      simp only
      have hgr := each_grows body hg arg hs t
      by_cases hcap : t.1.length ≤ cap
      · rw [if_pos hcap]
        simp only
        have hpre : hs <+: t.1.drop (i + 1) := by
          obtain ⟨more, hm⟩ := h2
          have hi : i < fs.length := by
            rcases Nat.lt_or_ge i fs.length with h | h
            · exact h
            · rw [List.getElem?_eq_none h] at hg0; cases hg0
          have e : fs.drop (i + 1) = hs ++ tail := by
            have := congrArg (List.drop 1) ht
            rw [List.drop_drop] at this
            exact this.symm
          have hm' : fs ++ more = t.1 := hm
          rw [← hm', List.drop_append_of_le_length (by omega), e, List.append_assoc]
          exact List.prefix_append _ _
        have h3 := ih (i + 1) hs t.1 t.2 (by simpa using hl) hpre hcap
        cases hd : Spec.each body nS arg hs t with
        | ok rs u =>
          rw [hd] at h3
          simp only [Match] at h3
          rw [h3]
          by_cases hu : u.1.length ≤ cap
          · simp only [if_pos hu, Match]
          · simp only [if_neg hu, Match]
        | threw u =>
          rw [hd] at h3
          simp only [Match] at h3
          rw [h3]
          by_cases hu : u.1.length ≤ cap
          · simp only [if_pos hu, Match]
          · simp only [if_neg hu, Match]
        | ub => rw [hd] at h3; simp only [Match] at h3; rw [h3]; exact rfl
        | diverge =>
          rw [hd] at h3
          rcases h3 with h3 | h3 <;> rw [h3]
          · exact .inl rfl
          · exact .inr rfl
      · rw [if_neg hcap]
        simp only
        cases hd : Spec.each body nS arg hs t with
        | ok rs u => rw [hd] at hgr; exact match_ub (p := Res.ok (r :: rs) u) hgr (by omega)
        | threw u => rw [hd] at hgr; exact match_ub (p := Res.threw u) hgr (by omega)
        | ub => exact rfl
        | diverge => exact .inl rfl
    | threw t =>
      rw [hc] at h1
      simp only [Match] at h1
      rw [h1]
      by_cases hu : t.1.length ≤ cap
      · simp only [if_pos hu, Match]
      · simp only [if_neg hu, Match]
    | ub => rw [hc] at h1; simp only [Match] at h1; rw [h1]; exact rfl
    | diverge =>
      rw [hc] at h1
      rcases h1 with h1 | h1 <;> rw [h1]
      · exact .inl rfl
      · exact .inr rfl

theorem call_match (cap : Nat) (body : H → Arg → Prog H Arg R W) (depth : Nat) : ∀ (arg : Arg) (fs : List H)
    (w : W), fs.length ≤ cap → Match cap (call body depth arg ⟨fs, cap, w⟩) (Spec.call body depth arg (fs, w)) := by
  induction depth with
  | zero => intro arg fs w h; exact .inr rfl
  | succ depth ih =>
    intro arg fs w h
    exact loop_match (call_grows body depth) ih body arg fs.length 0 fs fs w rfl
      (by rw [List.drop_zero]; exact List.prefix_rfl) h

/-! ## The property theorems -/

/-- **C160**: a call behaves as the specification says — it runs the functions that were there when it began,
once each, in their order, nested calls included, until one throws — exactly as long as no handler clears the
delegate and the functions added meanwhile fit into the capacity of the vector. Otherwise it is undefined. -/
theorem C160_exact (body : H → Arg → Prog H Arg R W) (depth : Nat) (arg : Arg) (s : St H W)
    (h : s.funcs.length ≤ s.cap) :
    (∀ rs fs w, Spec.call body depth arg (s.funcs, s.w) = .ok rs (fs, w) →
      call body depth arg s = if fs.length ≤ s.cap then .ok rs ⟨fs, s.cap, w⟩ else .ub) ∧
    (∀ fs w, Spec.call body depth arg (s.funcs, s.w) = .threw (fs, w) →
      call body depth arg s = if fs.length ≤ s.cap then .threw ⟨fs, s.cap, w⟩ else .ub) ∧
    (Spec.call body depth arg (s.funcs, s.w) = .ub → call body depth arg s = .ub) ∧
    (Spec.call body depth arg (s.funcs, s.w) = .diverge →
      call body depth arg s = .ub ∨ call body depth arg s = .diverge) := by
  have hm := call_match s.cap body depth arg s.funcs s.w h
  refine ⟨fun rs fs w e => ?_, fun fs w e => ?_, fun e => ?_, fun e => ?_⟩ <;> rw [e] at hm <;> exact hm

/-- The functions that were there before a call are there afterwards, in front of the new ones, whether it
returns or throws. -/
theorem C160_keeps (body : H → Arg → Prog H Arg R W) (depth : Nat) (arg : Arg) (s t : St H W)
    (h : s.funcs.length ≤ s.cap)
    (hr : (∃ rs, call body depth arg s = .ok rs t) ∨ call body depth arg s = .threw t) :
    s.funcs <+: t.funcs ∧ t.funcs.length ≤ t.cap ∧ t.cap = s.cap := by
  obtain ⟨h1, h2, h3, h4⟩ := C160_exact body depth arg s h
  have hg := call_grows body depth arg (s.funcs, s.w)
  cases hc : Spec.call body depth arg (s.funcs, s.w) with
  | ok rs p =>
    have e := h1 rs p.1 p.2 hc
    rw [hc] at hg
    by_cases hl : p.1.length ≤ s.cap
    · rw [if_pos hl] at e
      rcases hr with ⟨rs', hr⟩ | hr <;> rw [e] at hr <;> cases hr
      exact ⟨hg, hl, rfl⟩
    · rw [if_neg hl] at e
      rcases hr with ⟨rs', hr⟩ | hr <;> rw [e] at hr <;> cases hr
  | threw p =>
    have e := h2 p.1 p.2 hc
    rw [hc] at hg
    by_cases hl : p.1.length ≤ s.cap
    · rw [if_pos hl] at e
      rcases hr with ⟨rs', hr⟩ | hr <;> rw [e] at hr <;> cases hr
      exact ⟨hg, hl, rfl⟩
    · rw [if_neg hl] at e
      rcases hr with ⟨rs', hr⟩ | hr <;> rw [e] at hr <;> cases hr
  | ub => rcases hr with ⟨rs', hr⟩ | hr <;> rw [h3 hc] at hr <;> cases hr
  | diverge =>
    rcases h4 hc with e | e <;> rcases hr with ⟨rs', hr⟩ | hr <;> rw [e] at hr <;> cases hr

/-- The states a delegate can be in: what `+=`, `clear` and calls make of a new delegate. -/
inductive Reachable (grow : Nat → Nat) (body : H → Arg → Prog H Arg R W) : St H W → Prop
  | new (w : W) : Reachable grow body ⟨[], 0, w⟩
  | add (h : H) {s} : Reachable grow body s → Reachable grow body (add grow h s)
  | clear {s} : Reachable grow body s → Reachable grow body (clear s)
  | call (depth : Nat) (arg : Arg) {s t} {rs : List R} : Reachable grow body s →
      call body depth arg s = .ok rs t → Reachable grow body t
  | caught (depth : Nat) (arg : Arg) {s t} : Reachable grow body s →
      call body depth arg s = .threw t → Reachable grow body t
  | rest (w : W) {s} : Reachable grow body s → Reachable grow body { s with w := w }

/-- Every reachable state meets the hypothesis of the other theorems, if the vector grows when it has to. -/
theorem C160_reachable {grow : Nat → Nat} (hgrow : ∀ n, n < grow n) {body : H → Arg → Prog H Arg R W}
    {s : St H W} (h : Reachable grow body s) : s.funcs.length ≤ s.cap := by
  induction h with
  | new w => exact Nat.le_refl 0
  | @add h s _ ih =>
    simp only [add, List.length_append, List.length_cons, List.length_nil]
    have := hgrow s.cap
    split <;> omega
  | clear _ _ => exact Nat.zero_le _
  | call depth arg _ hc ih => exact (C160_keeps body depth arg _ _ ih (.inl ⟨_, hc⟩)).2.1
  | caught depth arg _ hc ih => exact (C160_keeps body depth arg _ _ ih (.inr hc)).2.1
  | rest w _ ih => exact ih

theorem runP_noClear {nS : Arg → List H × W → Res (List H × W) (List R)} (hn : ∀ arg s, nS arg s ≠ .ub)
    {p : Prog H Arg R W} (hp : Spec.NoClear p) : ∀ s, Spec.runP nS p s ≠ .ub := by
  induction hp with
  | ret r => intro s; exact nofun
  | throw => intro s; exact nofun
  | get k _ ih => intro s; exact ih s.2 s
  | set w k _ ih => intro s; exact ih _
  | add h k _ ih => intro s; exact ih _
  | isEmpty k _ ih => intro s; exact ih _ s
  | call arg k _ ih =>
    intro s
    rw [Spec.runP]
    cases hc : nS arg s with
    | ok rs t => exact ih _ t
    | threw t => exact ih _ t
    | ub => exact absurd hc (hn arg s)
    | diverge => exact nofun

theorem each_noClear {nS : Arg → List H × W → Res (List H × W) (List R)} (hn : ∀ arg s, nS arg s ≠ .ub)
    {body : H → Arg → Prog H Arg R W} (hb : ∀ h arg, Spec.NoClear (body h arg)) (arg : Arg) (hs : List H) :
    ∀ s, Spec.each body nS arg hs s ≠ .ub := by
  induction hs with
  | nil => intro s; exact nofun
  | cons h hs ih =>
    intro s
    rw [Spec.each]
    cases hc : Spec.runP nS (body h arg) s with
    | ok r t =>
      simp only
      cases hd : Spec.each body nS arg hs t with
      | ub => exact absurd hd (ih t)
      | _ => exact nofun
    | threw t => exact nofun
    | ub => exact absurd hc (runP_noClear hn (hb h arg) s)
    | diverge => exact nofun

theorem call_noClear {body : H → Arg → Prog H Arg R W} (hb : ∀ h arg, Spec.NoClear (body h arg)) (depth : Nat) :
    ∀ arg s, Spec.call body depth arg s ≠ .ub := by
  induction depth with
  | zero => intro arg s; exact nofun
  | succ depth ih => intro arg s; exact each_noClear ih hb arg s.1 s

/-- **C160**: with handlers that never clear the delegate, a call that comes to an end is undefined exactly
when the functions no longer fit into the vector. -/
theorem C160_undefined_iff {body : H → Arg → Prog H Arg R W} (hb : ∀ h arg, Spec.NoClear (body h arg))
    (depth : Nat) (arg : Arg) (s : St H W) (h : s.funcs.length ≤ s.cap)
    (hd : Spec.call body depth arg (s.funcs, s.w) ≠ .diverge) :
    call body depth arg s = .ub ↔ ∃ fs w, s.cap < fs.length ∧
      ((∃ rs, Spec.call body depth arg (s.funcs, s.w) = .ok rs (fs, w)) ∨
        Spec.call body depth arg (s.funcs, s.w) = .threw (fs, w)) := by
  obtain ⟨h1, h2, -, -⟩ := C160_exact body depth arg s h
  cases hc : Spec.call body depth arg (s.funcs, s.w) with
  | ok rs p =>
    rw [h1 rs p.1 p.2 hc]
    by_cases hl : p.1.length ≤ s.cap
    · rw [if_pos hl]
      constructor
      · exact nofun
      · rintro ⟨fs, w, h3, ⟨_, h4⟩ | h4⟩ <;> cases h4
        exact absurd hl (Nat.not_le.2 h3)
    · rw [if_neg hl]
      exact ⟨fun _ => ⟨p.1, p.2, by omega, .inl ⟨rs, rfl⟩⟩, fun _ => rfl⟩
  | threw p =>
    rw [h2 p.1 p.2 hc]
    by_cases hl : p.1.length ≤ s.cap
    · rw [if_pos hl]
      constructor
      · exact nofun
      · rintro ⟨fs, w, h3, ⟨_, h4⟩ | h4⟩ <;> cases h4
        exact absurd hl (Nat.not_le.2 h3)
    · rw [if_neg hl]
      exact ⟨fun _ => ⟨p.1, p.2, by omega, .inr rfl⟩, fun _ => rfl⟩
  | ub => exact absurd hc (call_noClear hb depth arg _)
  | diverge => exact absurd hc hd

/-- The functions are the same afterwards. -/
def Same (fs : List H) : Res (List H × W) α → Prop
  | .ok _ s => s.1 = fs
  | .threw s => s.1 = fs
  | .ub => False
  | .diverge => True

theorem runP_same {nS : Arg → List H × W → Res (List H × W) (List R)} (hn : ∀ arg s, Same s.1 (nS arg s))
    {p : Prog H Arg R W} (hp : Spec.Quiet p) : ∀ s, Same s.1 (Spec.runP nS p s) := by
  induction hp with
  | ret r => intro s; rfl
  | throw => intro s; rfl
  | get k _ ih => intro s; exact ih s.2 s
  | set w k _ ih => intro s; exact ih (s.1, w)
  | isEmpty k _ ih => intro s; exact ih _ s
  | call arg k _ ih =>
    intro s
    have h := hn arg s
    rw [Spec.runP]
    cases hc : nS arg s with
    | ok rs t => rw [hc] at h; have h : t.1 = s.1 := h; rw [← h]; exact ih _ t
    | threw t => rw [hc] at h; have h : t.1 = s.1 := h; rw [← h]; exact ih _ t
    | ub => rw [hc] at h; exact h.elim
    | diverge => trivial

theorem each_same {nS : Arg → List H × W → Res (List H × W) (List R)} (hn : ∀ arg s, Same s.1 (nS arg s))
    {body : H → Arg → Prog H Arg R W} (hb : ∀ h arg, Spec.Quiet (body h arg)) (arg : Arg) (hs : List H) :
    ∀ s, Same s.1 (Spec.each body nS arg hs s) := by
  induction hs with
  | nil => intro s; rfl
  | cons h hs ih =>
    intro s
    have h1 := runP_same hn (hb h arg) s
    rw [Spec.each]
    cases hc : Spec.runP nS (body h arg) s with
    | ok r t =>
      rw [hc] at h1
      have h1 : t.1 = s.1 := h1
      have h2 := ih t
      rw [h1] at h2
      simp only
      cases hd : Spec.each body nS arg hs t with
      | ok rs u => rw [hd] at h2; exact h2
      | threw u => rw [hd] at h2; exact h2
      | ub => rw [hd] at h2; exact h2
      | diverge => trivial
    | threw t => rw [hc] at h1; exact h1
    | ub => rw [hc] at h1; exact h1
    | diverge => trivial

theorem call_same {body : H → Arg → Prog H Arg R W} (hb : ∀ h arg, Spec.Quiet (body h arg)) (depth : Nat) :
    ∀ arg s, Same s.1 (Spec.call body depth arg s) := by
  induction depth with
  | zero => intro arg s; trivial
  | succ depth ih => intro arg s; exact each_same ih hb arg s.1 s

/-- **C160**: handlers that only call the delegate again, to any depth, and throw and catch exceptions, are
always defined and leave the delegate as it was. -/
theorem C160_reentrant {body : H → Arg → Prog H Arg R W} (hb : ∀ h arg, Spec.Quiet (body h arg)) (depth : Nat)
    (arg : Arg) (s : St H W) (h : s.funcs.length ≤ s.cap) :
    (∃ rs w, Spec.call body depth arg (s.funcs, s.w) = .ok rs (s.funcs, w) ∧
      call body depth arg s = .ok rs { s with w := w }) ∨
    (∃ w, Spec.call body depth arg (s.funcs, s.w) = .threw (s.funcs, w) ∧
      call body depth arg s = .threw { s with w := w }) ∨
    Spec.call body depth arg (s.funcs, s.w) = .diverge := by
  have hs := call_same hb depth arg (s.funcs, s.w)
  obtain ⟨h1, h2, -, -⟩ := C160_exact body depth arg s h
  cases hc : Spec.call body depth arg (s.funcs, s.w) with
  | ok rs p =>
    obtain ⟨fs, w⟩ := p
    rw [hc] at hs
    obtain rfl : fs = s.funcs := hs
    exact .inl ⟨rs, w, rfl, (h1 rs _ w hc).trans (if_pos h)⟩
  | threw p =>
    obtain ⟨fs, w⟩ := p
    rw [hc] at hs
    obtain rfl : fs = s.funcs := hs
    exact .inr (.inl ⟨w, rfl, (h2 _ w hc).trans (if_pos h)⟩)
  | ub => rw [hc] at hs; exact hs.elim
  | diverge => exact .inr (.inr rfl)

theorem each_append (body : H → Arg → Prog H Arg R W) (nS : Arg → List H × W → Res (List H × W) (List R))
    (arg : Arg) (pre post : List H) (rs : List R) : ∀ (s t : List H × W),
    Spec.each body nS arg pre s = .ok rs t →
    Spec.each body nS arg (pre ++ post) s = match Spec.each body nS arg post t with
      | .ok rs' u => .ok (rs ++ rs') u
      | o => o := by
  induction pre generalizing rs with
  | nil =>
    intro s t h
    cases h
    rw [List.nil_append]
    cases Spec.each body nS arg post s <;> rfl
  | cons g pre ih =>
    intro s t h
    rw [List.cons_append, Spec.each]
    rw [Spec.each] at h
    cases hc : Spec.runP nS (body g arg) s with
    | ok r u =>
      rw [hc] at h
      simp only at h ⊢
      cases hd : Spec.each body nS arg pre u with
      | ok rs1 v =>
        rw [hd] at h
        cases h
        rw [ih rs1 u t hd]
        cases Spec.each body nS arg post t <;> rfl
      | threw v => rw [hd] at h; cases h
      | ub => rw [hd] at h; cases h
      | diverge => rw [hd] at h; cases h
    | threw u => rw [hc] at h; cases h
    | ub => rw [hc] at h; cases h
    | diverge => rw [hc] at h; cases h

/-- **C160**: an exception of a handler leaves the call at once: the handlers before it have run, those after
it are not called, and what was added so far stays. -/
theorem C160_exception (body : H → Arg → Prog H Arg R W) (depth : Nat) (arg : Arg) (s : St H W)
    (h : s.funcs.length ≤ s.cap) {pre post : List H} {g : H} (hf : s.funcs = pre ++ g :: post) {rs : List R}
    {t u : List H × W} (h1 : Spec.each body (Spec.call body depth) arg pre (s.funcs, s.w) = .ok rs t)
    (h2 : Spec.runP (Spec.call body depth) (body g arg) t = .threw u) (hu : u.1.length ≤ s.cap) :
    call body (depth + 1) arg s = .threw ⟨u.1, s.cap, u.2⟩ := by
  have hc : Spec.call body (depth + 1) arg (s.funcs, s.w) = .threw u := by
    rw [Spec.call, show (s.funcs, s.w).1 = pre ++ g :: post from hf, each_append body _ arg pre _ rs _ t h1,
      Spec.each, h2]
  rw [(C160_exact body (depth + 1) arg s h).2.1 u.1 u.2 hc, if_pos hu]

/-- **C160**: a handler that clears the delegate that is calling it is undefined. -/
theorem C160_clear (body : H → Arg → Prog H Arg R W) (depth : Nat) (arg : Arg) (s : St H W)
    (h : s.funcs.length ≤ s.cap) {pre post : List H} {g : H} (hf : s.funcs = pre ++ g :: post) {rs : List R}
    {t : List H × W} (h1 : Spec.each body (Spec.call body depth) arg pre (s.funcs, s.w) = .ok rs t)
    {k : Prog H Arg R W} (h2 : body g arg = .clear k) : call body (depth + 1) arg s = .ub := by
  refine (C160_exact body (depth + 1) arg s h).2.2.1 ?_
  rw [Spec.call, show (s.funcs, s.w).1 = pre ++ g :: post from hf, each_append body _ arg pre _ rs _ t h1,
    Spec.each, h2]
  rfl

/-! ## Where the capacity comes from -/

/-- Adding functions one after the other to a new delegate whose vector doubles. -/
def build (gs : List H) (w : W) : St H W :=
  gs.foldl (fun s g => add (fun c => if c = 0 then 1 else 2 * c) g s) ⟨[], 0, w⟩

theorem build_spec (w : W) (gs : List H) : (build gs w).funcs = gs ∧ (build gs w).w = w ∧
    (gs = [] ∧ (build gs w).cap = 0 ∨
      ∃ k, (build gs w).cap = 2 ^ k ∧ gs.length ≤ 2 ^ k ∧ 2 ^ k < 2 * gs.length) := by
  have key : ∀ (gs : List H) (s : St H W), (s.funcs = [] ∧ s.cap = 0 ∨
      ∃ k, s.cap = 2 ^ k ∧ s.funcs.length ≤ 2 ^ k ∧ 2 ^ k < 2 * s.funcs.length) →
      let t := gs.foldl (fun s g => add (fun c => if c = 0 then 1 else 2 * c) g s) s
      t.funcs = s.funcs ++ gs ∧ t.w = s.w ∧ (t.funcs = [] ∧ t.cap = 0 ∨
        ∃ k, t.cap = 2 ^ k ∧ t.funcs.length ≤ 2 ^ k ∧ 2 ^ k < 2 * t.funcs.length) := by
    intro gs
    induction gs with
    | nil => intro s h; exact ⟨by simp, rfl, h⟩
    | cons g gs ih =>
      intro s h
      have step : ∃ k, (add (fun c => if c = 0 then 1 else 2 * c) g s).cap = 2 ^ k ∧
          (add (fun c => if c = 0 then 1 else 2 * c) g s).funcs.length ≤ 2 ^ k ∧
          2 ^ k < 2 * (add (fun c => if c = 0 then 1 else 2 * c) g s).funcs.length := by
        simp only [add, List.length_append, List.length_cons, List.length_nil]
        rcases h with ⟨h1, h2⟩ | ⟨k, h1, h2, h3⟩
        · rw [h1, h2]; exact ⟨0, by simp, by simp, by simp⟩
        · by_cases hc : s.funcs.length < s.cap
          · rw [if_pos hc]; exact ⟨k, h1, by omega, by omega⟩
          · have : 0 < 2 ^ k := Nat.two_pow_pos k
            rw [if_neg hc, if_neg (by omega)]
            exact ⟨k + 1, by rw [Nat.pow_succ]; omega, by rw [Nat.pow_succ]; omega, by rw [Nat.pow_succ]; omega⟩
      obtain ⟨h1, h2, h3⟩ := ih _ (.inr step)
      exact ⟨by rw [List.foldl_cons, h1]; simp [add], h2, h3⟩
  obtain ⟨h1, h2, h3⟩ := key gs ⟨[], 0, w⟩ (.inl ⟨rfl, rfl⟩)
  have h1 : (build gs w).funcs = gs := h1
  refine ⟨h1, h2, ?_⟩
  have h3 : (build gs w).funcs = [] ∧ (build gs w).cap = 0 ∨ ∃ k, (build gs w).cap = 2 ^ k ∧
    (build gs w).funcs.length ≤ 2 ^ k ∧ 2 ^ k < 2 * (build gs w).funcs.length := h3
  rwa [h1] at h3

/-- **C160**: with a vector that doubles, a call on a new delegate with `n` functions is defined as long as
the functions are no more than the next power of two; so with exactly `2 ^ k` functions a handler that
adds one is always undefined. -/
theorem C160_doubling (body : H → Arg → Prog H Arg R W) (depth : Nat) (arg : Arg) (gs : List H) (w : W) (k : Nat)
    (hk : gs.length ≤ 2 ^ k) (hk' : 2 ^ k < 2 * gs.length) {rs : List R} {fs : List H} {v : W}
    (h : Spec.call body depth arg (gs, w) = .ok rs (fs, v)) :
    (fs.length ≤ 2 ^ k → call body depth arg (build gs w) = .ok rs ⟨fs, 2 ^ k, v⟩) ∧
    (2 ^ k < fs.length → call body depth arg (build gs w) = .ub) := by
  obtain ⟨h1, h2, h3⟩ := build_spec w gs
  have hcap : (build gs w).cap = 2 ^ k := by
    rcases h3 with ⟨rfl, -⟩ | ⟨j, h4, h5, h6⟩
    · exact absurd hk' (by simp)
    · rw [h4]
      rcases Nat.lt_trichotomy j k with h | h | h
      · have : 2 ^ (j + 1) ≤ 2 ^ k := Nat.pow_le_pow_right (by omega) h
        rw [Nat.pow_succ] at this; omega
      · rw [h]
      · have : 2 ^ (k + 1) ≤ 2 ^ j := Nat.pow_le_pow_right (by omega) h
        rw [Nat.pow_succ] at this; omega
  have key := (C160_exact body depth arg (build gs w) (by rw [h1, hcap]; exact hk)).1 rs fs v (by rw [h1, h2]; exact h)
  rw [hcap] at key
  exact ⟨fun hl => by rw [key, if_pos hl], fun hl => by rw [key, if_neg (by omega)]⟩

/-! ## Cases -/

/-- Handler 0 adds handler 1; handler 1 returns its argument; handler 2 calls the delegate again with the
argument reduced, until it is 0, and returns the number of results; handler 3 throws. -/
def demo : Nat → Nat → Prog Nat Nat Nat Nat
  | 0, _ => .add 1 (.ret 0)
  | 1, a => .ret a
  | 2, 0 => .ret 0
  | 2, a + 1 => .call a fun o => .ret (match o with | some l => l.length | none => 77)
  | _, _ => .throw

/-- Three functions, one more fits: the new one is not run by this call. -/
example : call demo 5 9 (build [0, 1, 1] 0) = .ok [0, 9, 9] ⟨[0, 1, 1, 1], 4, 0⟩ := by decide

/-- Two functions, no more fit. -/
example : call demo 5 9 (build [0, 1] 0) = .ub := by decide

/-- Calls within calls. -/
example : call demo 5 2 (build [2, 1] 0) = .ok [2, 2] ⟨[2, 1], 2, 0⟩ := by decide

/-- An exception. -/
example : call demo 5 2 (build [1, 3, 1] 0) = .threw ⟨[1, 3, 1], 4, 0⟩ := by decide

end Verif.Delegate.Reenter
