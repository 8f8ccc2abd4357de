import Verif.CmdLine.LemmasScan

/-! # Setting values -/

namespace Verif.CmdLine

open Verif Spec

theorem Zip3.imp {α β γ : Type} {R S : α → β → γ → Prop} (h : ∀ a b c, R a b c → S a b c) {as : List α} {bs : List β} {cs : List γ}
    (t : Zip3 R as bs cs) : Zip3 S as bs cs := by
  induction t with
  | nil => exact .nil
  | cons h' _ ih => exact .cons (h _ _ _ h') ih

theorem Zip3.length {α β γ : Type} {R : α → β → γ → Prop} {as : List α} {bs : List β} {cs : List γ}
    (t : Zip3 R as bs cs) : bs.length = as.length ∧ cs.length = as.length := by
  induction t with
  | nil => exact ⟨rfl, rfl⟩
  | cons _ _ ih => simp [ih]

theorem Zip3.map {α β γ δ : Type} {R : α → δ → γ → Prop} {f : β → δ} {as : List α} {cs : List γ} : ∀ {bs : List β},
    Zip3 R as (bs.map f) cs ↔ Zip3 (fun a b c => R a (f b) c) as bs cs := by
  induction as generalizing cs with
  | nil =>
    intro bs
    constructor
    · intro h
      cases bs with
      | nil => cases h; exact .nil
      | cons b bs => cases h
    · intro h; cases h; exact .nil
  | cons a as ih =>
    intro bs
    constructor
    · intro h
      cases bs with
      | nil => cases h
      | cons b bs => cases h with | cons h t => exact .cons h (ih.1 t)
    · intro h; cases h with | cons h t => exact .cons h (ih.2 t)

/-! ## Required arguments -/

theorem setArgs_iff (as : List Arg) : ∀ (ws : List Str) (as' : List Arg), ws.length = as.length →
    (setArgs as ws = (as', none) ↔ Zip3 ArgGot as ws as') := by
  induction as with
  | nil =>
    intro ws as' h
    have : ws = [] := List.length_eq_zero_iff.1 h
    subst this
    constructor
    · rintro ⟨⟩; exact .nil
    · intro h; cases h; rfl
  | cons a as ih =>
    intro ws as' h
    cases ws with
    | nil => simp at h
    | cons w ws =>
      have hl : ws.length = as.length := by simpa using h
      rw [setArgs]
      constructor
      · intro e
        cases hp : parse a.kind w with
        | error s => rw [hp] at e; cases e
        | ok v =>
          rw [hp] at e
          simp only at e
          cases hs : setArgs as ws with
          | mk as'' o =>
            rw [hs] at e
            simp only [Prod.mk.injEq] at e
            obtain ⟨rfl, rfl⟩ := e
            exact .cons ⟨v, (parse_iff _ _ _).1 hp, rfl⟩ ((ih ws as'' hl).1 hs)
      · intro z
        cases z with
        | cons hg t =>
          obtain ⟨v, hr, rfl⟩ := hg
          rw [(parse_iff _ _ _).2 hr]
          simp only
          rw [(ih ws _ hl).2 t]

theorem setArgs_same (as : List Arg) : ∀ ws, (setArgs as ws).1.map (·.kind) = as.map (·.kind) := by
  induction as with
  | nil => intro ws; cases ws <;> rfl
  | cons a as ih =>
    intro ws
    cases ws with
    | nil => rfl
    | cons w ws =>
      rw [setArgs]
      cases parse a.kind w with
      | error s => rfl
      | ok v => simp only [List.map_cons, ih]

theorem setArgs_again (as : List Arg) : ∀ (ws : List Str) (as' : List Arg), setArgs as ws = (as', none) → setArgs as' ws = (as', none) := by
  induction as with
  | nil => intro ws as' h; cases ws <;> cases h; rfl
  | cons a as ih =>
    intro ws as' h
    cases ws with
    | nil => cases h; rfl
    | cons w ws =>
      rw [setArgs] at h
      cases hp : parse a.kind w with
      | error s => rw [hp] at h; cases h
      | ok v =>
        rw [hp] at h
        simp only at h
        cases hs : setArgs as ws with
        | mk as'' o =>
          rw [hs] at h
          simp only [Prod.mk.injEq] at h
          obtain ⟨rfl, rfl⟩ := h
          rw [setArgs]
          simp only [hp]
          rw [ih ws as'' hs]

theorem setArgs_decl (as bs : List Arg) (ws : List Str) (as' bs' : List Arg) (hk : bs.map (·.kind) = as.map (·.kind)) (hl : ws.length = as.length)
    (ha : setArgs as ws = (as', none)) (hb : setArgs bs ws = (bs', none)) : as' = bs' := by
  induction as generalizing bs ws as' bs' with
  | nil =>
    have : bs = [] := by simpa using hk
    subst this
    rw [ha] at hb; cases hb; rfl
  | cons a as ih =>
    cases bs with
    | nil => simp at hk
    | cons b bs =>
      simp only [List.map_cons, List.cons.injEq] at hk
      cases ws with
      | nil => simp at hl
      | cons w ws =>
        cases ((setArgs_iff (a :: as) (w :: ws) as' hl).1 ha) with
        | cons g1 t1 =>
          have hl' : (w :: ws).length = (b :: bs).length := by
            have := congrArg List.length hk.2
            simp at this hl ⊢; omega
          cases ((setArgs_iff (b :: bs) (w :: ws) bs' hl').1 hb) with
          | cons g2 t2 =>
            have hl1 : ws.length = as.length := by simpa using hl
            have hl2 : ws.length = bs.length := by simpa using hl'
            have e := ih bs ws _ _ hk.2 hl1 ((setArgs_iff _ _ _ hl1).2 t1) ((setArgs_iff _ _ _ hl2).2 t2)
            rw [e]
            obtain ⟨v, h1, rfl⟩ := g1
            obtain ⟨u, h2, rfl⟩ := g2
            have e1 := (parse_iff _ _ _).2 h1
            have e2 := (parse_iff _ _ _).2 h2
            rw [hk.1, e1] at e2
            cases e2
            rw [hk.1]

/-! ## Optional arguments -/

theorem setArgsOpt_iff (as : List ArgOpt) : ∀ (ws : List Str) (as' : List ArgOpt), ws.length ≤ as.length →
    (setArgsOpt as ws = (as', none) ↔ ∃ o1 o2 o1', as = o1 ++ o2 ∧ Zip3 ArgOptGot o1 ws o1' ∧ as' = o1' ++ o2) := by
  induction as with
  | nil =>
    intro ws as' h
    have : ws = [] := List.length_eq_zero_iff.1 (by simpa using h)
    subst this
    constructor
    · rintro ⟨⟩; exact ⟨[], [], [], rfl, .nil, rfl⟩
    · rintro ⟨o1, o2, o1', e, z, rfl⟩
      obtain ⟨rfl, rfl⟩ := List.append_eq_nil_iff.1 e.symm
      cases z; rfl
  | cons a as ih =>
    intro ws as' h
    cases ws with
    | nil =>
      constructor
      · rintro ⟨⟩; exact ⟨[], a :: as, [], rfl, .nil, rfl⟩
      · rintro ⟨o1, o2, o1', e, z, rfl⟩
        cases z
        rw [List.nil_append] at e
        subst e
        rfl
    | cons w ws =>
      have hl : ws.length ≤ as.length := by simpa using h
      rw [setArgsOpt]
      constructor
      · intro e
        cases hp : parse a.kind w with
        | error s => rw [hp] at e; cases e
        | ok v =>
          rw [hp] at e
          simp only at e
          cases hs : setArgsOpt as ws with
          | mk as'' o =>
            rw [hs] at e
            simp only [Prod.mk.injEq] at e
            obtain ⟨rfl, rfl⟩ := e
            obtain ⟨o1, o2, o1', rfl, z, rfl⟩ := (ih ws as'' hl).1 hs
            exact ⟨a :: o1, o2, _ :: o1', rfl, .cons ⟨v, (parse_iff _ _ _).1 hp, rfl⟩ z, rfl⟩
      · rintro ⟨o1, o2, o1', e, z, rfl⟩
        cases z with
        | cons hg t =>
          simp only [List.cons_append, List.cons.injEq] at e
          obtain ⟨rfl, rfl⟩ := e
          obtain ⟨v, hr, rfl⟩ := hg
          rw [(parse_iff _ _ _).2 hr]
          simp only
          rw [(ih ws _ hl).2 ⟨_, _, _, rfl, t, rfl⟩]
          rfl

theorem setArgsOpt_same (as : List ArgOpt) : ∀ ws,
    (setArgsOpt as ws).1.map (fun a => (a.kind, a.dflt)) = as.map (fun a => (a.kind, a.dflt)) := by
  induction as with
  | nil => intro ws; cases ws <;> rfl
  | cons a as ih =>
    intro ws
    cases ws with
    | nil => rfl
    | cons w ws =>
      rw [setArgsOpt]
      cases parse a.kind w with
      | error s => rfl
      | ok v => simp only [List.map_cons, ih]

theorem setArgsOpt_again (as : List ArgOpt) : ∀ (ws : List Str) (as' : List ArgOpt), setArgsOpt as ws = (as', none) →
    setArgsOpt as' ws = (as', none) := by
  induction as with
  | nil => intro ws as' h; cases ws <;> cases h; rfl
  | cons a as ih =>
    intro ws as' h
    cases ws with
    | nil => cases h; rfl
    | cons w ws =>
      rw [setArgsOpt] at h
      cases hp : parse a.kind w with
      | error s => rw [hp] at h; cases h
      | ok v =>
        rw [hp] at h
        simp only at h
        cases hs : setArgsOpt as ws with
        | mk as'' o =>
          rw [hs] at h
          simp only [Prod.mk.injEq] at h
          obtain ⟨rfl, rfl⟩ := h
          rw [setArgsOpt]
          simp only [hp]
          rw [ih ws as'' hs]

/-! ## Flag values -/

theorem setFlagValues_iff (as : List FlagValue) : ∀ (ws : List Str) (as' : List FlagValue), ws.length = as.length →
    (setFlagValues as ws = (as', none) ↔
      Zip3 (fun (f : FlagValue) w f' => ∃ v, Reads f.kind w v ∧ f' = { f with value := some v }) as ws as') := by
  induction as with
  | nil =>
    intro ws as' h
    have : ws = [] := List.length_eq_zero_iff.1 h
    subst this
    constructor
    · rintro ⟨⟩; exact .nil
    · intro h; cases h; rfl
  | cons a as ih =>
    intro ws as' h
    cases ws with
    | nil => simp at h
    | cons w ws =>
      have hl : ws.length = as.length := by simpa using h
      rw [setFlagValues]
      constructor
      · intro e
        cases hp : parse a.kind w with
        | error s => rw [hp] at e; cases e
        | ok v =>
          rw [hp] at e
          simp only at e
          cases hs : setFlagValues as ws with
          | mk as'' o =>
            rw [hs] at e
            simp only [Prod.mk.injEq] at e
            obtain ⟨rfl, rfl⟩ := e
            exact .cons ⟨v, (parse_iff _ _ _).1 hp, rfl⟩ ((ih ws as'' hl).1 hs)
      · intro z
        cases z with
        | cons hg t =>
          obtain ⟨v, hr, rfl⟩ := hg
          rw [(parse_iff _ _ _).2 hr]
          simp only
          rw [(ih ws _ hl).2 t]

theorem setFlagValues_same (as : List FlagValue) : ∀ ws,
    (setFlagValues as ws).1.map (fun f => (f.short, f.long, f.kind)) = as.map (fun f => (f.short, f.long, f.kind)) := by
  induction as with
  | nil => intro ws; cases ws <;> rfl
  | cons a as ih =>
    intro ws
    cases ws with
    | nil => rfl
    | cons w ws =>
      rw [setFlagValues]
      cases parse a.kind w with
      | error s => rfl
      | ok v => simp only [List.map_cons, ih]

theorem setFlagValues_again (as : List FlagValue) : ∀ (ws : List Str) (as' : List FlagValue), setFlagValues as ws = (as', none) →
    setFlagValues as' ws = (as', none) := by
  induction as with
  | nil => intro ws as' h; cases ws <;> cases h; rfl
  | cons a as ih =>
    intro ws as' h
    cases ws with
    | nil => cases h; rfl
    | cons w ws =>
      rw [setFlagValues] at h
      cases hp : parse a.kind w with
      | error s => rw [hp] at h; cases h
      | ok v =>
        rw [hp] at h
        simp only at h
        cases hs : setFlagValues as ws with
        | mk as'' o =>
          rw [hs] at h
          simp only [Prod.mk.injEq] at h
          obtain ⟨rfl, rfl⟩ := h
          rw [setFlagValues]
          simp only [hp]
          rw [ih ws as'' hs]

theorem setFlagValues_decl (as bs : List FlagValue) (ws : List Str) (as' bs' : List FlagValue)
    (hk : bs.map (fun f => (f.short, f.long, f.kind)) = as.map (fun f => (f.short, f.long, f.kind))) (hl : ws.length = as.length)
    (ha : setFlagValues as ws = (as', none)) (hb : setFlagValues bs ws = (bs', none)) : as' = bs' := by
  induction as generalizing bs ws as' bs' with
  | nil =>
    have : bs = [] := by simpa using hk
    subst this
    rw [ha] at hb; cases hb; rfl
  | cons a as ih =>
    cases bs with
    | nil => simp at hk
    | cons b bs =>
      simp only [List.map_cons, List.cons.injEq, Prod.mk.injEq] at hk
      cases ws with
      | nil => simp at hl
      | cons w ws =>
        cases ((setFlagValues_iff (a :: as) (w :: ws) as' hl).1 ha) with
        | cons g1 t1 =>
          have hl' : (w :: ws).length = (b :: bs).length := by
            have := congrArg List.length hk.2
            simp at this hl ⊢; omega
          cases ((setFlagValues_iff (b :: bs) (w :: ws) bs' hl').1 hb) with
          | cons g2 t2 =>
            have hl1 : ws.length = as.length := by simpa using hl
            have hl2 : ws.length = bs.length := by simpa using hl'
            have e := ih bs ws _ _ hk.2 hl1 ((setFlagValues_iff _ _ _ hl1).2 t1) ((setFlagValues_iff _ _ _ hl2).2 t2)
            rw [e]
            obtain ⟨v, h1, rfl⟩ := g1
            obtain ⟨u, h2, rfl⟩ := g2
            have e1 := (parse_iff _ _ _).2 h1
            have e2 := (parse_iff _ _ _).2 h2
            rw [hk.1.2.2, e1] at e2
            cases e2
            rw [hk.1.1, hk.1.2.1, hk.1.2.2]

theorem setFlagValuesOpt_iff (as : List FlagValueOpt) : ∀ (ws : List Str) (as' : List FlagValueOpt), ws.length ≤ as.length →
    (setFlagValuesOpt as ws = (as', none) ↔ ∃ o1 o2 o1', as = o1 ++ o2 ∧
      Zip3 (fun (f : FlagValueOpt) w f' => ∃ v, Reads f.kind w v ∧ f' = { f with value := some v, active := true }) o1 ws o1' ∧
      as' = o1' ++ o2) := by
  induction as with
  | nil =>
    intro ws as' h
    have : ws = [] := List.length_eq_zero_iff.1 (by simpa using h)
    subst this
    constructor
    · rintro ⟨⟩; exact ⟨[], [], [], rfl, .nil, rfl⟩
    · rintro ⟨o1, o2, o1', e, z, rfl⟩
      obtain ⟨rfl, rfl⟩ := List.append_eq_nil_iff.1 e.symm
      cases z; rfl
  | cons a as ih =>
    intro ws as' h
    cases ws with
    | nil =>
      constructor
      · rintro ⟨⟩; exact ⟨[], a :: as, [], rfl, .nil, rfl⟩
      · rintro ⟨o1, o2, o1', e, z, rfl⟩
        cases z
        rw [List.nil_append] at e
        subst e
        rfl
    | cons w ws =>
      have hl : ws.length ≤ as.length := by simpa using h
      rw [setFlagValuesOpt]
      constructor
      · intro e
        cases hp : parse a.kind w with
        | error s => rw [hp] at e; cases e
        | ok v =>
          rw [hp] at e
          simp only at e
          cases hs : setFlagValuesOpt as ws with
          | mk as'' o =>
            rw [hs] at e
            simp only [Prod.mk.injEq] at e
            obtain ⟨rfl, rfl⟩ := e
            obtain ⟨o1, o2, o1', rfl, z, rfl⟩ := (ih ws as'' hl).1 hs
            exact ⟨a :: o1, o2, _ :: o1', rfl, .cons ⟨v, (parse_iff _ _ _).1 hp, rfl⟩ z, rfl⟩
      · rintro ⟨o1, o2, o1', e, z, rfl⟩
        cases z with
        | cons hg t =>
          simp only [List.cons_append, List.cons.injEq] at e
          obtain ⟨rfl, rfl⟩ := e
          obtain ⟨v, hr, rfl⟩ := hg
          rw [(parse_iff _ _ _).2 hr]
          simp only
          rw [(ih ws _ hl).2 ⟨_, _, _, rfl, t, rfl⟩]
          rfl

theorem setFlagValuesOpt_same (as : List FlagValueOpt) : ∀ ws, (setFlagValuesOpt as ws).1.map (fun f => (f.short, f.long, f.kind, f.dflt)) =
    as.map (fun f => (f.short, f.long, f.kind, f.dflt)) := by
  induction as with
  | nil => intro ws; cases ws <;> rfl
  | cons a as ih =>
    intro ws
    cases ws with
    | nil => rfl
    | cons w ws =>
      rw [setFlagValuesOpt]
      cases parse a.kind w with
      | error s => rfl
      | ok v => simp only [List.map_cons, ih]

theorem setFlagValuesOpt_again (as : List FlagValueOpt) : ∀ (ws : List Str) (as' : List FlagValueOpt), setFlagValuesOpt as ws = (as', none) →
    setFlagValuesOpt as' ws = (as', none) := by
  induction as with
  | nil => intro ws as' h; cases ws <;> cases h; rfl
  | cons a as ih =>
    intro ws as' h
    cases ws with
    | nil => cases h; rfl
    | cons w ws =>
      rw [setFlagValuesOpt] at h
      cases hp : parse a.kind w with
      | error s => rw [hp] at h; cases h
      | ok v =>
        rw [hp] at h
        simp only at h
        cases hs : setFlagValuesOpt as ws with
        | mk as'' o =>
          rw [hs] at h
          simp only [Prod.mk.injEq] at h
          obtain ⟨rfl, rfl⟩ := h
          rw [setFlagValuesOpt]
          simp only [hp]
          rw [ih ws as'' hs]

/-! ## Packs -/

theorem Pack.set_iff (ws : List Str) : ∀ (p p' : Pack), p.set ws = (p', none) ↔ PackGot p ws p' := by
  induction ws with
  | nil =>
    intro p p'
    constructor
    · rintro ⟨⟩; exact ⟨[], .nil, by simp⟩
    · rintro ⟨vs, h, rfl⟩; cases h; simp [Pack.set]
  | cons w ws ih =>
    intro p p'
    rw [Pack.set]
    constructor
    · intro e
      cases hp : parse p.kind w with
      | error s => rw [hp] at e; cases e
      | ok v =>
        rw [hp] at e
        simp only at e
        obtain ⟨vs, h, rfl⟩ := (ih _ _).1 e
        exact ⟨v :: vs, .cons ((parse_iff _ _ _).1 hp) h, by simp⟩
    · rintro ⟨vs, h, rfl⟩
      cases h with
      | cons h t =>
        rw [(parse_iff _ _ _).2 h]
        simp only
        exact (ih _ _).2 ⟨_, t, by simp⟩

theorem Pack.set_same (ws : List Str) : ∀ (p : Pack), (p.set ws).1.kind = p.kind ∧ (p.set ws).1.min = p.min ∧ (p.set ws).1.max = p.max := by
  induction ws with
  | nil => intro p; exact ⟨rfl, rfl, rfl⟩
  | cons w ws ih =>
    intro p
    rw [Pack.set]
    cases parse p.kind w with
    | error s => exact ⟨rfl, rfl, rfl⟩
    | ok v => simp only; exact ih _

theorem isInfinite_iff (p : Pack) : p.isInfinite = true ↔ Unbounded p := by
  simp [Pack.isInfinite, Unbounded]

theorem setPacks_same (ps : List Pack) : ∀ ws, (setPacks ps ws).1.map (fun p => (p.kind, p.min, p.max)) = ps.map (fun p => (p.kind, p.min, p.max)) := by
  induction ps with
  | nil => intro ws; rfl
  | cons p ps ih =>
    intro ws
    rw [setPacks]
    split
    · split
      · rfl
      · have := Pack.set_same ws p
        split
        · rename_i h; rw [h] at this; simp; exact this
        · rename_i h; rw [h] at this; simp [ih]; exact this
    · split
      · rfl
      · simp only
        have := Pack.set_same (ws.take (if ws.length > p.max then p.max else ws.length)) p
        split
        · rename_i h; rw [h] at this; simp; exact this
        · rename_i h; rw [h] at this; simp [ih]; exact this

theorem clamp_eq (n m : Nat) : (if n > m then m else n) = min n m := by split <;> omega

/-- The packs take all words if they fit, and only then. -/
theorem setPacks_sound (ps : List Pack) : ∀ (ws : List Str) (ps' : List Pack), setPacks ps ws = (ps', [], none) →
    Fits ps ws.length ∧ ∃ pss, ws = pss.flatten ∧ Zip3 (fun p ws p' => PackGot p ws p' ∧ CountOk p ws.length) ps pss ps' := by
  induction ps with
  | nil =>
    intro ws ps' h
    rw [setPacks] at h
    simp only [Prod.mk.injEq] at h
    obtain ⟨rfl, rfl, _⟩ := h
    exact ⟨.none, [], rfl, .nil⟩
  | cons p ps ih =>
    intro ws ps' h
    rw [setPacks] at h
    split at h
    · rename_i hinf
      split at h
      · simp at h
      · rename_i hps
        have hps : ps = [] := by simpa using hps
        subst hps
        split at h
        · simp at h
        · rename_i q hq
          simp only [setPacks, Prod.mk.injEq, and_true] at h
          subst h
          have hu := (isInfinite_iff p).1 hinf
          exact ⟨.all hu _, [ws], by simp, .cons ⟨(Pack.set_iff _ _ _).1 hq, .inl hu⟩ .nil⟩
    · rename_i hinf
      split at h
      · simp at h
      · rename_i hmin
        simp only [clamp_eq] at h
        split at h
        · simp at h
        · rename_i q hq
          cases hs : setPacks ps (ws.drop (min ws.length p.max)) with
          | mk ps'' re =>
            obtain ⟨rest, e⟩ := re
            rw [hs] at h
            simp only [Prod.mk.injEq] at h
            obtain ⟨rfl, rfl, rfl⟩ := h
            obtain ⟨hf, pss, hp, z⟩ := ih _ _ hs
            have hu : ¬ Unbounded p := fun hu => hinf ((isInfinite_iff p).2 hu)
            refine ⟨.some hu (by omega) (by simpa using hf), (ws.take (min ws.length p.max)) :: pss, ?_, .cons ⟨(Pack.set_iff _ _ _).1 hq, .inr ⟨?_, ?_⟩⟩ z⟩
            · rw [List.flatten_cons, ← hp, List.take_append_drop]
            · simp
            · simp; omega

theorem setPacks_complete (ps : List Pack) : ∀ (ws : List Str), Fits ps ws.length →
    (∀ p ∈ ps, ∀ w ∈ ws, ∃ v, Reads p.kind w v) → ∃ ps', setPacks ps ws = (ps', [], none) := by
  have got : ∀ (p : Pack) (ws : List Str), (∀ w ∈ ws, ∃ v, Reads p.kind w v) → ∃ p', p.set ws = (p', none) := by
    intro p ws h
    have : ∃ vs, List.Forall₂ (Reads p.kind) ws vs := by
      induction ws with
      | nil => exact ⟨[], .nil⟩
      | cons w ws ih =>
        obtain ⟨v, hv⟩ := h w (by simp)
        obtain ⟨vs, hvs⟩ := ih (fun w hw => h w (by simp [hw]))
        exact ⟨v :: vs, .cons hv hvs⟩
    obtain ⟨vs, hvs⟩ := this
    exact ⟨_, (Pack.set_iff _ _ _).2 ⟨vs, hvs, rfl⟩⟩
  induction ps with
  | nil =>
    intro ws h _
    have : ws = [] := by
      generalize hn : ws.length = n at h
      cases h
      exact List.length_eq_zero_iff.1 hn
    subst this
    exact ⟨[], rfl⟩
  | cons p ps ih =>
    intro ws h hr
    generalize hn : ws.length = n at h
    cases h with
    | all hu =>
      obtain ⟨p', hp'⟩ := got p ws (hr p (by simp))
      refine ⟨[p'], ?_⟩
      rw [setPacks, if_pos ((isInfinite_iff p).2 hu), if_neg (by simp), hp']
      rfl
    | some hu hmin t =>
      obtain ⟨p', hp'⟩ := got p (ws.take (min ws.length p.max)) (fun w hw => hr p (by simp) w (List.mem_of_mem_take hw))
      obtain ⟨ps', hps'⟩ := ih (ws.drop (min ws.length p.max)) (by simpa [hn] using t)
        (fun q hq w hw => hr q (by simp [hq]) w (List.mem_of_mem_drop hw))
      refine ⟨p' :: ps', ?_⟩
      rw [setPacks, if_neg (by rw [isInfinite_iff]; exact hu), if_neg (by omega)]
      simp only [clamp_eq, hp', hps']

/-! ## Flags -/

theorem hasName_iff (s l n : Str) : hasName s l n = true ↔ Named s l n := by simp [hasName, Named]

theorem activateFlag_cases (fs : List Flag) (n : Str) :
    (∃ i f, fs[i]? = some f ∧ FirstNamed fs i n ∧ activateFlag fs n = (fs.set i { f with active := true }, none)) ∨
    ((∀ f ∈ fs, ¬ Named f.short f.long n) ∧ activateFlag fs n = (fs, some (.threw (.flagNotFound n)))) := by
  induction fs with
  | nil => right; exact ⟨by simp, rfl⟩
  | cons f fs ih =>
    rw [activateFlag]
    by_cases h : hasName f.short f.long n = true
    · rw [if_pos h]
      left
      exact ⟨0, f, rfl, ⟨⟨f, rfl, (hasName_iff _ _ _).1 h⟩, by intro j g hj; omega⟩, rfl⟩
    · rw [if_neg h]
      have h' : ¬ Named f.short f.long n := fun hn => h ((hasName_iff _ _ _).2 hn)
      rcases ih with ⟨i, g, hg, hfirst, e⟩ | ⟨hno, e⟩
      · left
        refine ⟨i + 1, g, by simpa using hg, ⟨by simpa using hfirst.1, ?_⟩, ?_⟩
        · intro j k hj hk
          cases j with
          | zero => simp at hk; subst hk; exact h'
          | succ j => exact hfirst.2 j k (by omega) (by simpa using hk)
        · rw [e]; rfl
      · right
        refine ⟨?_, by rw [e]⟩
        intro g hg
        rcases List.mem_cons.1 hg with rfl | hg
        · exact h'
        · exact hno g hg

theorem activateFlag_same (fs : List Flag) (n : Str) :
    (activateFlag fs n).1.map (fun f => (f.short, f.long)) = fs.map (fun f => (f.short, f.long)) := by
  induction fs with
  | nil => rfl
  | cons f fs ih =>
    rw [activateFlag]
    split
    · rfl
    · simp [ih]

theorem activateFlags_same (ns : List Str) : ∀ fs : List Flag,
    (activateFlags fs ns).1.map (fun f => (f.short, f.long)) = fs.map (fun f => (f.short, f.long)) := by
  induction ns with
  | nil => intro fs; cases fs <;> rfl
  | cons n ns ih =>
    intro fs
    rw [activateFlags]
    have := activateFlag_same fs n
    cases h : activateFlag fs n with
    | mk fs' o =>
      rw [h] at this
      cases o with
      | some e => exact this
      | none => simp only; rw [ih, this]

theorem named_of_map {fs gs : List Flag} (h : gs.map (fun f => (f.short, f.long)) = fs.map (fun f => (f.short, f.long))) (i : Nat) (f : Flag)
    (hf : fs[i]? = some f) : ∃ g, gs[i]? = some g ∧ g.short = f.short ∧ g.long = f.long := by
  have e : (gs.map (fun f => (f.short, f.long)))[i]? = some (f.short, f.long) := by rw [h, List.getElem?_map, hf]; rfl
  rw [List.getElem?_map, Option.map_eq_some_iff] at e
  obtain ⟨g, hg, eg⟩ := e
  simp only [Prod.mk.injEq] at eg
  exact ⟨g, hg, eg.1, eg.2⟩

theorem firstNamed_congr {fs gs : List Flag} (h : gs.map (fun f => (f.short, f.long)) = fs.map (fun f => (f.short, f.long))) (i : Nat) (n : Str) :
    FirstNamed gs i n ↔ FirstNamed fs i n := by
  constructor
  · rintro ⟨⟨f, hf, hn⟩, hl⟩
    obtain ⟨g, hg, e1, e2⟩ := named_of_map h.symm i f hf
    refine ⟨⟨g, hg, by rw [e1, e2]; exact hn⟩, ?_⟩
    intro j g hj hg
    obtain ⟨f, hf, e1, e2⟩ := named_of_map h j g hg
    have := hl j f hj hf
    rwa [e1, e2] at this
  · rintro ⟨⟨f, hf, hn⟩, hl⟩
    obtain ⟨g, hg, e1, e2⟩ := named_of_map h i f hf
    refine ⟨⟨g, hg, by rw [e1, e2]; exact hn⟩, ?_⟩
    intro j g hj hg
    obtain ⟨f, hf, e1, e2⟩ := named_of_map h.symm j g hg
    have := hl j f hj hf
    rwa [e1, e2] at this

theorem activateFlags_sound (ns : List Str) : ∀ (fs fs' : List Flag), activateFlags fs ns = (fs', none) →
    FlagsGot fs ns fs' ∧ ∀ n ∈ ns, ∃ f ∈ fs, Named f.short f.long n := by
  induction ns with
  | nil =>
    intro fs fs' h
    have : fs' = fs := by cases fs <;> cases h <;> rfl
    subst this
    refine ⟨⟨rfl, ?_⟩, by simp⟩
    intro i f hf
    exact ⟨f.active, hf, by simp⟩
  | cons n ns ih =>
    intro fs fs' h
    rw [activateFlags] at h
    rcases activateFlag_cases fs n with ⟨i, f, hf, hfirst, e⟩ | ⟨_, e⟩
    · rw [e] at h
      simp only at h
      obtain ⟨⟨hlen, hg⟩, hn⟩ := ih _ _ h
      have hsame : (fs.set i { f with active := true }).map (fun f => (f.short, f.long)) = fs.map (fun f => (f.short, f.long)) := by
        have := activateFlag_same fs n; rwa [e] at this
      have hi : i < fs.length := (List.getElem?_eq_some_iff.1 hf).1
      refine ⟨⟨by simpa using hlen, ?_⟩, ?_⟩
      · intro j g hg'
        by_cases hj : j = i
        · subst hj
          have : g = f := by rw [hf] at hg'; cases hg'; rfl
          subst this
          obtain ⟨b, hb1, hb2⟩ := hg j { g with active := true } (by simp [hi])
          refine ⟨b, hb1, ?_⟩
          have hbt : b = true := hb2.2 (.inl rfl)
          simp only [hbt, true_iff]
          exact .inr ⟨n, by simp, hfirst⟩
        · obtain ⟨b, hb1, hb2⟩ := hg j g (by rw [List.getElem?_set_ne (Ne.symm hj)]; exact hg')
          refine ⟨b, hb1, ?_⟩
          rw [hb2]
          constructor
          · rintro (h | ⟨m, hm, h⟩)
            · exact .inl h
            · exact .inr ⟨m, by simp [hm], (firstNamed_congr hsame _ _).1 h⟩
          · rintro (h | ⟨m, hm, h⟩)
            · exact .inl h
            · rcases List.mem_cons.1 hm with rfl | hm
              · exfalso
                rcases Nat.lt_trichotomy i j with hij | hij | hij
                · obtain ⟨⟨f', hf', hn'⟩, _⟩ := hfirst
                  exact h.2 i f' hij hf' hn'
                · exact hj hij.symm
                · obtain ⟨⟨f', hf', hn'⟩, _⟩ := h
                  exact hfirst.2 j f' hij hf' hn'
              · exact .inr ⟨m, hm, (firstNamed_congr hsame _ _).2 h⟩
      · intro m hm
        rcases List.mem_cons.1 hm with rfl | hm
        · obtain ⟨⟨f', hf', hn'⟩, _⟩ := hfirst
          exact ⟨f', List.mem_of_getElem? hf', hn'⟩
        · obtain ⟨g, hg, hgn⟩ := hn m hm
          have : (g.short, g.long) ∈ fs.map (fun f => (f.short, f.long)) := by
            rw [← hsame]; exact List.mem_map.2 ⟨g, hg, rfl⟩
          obtain ⟨g', hg', e'⟩ := List.mem_map.1 this
          simp only [Prod.mk.injEq] at e'
          exact ⟨g', hg', by rw [e'.1, e'.2]; exact hgn⟩
    · rw [e] at h; cases h

theorem activateFlags_complete (ns : List Str) : ∀ (fs : List Flag), (∀ n ∈ ns, ∃ f ∈ fs, Named f.short f.long n) →
    ∃ fs', activateFlags fs ns = (fs', none) := by
  induction ns with
  | nil => intro fs _; exact ⟨fs, by cases fs <;> rfl⟩
  | cons n ns ih =>
    intro fs h
    rw [activateFlags]
    rcases activateFlag_cases fs n with ⟨i, f, hf, hfirst, e⟩ | ⟨hno, e⟩
    · rw [e]
      simp only
      have hsame := activateFlag_same fs n
      rw [e] at hsame
      apply ih
      intro m hm
      obtain ⟨g, hg, hgn⟩ := h m (by simp [hm])
      have : (g.short, g.long) ∈ (fs.set i { f with active := true }).map (fun f => (f.short, f.long)) := by
        rw [hsame]; exact List.mem_map.2 ⟨g, hg, rfl⟩
      obtain ⟨g', hg', e'⟩ := List.mem_map.1 this
      simp only [Prod.mk.injEq] at e'
      exact ⟨g', hg', by rw [e'.1, e'.2]; exact hgn⟩
    · obtain ⟨g, hg, hgn⟩ := h n (by simp)
      exact absurd hgn (hno g hg)

theorem activateFlag_on (fs : List Flag) (n : Str) (i : Nat) (f : Flag) (hf : fs[i]? = some f) (hfirst : FirstNamed fs i n) (ha : f.active = true) :
    activateFlag fs n = (fs, none) := by
  rcases activateFlag_cases fs n with ⟨j, g, hg, hj, e⟩ | ⟨hno, _⟩
  · have : j = i := by
      rcases Nat.lt_trichotomy j i with h | h | h
      · obtain ⟨⟨g', hg', hn'⟩, _⟩ := hj
        exact absurd hn' (hfirst.2 j g' h hg')
      · exact h
      · obtain ⟨⟨g', hg', hn'⟩, _⟩ := hfirst
        exact absurd hn' (hj.2 i g' h hg')
    subst this
    have : g = f := by rw [hf] at hg; cases hg; rfl
    subst this
    have eg : ({ g with active := true } : Flag) = g := by cases g; simp at ha; simp [ha]
    rw [e, eg]
    obtain ⟨hi, e'⟩ := List.getElem?_eq_some_iff.1 hf
    rw [← e', List.set_getElem_self]
  · obtain ⟨⟨g, hg, hn⟩, _⟩ := hfirst
    exact absurd hn (hno g (List.mem_of_getElem? hg))

theorem activateFlags_on (ns : List Str) (fs : List Flag) (h : ∀ n ∈ ns, ∃ i f, fs[i]? = some f ∧ FirstNamed fs i n ∧ f.active = true) :
    activateFlags fs ns = (fs, none) := by
  induction ns with
  | nil => cases fs <;> rfl
  | cons n ns ih =>
    obtain ⟨i, f, h1, h2, h3⟩ := h n (by simp)
    rw [activateFlags, activateFlag_on fs n i f h1 h2 h3]
    exact ih (fun m hm => h m (by simp [hm]))

theorem activateFlags_again (fs : List Flag) (ns : List Str) (fs' : List Flag) (h : activateFlags fs ns = (fs', none)) :
    activateFlags fs' ns = (fs', none) := by
  have hsame := activateFlags_same ns fs
  rw [h] at hsame
  obtain ⟨⟨hlen, hg⟩, hn⟩ := activateFlags_sound ns fs fs' h
  apply activateFlags_on
  intro n hmem
  obtain ⟨f, hf, hnf⟩ := hn n hmem
  rcases activateFlag_cases fs n with ⟨i, g, hgi, hfirst, _⟩ | ⟨hno, _⟩
  · obtain ⟨b, hb1, hb2⟩ := hg i g hgi
    refine ⟨i, _, hb1, (firstNamed_congr hsame _ _).2 hfirst, ?_⟩
    exact hb2.2 (.inr ⟨n, hmem, hfirst⟩)
  · exact absurd hnf (hno f hf)

end Verif.CmdLine
