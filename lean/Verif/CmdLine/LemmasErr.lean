import Verif.CmdLine.LemmasSet

/-! # Failures while setting values -/

namespace Verif.CmdLine

open Verif Spec

theorem setArgs_err (as : List Arg) : ∀ (ws : List Str) (s : Stop), ws.length ≤ as.length → (setArgs as ws).2 = some s →
    ∃ a ∈ as, ∃ w ∈ ws, parse a.kind w = .error s := by
  induction as with
  | nil =>
    intro ws s h e
    have : ws = [] := List.length_eq_zero_iff.1 (by simpa using h)
    subst this
    cases e
  | cons a as ih =>
    intro ws s h e
    cases ws with
    | nil => cases e
    | cons w ws =>
      rw [setArgs] at e
      cases hp : parse a.kind w with
      | error t => rw [hp] at e; cases e; exact ⟨a, by simp, w, by simp, hp⟩
      | ok v =>
        rw [hp] at e
        obtain ⟨b, hb, u, hu, hbu⟩ := ih ws s (by simpa using h) e
        exact ⟨b, by simp [hb], u, by simp [hu], hbu⟩

theorem setArgsOpt_err (as : List ArgOpt) : ∀ (ws : List Str) (s : Stop), ws.length ≤ as.length → (setArgsOpt as ws).2 = some s →
    ∃ a ∈ as, ∃ w ∈ ws, parse a.kind w = .error s := by
  induction as with
  | nil =>
    intro ws s h e
    have : ws = [] := List.length_eq_zero_iff.1 (by simpa using h)
    subst this
    cases e
  | cons a as ih =>
    intro ws s h e
    cases ws with
    | nil => cases e
    | cons w ws =>
      rw [setArgsOpt] at e
      cases hp : parse a.kind w with
      | error t => rw [hp] at e; cases e; exact ⟨a, by simp, w, by simp, hp⟩
      | ok v =>
        rw [hp] at e
        obtain ⟨b, hb, u, hu, hbu⟩ := ih ws s (by simpa using h) e
        exact ⟨b, by simp [hb], u, by simp [hu], hbu⟩

theorem setFlagValues_err (as : List FlagValue) : ∀ (ws : List Str) (s : Stop), ws.length ≤ as.length → (setFlagValues as ws).2 = some s →
    ∃ a ∈ as, ∃ w ∈ ws, parse a.kind w = .error s := by
  induction as with
  | nil =>
    intro ws s h e
    have : ws = [] := List.length_eq_zero_iff.1 (by simpa using h)
    subst this
    cases e
  | cons a as ih =>
    intro ws s h e
    cases ws with
    | nil => cases e
    | cons w ws =>
      rw [setFlagValues] at e
      cases hp : parse a.kind w with
      | error t => rw [hp] at e; cases e; exact ⟨a, by simp, w, by simp, hp⟩
      | ok v =>
        rw [hp] at e
        obtain ⟨b, hb, u, hu, hbu⟩ := ih ws s (by simpa using h) e
        exact ⟨b, by simp [hb], u, by simp [hu], hbu⟩

theorem setFlagValuesOpt_err (as : List FlagValueOpt) : ∀ (ws : List Str) (s : Stop), ws.length ≤ as.length →
    (setFlagValuesOpt as ws).2 = some s → ∃ a ∈ as, ∃ w ∈ ws, parse a.kind w = .error s := by
  induction as with
  | nil =>
    intro ws s h e
    have : ws = [] := List.length_eq_zero_iff.1 (by simpa using h)
    subst this
    cases e
  | cons a as ih =>
    intro ws s h e
    cases ws with
    | nil => cases e
    | cons w ws =>
      rw [setFlagValuesOpt] at e
      cases hp : parse a.kind w with
      | error t => rw [hp] at e; cases e; exact ⟨a, by simp, w, by simp, hp⟩
      | ok v =>
        rw [hp] at e
        obtain ⟨b, hb, u, hu, hbu⟩ := ih ws s (by simpa using h) e
        exact ⟨b, by simp [hb], u, by simp [hu], hbu⟩

theorem Pack.set_err (ws : List Str) : ∀ (p : Pack) (s : Stop), (p.set ws).2 = some s → ∃ w ∈ ws, parse p.kind w = .error s := by
  induction ws with
  | nil => intro p s e; cases e
  | cons w ws ih =>
    intro p s e
    rw [Pack.set] at e
    cases hp : parse p.kind w with
    | error t => rw [hp] at e; cases e; exact ⟨w, by simp, hp⟩
    | ok v =>
      rw [hp] at e
      obtain ⟨u, hu, h⟩ := ih _ s e
      exact ⟨u, by simp [hu], h⟩

theorem setPacks_err (ps : List Pack) : ∀ (ws : List Str) (s : Stop), (setPacks ps ws).2.2 = some s →
    (s = .threw .packPosition ∧ ∃ p ∈ ps.dropLast, Unbounded p) ∨
    (∃ l p r, ps = l ++ p :: r ∧ s = .threw (.packMismatch r.length) ∧ (∀ q ∈ l, ¬ Unbounded q) ∧ ¬ Unbounded p ∧
      ws.length - (l.map (·.max)).sum < p.min) ∨ ∃ p ∈ ps, ∃ w ∈ ws, parse p.kind w = .error s := by
  induction ps with
  | nil => intro ws s e; cases e
  | cons p ps ih =>
    intro ws s e
    rw [setPacks] at e
    split at e
    · rename_i hinf
      have hu := (isInfinite_iff p).1 hinf
      split at e
      · rename_i hne
        cases e
        refine .inl ⟨rfl, p, ?_, hu⟩
        cases ps with
        | nil => exact absurd rfl hne
        | cons q ps => simp
      · rename_i hne
        have hps : ps = [] := by simpa using hne
        subst hps
        split at e
        · rename_i t ht
          cases e
          obtain ⟨w, hw, h⟩ := Pack.set_err ws p s (by rw [ht])
          exact .inr (.inr ⟨p, by simp, w, hw, h⟩)
        · rw [setPacks] at e
          cases e
    · rename_i hinf
      have hu : ¬ Unbounded p := fun h => hinf ((isInfinite_iff p).2 h)
      split at e
      · rename_i hlt
        cases e
        exact .inr (.inl ⟨[], p, ps, rfl, rfl, by simp, hu, by simpa using hlt⟩)
      · simp only at e
        split at e
        · rename_i t ht
          cases e
          obtain ⟨w, hw, h⟩ := Pack.set_err _ p s (by rw [ht])
          exact .inr (.inr ⟨p, by simp, w, List.mem_of_mem_take hw, h⟩)
        · rcases ih _ s e with ⟨h, q, hq, hqu⟩ | ⟨l, q, r, h1, h2, h3, h4, h5⟩ | ⟨q, hq, w, hw, h⟩
          · refine .inl ⟨h, q, ?_, hqu⟩
            cases ps with
            | nil => cases hq
            | cons a ps => rw [List.dropLast_cons_cons]; exact List.mem_cons_of_mem _ hq
          · refine .inr (.inl ⟨p :: l, q, r, by rw [h1]; rfl, h2, ?_, h4, ?_⟩)
            · intro a ha
              rcases List.mem_cons.1 ha with rfl | ha
              · exact hu
              · exact h3 a ha
            · rw [List.length_drop] at h5
              simp only [List.map_cons, List.sum_cons]
              split at h5 <;> omega
          · exact .inr (.inr ⟨q, by simp [hq], w, List.mem_of_mem_drop hw, h⟩)

theorem activateFlags_err (ns : List Str) : ∀ (fs : List Flag) (s : Stop), (activateFlags fs ns).2 = some s →
    ∃ n ∈ ns, s = .threw (.flagNotFound n) ∧ ∀ f ∈ fs, ¬ Named f.short f.long n := by
  induction ns with
  | nil => intro fs s e; cases fs <;> cases e
  | cons n ns ih =>
    intro fs s e
    rw [activateFlags] at e
    rcases activateFlag_cases fs n with ⟨i, f, hf, hfirst, e'⟩ | ⟨hno, e'⟩
    · rw [e'] at e
      obtain ⟨m, hm, rfl, h⟩ := ih _ s e
      refine ⟨m, by simp [hm], rfl, ?_⟩
      have hsame := activateFlag_same fs n
      rw [e'] at hsame
      intro g hg hgn
      have : (g.short, g.long) ∈ (fs.set i { f with active := true }).map (fun f => (f.short, f.long)) := by
        rw [hsame]; exact List.mem_map.2 ⟨g, hg, rfl⟩
      obtain ⟨g', hg', e''⟩ := List.mem_map.1 this
      simp only [Prod.mk.injEq] at e''
      exact h g' hg' (by rw [e''.1, e''.2]; exact hgn)
    · rw [e'] at e
      cases e
      exact ⟨n, by simp, rfl, hno⟩

theorem setPacks_rest (ps : List Pack) : ∀ (ws : List Str) (ps' : List Pack) (rest : List Str), setPacks ps ws = (ps', rest, none) →
    rest ≠ [] → (∀ p ∈ ps, ¬ Unbounded p) ∧ (ps.map (·.max)).sum < ws.length := by
  induction ps with
  | nil =>
    intro ws ps' rest h hr
    rw [setPacks] at h
    cases h
    exact ⟨by simp, by simpa using List.length_pos_iff.2 hr⟩
  | cons p ps ih =>
    intro ws ps' rest h hr
    rw [setPacks] at h
    split at h
    · split at h
      · cases h
      · rename_i hne
        have hps : ps = [] := by simpa using hne
        subst hps
        split at h
        · cases h
        · rw [setPacks] at h
          cases h
          exact absurd rfl hr
    · rename_i hinf
      have hu : ¬ Unbounded p := fun h => hinf ((isInfinite_iff p).2 h)
      split at h
      · cases h
      · simp only at h
        split at h
        · cases h
        · generalize hsp : setPacks ps _ = sp at h
          obtain ⟨qs, rest', o⟩ := sp
          simp only [Prod.mk.injEq] at h
          obtain ⟨-, rfl, rfl⟩ := h
          obtain ⟨h1, h2⟩ := ih _ _ _ hsp hr
          refine ⟨?_, ?_⟩
          · intro q hq
            rcases List.mem_cons.1 hq with rfl | hq
            · exact hu
            · exact h1 q hq
          · rw [List.length_drop] at h2
            simp only [List.map_cons, List.sum_cons]
            split at h2 <;> omega

/-- What can stop a run after the counts were found right. -/
inductive LateStop (cmd : Cmd) (ws : List Str) : Stop → Prop where
  | position {p} (h : p ∈ cmd.packs.dropLast) (hu : Unbounded p) : LateStop cmd ws (.threw .packPosition)
  | packCount {l p r} (h : cmd.packs = l ++ p :: r) (hl : ∀ q ∈ l, ¬ Unbounded q) (hu : ¬ Unbounded p)
      (hlt : (plain ws).length - cmd.args.length - cmd.argsOpt.length - (l.map (·.max)).sum < p.min) :
      LateStop cmd ws (.threw (.packMismatch r.length))
  | left (hb : ∀ p ∈ cmd.packs, ¬ Unbounded p)
      (h : cmd.args.length + cmd.argsOpt.length + (cmd.packs.map (·.max)).sum < (plain ws).length) : LateStop cmd ws (.threw .tooMany)
  | flag {n} (h : n ∈ bareFlags ws) (hn : ∀ f ∈ cmd.flags, ¬ Named f.short f.long n) : LateStop cmd ws (.threw (.flagNotFound n))
  | pack {p w s} (hp : p ∈ cmd.packs) (hw : w ∈ plain ws) (h : parse p.kind w = .error s) : LateStop cmd ws s
  | arg {a w s} (ha : a ∈ cmd.args) (hw : w ∈ plain ws) (h : parse a.kind w = .error s) : LateStop cmd ws s
  | argOpt {a w s} (ha : a ∈ cmd.argsOpt) (hw : w ∈ plain ws) (h : parse a.kind w = .error s) : LateStop cmd ws s
  | value {f w s} (hf : f ∈ cmd.flagValues) (hw : w ∈ valuedFlags ws) (h : parse f.kind (valueOf w) = .error s) : LateStop cmd ws s
  | valueOpt {f w s} (hf : f ∈ cmd.flagValuesOpt) (hw : w ∈ valuedFlags ws) (h : parse f.kind (valueOf w) = .error s) : LateStop cmd ws s

/-- The words sorted. -/
def sorted (cmd : Cmd) (ws : List Str) : Scan :=
  ⟨bareFlags ws, reqFlags cmd ws, (reqFlags cmd ws).map valueOf, optFlags cmd ws, (optFlags cmd ws).map valueOf⟩

def argWords (cmd : Cmd) (ws : List Str) : List Str := (plain ws).take cmd.args.length
def optWords (cmd : Cmd) (ws : List Str) : List Str := ((plain ws).drop cmd.args.length).take cmd.argsOpt.length
def packWords (cmd : Cmd) (ws : List Str) : List Str := ((plain ws).drop cmd.args.length).drop cmd.argsOpt.length

theorem words_split (cmd : Cmd) (ws : List Str) : plain ws = argWords cmd ws ++ optWords cmd ws ++ packWords cmd ws := by
  unfold argWords optWords packWords
  rw [List.append_assoc, List.take_append_drop, List.take_append_drop]

/-- What `runCmd` does. -/
theorem runCmd_cases (x : Ctx) (r : CmdRef) (c : Cmd) (ws : List Str) (hc : x.get r = some c) :
    (∃ e, Miscount c ws e ∧ runCmd x r ws = (x, .stopped (.threw e))) ∨
    (CountsOk c ws ∧ runCmd x r ws = match setValues c (sorted c ws) (argWords c ws) (optWords c ws) (packWords c ws) with
      | (cmd, some e) => (x.set cmd r, .stopped e)
      | (cmd, none) => (x.set cmd r, .ran r)) := by
  rw [runCmd, hc]
  simp only
  rcases sortWords_cases c ws with ⟨hk, e⟩ | ⟨e, hk, h⟩
  · right; rw [e]; exact ⟨hk, rfl⟩
  · left; rw [h]; exact ⟨e, hk, rfl⟩

/-- When nothing stops the run, and what is set. -/
theorem setValues_iff (cmd cmd' : Cmd) (sc : Scan) (as os en : List Str) : setValues cmd sc as os en = (cmd', none) ↔
    ∃ ps as' os' fl fv fo, setPacks cmd.packs en = (ps, [], none) ∧ setArgs cmd.args as = (as', none) ∧ setArgsOpt cmd.argsOpt os = (os', none) ∧
      activateFlags cmd.flags sc.flags = (fl, none) ∧ setFlagValues cmd.flagValues sc.fvValues = (fv, none) ∧
      setFlagValuesOpt cmd.flagValuesOpt sc.fvoValues = (fo, none) ∧ cmd' = ⟨cmd.names, as', os', ps, fl, fv, fo⟩ := by
  unfold setValues
  generalize h1 : setPacks cmd.packs en = r1
  obtain ⟨ps, rest, o1⟩ := r1
  generalize h2 : setArgs cmd.args as = r2
  obtain ⟨as', o2⟩ := r2
  generalize h3 : setArgsOpt cmd.argsOpt os = r3
  obtain ⟨os', o3⟩ := r3
  generalize h4 : activateFlags cmd.flags sc.flags = r4
  obtain ⟨fl, o4⟩ := r4
  generalize h5 : setFlagValues cmd.flagValues sc.fvValues = r5
  obtain ⟨fv, o5⟩ := r5
  generalize h6 : setFlagValuesOpt cmd.flagValuesOpt sc.fvoValues = r6
  obtain ⟨fo, o6⟩ := r6
  cases o1 with
  | some e => simp
  | none =>
    simp only
    by_cases hr : rest = []
    · subst hr
      simp only [ne_eq, not_true_eq_false, if_false, h2, h3, h4, h5, h6]
      cases o2 with
      | some e => simp
      | none =>
        simp only [h3, h4, h5, h6]
        cases o3 with
        | some e => simp
        | none =>
          simp only [h4, h5, h6]
          cases o4 with
          | some e => simp
          | none =>
            simp only [h5, h6]
            cases o5 with
            | some e => simp
            | none =>
              simp only [h6, Prod.mk.injEq, true_and, and_true]
              constructor
              · rintro ⟨rfl, rfl⟩
                exact ⟨_, _, _, _, _, _, rfl, rfl, rfl, rfl, rfl, ⟨rfl, rfl⟩, rfl⟩
              · rintro ⟨_, _, _, _, _, _, rfl, rfl, rfl, rfl, rfl, ⟨rfl, rfl⟩, rfl⟩
                exact ⟨rfl, rfl⟩
    · simp [hr]

theorem setValues_err (cmd : Cmd) (ws : List Str) (hk : CountsOk cmd ws) (s : Stop)
    (h : (setValues cmd (sorted cmd ws) (argWords cmd ws) (optWords cmd ws) (packWords cmd ws)).2 = some s) : LateStop cmd ws s := by
  obtain ⟨k1, k2, k3, k4⟩ := hk
  have harg : ∀ w ∈ argWords cmd ws, w ∈ plain ws := fun w hw => List.mem_of_mem_take hw
  have hopt : ∀ w ∈ optWords cmd ws, w ∈ plain ws := fun w hw => List.mem_of_mem_drop (List.mem_of_mem_take hw)
  have hpk : ∀ w ∈ packWords cmd ws, w ∈ plain ws := fun w hw => List.mem_of_mem_drop (List.mem_of_mem_drop hw)
  unfold setValues at h
  split at h
  · rename_i ps rest e he
    cases h
    rcases setPacks_err cmd.packs _ s (by rw [he]) with ⟨rfl, p, hp, hu⟩ | ⟨l, p, r, h1, rfl, h3, h4, h5⟩ | ⟨p, hp, w, hw, h⟩
    · exact .position hp hu
    · exact .packCount h1 h3 h4 (by simpa only [packWords, List.length_drop] using h5)
    · exact .pack hp (hpk w hw) h
  · simp only at h
    split at h
    · rename_i ps rest he hr
      cases h
      obtain ⟨hb, hlt⟩ := setPacks_rest cmd.packs _ ps rest he hr
      exact .left hb (by simp only [packWords, List.length_drop] at hlt; omega)
    · split at h
      · rename_i as' e he
        cases h
        obtain ⟨a, ha, w, hw, h⟩ := setArgs_err cmd.args (argWords cmd ws) s (by simp only [argWords, List.length_take]; omega) (by rw [he])
        exact .arg ha (harg w hw) h
      · split at h
        · rename_i as' e he
          cases h
          obtain ⟨a, ha, w, hw, h⟩ := setArgsOpt_err cmd.argsOpt (optWords cmd ws) s (by simp only [optWords, List.length_take]; omega) (by rw [he])
          exact .argOpt ha (hopt w hw) h
        · split at h
          · rename_i fl e he
            cases h
            obtain ⟨n, hn, rfl, h⟩ := activateFlags_err _ cmd.flags s (by rw [he])
            exact .flag hn h
          · split at h
            · rename_i fv e he
              cases h
              obtain ⟨a, ha, w, hw, h⟩ := setFlagValues_err cmd.flagValues (sorted cmd ws).fvValues s (by simp only [sorted, List.length_map]; omega) (by rw [he])
              obtain ⟨u, hu, rfl⟩ := List.mem_map.1 hw
              exact .value ha (List.mem_filter.1 hu).1 h
            · obtain ⟨a, ha, w, hw, h⟩ := setFlagValuesOpt_err cmd.flagValuesOpt (sorted cmd ws).fvoValues s (by simp only [sorted, List.length_map]; omega) h
              obtain ⟨u, hu, rfl⟩ := List.mem_map.1 hw
              exact .valueOpt ha (List.mem_filter.1 hu).1 h

theorem parse_err {k : Kind} {w : Str} {s : Stop} (h : parse k w = .error s) :
    ((k = .int ∨ k = .float) ∧ s = .died) ∨ (k = .bool ∧ s = .threw (.badValue w) ∧ ∀ v, ¬ Reads .bool w v) ∨ (k = .bool ∧ s = .ub ∧ ∃ c ∈ w, 128 ≤ c.toNat) := by
  cases k with
  | str => cases h
  | int =>
    simp only [parse] at h
    split at h
    · cases h
    · cases h; exact .inl ⟨.inl rfl, rfl⟩
  | float =>
    simp only [parse] at h
    split at h
    · cases h
    · cases h; exact .inl ⟨.inr rfl, rfl⟩
  | bool =>
    have h0 := h
    simp only [parse] at h
    rcases toLower_cases w with ⟨e, _⟩ | ⟨e, hc⟩
    · rw [e] at h
      simp only at h
      split at h
      · cases h
      · split at h
        · cases h
        · cases h; exact .inr (.inl ⟨rfl, rfl, fun v hv => by rw [(parse_iff _ _ _).2 hv] at h0; cases h0⟩)
    · rw [e] at h
      cases h
      exact .inr (.inr ⟨rfl, rfl, hc⟩)

theorem LateStop.not_early {cmd : Cmd} {ws : List Str} {s : Stop} (h : LateStop cmd ws s) :
    (∀ a b, s ≠ .threw (.cmdNotFound a b)) ∧ ∀ n m, s ≠ .threw (.mismatch n m) := by
  have key : ∀ {k w s}, parse k w = .error s → (∀ a b, s ≠ .threw (.cmdNotFound a b)) ∧ ∀ n m, s ≠ .threw (.mismatch n m) := by
    intro k w s h
    rcases parse_err h with ⟨_, rfl⟩ | ⟨_, rfl, _⟩ | ⟨_, rfl, _⟩ <;> constructor <;> intros <;> simp
  cases h with
  | position => simp
  | packCount => simp
  | left => simp
  | flag => simp
  | pack _ _ h => exact key h
  | arg _ _ h => exact key h
  | argOpt _ _ h => exact key h
  | value _ _ h => exact key h
  | valueOpt _ _ h => exact key h

theorem setValues_same (cmd : Cmd) (sc : Scan) (as os en : List Str) : SameDeclaration cmd (setValues cmd sc as os en).1 := by
  have h1 := setPacks_same cmd.packs en
  have h2 := setArgs_same cmd.args as
  have h3 := setArgsOpt_same cmd.argsOpt os
  have h4 := activateFlags_same sc.flags cmd.flags
  have h5 := setFlagValues_same cmd.flagValues sc.fvValues
  have h6 := setFlagValuesOpt_same cmd.flagValuesOpt sc.fvoValues
  unfold setValues
  split
  · rename_i h; rw [h] at h1; exact ⟨rfl, rfl, rfl, h1, rfl, rfl, rfl⟩
  · rename_i h
    rw [h] at h1
    simp only
    split
    · exact ⟨rfl, rfl, rfl, h1, rfl, rfl, rfl⟩
    · split
      · rename_i h; rw [h] at h2; exact ⟨rfl, h2, rfl, h1, rfl, rfl, rfl⟩
      · rename_i h
        rw [h] at h2
        split
        · rename_i h; rw [h] at h3; exact ⟨rfl, h2, h3, h1, rfl, rfl, rfl⟩
        · rename_i h
          rw [h] at h3
          split
          · rename_i h; rw [h] at h4; exact ⟨rfl, h2, h3, h1, h4, rfl, rfl⟩
          · rename_i h
            rw [h] at h4
            split
            · rename_i h; rw [h] at h5; exact ⟨rfl, h2, h3, h1, h4, h5, rfl⟩
            · rename_i h
              rw [h] at h5
              exact ⟨rfl, h2, h3, h1, h4, h5, h6⟩

end Verif.CmdLine
