import Verif.ToStr.Spec

/-!
# C141: conversions to text do not influence each other
-/

namespace Verif.ToStr

variable {F V : Type} {L : Lib F V}

/-- The ideal state as the stream written to. -/
def Ideal.strm (i : Ideal F) : Stream F := { text := i.text, flags := i.flags, good := i.good }

theorem Ideal.add_thrown (i : Ideal F) (t : List Char) (f : F) : (i.add t f).thrown = i.thrown := by
  unfold Ideal.add; split <;> rfl

theorem Ideal.add_strm (i : Ideal F) (r : List Char × F) : (i.add r.1 r.2).strm = i.strm.write r := by
  unfold Ideal.add Stream.write Ideal.strm; split <;> simp_all

theorem Ideal.raw_strm (i : Ideal F) (t : List Char) : (i.add t i.flags).strm = i.strm.raw t := by
  unfold Ideal.add Stream.raw Ideal.strm; split <;> simp_all

mutual
/-- A stringifier without conversions inside does to the stream it writes to what it does to a stream of its own. -/
theorem exec_flat : ∀ (a : Act F V) (i : Ideal F), Flat a → i.thrown = false →
    exec L a { tls := i.strm, own := none } = ({ tls := (ideal L a i).strm, own := none }, (ideal L a i).thrown)
  | .out v, i, _, ht => by
    simp only [exec, St.on, ideal, Ideal.add_thrown, ht, Ideal.add_strm i (L.put i.flags v)]; rfl
  | .manip f, i, _, ht => by simp [exec, St.on, ideal, Ideal.strm, ht]
  | .fail, i, _, ht => by simp [exec, St.on, ideal, Ideal.strm, ht]
  | .throw, i, _, ht => by simp [exec, ideal, Ideal.strm]
  | .fast t, i, _, ht => by
    simp only [exec, St.on, ideal, Ideal.add_thrown, ht, Ideal.add_strm i (L.putStr i.flags t)]; rfl
  | .part body, i, h, ht => by
    have e := execAll_flat body (i.add L.reset i.flags) h (by rw [Ideal.add_thrown, ht])
    rw [Ideal.raw_strm] at e
    simp only [exec, St.on, e, ideal]
    by_cases hj : (idealAll L body (i.add L.reset i.flags)).thrown
    · simp [hj]
    · simp only [hj, Bool.false_eq_true, if_false, Ideal.add_thrown, Ideal.raw_strm]
  | .toStr _, _, h, _ => h.elim
theorem execAll_flat : ∀ (as : List (Act F V)) (i : Ideal F), FlatAll as → i.thrown = false →
    execAll L as { tls := i.strm, own := none } = ({ tls := (idealAll L as i).strm, own := none }, (idealAll L as i).thrown)
  | [], i, _, ht => by simp [execAll, idealAll, ht]
  | a :: as, i, h, ht => by
    have e := exec_flat a i h.1 ht
    simp only [execAll, e, idealAll]
    by_cases hj : (ideal L a i).thrown
    · simp [hj]
    · simp only [hj, Bool.false_eq_true, if_false]
      exact execAll_flat as _ h.2 (by simpa using hj)
end

/-- `toStr` of a value without conversions inside, on a shared stream in its first state. -/
theorem toStr_flat {x : List (Act F V)} (hx : FlatAll x) {s : Stream F} (hf : s.flags = L.init) (hg : s.good = true) :
    toStr L s x = ((fresh L x).strm, textOf L x) := by
  have e := execAll_flat (L := L) x ⟨[], L.init, true, false⟩ hx rfl
  have hs : ({ s with text := [] } : Stream F) = (⟨[], L.init, true, false⟩ : Ideal F).strm := by
    cases s; simp_all [Ideal.strm]
  simp only [toStr, hs, e, textOf, fresh]
  rfl

mutual
/-- The same for output to another stream, with conversions inside. -/
theorem exec_inner : ∀ (a : Act F V) (i : Ideal F) (s : Stream F), Inner L a → i.thrown = false → s.flags = L.init → s.good = true →
    ∃ s', exec L a { tls := s, own := some i.strm } = ({ tls := s', own := some (ideal L a i).strm }, (ideal L a i).thrown) ∧
      s'.flags = L.init ∧ s'.good = true
  | .out v, i, s, _, ht, hf, hg => by
    refine ⟨s, ?_, hf, hg⟩
    simp only [exec, St.on, ideal, Ideal.add_thrown, ht, Ideal.add_strm i (L.put i.flags v)]; rfl
  | .manip f, i, s, _, ht, hf, hg => ⟨s, by simp [exec, St.on, ideal, Ideal.strm, ht], hf, hg⟩
  | .fail, i, s, _, ht, hf, hg => ⟨s, by simp [exec, St.on, ideal, Ideal.strm, ht], hf, hg⟩
  | .throw, i, s, _, ht, hf, hg => ⟨s, by simp [exec, ideal, Ideal.strm], hf, hg⟩
  | .fast t, i, s, _, ht, hf, hg => by
    refine ⟨s, ?_, hf, hg⟩
    simp only [exec, St.on, ideal, Ideal.add_thrown, ht, Ideal.add_strm i (L.putStr i.flags t)]; rfl
  | .part body, i, s, h, ht, hf, hg => by
    obtain ⟨s', e, hf', hg'⟩ := execAll_inner body (i.add L.reset i.flags) s h (by rw [Ideal.add_thrown, ht]) hf hg
    rw [Ideal.raw_strm] at e
    refine ⟨s', ?_, hf', hg'⟩
    simp only [exec, St.on, e, ideal]
    by_cases hj : (idealAll L body (i.add L.reset i.flags)).thrown
    · simp [hj]
    · simp only [hj, Bool.false_eq_true, if_false, Ideal.add_thrown, Ideal.raw_strm]
  | .toStr body, i, s, h, ht, hf, hg => by
    have e := execAll_flat (L := L) body ⟨[], L.init, true, false⟩ h.1 rfl
    have hs : ({ s with text := [] } : Stream F) = (⟨[], L.init, true, false⟩ : Ideal F).strm := by
      cases s; simp_all [Ideal.strm]
    refine ⟨(fresh L body).strm, ?_, h.2.1, h.2.2⟩
    simp only [exec, hs, e, ideal]
    by_cases hj : (idealAll L body ⟨[], L.init, true, false⟩).thrown
    · simp [hj, fresh, Ideal.strm]
    · simp only [hj, Bool.false_eq_true, if_false, Ideal.add_thrown, ht, St.on]
      rw [Ideal.add_strm i (L.putStr i.flags _)]
      rfl
theorem execAll_inner : ∀ (as : List (Act F V)) (i : Ideal F) (s : Stream F), InnerAll L as → i.thrown = false →
    s.flags = L.init → s.good = true →
    ∃ s', execAll L as { tls := s, own := some i.strm } =
        ({ tls := s', own := some (idealAll L as i).strm }, (idealAll L as i).thrown) ∧
      s'.flags = L.init ∧ s'.good = true
  | [], i, s, _, ht, hf, hg => ⟨s, by simp [execAll, idealAll, ht], hf, hg⟩
  | a :: as, i, s, h, ht, hf, hg => by
    obtain ⟨s', e, hf', hg'⟩ := exec_inner a i s h.1 ht hf hg
    simp only [execAll, e, idealAll]
    by_cases hj : (ideal L a i).thrown
    · exact ⟨s', by simp [hj], hf', hg'⟩
    · simp only [hj, Bool.false_eq_true, if_false]
      exact execAll_inner as _ s' h.2 (by simpa using hj) hf' hg'
end

/-- **C141.** In every history of conversions by well-behaved stringifiers, each gives the text of its value, whatever was converted
before, also if stringifiers have thrown exceptions. -/
theorem C141_history_partial (cs : List (Call F V)) (h : ∀ c ∈ cs, Tidy L c) :
    (runs L (Stream.new L) cs).2 = cs.map (fun c => textOf L c.value) := by
  have main : ∀ (cs : List (Call F V)) (s : Stream F), (∀ c ∈ cs, Tidy L c) → s.flags = L.init → s.good = true →
      (runs L s cs).2 = cs.map (fun c => textOf L c.value) := by
    intro cs
    induction cs with
    | nil => intros; rfl
    | cons c cs ih =>
      intro s h hf hg
      have hc := h c (by simp)
      cases c with
      | toStr x =>
        have e : Call.run L s (.toStr x) = _ := toStr_flat hc.1 hf hg
        simp only [runs, e, List.map_cons]
        rw [ih _ (fun c hx => h c (by simp [hx])) hc.2.1 hc.2.2]
        rfl
      | stringify x =>
        obtain ⟨s', e, hf', hg'⟩ := execAll_inner (L := L) x ⟨[], L.init, true, false⟩ s hc rfl hf hg
        have e' : Call.run L s (.stringify x) = (s', textOf L x) := by
          have hn : (Stream.new L : Stream F) = (⟨[], L.init, true, false⟩ : Ideal F).strm := rfl
          simp only [Call.run, stringify, hn, e, textOf, fresh]
          rfl
        simp only [runs, e', List.map_cons]
        rw [ih _ (fun c hx => h c (by simp [hx])) hf' hg']
        rfl
  exact main cs _ h rfl rfl

/-! ### What goes wrong otherwise -/

mutual
theorem exec_dead : ∀ (a : Act F V) (s : Stream F), s.good = false →
    ∃ s' b, exec L a { tls := s, own := none } = ({ tls := s', own := none }, b) ∧ s'.good = false ∧ (s.text = [] → s'.text = [])
  | .out v, s, h => ⟨s, false, by simp [exec, St.on, Stream.write, h], h, id⟩
  | .manip f, s, h => ⟨_, false, rfl, h, id⟩
  | .fail, s, _ => ⟨_, false, rfl, rfl, id⟩
  | .throw, s, h => ⟨s, true, rfl, h, id⟩
  | .fast t, s, h => ⟨s, false, by simp [exec, St.on, Stream.write, h], h, id⟩
  | .part body, s, h => by
    have hr : s.raw L.reset = s := by simp [Stream.raw, h]
    obtain ⟨s', b, e, h', ht⟩ := execAll_dead body s h
    refine ⟨s', b, ?_, h', ht⟩
    simp only [exec, St.on, hr, e]
    cases b <;> simp [Stream.raw, h']
  | .toStr body, s, h => by
    obtain ⟨s', b, e, h', ht⟩ := execAll_dead body { s with text := [] } h
    refine ⟨s', b, ?_, h', fun _ => ht rfl⟩
    simp only [exec, e]
    cases b <;> simp [St.on, Stream.write, h']
theorem execAll_dead : ∀ (as : List (Act F V)) (s : Stream F), s.good = false →
    ∃ s' b, execAll L as { tls := s, own := none } = ({ tls := s', own := none }, b) ∧ s'.good = false ∧ (s.text = [] → s'.text = [])
  | [], s, h => ⟨s, false, rfl, h, id⟩
  | a :: as, s, h => by
    obtain ⟨s1, b, e, h1, t1⟩ := exec_dead a s h
    simp only [execAll, e]
    cases b with
    | true => exact ⟨s1, true, rfl, h1, t1⟩
    | false =>
      obtain ⟨s2, b, e2, h2, t2⟩ := execAll_dead as s1 h1
      exact ⟨s2, b, by simpa using e2, h2, fun h => t2 (t1 h)⟩
end

theorem runs_append (s : Stream F) (cs ds : List (Call F V)) :
    runs L s (cs ++ ds) = ((runs L (runs L s cs).1 ds).1, (runs L s cs).2 ++ (runs L (runs L s cs).1 ds).2) := by
  induction cs generalizing s with
  | nil => rfl
  | cons c cs ih => simp only [List.cons_append, runs, ih]

/-- A stream in an error state gives empty texts for ever. -/
theorem dead_for_ever (xs : List (List (Act F V))) : ∀ (s : Stream F), s.good = false →
    ∀ r ∈ (runs L s (xs.map .toStr)).2, r = some [] ∨ r = none := by
  induction xs with
  | nil => intro s _ r hr; cases hr
  | cons x xs ih =>
    intro s h r hr
    obtain ⟨s', b, e, h', ht⟩ := execAll_dead (L := L) x { s with text := [] } h
    have e' : Call.run L s (.toStr x) = (s', if b then none else some []) := by
      simp only [Call.run, toStr, e, ht rfl]
    simp only [List.map_cons, runs, e'] at hr
    rcases List.mem_cons.1 hr with rfl | hr
    · cases b <;> simp
    · exact ih s' h' r hr

/-- **C141, errors stay.** Once one conversion puts the stream into an error state, every later one on the thread, of whatever
value, gives the empty text (or throws). -/
theorem C141_error_stays (cs : List (Call F V)) (hcs : ∀ c ∈ cs, Tidy L c) (x : List (Act F V)) (hx : FlatAll x)
    (hbad : (fresh L x).good = false) (ys : List (List (Act F V))) :
    ∃ rs, (runs L (Stream.new L) (cs ++ .toStr x :: ys.map .toStr)).2 = cs.map (fun c => textOf L c.value) ++ textOf L x :: rs ∧
      rs.length = ys.length ∧ ∀ r ∈ rs, r = some [] ∨ r = none := by
  have hst : ∀ (cs : List (Call F V)) (s : Stream F), (∀ c ∈ cs, Tidy L c) → s.flags = L.init → s.good = true →
      (runs L s cs).1.flags = L.init ∧ (runs L s cs).1.good = true := by
    intro cs
    induction cs with
    | nil => intro s _ hf hg; exact ⟨hf, hg⟩
    | cons c cs ih =>
      intro s h hf hg
      have hc := h c (by simp)
      cases c with
      | toStr x =>
        have e : Call.run L s (.toStr x) = _ := toStr_flat hc.1 hf hg
        simp only [runs, e]
        exact ih _ (fun c hx => h c (by simp [hx])) hc.2.1 hc.2.2
      | stringify x =>
        obtain ⟨s', e, hf', hg'⟩ := execAll_inner (L := L) x ⟨[], L.init, true, false⟩ s hc rfl hf hg
        have e' : (Call.run L s (.stringify x)).1 = s' := by
          have hn : (Stream.new L : Stream F) = (⟨[], L.init, true, false⟩ : Ideal F).strm := rfl
          simp only [Call.run, stringify, hn, e]
        simp only [runs, e']
        exact ih _ (fun c hx => h c (by simp [hx])) hf' hg'
  obtain ⟨hf, hg⟩ := hst cs (Stream.new L) hcs rfl rfl
  have e : Call.run L (runs L (Stream.new L) cs).1 (.toStr x) = _ := toStr_flat hx hf hg
  rw [runs_append, C141_history_partial cs hcs]
  refine ⟨(runs L (fresh L x).strm (ys.map .toStr)).2, ?_, ?_, ?_⟩
  · simp only [runs, e]
  · generalize (fresh L x).strm = s
    induction ys generalizing s with
    | nil => rfl
    | cons y ys ih => simp only [List.map_cons, runs, List.length_cons, ih]
  · exact dead_for_ever ys _ hbad

/-- **C141, flags stay.** A conversion that changes the formatting of the stream changes what the next one gives: that is written
with the flags left behind. -/
theorem C141_flags_stay (x y : List (Act F V)) (hx : FlatAll x) (hy : FlatAll y) (hg : (fresh L x).good = true) :
    (runs L (Stream.new L) [.toStr x, .toStr y]).2 =
      [textOf L x,
       let j := idealAll L y ⟨[], (fresh L x).flags, true, false⟩
       if j.thrown then none else some j.text] := by
  have e : Call.run L (Stream.new L) (.toStr x) = _ := toStr_flat hx rfl rfl
  have e2 := execAll_flat (L := L) y ⟨[], (fresh L x).flags, true, false⟩ hy rfl
  have hs : ({ (fresh L x).strm with text := [] } : Stream F) = (⟨[], (fresh L x).flags, true, false⟩ : Ideal F).strm := by
    simp [Ideal.strm, hg]
  have e3 : Call.run L (fresh L x).strm (.toStr y) =
      ((idealAll L y ⟨[], (fresh L x).flags, true, false⟩).strm,
       let j := idealAll L y ⟨[], (fresh L x).flags, true, false⟩
       if j.thrown then none else some j.text) := by
    simp only [Call.run, toStr, hs, e2]
    rfl
  simp only [runs, e, e3]

/-- A stream that held some text before. -/
def Ideal.pre (t : List Char) (i : Ideal F) : Ideal F := { i with text := t ++ i.text }

theorem Ideal.add_pre (t : List Char) (i : Ideal F) (u : List Char) (f : F) : (i.pre t).add u f = (i.add u f).pre t := by
  unfold Ideal.add Ideal.pre; split <;> simp

mutual
theorem ideal_pre (t : List Char) : ∀ (a : Act F V) (i : Ideal F), ideal L a (i.pre t) = (ideal L a i).pre t
  | .out v, i => by simp only [ideal]; exact Ideal.add_pre _ _ _ _
  | .manip f, i => rfl
  | .fail, i => rfl
  | .throw, i => rfl
  | .fast u, i => by simp only [ideal]; exact Ideal.add_pre _ _ _ _
  | .part body, i => by
    have e := idealAll_pre t body (i.add L.reset i.flags)
    rw [← Ideal.add_pre] at e
    have e' : idealAll L body ((i.pre t).add L.reset (i.pre t).flags) = _ := e
    simp only [ideal, e']
    by_cases h : (idealAll L body (i.add L.reset i.flags)).thrown
    · rw [if_pos h, if_pos (show ((idealAll L body (i.add L.reset i.flags)).pre t).thrown = true from h)]
    · rw [if_neg h, if_neg (show ¬ ((idealAll L body (i.add L.reset i.flags)).pre t).thrown = true from h)]
      exact Ideal.add_pre _ _ _ _
  | .toStr body, i => by
    simp only [ideal]
    split
    · rfl
    · exact Ideal.add_pre _ _ _ _
theorem idealAll_pre (t : List Char) : ∀ (as : List (Act F V)) (i : Ideal F), idealAll L as (i.pre t) = (idealAll L as i).pre t
  | [], i => rfl
  | a :: as, i => by
    simp only [idealAll, ideal_pre t a i]
    by_cases h : (ideal L a i).thrown
    · rw [if_pos h, if_pos (show ((ideal L a i).pre t).thrown = true from h)]
    · rw [if_neg h, if_neg (show ¬ ((ideal L a i).pre t).thrown = true from h)]
      exact idealAll_pre t as _
end

/-- **C141, conversions inside a conversion.** A stringifier that has written `a`, then writes `toStr(b)`, then `c`, gives the
text of `b` twice, followed by that of `c`: what had been written before is lost. -/
theorem C141_nested_wrong (a b c : List (Act F V)) (ta tb tc : List Char)
    (hstr : ∀ t, L.putStr L.init t = (t, L.init))
    (ha : FlatAll a ∧ Leaves L a ∧ textOf L a = some ta) (hb : FlatAll b ∧ Leaves L b ∧ textOf L b = some tb)
    (hc : FlatAll c ∧ Leaves L c ∧ textOf L c = some tc) :
    (toStr L (Stream.new L) (a ++ .toStr b :: c)).2 = some (tb ++ tb ++ tc) ∧
      ((toStr L (Stream.new L) (a ++ .toStr b :: c)).2 = textOf L (a ++ .toStr b :: c) ↔ ta = tb) := by
  have happ : ∀ (a b : List (Act F V)) (s : St F), execAll L (a ++ b) s =
      if (execAll L a s).2 then ((execAll L a s).1, true) else execAll L b (execAll L a s).1 := by
    intro a
    induction a with
    | nil => intro b s; simp [execAll]
    | cons x a ih =>
      intro b s
      simp only [List.cons_append, execAll]
      by_cases h : (exec L x s).2
      · simp [h]
      · simp only [h, Bool.false_eq_true, if_false]; exact ih b _
  have iapp : ∀ (a b : List (Act F V)) (i : Ideal F), i.thrown = false → idealAll L (a ++ b) i =
      if (idealAll L a i).thrown then idealAll L a i else idealAll L b (idealAll L a i) := by
    intro a
    induction a with
    | nil => intro b i hi; simp [idealAll, hi]
    | cons x a ih =>
      intro b i hi
      simp only [List.cons_append, idealAll]
      by_cases h : (ideal L x i).thrown
      · simp [h]
      · simp only [h, Bool.false_eq_true, if_false]; exact ih b _ (by simpa using h)
  have look : ∀ {x : List (Act F V)} {t}, Leaves L x → textOf L x = some t → fresh L x = ⟨t, L.init, true, false⟩ := by
    intro x t h ht
    unfold textOf at ht
    by_cases hh : (fresh L x).thrown
    · simp [hh] at ht
    · simp only [hh, Bool.false_eq_true, if_false, Option.some.injEq] at ht
      cases hx : fresh L x
      rw [hx] at hh ht
      unfold Leaves at h
      rw [hx] at h
      simp_all
  have fa := look ha.2.1 ha.2.2
  have fb := look hb.2.1 hb.2.2
  have fc := look hc.2.1 hc.2.2
  have hcc : ∀ t, idealAll L c ⟨t, L.init, true, false⟩ = ⟨t ++ tc, L.init, true, false⟩ := by
    intro t
    have := idealAll_pre (L := L) t c ⟨[], L.init, true, false⟩
    rw [show idealAll L c ⟨[], L.init, true, false⟩ = _ from fc] at this
    simpa [Ideal.pre] using this
  have ea := execAll_flat (L := L) a ⟨[], L.init, true, false⟩ ha.1 rfl
  have eb := execAll_flat (L := L) b ⟨[], L.init, true, false⟩ hb.1 rfl
  have ec := execAll_flat (L := L) c ⟨tb ++ tb, L.init, true, false⟩ hc.1 rfl
  rw [show idealAll L a ⟨[], L.init, true, false⟩ = _ from fa] at ea
  rw [show idealAll L b ⟨[], L.init, true, false⟩ = _ from fb] at eb
  rw [hcc] at ec
  simp only [Ideal.strm] at ea eb ec
  have e1 : (toStr L (Stream.new L) (a ++ .toStr b :: c)).2 = some (tb ++ tb ++ tc) := by
    simp only [toStr, Stream.new, happ, ea, Bool.false_eq_true, if_false, execAll, exec, eb, St.on, Stream.write, if_true, hstr, ec]
  have e2 : textOf L (a ++ .toStr b :: c) = some (ta ++ tb ++ tc) := by
    have : fresh L (a ++ .toStr b :: c) = ⟨ta ++ tb ++ tc, L.init, true, false⟩ := by
      unfold fresh
      rw [iapp _ _ _ rfl, show idealAll L a ⟨[], L.init, true, false⟩ = _ from fa]
      simp only [Bool.false_eq_true, if_false, idealAll, ideal]
      rw [show idealAll L b ⟨[], L.init, true, false⟩ = _ from fb]
      simp only [Bool.false_eq_true, if_false, Ideal.add, if_true, hstr, hcc]
    simp [textOf, this]
  refine ⟨e1, ?_⟩
  rw [e1, e2]
  simp only [Option.some.injEq]
  constructor
  · intro h
    have := List.append_cancel_right (List.append_cancel_right h)
    exact this.symm
  · rintro rfl; rfl

/-! ## Cases -/

/-- A small library: numbers in decimal, or in base two if the flag is set; no reset sequences. -/
def demo : Lib Bool (Nat ⊕ String) where
  init := false
  put f v := match v with
    | .inl n => (Nat.toDigits (if f then 2 else 10) n, f)
    | .inr s => (s.toList, f)
  putStr f t := (t, f)
  reset := []

/-- A point with a stringifier that writes its parts. -/
def point (x y : Nat) : List (Act Bool (Nat ⊕ String)) :=
  [.out (.inr "("), .part [.out (.inl x)], .out (.inr ", "), .part [.out (.inl y)], .out (.inr ")")]

/-- A stringifier that writes in base two and restores the flags. -/
def tidyBin (x : Nat) : List (Act Bool (Nat ⊕ String)) := [.manip fun _ => true, .out (.inl x), .manip fun _ => false]

/-- One that does not restore them. -/
def untidyBin (x : Nat) : List (Act Bool (Nat ⊕ String)) := [.manip fun _ => true, .out (.inl x)]

example : Tidy demo (.toStr (point 3 14)) := by
  refine ⟨by simp [point, FlatAll, Flat], ?_, ?_⟩ <;> rfl
example : Tidy demo (.toStr (tidyBin 5)) := by
  refine ⟨by simp [tidyBin, FlatAll, Flat], ?_, ?_⟩ <;> rfl
example : Tidy demo (.stringify [.out (.inr "p="), .toStr (point 1 2), .fast ['7']]) := by
  refine ⟨trivial, ⟨⟨by simp [point, FlatAll, Flat], ?_, ?_⟩, trivial, trivial⟩⟩ <;> rfl
example : textOf demo (point 3 14) = some "(3, 14)".toList := by decide +kernel
example : textOf demo (tidyBin 5) = some "101".toList := by decide +kernel

/-- Flags left behind. -/
example : (runs demo (Stream.new demo) [.toStr (untidyBin 5), .toStr (point 3 4)]).2 =
    [some "101".toList, some "(11, 100)".toList] := by decide +kernel
/-- An error left behind. -/
example : (runs demo (Stream.new demo) [.toStr [.out (.inl 5), .fail], .toStr (point 3 4)]).2 = [some ['5'], some []] := by
  decide +kernel
/-- A conversion inside. -/
example : (toStr demo (Stream.new demo) ([.out (.inr "value ")] ++ .toStr (point 3 4) :: [.out (.inr "!")])).2 =
    some "(3, 4)(3, 4)!".toList := by decide +kernel
/-- The hypotheses of `C141_nested_wrong`. -/
example : (∀ t, demo.putStr demo.init t = (t, demo.init)) ∧ FlatAll [Act.out (F := Bool) (V := Nat ⊕ String) (.inr "value ")] ∧
    Leaves demo [.out (.inr "value ")] ∧ textOf demo [.out (.inr "value ")] = some "value ".toList := by
  refine ⟨fun _ => rfl, ⟨trivial, trivial⟩, ⟨rfl, rfl⟩, by decide +kernel⟩

end Verif.ToStr
