import Verif.Tmpl.LemmasSect

/-! # One pass over a well-formed template -/

namespace Verif.Tmpl

open Verif Spec

/-- The same pass at equal positions. -/
theorem ev_of {dbg : Bool} {set : Settings} {ch : List Dict} {sep : Bool} {src src' : Str} {i i' e e' : Nat} {res : Outcome (Str × Bool)}
    (h : Ev (fun f => expand dbg set src f ch i e sep = res)) (hs : src' = src) (hi : i' = i) (he : e' = e) :
    Ev (fun f => expand dbg set src' f ch i' e' sep = res) := by
  subst hs hi he; exact h

theorem symbol_key {dbg : Bool} {k pre post : Str} (h1 : k.head? ≠ some '#') (h2 : k.head? ≠ some '*') :
    symbol dbg (pre ++ ('{' :: '{' :: (k ++ '}' :: '}' :: post))) (pre.length + 2) = .ok (.normal, pre.length + 2) := by
  cases k with
  | nil =>
    have : getC dbg (pre ++ ('{' :: '{' :: ([] ++ '}' :: '}' :: post))) (pre.length + 2) = .ok '}' := getC_ok (by rw [at_pre]; rfl)
    rw [symbol, this, Outcome.bind_ok]; rfl
  | cons c k =>
    have : getC dbg (pre ++ ('{' :: '{' :: ((c :: k) ++ '}' :: '}' :: post))) (pre.length + 2) = .ok c := getC_ok (by rw [at_pre]; rfl)
    rw [symbol, this, Outcome.bind_ok, if_neg (by simpa using h1), if_neg (by simpa using h2)]; rfl

theorem expand_pass {dbg : Bool} {set : Settings} {val : Str → Tmpl} (t : Tmpl) : ∀ (pre post : Str) (ch : List Dict) (sep : Bool),
    pre.getLast? ≠ some '\\' → Wf t → (∀ d ∈ ch, ValOk val d) →
    Ev (fun f => expand dbg set (pre ++ (source t ++ post)) f ch pre.length (pre.length + (source t).length) sep
      = .ok (source (residual set val t ch sep), found t ch)) := by
  induction t with
  | nil =>
    intro pre post ch sep _ _ _
    refine (Ev.true (P := fun _ => True) (fun _ => trivial)).succ (fun f _ => ?_)
    rw [expand, if_neg (by simp [source])]; rfl
  | text s r ih =>
    intro pre post ch sep hl hw hv
    have h := ih (pre ++ s) post ch sep (getLast?_append_textOk hl hw.1) hw.2 hv
    have e : pre ++ (source (.text s r) ++ post) = pre ++ (s ++ (source r ++ post)) := by simp [source]
    rw [e]
    exact expand_text s pre (source r ++ post) _ hw.1 (by simp [source]) (ev_of h (by simp) (by simp) (by simp [source]; omega))
  | brace r ih =>
    intro pre post ch sep hl hw hv
    have h := ih (pre ++ ['\\', '{']) post ch sep (by simp) hw hv
    have h1 := ev_of (src' := pre ++ (source (.brace r) ++ post)) (i' := pre.length + 1 + 1) (e' := pre.length + (source (.brace r)).length) h
      (by simp [source]) (by simp) (by simp [source]; omega)
    have e : pre ++ (source (.brace r) ++ post) = pre ++ ('\\' :: '{' :: (source r ++ post)) := by simp [source]
    have e' : pre ++ (source (.brace r) ++ post) = (pre ++ ['\\']) ++ ('{' :: (source r ++ post)) := by simp [source]
    have h2 : Ev (fun f => expand dbg set (pre ++ (source (.brace r) ++ post)) f ch (pre.length + 1) (pre.length + (source (.brace r)).length) sep
        = .ok ('{' :: source (residual set val r ch sep), found r ch)) := h1.succ (fun f hf => expand_plain (dbg := dbg) (i := pre.length + 1) (c := '{') (by simp [source])
      (getC_ok (by rw [e, at_pre]; rfl)) (by
        have hp := before_pre (pre ++ ['\\']) ('{' :: (source r ++ post)) (by simp)
        rw [← e'] at hp
        have g : getC dbg (pre ++ (source (.brace r) ++ post)) pre.length = .ok '\\' := getC_ok (by simpa using hp)
        simp [isPlain, escaped, g]) hf)
    exact h2.succ (fun f hf => expand_plain (dbg := dbg) (c := '\\') (by simp [source]) (getC_ok (by rw [e, at_pre0]; rfl)) (by simp [isPlain]) hf)
  | key k r ih =>
    intro pre post ch sep hl hw hv
    have h := ih (pre ++ ['{', '{'] ++ k ++ ['}', '}']) post ch sep (last_close _) hw.2.2 hv
    have h1 := ev_of (src' := pre ++ (source (.key k r) ++ post)) (i' := pre.length + 2 + 0 + k.length + 2) (e' := pre.length + (source (.key k r)).length) h
      (by simp [source]) (by simp; omega) (by simp [source]; omega)
    have e : pre ++ (source (.key k r) ++ post) = pre ++ ('{' :: '{' :: ([] ++ (k ++ '}' :: '}' :: (source r ++ post)))) := by simp [source]
    refine expand_tag (kind := .normal) e hl hw.1.2 (by simp [source]) ?_ (h1.mp (fun f hf => ?_))
    · rw [e]; exact symbol_key hw.2.1.1 hw.2.1.2.1
    · simp only [List.length_nil, hf, Outcome.bind_ok, Outcome.pure_eq, replace, residual, found]
      cases hk : lookupKey ch k with
      | some v => simp [source_append, show source (val v) = v from allValues_key (P := fun _ v => source (val v) = v) hv hk]
      | none => by_cases hs : set = .maintain <;> simp [hs, source]
  | sep s r ih =>
    intro pre post ch sep hl hw hv
    have h := ih (pre ++ ['{', '{', '*'] ++ s ++ ['}', '}']) post ch sep (last_close _) hw.2.2 hv
    have h1 := ev_of (src' := pre ++ (source (.sep s r) ++ post)) (i' := pre.length + 2 + 1 + s.length + 2) (e' := pre.length + (source (.sep s r)).length) h
      (by simp [source]) (by simp; omega) (by simp [source]; omega)
    have e : pre ++ (source (.sep s r) ++ post) = pre ++ ('{' :: '{' :: (['*'] ++ (s ++ '}' :: '}' :: (source r ++ post)))) := by simp [source]
    refine expand_tag (kind := .separator) e hl hw.2.1 (by simp [source]) ?_ (h1.mp (fun f hf => ?_))
    · have : getC dbg (pre ++ (source (.sep s r) ++ post)) (pre.length + 2) = .ok '*' := getC_ok (by rw [e, at_pre]; rfl)
      rw [symbol, this, Outcome.bind_ok]; rfl
    · simp only [List.length_cons, List.length_nil, hf, Outcome.bind_ok, Outcome.pure_eq, residual, found]
      cases sep <;> simp [source]
  | sect k b r ihb ihr =>
    intro pre post ch sep hl hw hv
    obtain ⟨⟨hw1, hw1'⟩, hw2, hw3, hw4, hw5⟩ := hw
    obtain ⟨src, hsrc⟩ : ∃ src, src = pre ++ (source (.sect k b r) ++ post) := ⟨_, rfl⟩
    rw [← hsrc]
    have e : src = pre ++ ('{' :: '{' :: (['#'] ++ (k ++ '}' :: '}' :: (source b ++ ('{' :: '{' :: '/' :: (k ++ '}' :: '}' :: (source r ++ post))))))) := by
      rw [hsrc]; simp [source]
    -- the contents
    obtain ⟨p, hp⟩ : ∃ p, p = pre ++ ['{', '{', '#'] ++ k ++ ['}', '}'] := ⟨_, rfl⟩
    have hplen : p.length = pre.length + 3 + k.length + 2 := by rw [hp]; simp; omega
    have hpl : p.getLast? ≠ some '\\' := by rw [hp]; exact last_close _
    have ep : src = p ++ (source b ++ ('{' :: '{' :: '/' :: (k ++ '}' :: '}' :: (source r ++ post)))) := by rw [e, hp]; simp
    have hfe := findEnd_ok (dbg := dbg) hw1' b p (source r ++ post) (by simp [hp]) hpl hw4 hw2 (last_source b p hpl hw4)
    rw [← ep] at hfe
    -- the rest
    have h := ihr (p ++ source b ++ ['{', '{', '/'] ++ k ++ ['}', '}']) post ch sep (last_close _) hw5 hv
    have h1 := ev_of (src' := src) (i' := p.length + (source b).length + 3 + k.length + 1 + 1) (e' := pre.length + (source (.sect k b r)).length) h
      (by rw [ep]; simp) (by simp; omega) (by simp [source, hplen]; omega)
    have l0 : pre.length + 2 + ['#'].length + k.length + 2 = p.length := by rw [hplen]; simp
    refine expand_tag (kind := .sect) e hl hw1' (by simp [source]) ?_ ?_
    · have : getC dbg src (pre.length + 2) = .ok '#' := getC_ok (by rw [e, at_pre]; rfl)
      rw [symbol, this, Outcome.bind_ok]; rfl
    · -- the assertion after the opening tag
      have g1 : getC dbg src (pre.length + 2 + ['#'].length + k.length + 1) = .ok '}' := by
        refine getC_ok ?_
        have e2 : src = (pre ++ ['{', '{', '#'] ++ k) ++ ('}' :: '}' :: (source b ++ ('{' :: '{' :: '/' :: (k ++ '}' :: '}' :: (source r ++ post))))) := by rw [e]; simp
        rw [e2, show pre.length + 2 + ['#'].length + k.length + 1 = (pre ++ ['{', '{', '#'] ++ k).length + 1 by simp; omega, at_pre]; rfl
      obtain ⟨c, g2, hc⟩ : ∃ c, getC dbg src p.length = .ok c ∧ c ≠ '}' := by
        cases hb : source b with
        | nil => exact ⟨'{', getC_ok (by rw [ep, hb, at_pre0]; rfl), by decide⟩
        | cons c s => exact ⟨c, getC_ok (by rw [ep, hb, at_pre0]; rfl), fun hc => hw3 (by simp [hb, hc])⟩
      -- the section
      have hsec : Ev (fun f => replaceSection dbg set src (fun ch a b s => expand dbg set src f ch a b s) ch k pre.length p.length
          (p.length + (source b).length) (p.length + (source b).length + 3 + k.length + 1 + 1)
          = .ok ((match lookupSect ch k with
            | some (ds, up) => source (joinDicts (fun d sp => residual set val b (d :: up) sp) ds)
            | none => match set with
              | .maintain => source (.sect k b .nil)
              | .onlyCnt => source b
              | .erase => []), (lookupSect ch k).isSome)) := by
        unfold replaceSection
        cases hsl : lookupSect ch k with
        | some du =>
          obtain ⟨ds, up⟩ := du
          have hf := forDicts_ok (g := fun f d sp => expand dbg set src f (d :: up) p.length (p.length + (source b).length) sp)
            (h := fun d sp => residual set val b (d :: up) sp) ds (fun d hd sp => ⟨found b (d :: up), by
              have := ihb p ('{' :: '{' :: '/' :: (k ++ '}' :: '}' :: (source r ++ post))) (d :: up) sp hpl hw4 (allValues_sect hv hsl hd)
              rw [← ep] at this
              exact this⟩)
          refine hf.mp (fun f hf => ?_)
          simp only [hf, Outcome.bind_ok]; rfl
        | none =>
          cases set with
          | maintain =>
            refine .true (fun f => ?_)
            have hcp := copy_ok (dbg := dbg) (source (.sect k b .nil)) pre (source r ++ post)
            have e3 : pre ++ (source (.sect k b .nil) ++ (source r ++ post)) = src := by rw [hsrc]; simp [source]
            rw [e3] at hcp
            have e4 : (source (.sect k b .nil)).length = p.length + (source b).length + 3 + k.length + 1 + 1 - pre.length := by
              simp [source, hplen]; omega
            rw [e4] at hcp
            simp only [hcp, Outcome.bind_ok]; rfl
          | onlyCnt =>
            refine .true (fun f => ?_)
            have hcp := copy_ok (dbg := dbg) (source b) p ('{' :: '{' :: '/' :: (k ++ '}' :: '}' :: (source r ++ post)))
            rw [← ep] at hcp
            have e4 : (source b).length = p.length + (source b).length - p.length := by omega
            rw [e4] at hcp
            simp only [hcp, Outcome.bind_ok]; rfl
          | erase => exact .true (fun f => rfl)
      refine (hfe.mp2 (hsec.mp2 h1 (fun f a b => And.intro a b)) (fun f hf hr => ?_))
      obtain ⟨hr1, hr2⟩ := hr
      simp only [l0, g1, g2, Outcome.bind_ok, Outcome.pure_eq]
      rw [show (('}' : Char) == '}' && c != '}') = true by simp [hc], checkC_true, Outcome.bind_ok, hf, Outcome.bind_ok]
      simp only [hr1, Outcome.bind_ok, hr2]
      congr 1
      simp only [residual, found]
      cases hsl : lookupSect ch k with
      | some du => simp [source_append]
      | none => cases set <;> simp [source, source_append]

end Verif.Tmpl
