import Verif.Json.LemmasSafe

/-! # What follows a text on which the reader stopped by itself does not matter -/

namespace Verif.Json

open Verif

variable {R : Type} {ops : RealOps R}

/-- `o'` has the same value (up to `f`) or the same exception as `o`; nothing is said when `o` is neither. -/
def Foll {α : Type} (p : α → Prop) (f : α → α) : Outcome α → Outcome α → Prop
  | .ok a, o' => p a ∧ o' = .ok (f a)
  | .throw, o' => o' = .throw
  | _, _ => True

theorem Foll.bind {α β : Type} {p : α → Prop} {f : α → α} {q : β → Prop} {g : β → β} {o o' : Outcome α}
    {k k' : α → Outcome β} (h : Foll p f o o') (hk : ∀ a, o = .ok a → p a → Foll q g (k a) (k' (f a))) :
    Foll q g (o >>= k) (o' >>= k') := by
  cases o with
  | ok a => obtain ⟨h1, rfl⟩ := h; exact hk a rfl h1
  | throw => cases h; exact rfl
  | assertFail => trivial
  | ub => trivial
  | diverge => trivial

/-- The two contexts: reading `k` alone with assertions, and reading `k` followed by `t`. -/
structure Ext (x x' : Ctx) (t : List Char) : Prop where
  dbg : x.dbg = true
  size : x'.size = x.size + t.length
  real : x'.realSize = x.realSize

variable {x x' : Ctx} {t : List Char}

theorem cur_foll (hx : Ext x x' t) (rest : List Char) :
    Foll (fun c => ∃ u, rest = c :: u) id (cur x rest) (cur x' (rest ++ t)) := by
  cases rest with
  | nil => rw [cur, hx.dbg]; trivial
  | cons c u => exact ⟨⟨u, rfl⟩, rfl⟩

theorem throwError_foll {α : Type} {p : α → Prop} {f : α → α} (hx : Ext x x' t) (rest : List Char) :
    Foll p f (throwError x rest) (throwError x' (rest ++ t)) := by
  unfold throwError
  rw [hx.size, hx.real, List.length_append, Nat.add_sub_add_right]
  split
  · exact rfl
  · trivial

theorem matchKw_foll (hx : Ext x x' t) : ∀ (kw rest : List Char),
    Foll (fun r => r <:+ rest) (· ++ t) (matchKw x kw rest) (matchKw x' kw (rest ++ t))
  | [], rest => ⟨List.suffix_refl _, rfl⟩
  | k :: ks, rest => by
    rw [matchKw, matchKw]
    refine (cur_foll hx rest).bind ?_
    rintro c - ⟨u, rfl⟩
    simp only [id]
    split
    · exact throwError_foll hx (c :: u)
    · have := matchKw_foll hx ks u
      simp only [List.cons_append, List.tail_cons]
      cases h : matchKw x ks u with
      | ok a => rw [h] at this; exact ⟨this.1.trans (List.suffix_cons _ _), this.2⟩
      | throw => rw [h] at this; exact this
      | assertFail => trivial
      | ub => trivial
      | diverge => trivial

theorem scanEnd_foll (dbg : Bool) (t : List Char) : ∀ {s : List Char} {n : Nat}, scanEnd true s = .ok n →
    scanEnd dbg (s ++ t) = .ok n
  | [], n, h => by simp [scanEnd] at h
  | [c], n, h => by
    rw [scanEnd] at h
    split at h
    · rename_i hc
      cases h
      cases t with
      | nil => rw [List.append_nil, scanEnd, if_pos hc]
      | cons d t => rw [List.cons_append, List.nil_append, scanEnd, if_pos hc]
    · simp at h
  | c :: d :: cs, n, h => by
    rw [scanEnd] at h
    rw [List.cons_append, List.cons_append, scanEnd]
    split at h
    · rename_i hc; rw [if_pos hc]; exact h
    · rename_i hc
      rw [if_neg hc]
      split at h
      · rename_i hb
        rw [if_pos hb]
        split at h
        · cases h
        · rename_i hv
          have hv' : ¬ (dbg && !isValidEscape d) = true := by
            intro h'; apply hv; simp at h' ⊢; exact h'.2
          rw [if_neg hv']
          obtain ⟨m, hm, h⟩ := Outcome.bind_eq_ok.1 h
          rw [scanEnd_foll dbg t hm]; exact h
      · rename_i hb
        rw [if_neg hb]
        obtain ⟨m, hm, h⟩ := Outcome.bind_eq_ok.1 h
        have := scanEnd_foll dbg t hm
        rw [List.cons_append] at this
        rw [this]; exact h

theorem scanEnd_not_throw (dbg : Bool) (s : List Char) : scanEnd dbg s ≠ .throw := by
  rcases scanEnd_ok dbg s with ⟨b, t, _, h, _⟩ | ⟨h, _⟩ | ⟨h, _⟩ <;> rw [h] <;> intro e <;> cases e

theorem getEscape_foll (dbg : Bool) (c : Char) :
    Foll (fun _ => True) id (getEscape true c) (getEscape dbg c) := by
  by_cases hv : (escMeaning c).isSome
  · obtain ⟨m, hm⟩ := Option.isSome_iff_exists.1 hv
    rw [(escMeaning_ok hm true).2, (escMeaning_ok hm dbg).2]
    exact ⟨trivial, rfl⟩
  · have : isValidEscape c = false := by rw [isValidEscape_iff]; simpa using hv
    rw [getEscape]; simp [this, Foll]

theorem convert_foll (hx : Ext x x' t) : ∀ (n : Nat) (rest : List Char),
    Foll (fun r => r.2 <:+ rest) (fun r => (r.1, r.2 ++ t)) (convert x n rest) (convert x' n (rest ++ t)) := by
  intro n
  induction n using Nat.strongRecOn with
  | _ n ih =>
    intro rest
    rw [convert.eq_def x n rest, convert.eq_def x' n (rest ++ t)]
    by_cases hn : n = 0
    · rw [dif_pos hn, dif_pos hn]; exact ⟨List.suffix_refl _, rfl⟩
    · rw [dif_neg hn, dif_neg hn]
      refine (cur_foll hx rest).bind ?_
      rintro c - ⟨u, rfl⟩
      simp only [id, List.cons_append, List.tail_cons]
      split
      · refine (ih (n - 1) (by omega) u).bind ?_
        rintro ⟨a, b⟩ - hb
        exact ⟨hb.trans (List.suffix_cons _ _), rfl⟩
      · refine (cur_foll hx u).bind ?_
        rintro e - ⟨w, rfl⟩
        rw [hx.dbg]
        refine (getEscape_foll x'.dbg e).bind ?_
        rintro e' - -
        simp only [id, List.cons_append, List.tail_cons]
        refine (ih (n - 2) (by omega) w).bind ?_
        rintro ⟨a, b⟩ - hb
        exact ⟨hb.trans ((List.suffix_cons _ _).trans (List.suffix_cons _ _)), rfl⟩

theorem readStr_foll (hx : Ext x x' t) (c : Char) (u : List Char) :
    Foll (fun r => r.2 <:+ u) (fun r => (r.1, r.2 ++ t)) (readStr x (c :: u)) (readStr x' (c :: u ++ t)) := by
  rw [readStr, readStr]
  simp only [List.cons_append, List.tail_cons, hx.dbg]
  rcases scanEnd_ok true u with ⟨b, w, hw, h, hb⟩ | ⟨h, _⟩ | ⟨h, _⟩
  · rw [h, scanEnd_foll x'.dbg t h, Outcome.bind_ok, Outcome.bind_ok]
    have hm := convert_meets x True hb ('"' :: w) (fun _ => .inl hx.dbg)
    rw [← hw] at hm
    refine (convert_foll hx b.length u).bind ?_
    rintro ⟨s, r⟩ hc hr
    rw [hc] at hm
    have hm : r = '"' :: w := hm
    subst hm
    exact ⟨(List.suffix_cons _ _).trans hr, rfl⟩
  · rw [h]; trivial
  · rw [h]; trivial

/-- Every number in `k` is read the same way with `t` behind. -/
def LocalNums (ops : RealOps R) (t k : List Char) : Prop :=
  ∀ u, u <:+ k → u ≠ [] → ops.strtod (u ++ t) = ops.strtod u ∧ (ops.strtod u).2 ≤ u.length

theorem LocalNums.suffix {k u : List Char} (h : LocalNums ops t k) (hu : u <:+ k) : LocalNums ops t u :=
  fun w hw => h w (hw.trans hu)

theorem parseNum_foll (c : Char) (u : List Char) (hl : LocalNums ops t (c :: u)) :
    Foll (fun r => r.2 <:+ c :: u) (fun r => (r.1, r.2 ++ t)) (parseNum ops (c :: u)) (parseNum ops (c :: u ++ t)) := by
  obtain ⟨h1, h2⟩ := hl _ (List.suffix_refl _) (by simp)
  unfold parseNum
  rw [h1]
  simp only []
  split
  · trivial
  · refine ⟨List.drop_suffix _ _, ?_⟩
    rw [List.drop_append_of_le_length h2]

theorem Foll.weaken {α : Type} {p q : α → Prop} {f : α → α} {o o' : Outcome α} (h : Foll p f o o')
    (hpq : ∀ a, p a → q a) : Foll q f o o' := by
  cases o with
  | ok a => exact ⟨hpq a h.1, h.2⟩
  | throw => exact h
  | assertFail => trivial
  | ub => trivial
  | diverge => trivial

mutual

theorem parseVal_foll (hx : Ext x x' t) (n m : Nat) (hnm : n ≤ m) (rest : List Char) (hl : LocalNums ops t rest) :
    Foll (fun r => r.2 <:+ rest) (fun r => (r.1, r.2 ++ t)) (parseVal ops x n rest)
      (parseVal ops x' m (rest ++ t)) := by
  match n, m with
  | 0, m => rw [parseVal]; trivial
  | n + 1, 0 => omega
  | n + 1, m + 1 =>
    have hnm : n ≤ m := by omega
    cases rest with
    | nil => rw [parseVal, cur, hx.dbg]; trivial
    | cons c u =>
      have hlu : LocalNums ops t u := hl.suffix (List.suffix_cons _ _)
      rw [List.cons_append, parseVal_cons, parseVal_cons]
      split
      · refine (cur_foll hx u).bind ?_
        rintro d - ⟨w, rfl⟩
        simp only [id]
        split
        · exact ⟨(List.suffix_cons _ _).trans (List.suffix_cons _ _), rfl⟩
        · exact (objLoop_foll hx n m hnm _ [] hlu).weaken (fun r hr => hr.trans (List.suffix_cons _ _))
      · split
        · refine (cur_foll hx u).bind ?_
          rintro d - ⟨w, rfl⟩
          simp only [id]
          split
          · exact ⟨(List.suffix_cons _ _).trans (List.suffix_cons _ _), rfl⟩
          · exact (arrLoop_foll hx n m hnm _ [] hlu).weaken (fun r hr => hr.trans (List.suffix_cons _ _))
        · split
          · refine (readStr_foll hx c u).bind ?_
            rintro ⟨s, r⟩ - hr
            exact ⟨hr.trans (List.suffix_cons _ _), rfl⟩
          · split
            · refine (matchKw_foll hx _ (c :: u)).bind ?_
              rintro r - hr; exact ⟨hr, rfl⟩
            · split
              · refine (matchKw_foll hx _ (c :: u)).bind ?_
                rintro r - hr; exact ⟨hr, rfl⟩
              · split
                · refine (matchKw_foll hx _ (c :: u)).bind ?_
                  rintro r - hr; exact ⟨hr, rfl⟩
                · cases hb : isNumStart ops c with
                  | ok b =>
                    simp only [Outcome.bind_ok]
                    split
                    · exact parseNum_foll c u hl
                    · exact throwError_foll hx (c :: u)
                  | _ => trivial

theorem arrLoop_foll (hx : Ext x x' t) (n m : Nat) (hnm : n ≤ m) (rest : List Char) (acc : List (Val R))
    (hl : LocalNums ops t rest) :
    Foll (fun r => r.2 <:+ rest) (fun r => (r.1, r.2 ++ t)) (arrLoop ops x n rest acc)
      (arrLoop ops x' m (rest ++ t) acc) := by
  match n, m with
  | 0, m => rw [arrLoop]; trivial
  | n + 1, 0 => omega
  | n + 1, m + 1 =>
    have hnm : n ≤ m := by omega
    rw [arrLoop, arrLoop]
    refine (parseVal_foll hx n m hnm rest hl).bind ?_
    rintro ⟨v, r⟩ - hr
    simp only at hr ⊢
    refine (cur_foll hx r).bind ?_
    rintro c - ⟨w, rfl⟩
    simp only [id, List.cons_append, List.tail_cons]
    have hw : w <:+ rest := (List.suffix_cons _ _).trans hr
    split
    · exact (arrLoop_foll hx n m hnm w _ (hl.suffix hw)).weaken (fun r h => h.trans hw)
    · split
      · exact ⟨hw, rfl⟩
      · exact throwError_foll hx (c :: w)

theorem objLoop_foll (hx : Ext x x' t) (n m : Nat) (hnm : n ≤ m) (rest : List Char) (acc : List (List Char × Val R))
    (hl : LocalNums ops t rest) :
    Foll (fun r => r.2 <:+ rest) (fun r => (r.1, r.2 ++ t)) (objLoop ops x n rest acc)
      (objLoop ops x' m (rest ++ t) acc) := by
  match n, m with
  | 0, m => rw [objLoop]; trivial
  | n + 1, 0 => omega
  | n + 1, m + 1 =>
    have hnm : n ≤ m := by omega
    rw [objLoop, objLoop]
    refine (cur_foll hx rest).bind ?_
    rintro c - ⟨u, rfl⟩
    simp only [id]
    split
    · exact throwError_foll hx (c :: u)
    · refine (readStr_foll hx c u).bind ?_
      rintro ⟨key, r⟩ - hr
      simp only at hr ⊢
      refine (cur_foll hx r).bind ?_
      rintro d - ⟨w, rfl⟩
      simp only [id]
      split
      · exact throwError_foll hx (d :: w)
      · simp only [List.cons_append, List.tail_cons]
        have hw : w <:+ c :: u := (List.suffix_cons _ _).trans (hr.trans (List.suffix_cons _ _))
        refine (parseVal_foll hx n m hnm w (hl.suffix hw)).bind ?_
        rintro ⟨v, r⟩ - hr
        simp only at hr ⊢
        cases hacc : Container.setIndex strLt .nll acc key v with
        | ok acc' =>
          simp only [Outcome.bind_ok]
          refine (cur_foll hx r).bind ?_
          rintro e - ⟨z, rfl⟩
          simp only [id, List.cons_append, List.tail_cons]
          have hz : z <:+ c :: u := (List.suffix_cons _ _).trans (hr.trans hw)
          split
          · exact (objLoop_foll hx n m hnm z _ (hl.suffix hz)).weaken (fun r h => h.trans hz)
          · split
            · exact ⟨hz, rfl⟩
            · exact throwError_foll hx (e :: z)
        | throw => exact rfl
        | assertFail => trivial
        | ub => trivial
        | diverge => trivial

end

theorem Layout.self {k s : List Char} (h : Layout k s) : Layout k k := by
  induction h with
  | nil => exact .nil
  | ws _ _ ih => exact ih
  | comment _ _ _ ih => exact ih
  | chr hq hs hw _ ih => exact .chr hq hs hw ih
  | lit hb _ ih => exact .lit hb ih

theorem Layout.length_le {k s : List Char} (h : Layout k s) : k.length ≤ s.length := by
  induction h with
  | nil => simp
  | ws _ _ ih => simp; omega
  | comment _ _ _ ih => simp; omega
  | chr _ _ _ _ ih => simp; omega
  | lit _ _ ih => simp at ih ⊢; omega

/-- Reading a layout of `k` follows reading `k` alone with assertions. -/
theorem read_foll {k s : List Char} (h : Layout k s) (hl : LocalNums ops (s.drop k.length) k) (dbg : Bool) :
    Foll (fun _ => True) id (read ops true k) (read ops dbg s) := by
  have hlen := h.length_le
  rw [read, read, purge_layout true h.self, purge_layout dbg h, Outcome.bind_ok, Outcome.bind_ok]
  have e : purgedSrc k k = k := by simp [purgedSrc]
  simp only [e]
  have hx : Ext { dbg := true, size := k.length, realSize := k.length }
      { dbg := dbg, size := (purgedSrc s k).length, realSize := k.length } (s.drop k.length) :=
    ⟨rfl, by simp [purgedSrc], rfl⟩
  refine (parseVal_foll hx (2 * k.length + 3) (2 * (purgedSrc s k).length + 3)
    (by simp [purgedSrc]; omega) k hl).bind ?_
  rintro ⟨v, r⟩ - -
  exact ⟨trivial, rfl⟩

end Verif.Json
