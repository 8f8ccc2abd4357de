import Verif.RecVec.Lemmas

/-!
# Recycling vectors: one step
-/

namespace Verif.RecVec

open Verif Verif.Recycler

/-- The contents of vectors, without their kind. -/
def contents (l : List (Option (Kind × List Entry))) : List (Option (List Entry)) := l.map (Option.map Prod.snd)

theorem contents_set (l : List (Option (Kind × List Entry))) (v : Nat) (k : Kind) (es : List Entry) :
    contents (l.set v (some (k, es))) = (contents l).set v (some es) := by
  simp [contents, List.map_set]

theorem items_of {s : VState} {a : VAbs} (hs : s.vecs = contents a.vecs) {v : Nat} {k : Kind} {es : List Entry}
    (hv : a.vecs[v]? = some (some (k, es))) : s.items v = .ok es := by
  have : s.vecs[v]? = some (some es) := by
    rw [hs, contents, List.getElem?_map, hv]; rfl
  simp [VState.items, this]

theorem run_one {cfg : Cfg} {s st' : State} {o : Op} (h : run cfg s [o] = .ok st') : step cfg s o = .ok st' := by
  simp only [run] at h
  obtain ⟨s1, h1, h2⟩ := Outcome.bind_eq_ok.1 h
  cases h2; exact h1

theorem stay_create {b : Abs} {base t : Ty} {v : Nat} {k : Kind} (hk : b.recs[v]? = some (some k)) (ht : k.makes base t = true) :
    b.runStay base [.create v t] = some { b with objs := b.objs ++ [some (v, t)] } := by
  simp [Abs.runStay, Abs.stepStay, Abs.step, hk, ht]

theorem stay_throw {b : Abs} {base t : Ty} {v : Nat} {k : Kind} (hk : b.recs[v]? = some (some k)) (ht : k.makes base t = true) :
    b.runStay base [.createThrow v t] = some { b with objs := b.objs ++ [none] } := by
  simp [Abs.runStay, Abs.stepStay, Abs.step, hk, ht]

theorem Corr.newVec {a b} (h : Corr a b) (k : Kind) :
    Corr { a with vecs := a.vecs ++ [some (k, [])] } { b with recs := b.recs ++ [some k] } := by
  have get : ∀ (v : Nat) (k' : Kind) (es : List Entry), (a.vecs ++ [some (k, [])])[v]? = some (some (k', es)) →
      a.vecs[v]? = some (some (k', es)) ∨ es = [] := by
    intro v k' es hv
    rcases Nat.lt_or_ge v a.vecs.length with hl | hl
    · rw [List.getElem?_append_left hl] at hv; exact .inl hv
    · rw [List.getElem?_append_right hl] at hv
      obtain ⟨hlt, e⟩ := List.getElem?_eq_some_iff.1 hv
      simp at e
      exact .inr e.2
  refine ⟨by simp [h.kinds], h.len, ?_, ?_⟩
  · intro i v t
    show b.objs[i]? = _ ↔ _
    rw [h.objs]
    constructor
    · rintro ⟨k', es, hv, hm⟩
      exact ⟨k', es, by rw [List.getElem?_append_left (lt_of_get hv)]; exact hv, hm⟩
    · rintro ⟨k', es, hv, hm⟩
      rcases get v k' es hv with hv | rfl
      · exact ⟨k', es, hv, hm⟩
      · simp at hm
  · intro v k' es hv
    rcases get v k' es hv with hv | rfl
    · exact h.nodup _ _ _ hv
    · simp [ids]

theorem Corr.thrown {a b} (h : Corr a b) : Corr { a with made := a.made + 1 } { b with objs := b.objs ++ [none] } := by
  refine ⟨h.kinds, by simp [h.len], ?_, h.nodup⟩
  intro i v t
  rw [← h.objs]
  show (b.objs ++ [none])[i]? = _ ↔ _
  rcases Nat.lt_or_ge i b.objs.length with hl | hl
  · rw [List.getElem?_append_left hl]
  · rw [List.getElem?_append_right hl, List.getElem?_eq_none hl]
    simp only [reduceCtorEq, iff_false]
    intro hc
    obtain ⟨_, e⟩ := List.getElem?_eq_some_iff.1 hc
    simp at e

/-- Moving a vector: its objects go to the new one. -/
theorem Corr.moved {a b} (h : Corr a b) {v : Nat} {k : Kind} {es : List Entry} (hv : a.vecs[v]? = some (some (k, es))) {b' : Abs}
    (hr : b'.recs = b.recs ++ [some k]) (ho : b'.objs = b.reown v b.recs.length) :
    Corr { a with vecs := (a.vecs.set v (some (k, []))) ++ [some (k, es)] } b' := by
  have hlt := lt_of_get hv
  have hlen : b.recs.length = a.vecs.length := by rw [h.kinds, List.length_map]
  have get : ∀ (w : Nat) (k' : Kind) (es' : List Entry), ((a.vecs.set v (some (k, []))) ++ [some (k, es)])[w]? = some (some (k', es')) ↔
      (w ≠ v ∧ a.vecs[w]? = some (some (k', es'))) ∨ (w = v ∧ k' = k ∧ es' = []) ∨ (w = a.vecs.length ∧ k' = k ∧ es' = es) := by
    intro w k' es'
    rcases Nat.lt_trichotomy w a.vecs.length with hl | hl | hl
    · rw [List.getElem?_append_left (by simpa using hl)]
      by_cases hj : w = v
      · subst hj
        rw [List.getElem?_set_self hl]
        simp only [Option.some.injEq, Prod.mk.injEq, ne_eq, not_true, false_and, true_and, false_or]
        constructor
        · rintro ⟨rfl, rfl⟩; exact .inl ⟨rfl, rfl⟩
        · rintro (⟨rfl, rfl⟩ | ⟨hx, _⟩)
          · exact ⟨rfl, rfl⟩
          · omega
      · rw [List.getElem?_set_ne (Ne.symm hj)]
        constructor
        · intro hx; exact .inl ⟨hj, hx⟩
        · rintro (⟨_, hx⟩ | ⟨hx, _⟩ | ⟨hx, _⟩)
          · exact hx
          · exact absurd hx hj
          · omega
    · subst hl
      rw [List.getElem?_append_right (by simp)]
      have hne : a.vecs.length ≠ v := by omega
      simp only [List.length_set, Nat.sub_self, List.getElem?_cons_zero, Option.some.injEq, Prod.mk.injEq, ne_eq, hne,
        not_false_eq_true, true_and, false_and, false_or, List.getElem?_eq_none (Nat.le_refl a.vecs.length), reduceCtorEq]
      constructor
      · rintro ⟨rfl, rfl⟩; exact ⟨rfl, rfl⟩
      · rintro ⟨rfl, rfl⟩; exact ⟨rfl, rfl⟩
    · rw [List.getElem?_eq_none (by simp; omega), List.getElem?_eq_none (by omega)]
      simp only [reduceCtorEq, and_false, false_or, false_iff]
      rintro (⟨hx, _⟩ | ⟨hx, _⟩) <;> omega
  refine ⟨?_, ?_, ?_, ?_⟩
  · rw [hr, h.kinds, List.map_append, kinds_set _ hv]; rfl
  · rw [ho]; simp [Abs.reown, h.len]
  · intro i w t
    have hob : b'.objs[i]? = (b.objs[i]?).map (Option.map fun (p : Nat × Ty) => (if p.1 = v then b.recs.length else p.1, p.2)) := by
      rw [ho, Abs.reown, List.getElem?_map]
    rw [hob]
    constructor
    · intro hx
      cases hbi : b.objs[i]? with
      | none => simp [hbi] at hx
      | some o =>
        cases o with
        | none => simp [hbi] at hx
        | some p =>
          obtain ⟨w0, t0⟩ := p
          simp only [hbi, Option.map_some, Option.some.injEq, Prod.mk.injEq] at hx
          obtain ⟨hw, rfl⟩ := hx
          obtain ⟨k0, es0, h1, h2⟩ := (h.objs i w0 t0).1 hbi
          by_cases hj : w0 = v
          · subst hj
            rw [if_pos rfl, hlen] at hw
            rw [hv] at h1; simp at h1; obtain ⟨rfl, rfl⟩ := h1
            exact ⟨k, es, (get _ _ _).2 (.inr (.inr ⟨hw.symm, rfl, rfl⟩)), h2⟩
          · rw [if_neg hj] at hw
            subst hw
            exact ⟨k0, es0, (get _ _ _).2 (.inl ⟨hj, h1⟩), h2⟩
    · rintro ⟨k0, es0, h1, h2⟩
      rcases (get _ _ _).1 h1 with ⟨hj, h1⟩ | ⟨_, _, rfl⟩ | ⟨rfl, rfl, rfl⟩
      · rw [(h.objs i w t).2 ⟨k0, es0, h1, h2⟩]; simp [hj]
      · simp at h2
      · rw [(h.objs i v t).2 ⟨_, _, hv, h2⟩]; simp [hlen]
  · intro w k' es' hw
    rcases (get _ _ _).1 hw with ⟨_, hw⟩ | ⟨_, _, rfl⟩ | ⟨_, _, rfl⟩
    · exact h.nodup _ _ _ hw
    · simp [ids]
    · exact h.nodup _ _ _ hv

theorem Corr.gone {a b} (h : Corr a b) {v : Nat} {k : Kind} {es : List Entry} (hv : a.vecs[v]? = some (some (k, es)))
    (he : ids es = []) : Corr { a with vecs := a.vecs.set v none } { b with recs := b.recs.set v none } := by
  have hlt := lt_of_get hv
  refine ⟨?_, h.len, ?_, ?_⟩
  · show b.recs.set v none = _
    rw [h.kinds, List.map_set]; rfl
  · intro i w t
    show b.objs[i]? = _ ↔ _
    rw [h.objs]
    by_cases hj : w = v
    · subst hj
      simp only [hv, List.getElem?_set_self hlt, Option.some.injEq, Prod.mk.injEq, reduceCtorEq, false_and, exists_false, iff_false]
      rintro ⟨_, _, ⟨rfl, rfl⟩, hm⟩
      have := mem_ids.2 ⟨t, hm⟩
      rw [he] at this; simp at this
    · simp [List.getElem?_set_ne (Ne.symm hj)]
  · intro w k' es' hw
    by_cases hj : w = v
    · subst hj; simp [List.getElem?_set_self hlt] at hw
    · rw [List.getElem?_set_ne (Ne.symm hj)] at hw
      exact h.nodup _ _ _ hw

theorem Corr.unused {a b} (h : Corr a b) {v : Nat} {k : Kind} {es : List Entry} (hv : a.vecs[v]? = some (some (k, es)))
    (he : ids es = []) : b.unused v = true := by
  rw [Abs.unused_iff]
  intro i r t hi
  rintro rfl
  obtain ⟨k', es', h1, h2⟩ := (h.objs i r t).1 hi
  rw [hv] at h1; simp at h1; obtain ⟨rfl, rfl⟩ := h1
  have := mem_ids.2 ⟨t, h2⟩
  rw [he] at this; simp at this

theorem insertIdx_split {α : Type} (l : List α) (i : Nat) (c : α) (h : i ≤ l.length) :
    l.insertIdx i c = l.take i ++ c :: l.drop i := by
  induction l generalizing i with
  | nil =>
    have : i = 0 := by simpa using h
    subst this; rfl
  | cons x l ih =>
    cases i with
    | zero => rfl
    | succ i => simpa [List.insertIdx_succ_cons] using ih i (by simpa using h)

/-- One operation of a vector program, as a history of its recyclers. -/
theorem vsim {cfg : Cfg} {a a' : VAbs} {b : Abs} {op : VOp} (h : Corr a b) (hs : a.step cfg.base op = some a')
    (hm : a.moveOk op = true) :
    ∃ os b', b.runStay cfg.base os = some b' ∧ Corr a' b' ∧ (∀ d r, Op.moveAssign d r ∉ os) ∧
      (∀ t, Makes os t → VMakes [op] t) ∧ (∀ sizes, Op.newFixed sizes ∈ os → op = .newFixed sizes) ∧ ((∀ v t, op ≠ .createThrow v t) → NoThrow os) ∧
      ∀ s : VState, s.vecs = contents a.vecs → s.st.ptrs.length = a.made → ∀ st', run cfg s.st os = .ok st' →
        vstep cfg s op = .ok ⟨st', contents a'.vecs⟩ := by
  cases op with
  | newMono =>
    simp only [VAbs.step, Option.some.injEq] at hs
    subst hs
    refine ⟨[.newMono], _, rfl, h.newVec .mono, by simp, ?_, by simp, fun _ => by intro r t; simp, ?_⟩
    · rintro t ⟨r, hx⟩; simp at hx
    · intro s hv _ st' hr
      simp only [vstep, run_one hr, Outcome.bind_ok, Outcome.pure_eq, hv]
      simp [contents]
  | newPoly =>
    simp only [VAbs.step, Option.some.injEq] at hs
    subst hs
    refine ⟨[.newPoly], _, rfl, h.newVec .poly, by simp, ?_, by simp, fun _ => by intro r t; simp, ?_⟩
    · rintro t ⟨r, hx⟩; simp at hx
    · intro s hv _ st' hr
      simp only [vstep, run_one hr, Outcome.bind_ok, Outcome.pure_eq, hv]
      simp [contents]
  | newFixed sizes =>
    simp only [VAbs.step, Option.some.injEq] at hs
    subst hs
    refine ⟨[.newFixed sizes], _, rfl, h.newVec (.fixed sizes), by simp, ?_, by simp, fun _ => by intro r t; simp, ?_⟩
    · rintro t ⟨r, hx⟩; simp at hx
    · intro s hv _ st' hr
      simp only [vstep, run_one hr, Outcome.bind_ok, Outcome.pure_eq, hv]
      simp [contents]
  | create v t =>
    simp only [VAbs.step] at hs
    split at hs
    · rename_i k es hv
      split at hs
      · rename_i ht
        simp only [Option.some.injEq] at hs
        subst hs
        refine ⟨[.create v t], _, stay_create (h.kindAt hv) ht, h.add hv (List.perm_append_comm), by simp, ?_,
          by simp, fun _ => by intro r t; simp, ?_⟩
        · rintro t' ⟨r, hx⟩; simp at hx; obtain ⟨rfl, rfl⟩ := hx; exact ⟨r, by simp⟩
        · intro s hsv hl st' hr
          have hr : s.st.create cfg v t = .ok st' := run_one hr
          simp only [vstep, items_of hsv hv, hr, Outcome.bind_ok, Outcome.pure_eq, hsv, hl, contents_set]
      · simp at hs
    · simp at hs
  | createAt v i t =>
    simp only [VAbs.step] at hs
    split at hs
    · rename_i k es hv
      split at hs
      · rename_i ht
        simp only [Option.some.injEq] at hs
        subst hs
        have he : es.insertIdx i (some (a.made, t)) = es.take i ++ some (a.made, t) :: es.drop i := by
          exact insertIdx_split es i _ ht.2
        refine ⟨[.create v t], _, stay_create (h.kindAt hv) ht.1, h.add hv ?_, by simp, ?_, by simp, fun _ => by intro r t; simp, ?_⟩
        · exact List.perm_middle.trans (by rw [List.take_append_drop])
        · rintro t' ⟨r, hx⟩; simp at hx; obtain ⟨rfl, rfl⟩ := hx; exact ⟨r, by simp⟩
        · intro s hsv hl st' hr
          have hr : s.st.create cfg v t = .ok st' := run_one hr
          simp only [vstep, items_of hsv hv, hr, Outcome.bind_ok, Outcome.pure_eq, hsv, hl, contents_set, if_neg (Nat.not_lt.2 ht.2), he]
      · simp at hs
    · simp at hs
  | createThrow v t =>
    simp only [VAbs.step] at hs
    split at hs
    · rename_i k es hv
      split at hs
      · rename_i ht
        simp only [Option.some.injEq] at hs
        subst hs
        refine ⟨[.createThrow v t], _, stay_throw (h.kindAt hv) ht, h.thrown, by simp, ?_,
          by simp, fun hx => absurd rfl (hx v t), ?_⟩
        · rintro t' ⟨r, hx⟩; simp at hx; obtain ⟨rfl, rfl⟩ := hx; exact ⟨r, by simp⟩
        · intro s hsv hl st' hr
          have hr : s.st.createThrow cfg v t = .ok st' := run_one hr
          simp only [vstep, items_of hsv hv, hr, Outcome.bind_ok, Outcome.pure_eq, hsv]
      · simp at hs
    · simp at hs
  | reset v i =>
    simp only [VAbs.step] at hs
    split at hs
    · rename_i k es hv
      split at hs
      · rename_i hi
        simp only [Option.some.injEq] at hs
        subst hs
        cases he : es[i]? with
        | none => rw [List.getElem?_eq_none_iff] at he; omega
        | some e =>
          have hsplit : es = es.take i ++ e :: es.drop (i + 1) := by
            obtain ⟨hl, rfl⟩ := List.getElem?_eq_some_iff.1 he
            rw [List.getElem_cons_drop, List.take_append_drop]
          have hset : es.set i none = es.take i ++ none :: es.drop (i + 1) := by
            rw [List.set_eq_take_append_cons_drop, if_pos hi]
          cases e with
          | none =>
            have : es.set i none = es := by rw [hset]; exact hsplit.symm
            refine ⟨[], b, rfl, by rw [this]; exact h.perm hv (List.Perm.refl _), by simp, ?_, by simp, fun _ => by intro r t; simp, ?_⟩
            · rintro t ⟨r, hx⟩; simp at hx
            · intro s hsv hl st' hr
              cases hr
              simp only [vstep, items_of hsv hv, Outcome.bind_ok, he, Outcome.pure_eq, contents_set, this]
              congr 1
              have : (contents a.vecs).set v (some es) = contents a.vecs := by
                rw [← contents_set]
                congr 1
                apply List.ext_getElem?
                intro j
                by_cases hj : j = v
                · subst hj; rw [List.getElem?_set_self (lt_of_get hv), hv]
                · rw [List.getElem?_set_ne (Ne.symm hj)]
              rw [this, ← hsv]
          | some p =>
            obtain ⟨id, t⟩ := p
            have hnd := h.nodup _ _ _ hv
            have hids : ids es = ids (es.take i) ++ id :: ids (es.drop (i + 1)) := by
              conv_lhs => rw [hsplit]
              simp [ids, List.filterMap_append]
            have hids' : ids (es.set i none) = ids (es.take i) ++ ids (es.drop (i + 1)) := by
              rw [hset]; simp [ids, List.filterMap_append]
            obtain ⟨b', h1, h2, h3, h4⟩ := stay_dels cfg.base [some (id, t)] b (by simp [ids]) (by
              intro j t' hj
              simp only [List.mem_singleton, Option.some.injEq, Prod.mk.injEq] at hj
              obtain ⟨rfl, rfl⟩ := hj
              exact ⟨v, (h.objs _ _ _).2 ⟨k, es, hv, by rw [hsplit]; simp⟩⟩)
            rw [hids] at hnd
            refine ⟨[.delete id t], b', h1, ?_, by simp, ?_, by simp, fun _ => by intro r t; simp, ?_⟩
            · refine h.cleared hv (gone := [some (id, t)]) h2 h3 ?_ ?_ ?_ ?_ h4
              · rintro e (hm | hm)
                · rw [hset] at hm
                  simp only [List.mem_append, List.mem_cons] at hm
                  rcases hm with hm | hm | hm
                  · exact .inr (List.mem_of_mem_take hm)
                  · exact .inl hm
                  · exact .inr (List.mem_of_mem_drop hm)
                · simp only [List.mem_singleton] at hm
                  right; rw [hsplit, hm]; simp
              · intro j t' hj
                rw [hsplit] at hj
                rw [hset]
                simp only [List.mem_append, List.mem_cons, List.mem_singleton] at hj ⊢
                rcases hj with hj | hj | hj
                · exact .inr (.inl hj)
                · exact .inl (.inl hj)
                · exact .inr (.inr (.inr hj))
              · intro j hj hj'
                have : j = id := by simpa [ids] using hj'
                subst this
                rw [hids'] at hj
                have := (List.perm_middle.nodup_iff).1 hnd
                exact (List.nodup_cons.1 this).1 hj
              · rw [hids']
                exact (List.nodup_cons.1 ((List.perm_middle.nodup_iff).1 hnd)).2
            · rintro t ⟨r, hx⟩; simp at hx
            · intro s hsv hl st' hr
              have hr : s.st.delete cfg id t = .ok st' := run_one hr
              simp only [vstep, items_of hsv hv, Outcome.bind_ok, he, hr, Outcome.pure_eq, contents_set, hsv]
      · simp at hs
    · simp at hs
  | swap v i j =>
    simp only [VAbs.step] at hs
    split at hs
    · rename_i k es hv
      split at hs
      · rename_i x y hx hy
        simp only [Option.some.injEq] at hs
        subst hs
        refine ⟨[], b, rfl, h.perm hv ?_, by simp, ?_, by simp, fun _ => by intro r t; simp, ?_⟩
        · obtain ⟨hi, rfl⟩ := List.getElem?_eq_some_iff.1 hx
          obtain ⟨hj, rfl⟩ := List.getElem?_eq_some_iff.1 hy
          exact List.set_set_perm hi hj
        · rintro t ⟨r, hx⟩; simp at hx
        · intro s hsv hl st' hr
          cases hr
          simp only [vstep, items_of hsv hv, Outcome.bind_ok, hx, hy, Outcome.pure_eq, contents_set, hsv]
      · simp at hs
    · simp at hs
  | clear v =>
    simp only [VAbs.step] at hs
    split at hs
    · rename_i k es hv
      simp only [Option.some.injEq] at hs
      subst hs
      obtain ⟨b', h1, h2, h3, h4⟩ := stay_dels cfg.base es b (h.nodup _ _ _ hv) (fun i t hi =>
        ⟨v, (h.objs _ _ _).2 ⟨k, es, hv, hi⟩⟩)
      refine ⟨dels es, b', h1, h.cleared hv (gone := es) h2 h3 (fun e he => .inr (he.resolve_left (by simp))) (fun i t hi => .inl hi) (by simp [ids]) (by simp [ids]) h4, ?_, ?_, ?_, ?_, ?_⟩
      · intro d r hx; obtain ⟨_, _, e⟩ := dels_mem hx; cases e
      · rintro t ⟨r, hx | hx⟩ <;> obtain ⟨_, _, e⟩ := dels_mem hx <;> cases e
      · intro sizes hx; obtain ⟨_, _, e⟩ := dels_mem hx; cases e
      · intro _ r t hx; obtain ⟨_, _, e⟩ := dels_mem hx; cases e
      · intro s hsv hl st' hr
        rw [run_dels] at hr
        simp only [vstep, items_of hsv hv, Outcome.bind_ok, hr, Outcome.pure_eq, contents_set, hsv]
    · simp at hs
  | move v =>
    simp only [VAbs.step] at hs
    split at hs
    · rename_i k es hv
      simp only [Option.some.injEq] at hs
      subst hs
      have hk := h.kindAt hv
      have hst : ∃ b', b.runStay cfg.base [.move v] = some b' ∧ b'.recs = b.recs ++ [some k] ∧ b'.objs = b.reown v b.recs.length := by
        cases hp : k.inPlace with
        | false =>
          exact ⟨⟨b.recs ++ [some k], b.reown v b.recs.length⟩, by simp [Abs.runStay, Abs.stepStay, Abs.step, Abs.inPlace, hk, hp], rfl, rfl⟩
        | true =>
          refine ⟨⟨b.recs ++ [some k], b.objs⟩, by simp [Abs.runStay, Abs.stepStay, Abs.inPlace, hk, hp], rfl, ?_⟩
          have he : ids es = [] := by
            simp only [VAbs.moveOk, hv, hp, Bool.not_true, Bool.false_or, List.all_eq_true] at hm
            rw [List.eq_nil_iff_forall_not_mem]
            intro i hi
            obtain ⟨t, hi⟩ := mem_ids.1 hi
            exact absurd (hm _ hi) (by simp)
          exact (reown_unused (h.unused hv he)).symm
      obtain ⟨b', h1, h2, h3⟩ := hst
      refine ⟨[.move v], b', h1, h.moved hv h2 h3, by simp, ?_, by simp, fun _ => by intro r t; simp, ?_⟩
      · rintro t ⟨r, hx⟩; simp at hx
      · intro s hsv hl st' hr
        have hr : s.st.moveRec v = .ok st' := run_one hr
        simp only [vstep, items_of hsv hv, Outcome.bind_ok, hr, Outcome.pure_eq, hsv]
        simp [contents, List.map_set]
    · simp at hs
  | destroy v =>
    simp only [VAbs.step] at hs
    split at hs
    · rename_i p hv
      obtain ⟨k, es⟩ := p
      simp only [Option.some.injEq] at hs
      subst hs
      obtain ⟨b', h1, h2, h3, h4⟩ := stay_dels cfg.base es b (h.nodup _ _ _ hv) (fun i t hi =>
        ⟨v, (h.objs _ _ _).2 ⟨k, es, hv, hi⟩⟩)
      have hc := h.cleared hv (gone := es) (rest := []) h2 h3 (fun e he => .inr (he.resolve_left (by simp))) (fun i t hi => .inl hi) (by simp [ids]) (by simp [ids]) h4
      have hlt := lt_of_get hv
      have hv' : ({ a with vecs := a.vecs.set v (some (k, [])) } : VAbs).vecs[v]? = some (some (k, [])) := by simp [hlt]
      have hu := hc.unused hv' rfl
      have hg := hc.gone hv' rfl
      refine ⟨dels es ++ [.destroyRec v], { b' with recs := b'.recs.set v none }, ?_, by simpa using hg, ?_, ?_, ?_, ?_, ?_⟩
      · rw [runStay_append, h1]
        simp only [Option.bind_some, Abs.runStay, Abs.stepStay, Abs.step, hc.kindAt hv', hu, if_true]
      · intro d r hx
        simp only [List.mem_append, List.mem_singleton, reduceCtorEq, or_false] at hx
        obtain ⟨_, _, e⟩ := dels_mem hx; cases e
      · rintro t ⟨r, hx | hx⟩ <;> simp only [List.mem_append, List.mem_singleton, reduceCtorEq, or_false] at hx <;>
          obtain ⟨_, _, e⟩ := dels_mem hx <;> cases e
      · intro sizes hx
        simp only [List.mem_append, List.mem_singleton, reduceCtorEq, or_false] at hx
        obtain ⟨_, _, e⟩ := dels_mem hx; cases e
      · intro _ r t hx
        simp only [List.mem_append, List.mem_singleton, reduceCtorEq, or_false] at hx
        obtain ⟨_, _, e⟩ := dels_mem hx; cases e
      · intro s hsv hl st' hr
        rw [run_append, run_dels] at hr
        obtain ⟨s1, e1, e2⟩ := Outcome.bind_eq_ok.1 hr
        have e2 : s1.destroyRec v = .ok st' := run_one e2
        simp only [vstep, items_of hsv hv, Outcome.bind_ok, e1, e2, Outcome.pure_eq, hsv]
        simp [contents, List.map_set]
    · simp at hs

/-- Vectors, recyclers and memory agree. -/
structure VInv (cfg : Cfg) (lk : Bool) (s : VState) (a : VAbs) (b : Abs) : Prop where
  vecs : s.vecs = contents a.vecs
  corr : Corr a b
  inv : ∃ fl bs, Inv cfg lk s.st b fl bs

theorem vinv_run (cfg : Cfg) (lk : Bool) (h8 : 8 ≤ cfg.base.size) (os : List VOp) (s : VState) (a a' : VAbs) (b : Abs)
    (h : VInv cfg lk s a b) (hr : a.run cfg.base os = some a') (hf : ∀ t, VMakes os t → Fits cfg t)
    (hz : ∀ sizes, VOp.newFixed sizes ∈ os → ∀ k ∈ sizes, 8 ≤ k)
    (hm : a.movesOk cfg.base os = true) (hx : lk = false → ∀ v t, VOp.createThrow v t ∉ os) :
    ∃ s' b', vrun cfg s os = .ok s' ∧ VInv cfg lk s' a' b' := by
  induction os generalizing s a b with
  | nil =>
    simp only [VAbs.run, Option.some.injEq] at hr
    subst hr
    exact ⟨s, b, rfl, h⟩
  | cons o os ih =>
    simp only [VAbs.run, Option.bind_eq_some_iff] at hr
    obtain ⟨a1, h1, h2⟩ := hr
    rw [VAbs.movesOk, Bool.and_eq_true, h1] at hm
    obtain ⟨fl, bs, hi⟩ := h.inv
    obtain ⟨ops, b1, e1, e2, e3, e4, e7, e5, e6⟩ := vsim h.corr h1 hm.1
    have hsub : ∀ t, VMakes [o] t → VMakes (o :: os) t := by
      rintro t ⟨v, hv⟩
      simp only [List.mem_singleton] at hv
      refine ⟨v, ?_⟩
      rcases hv with rfl | ⟨i, rfl⟩ | rfl
      · exact .inl List.mem_cons_self
      · exact .inr (.inl ⟨i, List.mem_cons_self⟩)
      · exact .inr (.inr List.mem_cons_self)
    obtain ⟨st', fl', bs', r1, r2⟩ := inv_run cfg lk h8 ops s.st b b1 fl bs hi e1 (fun t ht => hf t (hsub t (e4 t ht)))
      (fun sizes hx => hz sizes (by rw [e7 sizes hx]; exact List.mem_cons_self))
      (fun hl => ⟨noAssign_of e3 b, e5 (fun v t e => hx hl v t (by rw [e]; exact List.mem_cons_self))⟩)
    have hlen : s.st.ptrs.length = a.made := by rw [hi.ptrLen, h.corr.len]
    have hv := e6 s h.vecs hlen st' r1
    obtain ⟨s', b', g1, g2⟩ := ih ⟨st', contents a1.vecs⟩ a1 b1 ⟨rfl, e2, fl', bs', r2⟩ h2 (by
      rintro t ⟨v, hv⟩
      refine hf t ⟨v, ?_⟩
      rcases hv with hv | ⟨i, hv⟩ | hv
      · exact .inl (List.mem_cons_of_mem _ hv)
      · exact .inr (.inl ⟨i, List.mem_cons_of_mem _ hv⟩)
      · exact .inr (.inr (List.mem_cons_of_mem _ hv)))
      (fun sizes hx => hz sizes (List.mem_cons_of_mem _ hx)) hm.2 (fun hl v t hm => hx hl v t (List.mem_cons_of_mem _ hm))
    exact ⟨s', b', by simp [vrun, hv, g1], g2⟩

theorem vinv_init (cfg : Cfg) (lk : Bool) : VInv cfg lk VState.init VAbs.init Abs.init :=
  ⟨rfl, ⟨rfl, rfl, by simp [Abs.init, VAbs.init], by simp [VAbs.init]⟩, _, _, Inv.init cfg lk⟩

end Verif.RecVec
