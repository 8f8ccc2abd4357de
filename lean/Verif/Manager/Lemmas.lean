import Verif.Manager.Spec
import Mathlib.Tactic.Tauto

/-! Helper lemmas for the manager: the compaction loop and the simulation relation. -/

namespace Verif.Manager

open Verif

/-- Objects that are constructed with flag `b`. -/
def HasFlag (heap : List Cell) (id : Nat) (b : Bool) : Prop := heap[id]? = some (.live b)

theorem slotAt_of {m : Mgr} {i id : Nat} (h : m.slots[i]? = some (some id)) :
    m.slotAt i = .ok id := by simp [Mgr.slotAt, h]

theorem isAliveAt_of {m : Mgr} {i id : Nat} {b : Bool} (h : m.slots[i]? = some (some id))
    (hf : HasFlag m.heap id b) : m.isAliveAt i = .ok b := by
  unfold HasFlag at hf
  simp [Mgr.isAliveAt, slotAt_of h, Mgr.getBool, hf]

theorem deinitAt_of {m : Mgr} {i id : Nat} {b : Bool} (h : m.slots[i]? = some (some id))
    (hf : HasFlag m.heap id b) : m.deinitAt i =
      .ok { m with slots := m.slots.set i none, heap := m.heap.set id .destroyed } := by
  unfold HasFlag at hf
  simp [Mgr.deinitAt, slotAt_of h, Mgr.destroy, hf]

/-- Slot layout during a refresh: filled prefix `pre`, middle `mid`, then already emptied slots. -/
def slotsOf (ids : List Nat) (k : Nat) (tail : List (Option Nat)) : List (Option Nat) :=
  ids.map some ++ (List.replicate k none ++ tail)

theorem slotsOf_get {ids : List Nat} {k : Nat} {tail : List (Option Nat)} {i id : Nat} (h : ids[i]? = some id) :
    (slotsOf ids k tail)[i]? = some (some id) := by
  have hi : i < ids.length := by
    rcases List.getElem?_eq_some_iff.1 h with ⟨hi, _⟩; exact hi
  rw [slotsOf, List.getElem?_append_left (by simpa using hi)]
  simp [h]

theorem slotsOf_deinit_last (ids : List Nat) (x k tail) :
    (slotsOf (ids ++ [x]) k tail).set ids.length none = slotsOf ids (k + 1) tail := by
  simp [slotsOf, List.replicate_succ]

/-- `findDead` moves over the alive prefix of the middle part. -/
theorem findDead_spec (m : Mgr) (f : Nat → Bool) (k tail) :
    ∀ (mid pre : List Nat) (fuel iA : Nat),
      m.slots = slotsOf (pre ++ mid) k tail →
      (∀ id ∈ mid, HasFlag m.heap id (f id)) →
      iA + 1 = pre.length + mid.length →
      mid.length < fuel →
      (∃ d rest alive, mid = alive ++ d :: rest ∧ (∀ x ∈ alive, f x = true) ∧ f d = false ∧
          findDead m fuel pre.length iA = .ok (false, pre.length + alive.length)) ∨
      ((∀ x ∈ mid, f x = true) ∧
        findDead m fuel pre.length iA = .ok (true, pre.length + mid.length)) := by
  intro mid
  induction mid with
  | nil =>
    intro pre fuel iA hs _ hiA hfuel
    right
    obtain ⟨fuel, rfl⟩ : ∃ f', fuel = f' + 1 := ⟨fuel - 1, by simp at hfuel; omega⟩
    refine ⟨by simp, ?_⟩
    simp only [List.length_nil, Nat.add_zero] at *
    simp [findDead]
    omega
  | cons x rest ih =>
    intro pre fuel iA hs hf hiA hfuel
    obtain ⟨fuel, rfl⟩ : ∃ f', fuel = f' + 1 := ⟨fuel - 1, by simp at hfuel; omega⟩
    have hget : m.slots[pre.length]? = some (some x) := by
      rw [hs]; exact slotsOf_get (by simp)
    have hal := isAliveAt_of hget (hf x (by simp))
    have hle : ¬ pre.length > iA := by simp at hiA; omega
    cases hx : f x with
    | false =>
      left
      refine ⟨x, rest, [], rfl, by simp, hx, ?_⟩
      simp [findDead, hle, hal, hx]
    | true =>
      have hstep : findDead m (fuel + 1) pre.length iA = findDead m fuel (pre.length + 1) iA := by
        simp [findDead, hle, hal, hx]
      have := ih (pre ++ [x]) fuel iA (by simpa using hs)
        (fun id hid => hf id (by simp [hid])) (by simp at hiA ⊢; omega) (by simp at hfuel; omega)
      simp only [List.length_append, List.length_singleton] at this
      rw [hstep]
      rcases this with ⟨d, rest', alive, he, ha, hd, hr⟩ | ⟨ha, hr⟩
      · left
        refine ⟨d, rest', x :: alive, by simp [he], by simpa [hx] using ha, hd, ?_⟩
        rw [hr]; simp; omega
      · right
        refine ⟨by simpa [hx] using ha, ?_⟩
        rw [hr]; simp; omega

/-- Destroying a list of objects. -/
def destroyAll (heap : List Cell) (ids : List Nat) : List Cell :=
  ids.foldl (fun h id => h.set id .destroyed) heap

theorem destroyAll_get (ids : List Nat) : ∀ (heap : List Cell) (i : Nat), i < heap.length →
    (destroyAll heap ids)[i]? = if i ∈ ids then some .destroyed else heap[i]? := by
  induction ids with
  | nil => intro heap i hi; simp [destroyAll]
  | cons a ids ih =>
    intro heap i hi
    have := ih (heap.set a .destroyed) i (by simpa using hi)
    simp only [destroyAll, List.foldl_cons] at this ⊢
    rw [this]
    by_cases h1 : i ∈ ids
    · simp [h1]
    · by_cases h2 : i = a
      · subst h2; simp [hi]
      · simp [h1, h2, Ne.symm h2]

theorem destroyAll_length (ids : List Nat) (heap : List Cell) :
    (destroyAll heap ids).length = heap.length := by
  induction ids generalizing heap with
  | nil => rfl
  | cons a ids ih => simp only [destroyAll, List.foldl_cons] at ih ⊢; rw [ih]; simp

theorem destroyAll_append (a b : List Nat) (heap : List Cell) :
    destroyAll heap (a ++ b) = destroyAll (destroyAll heap a) b := by
  simp [destroyAll]

theorem HasFlag.lt {heap id b} (h : HasFlag heap id b) : id < heap.length := by
  unfold HasFlag at h
  exact (List.getElem?_eq_some_iff.1 h).1

theorem HasFlag.destroyAll {heap id b ids} (h : HasFlag heap id b) (hn : id ∉ ids) :
    HasFlag (destroyAll heap ids) id b := by
  have := destroyAll_get ids heap id h.lt
  unfold HasFlag at *
  simp [this, hn, h]

theorem decSize_succ (i : Nat) : decSize (i + 1) = i := by simp [decSize]

/-- `findAlive` with middle `d :: rest`, `d` dead: destroys the dead suffix of `rest`; when all of
`rest` is dead it destroys `d` too and reports it. -/
theorem findAlive_spec (f : Nat → Bool) (tail) :
    ∀ (n : Nat) (rest : List Nat) (m : Mgr) (pre : List Nat) (d k fuel : Nat),
      rest.length = n →
      m.slots = slotsOf (pre ++ d :: rest) k tail →
      (∀ id ∈ d :: rest, HasFlag m.heap id (f id)) →
      (d :: rest).Nodup → f d = false →
      rest.length < fuel →
      (∃ mid' y deads, rest = mid' ++ y :: deads ∧ f y = true ∧ (∀ x ∈ deads, f x = false) ∧
        findAlive fuel m pre.length (pre.length + rest.length) =
          .ok ({ m with slots := slotsOf (pre ++ d :: mid' ++ [y]) (k + deads.length) tail,
                        heap := destroyAll m.heap deads.reverse },
               false, pre.length + mid'.length + 1)) ∨
      ((∀ x ∈ rest, f x = false) ∧
        findAlive fuel m pre.length (pre.length + rest.length) =
          .ok ({ m with slots := slotsOf pre (k + rest.length + 1) tail,
                        heap := destroyAll m.heap ((d :: rest).reverse) },
               true, pre.length)) := by
  intro n
  induction n with
  | zero =>
    intro rest m pre d k fuel hn hs hf hnd hd hfuel
    obtain rfl := List.length_eq_zero_iff.1 hn
    right
    obtain ⟨fuel, rfl⟩ : ∃ f', fuel = f' + 1 := ⟨fuel - 1, by simp at hfuel; omega⟩
    have hget : m.slots[pre.length]? = some (some d) := by
      rw [hs]; exact slotsOf_get (by simp)
    have hal := isAliveAt_of hget (hf d (by simp))
    have hde := deinitAt_of hget (hf d (by simp))
    refine ⟨by simp, ?_⟩
    rw [hs] at hde
    simp [findAlive, hal, hd, hde, slotsOf_deinit_last, destroyAll]
  | succ n ih =>
    intro rest m pre d k fuel hn hs hf hnd hd hfuel
    obtain ⟨fuel, rfl⟩ : ∃ f', fuel = f' + 1 := ⟨fuel - 1, by omega⟩
    obtain ⟨r, z, rfl⟩ : ∃ r z, rest = r ++ [z] := by
      refine ⟨rest.dropLast, rest.getLast (by intro h; simp [h] at hn), ?_⟩
      exact (List.dropLast_concat_getLast _).symm
    have hrl : r.length = n := by simpa using hn
    have hget : m.slots[pre.length + (r.length + 1)]? = some (some z) := by
      rw [hs]; apply slotsOf_get; simp [List.getElem?_append_right]
    have hal := isAliveAt_of hget (hf z (by simp))
    have hde := deinitAt_of hget (hf z (by simp))
    simp only [List.length_append, List.length_singleton]
    cases hz : f z with
    | true =>
      left
      refine ⟨r, z, [], rfl, hz, by simp, ?_⟩
      cases m with
      | mk slots msize sizeNext capacity heap =>
        simp only at hs
        subst hs
        simp [findAlive, hal, hz, destroyAll, Nat.add_assoc]
    | false =>
      have hset : (slotsOf (pre ++ d :: (r ++ [z])) k tail).set (pre.length + (r.length + 1)) none
          = slotsOf (pre ++ d :: r) (k + 1) tail := by
        have := slotsOf_deinit_last (pre ++ d :: r) z k tail
        simpa [Nat.add_assoc] using this
      rw [hs, hset] at hde
      have hzr : z ∉ d :: r := by
        have : (d :: r ++ [z]).Nodup := by simpa using hnd
        intro hmem
        exact (List.nodup_append.1 this).2.2 z hmem z (by simp) rfl
      have hstep : findAlive (fuel + 1) m pre.length (pre.length + (r.length + 1)) =
          findAlive fuel { m with slots := slotsOf (pre ++ d :: r) (k + 1) tail,
                                  heap := m.heap.set z .destroyed }
            pre.length (pre.length + r.length) := by
        have h1 : ¬ pre.length + (r.length + 1) ≤ pre.length := by omega
        have h2 : pre.length + (r.length + 1) = pre.length + r.length + 1 := rfl
        rw [findAlive, hal, hz]
        simp only [Outcome.bind_ok, Bool.false_eq_true, if_false, hde, h1]
        rw [h2, decSize_succ]
      have hflag : ∀ id ∈ d :: r, HasFlag (m.heap.set z .destroyed) id (f id) := by
        intro id hid
        have h0 := hf id (by simp at hid ⊢; tauto)
        have hne : z ≠ id := fun h => hzr (h ▸ hid)
        unfold HasFlag at *
        simp [List.getElem?_set, hne, h0]
      have hnd' : (d :: r).Nodup := by
        have : (d :: r ++ [z]).Nodup := by simpa using hnd
        exact (List.nodup_append.1 this).1
      have := ih r { m with slots := slotsOf (pre ++ d :: r) (k + 1) tail,
                            heap := m.heap.set z .destroyed }
        pre d (k + 1) fuel hrl rfl hflag hnd' hd (by simp at hfuel; omega)
      rw [hstep]
      rcases this with ⟨mid', y, deads, he, hy, hdd, hr⟩ | ⟨ha, hr⟩
      · left
        refine ⟨mid', y, deads ++ [z], by simp [he], hy, ?_, ?_⟩
        · intro x hx
          simp only [List.mem_append, List.mem_singleton] at hx
          rcases hx with hx | rfl
          · exact hdd x hx
          · exact hz
        · rw [hr]
          simp [destroyAll, Nat.add_assoc, Nat.add_comm 1]
      · right
        refine ⟨?_, ?_⟩
        · intro x hx
          simp only [List.mem_append, List.mem_singleton] at hx
          rcases hx with hx | rfl
          · exact ha x hx
          · exact hz
        · rw [hr]
          simp [destroyAll, Nat.add_assoc, Nat.add_comm 1]

theorem filter_all {f : Nat → Bool} {l : List Nat} (h : ∀ x ∈ l, f x = true) : l.filter f = l := by
  rw [List.filter_eq_self]; exact h

theorem filter_none {f : Nat → Bool} {l : List Nat} (h : ∀ x ∈ l, f x = false) :
    l.filter f = [] := by
  rw [List.filter_eq_nil_iff]; intro x hx; simp [h x hx]

theorem swap_slots (pre mid : List Nat) (d y k : Nat) (tail) :
    ((slotsOf (pre ++ d :: mid ++ [y]) k tail).set pre.length (some y)).set
      (pre.length + mid.length + 1) (some d) = slotsOf (pre ++ y :: mid ++ [d]) k tail := by
  simp [slotsOf, List.set_append, Nat.add_assoc]

theorem fill_cons_of_pos {f : Nat → Bool} {x : Nat} (h : f x = true) (xs ys : List Nat) : fillGaps f (x :: xs) ys = x :: fillGaps f xs ys := by
  simp [fillGaps, h]

theorem refill_cons_of_pos {f : Nat → Bool} {x : Nat} (h : f x = true) (l : List Nat) : refill f (x :: l) = x :: refill f l := by
  simp [refill, List.filter_cons_of_pos h, fill_cons_of_pos h]

theorem refill_append_of_pos {f : Nat → Bool} {xs : List Nat} (h : ∀ x ∈ xs, f x = true) (l : List Nat) :
    refill f (xs ++ l) = xs ++ refill f l := by
  induction xs with
  | nil => rfl
  | cons x xs ih =>
    rw [List.cons_append, refill_cons_of_pos (h x (by simp)), ih (fun y hy => h y (by simp [hy]))]; rfl

theorem refill_of_neg {f : Nat → Bool} {l : List Nat} (h : ∀ x ∈ l, f x = false) : refill f l = [] := by
  simp [refill, filter_none h, fillGaps]

theorem refill_swap {f : Nat → Bool} {d y : Nat} {mid deads : List Nat} (hd : f d = false) (hy : f y = true)
    (hdd : ∀ x ∈ deads, f x = false) : refill f (d :: (mid ++ y :: deads)) = y :: refill f mid := by
  have e : (d :: (mid ++ y :: deads)).filter f = mid.filter f ++ [y] := by
    rw [List.filter_cons_of_neg (by simp [hd]), List.filter_append, List.filter_cons_of_pos hy, filter_none hdd]
  have hl := List.length_filter_le f mid
  unfold refill
  simp only [e, List.length_append, List.length_cons, List.length_nil, Nat.zero_add, List.take_succ_cons, List.drop_succ_cons]
  rw [List.take_append_of_le_length hl, List.drop_append_of_le_length hl, List.filter_append, List.filter_cons_of_pos hy, filter_none hdd]
  simp [fillGaps, hd]

/-- The whole compaction loop. -/
theorem refreshLoop_spec (f : Nat → Bool) (tail) :
    ∀ (n : Nat) (mid : List Nat) (m : Mgr) (pre : List Nat) (k fuel iA : Nat),
      mid.length ≤ n →
      m.slots = slotsOf (pre ++ mid) k tail →
      (∀ id ∈ mid, HasFlag m.heap id (f id)) →
      mid.Nodup →
      iA + 1 = pre.length + mid.length →
      mid.length < fuel →
      ∃ new k' deads, refreshLoop fuel m pre.length iA =
          .ok ({ m with slots := slotsOf (pre ++ new) k' tail,
                        heap := destroyAll m.heap deads }, pre.length + new.length) ∧
        new.Perm (mid.filter f) ∧ deads.Perm (mid.filter (fun x => !f x)) ∧
        new.length + k' = mid.length + k ∧ new = refill f mid := by
  intro n
  induction n with
  | zero =>
    intro mid m pre k fuel iA hn hs hf hnd hiA hfuel
    obtain rfl := List.length_eq_zero_iff.1 (Nat.le_zero.1 hn)
    obtain ⟨fuel, rfl⟩ : ∃ f', fuel = f' + 1 := ⟨fuel - 1, by simp at hfuel; omega⟩
    refine ⟨[], k, [], ?_, by simp, by simp, by simp, rfl⟩
    rcases findDead_spec m f k tail [] pre (fuel + 1) iA hs hf hiA hfuel with
      ⟨d, rest, alive, he, _⟩ | ⟨_, hr⟩
    · simp at he
    · rw [refreshLoop]
      cases m with
      | mk slots msize sizeNext capacity heap =>
        simp only at hs
        subst hs
        simp only [hr, Outcome.bind_ok]
        simp [destroyAll]
  | succ n ih =>
    intro mid m pre k fuel iA hn hs hf hnd hiA hfuel
    obtain ⟨fuel, rfl⟩ : ∃ f', fuel = f' + 1 := ⟨fuel - 1, by omega⟩
    rcases findDead_spec m f k tail mid pre (fuel + 1) iA hs hf hiA hfuel with
      ⟨d, rest, alive, he, halive, hd, hr⟩ | ⟨hall, hr⟩
    · subst he
      have hs' : m.slots = slotsOf ((pre ++ alive) ++ d :: rest) k tail := by simpa using hs
      have hnd' : (d :: rest).Nodup := (List.nodup_append.1 hnd).2.1
      have hf' : ∀ id ∈ d :: rest, HasFlag m.heap id (f id) := fun id hid => hf id (by simp at hid ⊢; tauto)
      have hiA' : iA = (pre ++ alive).length + rest.length := by simp at hiA ⊢; omega
      have hpl : pre.length + alive.length = (pre ++ alive).length := by simp
      rcases findAlive_spec f tail rest.length rest m (pre ++ alive) d k (fuel + 1) rfl hs' hf' hnd' hd
        (by simp at hfuel; omega) with ⟨mid', y, deads, he, hy, hdd, hr2⟩ | ⟨hdead, hr2⟩
      · -- swap with an alive one
        rw [← hiA'] at hr2
        let m2 : Mgr := { m with slots := slotsOf (pre ++ alive ++ d :: mid' ++ [y]) (k + deads.length) tail,
                                 heap := destroyAll m.heap deads.reverse }
        have hnd2 : (d :: (mid' ++ y :: deads)).Nodup := he ▸ hnd'
        have hd_n : d ∉ deads.reverse := by simp at hnd2 ⊢; tauto
        have hy_n : y ∉ deads.reverse := by
          simp only [List.nodup_cons, List.nodup_append] at hnd2
          simp; exact hnd2.2.2.1.1
        have hdy : d ≠ y := by simp at hnd2; tauto
        have hfd : HasFlag m2.heap d false := by
          have := (hf' d (by simp)).destroyAll hd_n; rwa [hd] at this
        have hfy : HasFlag m2.heap y true := by
          have := (hf' y (by simp [he])).destroyAll hy_n; rwa [hy] at this
        have hgd : m2.slots[(pre ++ alive).length]? = some (some d) := by
          apply slotsOf_get; simp [List.getElem?_append_right]
        have hgy : m2.slots[(pre ++ alive).length + mid'.length + 1]? = some (some y) := by
          apply slotsOf_get; simp [List.getElem?_append_right, Nat.add_assoc]
        have hbd := isAliveAt_of hgd hfd
        have hby := isAliveAt_of hgy hfy
        let m3 : Mgr := { m2 with slots := slotsOf (pre ++ alive ++ y :: mid' ++ [d]) (k + deads.length) tail }
        have hsw : m2.swapAt (pre ++ alive).length ((pre ++ alive).length + mid'.length + 1) = .ok m3 := by
          have := swap_slots (pre ++ alive) mid' d y (k + deads.length) tail
          simp only [Mgr.swapAt, slotAt_of hgd, slotAt_of hgy, Outcome.bind_ok]
          show Outcome.ok _ = _
          simp only [m3, m2, this]
        have hg3 : m3.slots[(pre ++ alive).length + mid'.length + 1]? = some (some d) := by
          apply slotsOf_get; simp [List.getElem?_append_right, Nat.add_assoc]
        let m4 : Mgr := { m3 with slots := slotsOf (pre ++ alive ++ y :: mid') (k + deads.length + 1) tail,
                                  heap := (destroyAll m.heap deads.reverse).set d .destroyed }
        have hde : m3.deinitAt ((pre ++ alive).length + mid'.length + 1) = .ok m4 := by
          rw [deinitAt_of hg3 hfd]
          have := slotsOf_deinit_last (pre ++ alive ++ y :: mid') d (k + deads.length) tail
          have hlen : (pre ++ alive ++ y :: mid').length = (pre ++ alive).length + mid'.length + 1 := by
            simp [Nat.add_assoc]
          rw [hlen] at this
          simp only [m4, m3, m2]
          simp only [this]
        have hflag4 : ∀ id ∈ mid', HasFlag m4.heap id (f id) := by
          intro id hid
          have h0 := hf' id (by simp [he, hid])
          have hnotin : id ∉ deads.reverse ++ [d] := by
            simp only [List.nodup_cons, List.nodup_append, List.mem_append, List.mem_cons] at hnd2
            simp only [List.mem_append, List.mem_reverse, List.mem_singleton]
            intro hh
            rcases hh with hh | rfl
            · exact hnd2.2.2.2 id hid id (Or.inr hh) rfl
            · exact hnd2.1 (Or.inl hid)
          have := h0.destroyAll hnotin
          rw [destroyAll_append] at this
          exact this
        have hndmid : mid'.Nodup := by
          simp only [List.nodup_cons, List.nodup_append] at hnd2; exact hnd2.2.1
        have hlen5 : mid'.length + 1 + deads.length = rest.length := by simp [he]; omega
        obtain ⟨new, k', ds, hrun, hp1, hp2, hlen, hnew⟩ := ih mid' m4 (pre ++ alive ++ [y]) (k + deads.length + 1)
          fuel ((pre ++ alive).length + mid'.length) (by simp at hn; omega) (by simp [m4])
          hflag4 hndmid (by simp; omega) (by simp at hfuel; omega)
        refine ⟨alive ++ y :: new, k', deads.reverse ++ [d] ++ ds, ?_, ?_, ?_, ?_, by
          rw [refill_append_of_pos halive, he, refill_swap hd hy hdd, hnew]⟩
        · have hlen6 : (pre ++ alive ++ [y]).length = (pre ++ alive).length + 1 := by simp; omega
          rw [hlen6] at hrun
          rw [refreshLoop]
          simp only [hr, Outcome.bind_ok, Bool.false_eq_true, if_false, hpl, hr2]
          change (do
            let bD ← m2.isAliveAt (pre ++ alive).length
            let bA ← m2.isAliveAt ((pre ++ alive).length + mid'.length + 1)
            Outcome.check (!bD && bA)
            let m ← m2.swapAt (pre ++ alive).length ((pre ++ alive).length + mid'.length + 1)
            let m ← m.deinitAt ((pre ++ alive).length + mid'.length + 1)
            refreshLoop fuel m ((pre ++ alive).length + 1) (decSize ((pre ++ alive).length + mid'.length + 1))) = _
          simp only [hbd, hby, Outcome.bind_ok, hsw, hde, decSize_succ, Bool.not_false, Bool.and_self,
            Outcome.check_true, hrun]
          simp [m4, m3, m2, destroyAll, Nat.add_assoc, Nat.add_comm 1]
        · rw [List.filter_append, filter_all halive, List.filter_cons_of_neg (by simp [hd]), he,
            List.filter_append, List.filter_cons_of_pos hy, filter_none hdd]
          refine List.Perm.append_left _ ?_
          refine (List.Perm.cons y hp1).trans ?_
          exact (List.perm_append_comm (l₁ := [y]))
        · have e1 : (alive.filter fun x => !f x) = [] := filter_none (by simpa using halive)
          have e2 : (deads.filter fun x => !f x) = deads := filter_all (by simpa using hdd)
          rw [List.filter_append, e1, List.filter_cons_of_pos (by simp [hd]), he,
            List.filter_append, List.filter_cons_of_neg (by simp [hy]), e2]
          simp only [List.nil_append, List.append_assoc]
          have h1 : (deads.reverse ++ ([d] ++ ds)).Perm ([d] ++ (deads ++ ds)) := by
            have a1 : (deads.reverse ++ ([d] ++ ds)).Perm (deads ++ ([d] ++ ds)) :=
              (List.reverse_perm deads).append_right _
            have a2 : (deads ++ ([d] ++ ds)).Perm ([d] ++ (deads ++ ds)) := by
              simpa using (List.perm_middle (a := d) (l₁ := deads) (l₂ := ds))
            exact a1.trans a2
          refine h1.trans (List.Perm.cons d ?_)
          exact (List.perm_append_comm (l₁ := deads) (l₂ := ds)).trans (hp2.append_right deads)
        · simp; omega
      · -- everything on the right was dead
        rw [← hiA'] at hr2
        refine ⟨alive, k + rest.length + 1, (d :: rest).reverse, ?_, ?_, ?_, ?_, by
          rw [refill_append_of_pos halive, refill_of_neg (by
            intro x hx
            rcases List.mem_cons.1 hx with rfl | hx
            · exact hd
            · exact hdead x hx), List.append_nil]⟩
        · rw [refreshLoop]
          simp only [hr, Outcome.bind_ok, Bool.false_eq_true, if_false, hpl, hr2, if_true,
            Outcome.pure_eq]
        · rw [List.filter_append, filter_all halive, List.filter_cons_of_neg (by simp [hd]),
            filter_none hdead]
          simp
        · have e1 : (alive.filter fun x => !f x) = [] := filter_none (by simpa using halive)
          have e2 : (rest.filter fun x => !f x) = rest := filter_all (by simpa using hdead)
          rw [List.filter_append, e1, List.filter_cons_of_pos (by simp [hd]), e2]
          exact List.reverse_perm _
        · simp; omega
    · refine ⟨mid, k, [], ?_, by rw [filter_all hall], ?_, rfl, by
        have := refill_append_of_pos hall []
        rw [List.append_nil] at this
        rw [this, refill_of_neg (by simp), List.append_nil]⟩
      · rw [refreshLoop]
        cases m with
        | mk slots msize sizeNext capacity heap =>
          simp only at hs
          subst hs
          simp [hr, destroyAll]
      · rw [filter_none (by simpa using hall)]

end Verif.Manager
