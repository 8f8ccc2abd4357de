import Verif.Timeline.Managed
import Verif.Timeline.Spec
import Verif.Manager.Theorems

/-!
# Timeline managers: theorems (C53)
-/

namespace Verif.Timeline

open Verif Verif.Manager

variable {F : Type} (o : Ops F) (env : List Event → Nat → Bool)

/-- The timeline exists and is not marked for removal. -/
def TM.Live (tm : TM F) (id : Nat) : Prop := tm.mgr.heap[id]? = some (.live true)

/-- The timeline is marked, and will be removed. -/
def TM.Marked (tm : TM F) (id : Nat) : Prop := tm.mgr.heap[id]? = some (.live false)

/-- The timeline has been destroyed. -/
def TM.Gone (tm : TM F) (id : Nat) : Prop := tm.mgr.heap[id]? = some .destroyed

/-- The manager is in a state managers can be in. -/
def Sound (tm : TM F) : Prop := ∃ a vis, Rel tm.mgr a vis

theorem sound_cell {m : Mgr} {a : Abs} {vis : List Nat} (h : Rel m a vis) (id : Nat) (c : Cell) (hc : m.heap[id]? = some c) :
    c = cellOf a id := by
  have hlt : id < a.next := by rw [← h.heapLen]; exact (List.getElem?_eq_some_iff.1 hc).1
  rw [h.heap id hlt] at hc
  exact (Option.some.inj hc).symm

theorem slot_of_vis {m : Mgr} {a : Abs} {vis : List Nat} (h : Rel m a vis) (i id : Nat) (hi : vis[i]? = some id) :
    m.slotAt i = .ok id := by
  obtain ⟨k, hk⟩ := h.slots
  apply slotAt_of
  rw [hk]
  apply slotsOf_get
  rw [List.getElem?_append_left (List.getElem?_eq_some_iff.1 hi).1]
  exact hi

/-- The loop over the timelines. -/
theorem visit_spec (fuel : Nat) (ft : F) (vis : List Nat) (rest done : List Nat) (hv : vis = done ++ rest) (tm tm' : TM F) (a : Abs)
    (h : Rel tm.mgr a vis) (hlive : ∀ id ∈ rest, tm.mgr.heap[id]? = some (.live true))
    (e : visit o env fuel ft done.length rest.length tm = .ok tm') :
    (∃ a', Rel tm'.mgr a' vis) ∧
      (∀ id ∈ rest, ∃ l1 l2, update o env fuel (tm.tl id) l1 ft = .ok (tm'.tl id, l2)) ∧
      (∀ id ∉ rest, tm'.tl id = tm.tl id) ∧
      (∀ id ∈ rest, tm'.mgr.heap[id]? = some (.live (!(tm'.tl id).finished))) ∧
      (∀ id ∉ rest, tm'.mgr.heap[id]? = tm.mgr.heap[id]?) := by
  induction rest generalizing done tm a with
  | nil =>
    simp only [visit, List.length_nil, Outcome.ok.injEq] at e
    subst e
    exact ⟨⟨a, h⟩, by simp, by simp, by simp, by simp⟩
  | cons x rest ih =>
    have hnd : (x :: rest).Nodup := by
      have := (List.nodup_append.1 h.nodup).1
      rw [hv] at this
      exact (List.nodup_append.1 this).2.1
    obtain ⟨hx, hnd'⟩ := List.nodup_cons.1 hnd
    have hslot : tm.mgr.slotAt done.length = .ok x := slot_of_vis h _ _ (by rw [hv]; simp)
    have hxl := hlive x (List.mem_cons_self ..)
    have hbool : tm.mgr.getBool x = .ok true := by simp [Mgr.getBool, hxl]
    simp only [List.length_cons, visit, hslot, hbool, Outcome.bind_ok] at e
    obtain ⟨⟨t, log⟩, e1, e2⟩ := Outcome.bind_eq_ok.1 e
    simp only at e2
    -- the manager afterwards
    have hm : ∃ mgr a1, delIf tm.mgr t.finished x = .ok mgr ∧ Rel mgr a1 vis ∧
        mgr.heap[x]? = some (.live (!t.finished)) ∧ ∀ id, id ≠ x → mgr.heap[id]? = tm.mgr.heap[id]? := by
      cases hf : t.finished with
      | true =>
        have hex : x ∈ a.existing := by
          rw [← h.mem_existing, hv]; simp
        obtain ⟨mgr, hd, hr⟩ := rel_del h hex
        refine ⟨mgr, _, by simpa [delIf] using hd, hr, ?_⟩
        simp only [Mgr.del, hxl, Outcome.ok.injEq] at hd
        subst hd
        have := (List.getElem?_eq_some_iff.1 hxl).1
        refine ⟨by simp [this], fun id hid => ?_⟩
        simp only
        rw [List.getElem?_set_ne (Ne.symm hid)]
      | false => exact ⟨tm.mgr, a, by simp [delIf], h, by simpa using hxl, fun _ _ => rfl⟩
    obtain ⟨mgr, a1, hm1, hm2, hm3, hm4⟩ := hm
    rw [hm1] at e2
    simp only [Outcome.bind_ok] at e2
    have e3 := ih (done ++ [x]) (by rw [hv]; simp) { tm with mgr := mgr, tl := setTL tm.tl x t, log := log } a1 hm2
      (fun id hid => by
        have hne : id ≠ x := fun h => hx (h ▸ hid)
        simp only
        rw [hm4 id hne]; exact hlive id (List.mem_cons_of_mem _ hid)) (by simpa using e2)
    obtain ⟨f1, f2, f3, f4, f5⟩ := e3
    have htx : tm'.tl x = t := by rw [f3 x hx]; simp [setTL]
    refine ⟨f1, ?_, ?_, ?_, ?_⟩
    · intro id hid
      rcases List.mem_cons.1 hid with rfl | hid
      · exact ⟨_, _, by rw [htx]; exact e1⟩
      · obtain ⟨l1, l2, f⟩ := f2 id hid
        have hne : id ≠ x := fun h => hx (h ▸ hid)
        simp only [setTL, hne, if_false] at f
        exact ⟨l1, l2, f⟩
    · intro id hid
      simp only [List.mem_cons, not_or] at hid
      rw [f3 id hid.2]
      simp [setTL, hid.1]
    · intro id hid
      rcases List.mem_cons.1 hid with rfl | hid
      · rw [f5 id hx, htx]; exact hm3
      · exact f4 id hid
    · intro id hid
      simp only [List.mem_cons, not_or] at hid
      rw [f5 id hid.2]
      exact hm4 id hid.1

theorem refresh_cells {m m' : Mgr} {a a' : Abs} {vis vis' : List Nat} (h : Rel m a vis) (hs : a.step .refresh = some a')
    (h' : Rel m' a' vis') :
    (∀ id, id ∈ vis' ↔ m.heap[id]? = some (.live true)) ∧ (∀ id ∈ vis', m'.heap[id]? = some (.live true)) ∧
      (∀ id < m.heap.length, id ∉ vis' → m'.heap[id]? = some .destroyed) := by
  simp only [Abs.step, Option.some.injEq] at hs
  subst hs
  have hmem : ∀ id, id ∈ vis' ↔ id ∈ a.existing ∧ id ∉ a.dead := by
    intro id
    rw [h'.perm.mem_iff, List.mem_filter]; simp
  refine ⟨?_, ?_, ?_⟩
  · intro id
    rw [hmem]
    constructor
    · rintro ⟨h1, h2⟩
      rw [h.heap id (h.lt id h1), cellOf, if_pos h1]
      simp [h2]
    · intro hc
      have := sound_cell h id _ hc
      unfold cellOf at this
      split at this
      · rename_i hex
        refine ⟨hex, ?_⟩
        simpa using this
      · simp at this
  · intro id hid
    have := h'.flag (id := id) (by simp [hid])
    simpa [HasFlag] using this
  · intro id hlt hid
    rw [h'.heap id (by simpa [h.heapLen] using hlt), cellOf, if_neg]
    simp only [Abs.existing, List.append_nil, List.mem_filter, not_and, decide_eq_true_eq]
    intro h1 h2
    exact hid ((hmem id).2 ⟨h1, h2⟩)

/-- What an update does, from any state a manager can be in. -/
theorem update_spec (fuel : Nat) (ft : F) (tm tm' : TM F) (h : Sound tm) (e : tm.update o env fuel ft = .ok tm') :
    Sound tm' ∧
      (∀ id, tm.Live id → (∃ l1 l2, update o env fuel (tm.tl id) l1 ft = .ok (tm'.tl id, l2)) ∧
        ((tm'.tl id).finished = true → tm'.Marked id) ∧ ((tm'.tl id).finished = false → tm'.Live id)) ∧
      (∀ id, ¬ tm.Live id → tm'.tl id = tm.tl id) ∧
      (∀ id, tm.Marked id ∨ tm.Gone id → tm'.Gone id) := by
  obtain ⟨a, vis, hr⟩ := h
  obtain ⟨m1, a1, vis1, h1, h2, h3⟩ := rel_refresh hr
  obtain ⟨c1, c2, c3⟩ := refresh_cells hr h2 h3
  simp only [TM.update, h1, Outcome.bind_ok, h3.msize] at e
  obtain ⟨⟨a', f1⟩, f2, f3, f4, f5⟩ := visit_spec o env fuel ft vis1 vis1 [] rfl { tm with mgr := m1 } tm' a1 h3 c2 e
  refine ⟨⟨a', vis1, f1⟩, ?_, ?_, ?_⟩
  · intro id hid
    have hv := (c1 id).2 hid
    have hc := f4 id hv
    refine ⟨f2 id hv, ?_, ?_⟩
    · intro hf; rw [hf] at hc; exact hc
    · intro hf; rw [hf] at hc; exact hc
  · intro id hid
    exact f3 id (fun hv => hid ((c1 id).1 hv))
  · intro id hid
    have hlt : id < tm.mgr.heap.length := by
      rcases hid with hid | hid <;> exact (List.getElem?_eq_some_iff.1 hid).1
    have hv : id ∉ vis1 := by
      rw [c1 id]
      rcases hid with hid | hid <;> (simp only [TM.Marked, TM.Gone] at hid; rw [hid]; simp)
    show tm'.mgr.heap[id]? = _
    rw [f5 id hv]
    exact c3 id hlt hv

theorem sound_step (fuel : Nat) (tm tm' : TM F) (x : TOp F) (h : Sound tm) (e : tstep o env fuel tm x = .ok tm') : Sound tm' := by
  cases x with
  | create =>
    obtain ⟨a, vis, hr⟩ := h
    obtain ⟨m', a', h1, h2, h3⟩ := rel_create hr
    simp only [tstep, TM.create, h1, Outcome.bind_ok, Outcome.pure_eq, Outcome.ok.injEq] at e
    subst e
    exact ⟨a', vis, h3⟩
  | edit id f =>
    simp only [tstep, TM.edit] at e
    obtain ⟨_, _, e2⟩ := Outcome.bind_eq_ok.1 e
    simp only [Outcome.pure_eq, Outcome.ok.injEq] at e2
    subst e2
    exact h
  | update ft => exact (update_spec o env fuel ft tm tm' h e).1
  | clear =>
    obtain ⟨a, vis, hr⟩ := h
    obtain ⟨m', a', h1, h2, h3⟩ := rel_clear hr
    simp only [tstep, TM.clear, h1, Outcome.bind_ok, Outcome.pure_eq, Outcome.ok.injEq] at e
    subst e
    exact ⟨a', [], h3⟩

theorem sound_run (fuel : Nat) (xs : List (TOp F)) (tm : TM F) (e : trunFresh o env fuel xs = .ok tm) : Sound tm := by
  have key : ∀ (xs : List (TOp F)) (tm tm' : TM F), Sound tm → trun o env fuel tm xs = .ok tm' → Sound tm' := by
    intro xs
    induction xs with
    | nil => intro tm tm' h e; simp only [trun, Outcome.ok.injEq] at e; subst e; exact h
    | cons x xs ih =>
      intro tm tm' h e
      obtain ⟨tm1, e1, e2⟩ := Outcome.bind_eq_ok.1 e
      exact ih tm1 tm' (sound_step o env fuel tm tm1 x h e1) e2
  obtain ⟨m, h1, h2⟩ := rel_init
  simp only [trunFresh, h1, Outcome.bind_ok] at e
  exact key xs _ tm ⟨_, _, h2⟩ e

/-- C53. After any history of creations, changes of timelines by the user, updates and clears, an update by `ft`
* updates every live timeline exactly once, by `ft`, and touches no other;
* marks for removal exactly those that are finished after it: the others stay;
* destroys exactly the timelines marked before. -/
theorem C53_update (fuel : Nat) (xs : List (TOp F)) (ft : F) (tm tm' : TM F) (h : trunFresh o env fuel xs = .ok tm)
    (e : tm.update o env fuel ft = .ok tm') :
    (∀ id, tm.Live id → (∃ l1 l2, update o env fuel (tm.tl id) l1 ft = .ok (tm'.tl id, l2)) ∧
        ((tm'.tl id).finished = true → tm'.Marked id) ∧ ((tm'.tl id).finished = false → tm'.Live id)) ∧
      (∀ id, ¬ tm.Live id → tm'.tl id = tm.tl id) ∧
      (∀ id, tm.Marked id ∨ tm.Gone id → tm'.Gone id) :=
  (update_spec o env fuel ft tm tm' (sound_run o env fuel xs tm h) e).2

/-- C53. The manager adds no failures of its own: if the timelines can be updated, so can the manager. -/
theorem C53_update_ok (fuel : Nat) (xs : List (TOp F)) (ft : F) (tm : TM F) (h : trunFresh o env fuel xs = .ok tm)
    (hok : ∀ id, tm.Live id → ∀ log, ∃ t l, update o env fuel (tm.tl id) log ft = .ok (t, l)) :
    ∃ tm', tm.update o env fuel ft = .ok tm' := by
  obtain ⟨a, vis, hr⟩ := sound_run o env fuel xs tm h
  obtain ⟨m1, a1, vis1, h1, h2, h3⟩ := rel_refresh hr
  obtain ⟨c1, c2, c3⟩ := refresh_cells hr h2 h3
  simp only [TM.update, h1, Outcome.bind_ok, h3.msize]
  -- the loop
  have key : ∀ (rest done : List Nat), vis1 = done ++ rest → ∀ (u : TM F) (a : Abs), Rel u.mgr a vis1 →
      (∀ id ∈ rest, u.tl id = tm.tl id ∧ u.mgr.heap[id]? = some (.live true)) →
      ∃ tm', visit o env fuel ft done.length rest.length u = .ok tm' := by
    intro rest
    induction rest with
    | nil => intro done _ u a _ _; exact ⟨u, rfl⟩
    | cons x rest ih =>
      intro done hv u a hu hrest
      have hnd : (x :: rest).Nodup := by
        have := (List.nodup_append.1 hu.nodup).1
        rw [hv] at this
        exact (List.nodup_append.1 this).2.1
      obtain ⟨hx, _⟩ := List.nodup_cons.1 hnd
      obtain ⟨hx1, hx2⟩ := hrest x (List.mem_cons_self ..)
      have hslot : u.mgr.slotAt done.length = .ok x := slot_of_vis hu _ _ (by rw [hv]; simp)
      have hbool : u.mgr.getBool x = .ok true := by simp [Mgr.getBool, hx2]
      obtain ⟨t, l, ht⟩ := hok x ((c1 x).1 (by rw [hv]; simp)) u.log
      rw [← hx1] at ht
      simp only [List.length_cons, visit, hslot, hbool, ht, Outcome.bind_ok]
      have hm : ∃ mgr a1, delIf u.mgr t.finished x = .ok mgr ∧ Rel mgr a1 vis1 ∧
          ∀ id, id ≠ x → mgr.heap[id]? = u.mgr.heap[id]? := by
        cases hf : t.finished with
        | true =>
          have hex : x ∈ a.existing := by
            rw [← hu.mem_existing, hv]; simp
          obtain ⟨mgr, hd, hr⟩ := rel_del hu hex
          refine ⟨mgr, _, by simpa [delIf] using hd, hr, fun id hid => ?_⟩
          simp only [Mgr.del, hx2, Outcome.ok.injEq] at hd
          subst hd
          simp only
          rw [List.getElem?_set_ne (Ne.symm hid)]
        | false => exact ⟨u.mgr, a, by simp [delIf], hu, fun _ _ => rfl⟩
      obtain ⟨mgr, a2, hm1, hm2, hm3⟩ := hm
      rw [hm1]
      simp only [Outcome.bind_ok]
      have := ih (done ++ [x]) (by rw [hv]; simp) { u with mgr := mgr, tl := setTL u.tl x t, log := l } a2 hm2 (by
        intro id hid
        have hne : id ≠ x := fun h => hx (h ▸ hid)
        obtain ⟨g1, g2⟩ := hrest id (List.mem_cons_of_mem _ hid)
        exact ⟨by simp [setTL, hne, g1], by simp only; rw [hm3 id hne]; exact g2⟩)
      simpa using this
  exact key vis1 [] rfl { tm with mgr := m1 } a1 h3 (fun id hid => ⟨rfl, c2 id hid⟩)

/-- C53. A created timeline is live and empty; creation and changes by the user affect the life of no timeline. -/
theorem C53_create (fuel : Nat) (xs : List (TOp F)) (tm : TM F) (h : trunFresh o env fuel xs = .ok tm) :
    ∃ tm' id, tm.create o = .ok (tm', id) ∧ tm'.Live id ∧ tm'.tl id = TL.init o true ∧ tm.mgr.heap[id]? = none ∧
      ∀ j, j ≠ id → tm'.tl j = tm.tl j ∧ tm'.mgr.heap[j]? = tm.mgr.heap[j]? := by
  obtain ⟨a, vis, hr⟩ := sound_run o env fuel xs tm h
  obtain ⟨m', a', h1, h2, h3⟩ := rel_create hr
  have hlen := hr.heapLen
  simp only [Abs.step, Option.some.injEq] at h2
  have hnotdead : a.next ∉ a.dead := fun hd => Nat.lt_irrefl _ (hr.lt _ (hr.deadEx _ hd))
  have hcell : ∀ j < a'.next, m'.heap[j]? = some (cellOf a' j) := h3.heap
  have hnext : a'.next = a.next + 1 := by rw [← h2]
  refine ⟨{ tm with mgr := m', tl := setTL tm.tl a.next (TL.init o true) }, a.next, by simp [TM.create, h1], ?_, by simp [setTL], ?_, ?_⟩
  · show m'.heap[a.next]? = _
    rw [hcell a.next (by omega)]
    simp [cellOf, ← h2, Abs.existing, hnotdead]
  · exact List.getElem?_eq_none (by omega)
  · intro j hj
    refine ⟨by simp [setTL, hj], ?_⟩
    simp only
    by_cases hlt : j < a.next
    · rw [hcell j (by omega), hr.heap j hlt]
      simp [cellOf, ← h2, Abs.existing, hj]
    · rw [List.getElem?_eq_none (by rw [h3.heapLen]; omega), List.getElem?_eq_none (by rw [hlen]; omega)]

/-- A history: three timelines, of which the first is empty and the second waits; after one update the first is marked, after two
it is gone, and the waiting one is live. -/
def demo : Outcome (List (Option Cell)) := do
  let add (c : Cmd ℚ) (t : TL ℚ) : TL ℚ := match t.append c with | .ok t => t | _ => t
  let tm ← trunFresh exact (fun _ _ => true) 10
    [.create, .create, .update 1, .create, .edit 1 (fun t => add (.wait 5 5) t.start), .edit 2 (add (.wait 5 5)), .update 1]
  pure [tm.mgr.heap[0]?, tm.mgr.heap[1]?, tm.mgr.heap[2]?]

/-- A timeline that has nothing to do is finished in its first update, and starting it again does not save it. -/
theorem C53_restart_too_late_witness :
    demo = .ok [some .destroyed, some .destroyed, some (.live true)] := by
  decide +kernel

end Verif.Timeline
