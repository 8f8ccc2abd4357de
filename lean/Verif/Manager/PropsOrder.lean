import Verif.Manager.PropsIter

/-!
# Theorems: the order of the objects (C150) and loops whose body refreshes the manager (C151)
-/

namespace Verif.Manager

open Verif Spec

/-! ## The order -/

/-- The order-keeping manager is the abstract one. -/
structure Same (s : Seq) (a : Abs) (vis : List Nat) : Prop where
  next : s.next = a.next
  visible : s.visible = vis
  pending : s.pending = a.pending
  dead : s.dead = a.dead
  cap : s.cap = a.cap

theorem Same.places {s a vis} (h : Same s a vis) : s.places = vis ++ a.pending := by
  rw [Seq.places, h.visible, h.pending]

theorem same_step {m a vis s o s'} (hr : Rel m a vis) (hs : Same s a vis) (h : s.step o = some s') :
    ∃ m' a' vis', step m o = .ok m' ∧ a.step o = some a' ∧ Rel m' a' vis' ∧ Same s' a' vis' := by
  have hlen : s.places.length = a.existing.length := by rw [hs.places, hr.lenEx]
  cases o with
  | create =>
    obtain ⟨m1, a1, h1, h2, h3⟩ := rel_create hr
    refine ⟨m1, a1, vis, by simp [step, h1], h2, h3, ?_⟩
    simp only [Abs.step, Option.some.injEq] at h2
    simp only [Seq.step, Option.some.injEq] at h
    subst h2 h
    constructor <;> simp [hs.next, hs.visible, hs.pending, hs.dead, hs.cap, hlen]
  | del id =>
    simp only [Seq.step] at h
    split at h
    · rename_i hid
      rw [hs.places] at hid
      have hex := (hr.mem_existing id).1 hid
      obtain ⟨m1, h1, h3⟩ := rel_del hr hex
      simp only [Option.some.injEq] at h
      subst h
      refine ⟨m1, _, vis, h1, by simp only [Abs.step, if_pos hex], h3, ?_⟩
      constructor <;> simp [hs.next, hs.visible, hs.pending, hs.dead, hs.cap]
    · simp at h
  | refresh =>
    obtain ⟨m1, a1, vis1, h1, h2, h3, h4⟩ := rel_refresh' hr
    refine ⟨m1, a1, vis1, h1, h2, h3, ?_⟩
    simp only [Abs.step, Option.some.injEq] at h2
    simp only [Seq.step, Option.some.injEq] at h
    subst h2 h
    constructor <;> simp [hs.next, hs.dead, hs.cap, h4, hs.places]
  | clear =>
    obtain ⟨m1, a1, h1, h2, h3⟩ := rel_clear hr
    refine ⟨m1, a1, [], h1, h2, h3, ?_⟩
    simp only [Abs.step, Option.some.injEq] at h2
    simp only [Seq.step, Option.some.injEq] at h
    subst h2 h
    constructor <;> simp [hs.next, hs.cap]
  | reserve n =>
    simp only [Seq.step] at h
    split at h
    · rename_i hn
      rw [hs.cap] at hn
      obtain ⟨m1, h1, h2⟩ := rel_reserve hr hn
      simp only [Option.some.injEq] at h
      subst h
      refine ⟨m1, _, vis, h1, by simp only [Abs.step, if_pos hn], h2, ?_⟩
      constructor <;> simp [hs.next, hs.visible, hs.pending, hs.dead]
    · simp at h

theorem same_run : ∀ (os : List Op) {m a vis s s'}, Rel m a vis → Same s a vis → s.run os = some s' →
    ∃ m' a' vis', run m os = .ok m' ∧ a.run os = some a' ∧ Rel m' a' vis' ∧ Same s' a' vis' := by
  intro os
  induction os with
  | nil =>
    intro m a vis s s' hr hs h
    simp only [Seq.run, Option.some.injEq] at h
    subst h
    exact ⟨m, a, vis, rfl, rfl, hr, hs⟩
  | cons o os ih =>
    intro m a vis s s' hr hs h
    simp only [Seq.run, Option.bind_eq_some_iff] at h
    obtain ⟨s1, h1, h2⟩ := h
    obtain ⟨m1, a1, vis1, h3, h4, h5, h6⟩ := same_step hr hs h1
    obtain ⟨m2, a2, vis2, h7, h8, h9, h10⟩ := ih h5 h6 h2
    exact ⟨m2, a2, vis2, by simp [run, h3, h7], by simp [Abs.run, h4, h8], h9, h10⟩

theorem same_init : Same Seq.init Abs.init [] := ⟨rfl, rfl, rfl, rfl, rfl⟩

theorem same_fresh {os : List Op} {s : Seq} (h : Seq.init.run os = some s) :
    ∃ m a, runFresh os = .ok m ∧ Legal os a ∧ Rel m a s.visible ∧ Same s a s.visible := by
  obtain ⟨m0, h1, h2⟩ := rel_init
  obtain ⟨m, a, vis, h3, h4, h5, h6⟩ := same_run os h2 same_init h
  obtain rfl := h6.visible
  exact ⟨m, a, by simp [runFresh, h1, h3], h4, h5, h6⟩

/-- **C150 (the order of iteration).** After any allowed history the manager is iterated in exactly this order: objects become
visible in the order of their creation behind the visible ones, and at a refresh the objects that stay keep their places, except that those
beyond the new end fill the gaps, the last one first. -/
theorem C150_order (os : List Op) (s : Seq) (h : Seq.init.run os = some s) : ∃ m, runFresh os = .ok m ∧ m.iter = .ok s.visible := by
  obtain ⟨m, a, h1, -, h2, -⟩ := same_fresh h
  exact ⟨m, h1, h2.iter⟩

/-- **C150 (the same histories).** The order-keeping manager allows exactly the histories allowed before (`Legal`). -/
theorem C150_allowed (os : List Op) : (∃ s, Seq.init.run os = some s) ↔ ∃ a, Legal os a := by
  constructor
  · rintro ⟨s, h⟩
    obtain ⟨m, a, -, h2, -, -⟩ := same_fresh h
    exact ⟨a, h2⟩
  · rintro ⟨a, h⟩
    have key : ∀ (os : List Op) (m : Mgr) (a a' : Abs) (vis : List Nat) (s : Seq), Rel m a vis → Same s a vis → a.run os = some a' →
        ∃ s', s.run os = some s' := by
      intro os
      induction os with
      | nil => intro m a a' vis s _ _ _; exact ⟨s, rfl⟩
      | cons o os ih =>
        intro m a a' vis s hr hs h
        simp only [Abs.run, Option.bind_eq_some_iff] at h
        obtain ⟨a1, h1, h2⟩ := h
        have : ∃ s1, s.step o = some s1 := by
          cases o with
          | create => exact ⟨_, rfl⟩
          | refresh => exact ⟨_, rfl⟩
          | clear => exact ⟨_, rfl⟩
          | del id =>
            simp only [Abs.step] at h1
            split at h1
            · rename_i hid
              have := (hr.mem_existing id).2 hid
              rw [← hs.places] at this
              exact ⟨_, by simp only [Seq.step, if_pos this]; rfl⟩
            · simp at h1
          | reserve n =>
            simp only [Abs.step] at h1
            split at h1
            · rename_i hn
              rw [← hs.cap] at hn
              exact ⟨_, by simp only [Seq.step, if_pos hn]; rfl⟩
            · simp at h1
        obtain ⟨s1, h3⟩ := this
        obtain ⟨m1, a1', vis1, h4, h5, h6, h7⟩ := same_step hr hs h3
        rw [h1] at h5
        cases h5
        obtain ⟨s', h8⟩ := ih m1 a1 a' vis1 s1 h6 h7 h2
        exact ⟨s', by simp [Seq.run, h3, h8]⟩
    obtain ⟨m0, -, h2⟩ := rel_init
    exact key os m0 _ a [] _ h2 same_init h

/-! ## What the order means -/

theorem fill_mem {f : Nat → Bool} : ∀ (xs ys : List Nat) (j x : Nat), (fillGaps f xs ys)[j]? = some x →
    (∃ k, j ≤ k ∧ xs[k]? = some x) ∨ (x ∈ ys ∧ j < xs.length) := by
  intro xs
  induction xs with
  | nil => intro ys j x h; simp [fillGaps] at h
  | cons a xs ih =>
    intro ys j x h
    unfold fillGaps at h
    split at h
    · cases j with
      | zero => left; exact ⟨0, Nat.le_refl _, by simpa using h⟩
      | succ j =>
        rcases ih ys j x (by simpa using h) with ⟨k, h1, h2⟩ | ⟨h1, h2⟩
        · left; exact ⟨k + 1, by omega, by simpa using h2⟩
        · right; exact ⟨h1, by simp; omega⟩
    · cases ys with
      | nil =>
        rcases ih [] j x h with ⟨k, h1, h2⟩ | ⟨h1, h2⟩
        · left; exact ⟨k + 1, by omega, by simpa using h2⟩
        · simp at h1
      | cons y ys =>
        cases j with
        | zero =>
          right
          simp only [List.getElem?_cons_zero, Option.some.injEq] at h
          subst h
          exact ⟨by simp, by simp⟩
        | succ j =>
          rcases ih ys j x (by simpa using h) with ⟨k, h1, h2⟩ | ⟨h1, h2⟩
          · left; exact ⟨k + 1, by omega, by simpa using h2⟩
          · right; exact ⟨by simp [h1], by simp; omega⟩

/-- Objects move only towards the front. -/
theorem refill_front {f : Nat → Bool} {l : List Nat} {j x : Nat} (h : (refill f l)[j]? = some x) : ∃ k, j ≤ k ∧ l[k]? = some x := by
  unfold refill at h
  rcases fill_mem _ _ _ _ h with ⟨k, h1, h2⟩ | ⟨h1, h2⟩
  · refine ⟨k, h1, ?_⟩
    rw [List.getElem?_take] at h2
    split at h2
    · exact h2
    · simp at h2
  · rw [List.mem_reverse, List.mem_filter] at h1
    obtain ⟨k, hk, e⟩ := List.mem_iff_getElem.1 h1.1
    rw [List.length_take] at h2
    refine ⟨(l.filter f).length + k, by omega, ?_⟩
    rw [← e, List.getElem_drop, List.getElem?_eq_getElem]

theorem fill_keep {f : Nat → Bool} : ∀ (xs ys : List Nat) (i x : Nat), (xs.filter (fun x => !f x)).length ≤ ys.length → xs[i]? = some x →
    f x = true → (fillGaps f xs ys)[i]? = some x := by
  intro xs
  induction xs with
  | nil => intro ys i x _ h _; simp at h
  | cons a xs ih =>
    intro ys i x hl h hx
    unfold fillGaps
    split
    · rename_i ha
      cases i with
      | zero => simpa using h
      | succ i =>
        simp only [List.getElem?_cons_succ] at h ⊢
        exact ih ys i x (by simpa [List.filter_cons, ha] using hl) h hx
    · rename_i ha
      have hl' : (xs.filter (fun x => !f x)).length + 1 ≤ ys.length := by simpa [List.filter_cons, ha] using hl
      cases ys with
      | nil => simp at hl'
      | cons y ys =>
        cases i with
        | zero =>
          simp only [List.getElem?_cons_zero, Option.some.injEq] at h
          subst h
          exact absurd hx ha
        | succ i =>
          simp only [List.getElem?_cons_succ] at h ⊢
          exact ih ys i x (by simp at hl'; omega) h hx

theorem refill_room (f : Nat → Bool) (l : List Nat) :
    ((l.take (l.filter f).length).filter (fun x => !f x)).length = ((l.drop (l.filter f).length).filter f).reverse.length := by
  obtain ⟨n, hn⟩ : ∃ n, n = (l.filter f).length := ⟨_, rfl⟩
  rw [← hn]
  have h1 : ((l.take n).filter f).length + ((l.drop n).filter f).length = n := by
    rw [← List.length_append, ← List.filter_append, List.take_append_drop, hn]
  have h2 : ((l.take n).filter f).length + ((l.take n).filter (fun x => !f x)).length = n := by
    have : (l.take n).length = n := by
      rw [List.length_take]
      have := List.length_filter_le f l
      omega
    have h3 : ∀ xs : List Nat, (xs.filter f).length + (xs.filter (fun x => !f x)).length = xs.length := by
      intro xs
      induction xs with
      | nil => rfl
      | cons x xs ih => cases h : f x <;> simp [List.filter_cons, h] <;> omega
    rw [h3, this]
  rw [List.length_reverse]
  omega

theorem fill_gap {f : Nat → Bool} : ∀ (xs ys : List Nat) (y : Nat), (xs.filter (fun x => !f x)).length = ys.length → y ∈ ys →
    ∃ (j x : Nat), xs[j]? = some x ∧ f x = false ∧ (fillGaps f xs ys)[j]? = some y := by
  intro xs
  induction xs with
  | nil => intro ys y hl hy; cases ys <;> simp at hl hy
  | cons a xs ih =>
    intro ys y hl hy
    unfold fillGaps
    split
    · rename_i ha
      obtain ⟨j, x, h1, h2, h3⟩ := ih ys y (by simpa [List.filter_cons, ha] using hl) hy
      exact ⟨j + 1, x, by simpa using h1, h2, by simpa using h3⟩
    · rename_i ha
      have hl' : (xs.filter (fun x => !f x)).length + 1 = ys.length := by simpa [List.filter_cons, ha] using hl
      cases ys with
      | nil => simp at hy
      | cons z ys =>
        rcases List.mem_cons.1 hy with rfl | hy
        · exact ⟨0, a, by simp, by simpa using ha, by simp⟩
        · obtain ⟨j, x, h1, h2, h3⟩ := ih ys y (by simp at hl'; omega) hy
          exact ⟨j + 1, x, by simpa using h1, h2, by simpa using h3⟩

/-- **C150 (places).** At a refresh of a manager in any state, an object that stays and whose place is below the number of objects that
stay keeps its place; any other object that stays takes the place of a deleted one, further to the front. -/
theorem C150_places (s s' : Seq) (h : s.step .refresh = some s') (i id : Nat) (hi : s.places[i]? = some id) (hd : id ∉ s.dead) :
    (i < (s.places.filter (· ∉ s.dead)).length ∧ s'.visible[i]? = some id) ∨
    ((s.places.filter (· ∉ s.dead)).length ≤ i ∧ ∃ j x, j < i ∧ s.places[j]? = some x ∧ x ∈ s.dead ∧ s'.visible[j]? = some id) := by
  simp only [Seq.step, Option.some.injEq] at h
  subst h
  simp only
  obtain ⟨f, hf⟩ : ∃ f : Nat → Bool, f = fun id => decide (id ∉ s.dead) := ⟨_, rfl⟩
  rw [← hf]
  have hfid : f id = true := by simp [hf, hd]
  have room := refill_room f s.places
  by_cases hlt : i < (s.places.filter f).length
  · left
    refine ⟨hlt, ?_⟩
    exact fill_keep _ _ _ _ (Nat.le_of_eq room) (by rw [List.getElem?_take, if_pos hlt, hi]) hfid
  · right
    refine ⟨Nat.le_of_not_lt hlt, ?_⟩
    have hmem : id ∈ ((s.places.drop (s.places.filter f).length).filter f).reverse := by
      rw [List.mem_reverse, List.mem_filter]
      refine ⟨?_, hfid⟩
      rw [List.mem_iff_getElem?]
      refine ⟨i - (s.places.filter f).length, ?_⟩
      rw [List.getElem?_drop, ← hi]
      congr 1; omega
    obtain ⟨j, x, h1, h2, h3⟩ := fill_gap _ _ _ room hmem
    have hj : j < (s.places.filter f).length := by
      have := (List.getElem?_eq_some_iff.1 h1).1
      rw [List.length_take] at this
      omega
    rw [List.getElem?_take, if_pos hj] at h1
    exact ⟨j, x, by omega, h1, by simpa [hf] using h2, h3⟩

theorem fill_only {f : Nat → Bool} : ∀ (xs ys : List Nat) (x : Nat), x ∈ fillGaps f xs ys → f x = true ∧ x ∈ xs ∨ x ∈ ys := by
  intro xs
  induction xs with
  | nil => intro ys x h; simp [fillGaps] at h
  | cons a xs ih =>
    intro ys x h
    unfold fillGaps at h
    split at h
    · rename_i ha
      rcases List.mem_cons.1 h with rfl | h
      · left; exact ⟨ha, by simp⟩
      · rcases ih ys x h with h | h
        · left; exact ⟨h.1, by simp [h.2]⟩
        · right; exact h
    · cases ys with
      | nil =>
        rcases ih [] x h with h | h
        · left; exact ⟨h.1, by simp [h.2]⟩
        · simp at h
      | cons y ys =>
        rcases List.mem_cons.1 h with rfl | h
        · right; simp
        · rcases ih ys x h with h | h
          · left; exact ⟨h.1, by simp [h.2]⟩
          · right; simp [h]

theorem refill_only {f : Nat → Bool} {l : List Nat} {x : Nat} (h : x ∈ refill f l) : f x = true ∧ x ∈ l := by
  unfold refill at h
  rcases fill_only _ _ _ h with h | h
  · exact ⟨h.1, List.mem_of_mem_take h.2⟩
  · rw [List.mem_reverse, List.mem_filter] at h
    exact ⟨h.2, List.mem_of_mem_drop h.1⟩

theorem refill_mem {f : Nat → Bool} {l : List Nat} {x : Nat} (h : x ∈ l) (hf : f x = true) : x ∈ refill f l := by
  have room := refill_room f l
  unfold refill
  rw [← List.take_append_drop (l.filter f).length l] at h
  rcases List.mem_append.1 h with h | h
  · obtain ⟨i, hi⟩ := List.mem_iff_getElem?.1 h
    exact List.mem_of_getElem? (fill_keep _ _ _ _ (Nat.le_of_eq room) hi hf)
  · obtain ⟨j, x', -, -, h3⟩ := fill_gap _ _ x room (by rw [List.mem_reverse, List.mem_filter]; exact ⟨h, hf⟩)
    exact List.mem_of_getElem? h3

/-- **C150 (who stays).** At a refresh exactly the objects that exist and were not deleted are visible afterwards, and nothing waits. -/
theorem C150_stay (s s' : Seq) (h : s.step .refresh = some s') :
    s'.pending = [] ∧ ∀ id, id ∈ s'.visible ↔ (id ∈ s.visible ∨ id ∈ s.pending) ∧ id ∉ s.dead := by
  simp only [Seq.step, Option.some.injEq] at h
  subst h
  refine ⟨rfl, fun id => ?_⟩
  rw [← List.mem_append]
  constructor
  · intro h
    have := refill_only h
    exact ⟨this.2, by simpa using this.1⟩
  · intro h
    exact refill_mem h.1 (by simpa using h.2)

/-- **C150 (nothing deleted).** If no object was deleted, a refresh only appends the new objects in the order of their creation. -/
theorem C150_nothing_deleted (s s' : Seq) (h : s.step .refresh = some s') (hd : s.dead = []) : s'.visible = s.visible ++ s.pending := by
  simp only [Seq.step, Option.some.injEq] at h
  subst h
  simp only [hd]
  have := refill_append_of_pos (f := fun id => decide (id ∉ ([] : List Nat))) (xs := s.places) (by simp) []
  rw [List.append_nil] at this
  rw [this, refill_of_neg (by simp), List.append_nil]
  rfl

/-- **C150 (the order of survivors changes).** Of five objects the first two are deleted: the last two, in reverse order, take their
places. -/
theorem C150_example :
    Seq.init.run [.create, .create, .create, .create, .create, .refresh, .del 0, .del 1, .refresh] = some ⟨5, [4, 3, 2], [], [], 25⟩ := by
  decide

/-! ## Loops -/

theorem opsFrom_spec (body : Nat → List Op) : ∀ (n i : Nat) (m : Mgr) (a : Abs) (vis : List Nat) (s : Seq), Rel m a vis → Same s a vis →
    match loop body s i n with
    | .done s' ids => ∃ m' a' vis', opsFrom body m i n = .ok (m', ids) ∧ Rel m' a' vis' ∧ Same s' a' vis' ∧
        run m (ids.flatMap body) = .ok m' ∧ s.run (ids.flatMap body) = some s'
    | .noObject => opsFrom body m i n = .ub
    | .notAllowed => True := by
  intro n
  induction n with
  | zero => intro i m a vis s hr hs; exact ⟨m, a, vis, rfl, hr, hs, rfl, rfl⟩
  | succ n ih =>
    intro i m a vis s hr hs
    obtain ⟨k, hk⟩ := hr.slots
    cases hp : s.places[i]? with
    | none =>
      simp only [loop, hp]
      have : m.slotAt i = .ub := by
        rw [hs.places, List.getElem?_eq_none_iff] at hp
        unfold Mgr.slotAt
        rw [hk]
        have : (slotsOf (vis ++ a.pending) k [])[i]? = none ∨ (slotsOf (vis ++ a.pending) k [])[i]? = some none := by
          simp only [slotsOf, List.append_nil]
          rw [List.getElem?_append_right (by simpa using hp)]
          by_cases hi : i - (List.map some (vis ++ a.pending)).length < k
          · right; rw [List.getElem?_replicate]; rw [if_pos hi]
          · left; rw [List.getElem?_replicate]; rw [if_neg hi]
        rcases this with e | e <;> rw [e]
      simp [opsFrom, this]
    | some id =>
      have hp' := hp
      rw [hs.places] at hp
      have hsl : m.slotAt i = .ok id := slotAt_of (by rw [hk]; exact slotsOf_get hp)
      have hfl : ∃ b, m.getBool id = .ok b := by
        have := hr.flag (id := id) (List.mem_of_getElem? hp)
        unfold HasFlag at this
        exact ⟨_, by unfold Mgr.getBool; rw [this]⟩
      obtain ⟨b, hb⟩ := hfl
      cases hb1 : s.run (body id) with
      | none => simp [loop, hp', hb1]
      | some s1 =>
        obtain ⟨m1, a1, vis1, h1, -, h3, h4⟩ := same_run (body id) hr hs hb1
        have e : opsFrom body m i (n + 1) = (opsFrom body m1 (i + 1) n >>= fun r => .ok (r.1, id :: r.2)) := by
          simp [opsFrom, hsl, hb, h1]
        have := ih (i + 1) m1 a1 vis1 s1 h3 h4
        simp only [loop, hp', hb1]
        cases hl : loop body s1 (i + 1) n with
        | done s' ids =>
          rw [hl] at this
          obtain ⟨m', a', vis', h5, h6, h7, h8, h9⟩ := this
          refine ⟨m', a', vis', by rw [e, h5]; rfl, h6, h7, ?_, ?_⟩
          · rw [List.flatMap_cons, run_append, h1]; exact h8
          · rw [List.flatMap_cons]
            have app : ∀ (xs ys : List Op) (s : Seq), s.run (xs ++ ys) = (s.run xs).bind (·.run ys) := by
              intro xs ys
              induction xs with
              | nil => intro s; rfl
              | cons o xs ih =>
                intro s
                simp only [List.cons_append, Seq.run]
                cases s.step o with
                | none => rfl
                | some t => simp [ih]
            rw [app, hb1, Option.bind_some, h9]
        | noObject => rw [hl] at this; simp only; rw [e, this, Outcome.bind_ub]
        | notAllowed => trivial

/-- **C151 (loops whose body makes any calls).** A loop over a manager, after any allowed history, whose body looks at the object and then
makes any calls, also `refresh` and `clear`: it goes through as many places as there were visible objects at its start, visits what
is in each place when it comes to it, and is undefined exactly if it comes to a place that has no object any more. -/
theorem C151_loop (os : List Op) (s : Seq) (h : Seq.init.run os = some s) (body : Nat → List Op) :
    ∃ m, runFresh os = .ok m ∧
      match loop body s 0 s.visible.length with
      | .done s' visited => ∃ m', m.forEachOps body = .ok (m', visited) ∧ runFresh (os ++ visited.flatMap body) = .ok m' ∧
          Seq.init.run (os ++ visited.flatMap body) = some s' ∧ m'.iter = .ok s'.visible
      | .noObject => m.forEachOps body = .ub
      | .notAllowed => True := by
  obtain ⟨m, a, h1, -, h2, h3⟩ := same_fresh h
  refine ⟨m, h1, ?_⟩
  have := opsFrom_spec body s.visible.length 0 m a _ s h2 h3
  cases hl : loop body s 0 s.visible.length with
  | done s' ids =>
    rw [hl] at this
    obtain ⟨m', a', vis', h4, h5, h6, h7, h8⟩ := this
    refine ⟨m', ?_, ?_, ?_, ?_⟩
    · rw [Mgr.forEachOps, h2.msize]; exact h4
    · rw [runFresh_append, h1]; exact h7
    · have app : ∀ (xs ys : List Op) (s : Seq), s.run (xs ++ ys) = (s.run xs).bind (·.run ys) := by
        intro xs ys
        induction xs with
        | nil => intro s; rfl
        | cons o xs ih =>
          intro s
          simp only [List.cons_append, Seq.run]
          cases s.step o with
          | none => rfl
          | some t => simp [ih]
      rw [app, h, Option.bind_some, h8]
    · rw [h6.visible]; exact h5.iter
  | noObject => rw [hl] at this; simp only; rw [Mgr.forEachOps, h2.msize]; exact this
  | notAllowed => trivial

/-! ## What a loop visits -/

theorem Seq.run_append : ∀ (xs ys : List Op) (s : Seq), s.run (xs ++ ys) = (s.run xs).bind (·.run ys) := by
  intro xs ys
  induction xs with
  | nil => intro s; rfl
  | cons o xs ih =>
    intro s
    simp only [List.cons_append, Seq.run]
    cases s.step o with
    | none => rfl
    | some t => simp [ih]

theorem step_front {s s' : Seq} {o : Op} (h : s.step o = some s') : s.next ≤ s'.next ∧
    ∀ j x : Nat, s'.places[j]? = some x → s.next ≤ x ∨ ∃ k, j ≤ k ∧ s.places[k]? = some x := by
  cases o with
  | create =>
    simp only [Seq.step, Option.some.injEq] at h
    subst h
    refine ⟨by simp, fun j x hx => ?_⟩
    simp only [Seq.places, ← List.append_assoc] at hx ⊢
    by_cases hj : j < (s.visible ++ s.pending).length
    · rw [List.getElem?_append_left hj] at hx
      right; exact ⟨j, Nat.le_refl _, hx⟩
    · rw [List.getElem?_append_right (by omega)] at hx
      have := List.mem_of_getElem? hx
      rw [List.mem_singleton] at this
      left; omega
  | del id =>
    simp only [Seq.step] at h
    split at h
    · simp only [Option.some.injEq] at h
      subst h
      exact ⟨Nat.le_refl _, fun j x hx => .inr ⟨j, Nat.le_refl _, hx⟩⟩
    · simp at h
  | refresh =>
    simp only [Seq.step, Option.some.injEq] at h
    subst h
    refine ⟨Nat.le_refl _, fun j x hx => .inr ?_⟩
    simp only [Seq.places, List.append_nil] at hx
    exact refill_front hx
  | clear =>
    simp only [Seq.step, Option.some.injEq] at h
    subst h
    exact ⟨Nat.le_refl _, fun j x hx => by simp [Seq.places] at hx⟩
  | reserve n =>
    simp only [Seq.step] at h
    split at h
    · simp only [Option.some.injEq] at h
      subst h
      exact ⟨Nat.le_refl _, fun j x hx => .inr ⟨j, Nat.le_refl _, hx⟩⟩
    · simp at h

theorem run_front : ∀ (os : List Op) {s s' : Seq}, s.run os = some s' → s.next ≤ s'.next ∧
    ∀ j x : Nat, s'.places[j]? = some x → s.next ≤ x ∨ ∃ k, j ≤ k ∧ s.places[k]? = some x := by
  intro os
  induction os with
  | nil =>
    intro s s' h
    simp only [Seq.run, Option.some.injEq] at h
    subst h
    exact ⟨Nat.le_refl _, fun j x hx => .inr ⟨j, Nat.le_refl _, hx⟩⟩
  | cons o os ih =>
    intro s s' h
    simp only [Seq.run, Option.bind_eq_some_iff] at h
    obtain ⟨s1, h1, h2⟩ := h
    obtain ⟨h3, h4⟩ := step_front h1
    obtain ⟨h5, h6⟩ := ih h2
    refine ⟨by omega, fun j x hx => ?_⟩
    rcases h6 j x hx with h | ⟨k, h, h'⟩
    · left; omega
    · rcases h4 k x h' with h'' | ⟨l, h'', h3⟩
      · left; exact h''
      · right; exact ⟨l, by omega, h3⟩

theorem reachable_wf {os : List Op} {s : Seq} (h : Seq.init.run os = some s) : s.places.Nodup ∧ ∀ x ∈ s.places, x < s.next := by
  obtain ⟨m, a, -, -, h2, h3⟩ := same_fresh h
  rw [h3.places, h3.next]
  exact ⟨h2.nodup, fun x hx => h2.lt x ((h2.mem_existing x).1 hx)⟩

theorem loop_once (body : Nat → List Op) : ∀ (n i : Nat) (os : List Op) (s s' : Seq) (ids : List Nat), Seq.init.run os = some s →
    loop body s i n = .done s' ids → ids.Nodup ∧ ∀ x ∈ ids, s.next ≤ x ∨ ∃ k, i ≤ k ∧ s.places[k]? = some x := by
  intro n
  induction n with
  | zero =>
    intro i os s s' ids _ h
    simp only [loop, LoopEnd.done.injEq] at h
    obtain ⟨-, rfl⟩ := h
    simp
  | succ n ih =>
    intro i os s s' ids hos h
    simp only [loop] at h
    cases hp : s.places[i]? with
    | none => rw [hp] at h; simp at h
    | some id =>
      rw [hp] at h
      cases hb : s.run (body id) with
      | none => simp only [hb] at h; simp at h
      | some s1 =>
        simp only [hb] at h
        cases hl : loop body s1 (i + 1) n with
        | noObject => rw [hl] at h; simp at h
        | notAllowed => rw [hl] at h; simp at h
        | done s2 ids2 =>
          rw [hl] at h
          simp only [LoopEnd.done.injEq] at h
          obtain ⟨-, rfl⟩ := h
          obtain ⟨h1, h2⟩ := ih (i + 1) (os ++ body id) s1 s2 ids2 (by rw [Seq.run_append, hos, Option.bind_some, hb]) hl
          obtain ⟨h3, h4⟩ := run_front _ hb
          obtain ⟨hn, hlt⟩ := reachable_wf hos
          have key : ∀ x ∈ ids2, s.next ≤ x ∨ ∃ k, i + 1 ≤ k ∧ s.places[k]? = some x := by
            intro x hx
            rcases h2 x hx with h | ⟨k, h, h'⟩
            · left; omega
            · rcases h4 k x h' with h'' | ⟨l, h'', h3⟩
              · left; exact h''
              · right; exact ⟨l, by omega, h3⟩
          refine ⟨List.nodup_cons.2 ⟨fun hid => ?_, h1⟩, fun x hx => ?_⟩
          · rcases key id hid with h | ⟨k, h, h'⟩
            · have := hlt id (List.mem_of_getElem? hp)
              omega
            · have hk := (List.getElem?_eq_some_iff.1 h').1
              have := (List.getElem?_inj hk hn).1 (h'.trans hp.symm)
              omega
          · rcases List.mem_cons.1 hx with rfl | hx
            · right; exact ⟨i, Nat.le_refl _, hp⟩
            · rcases key x hx with h | ⟨k, h, h'⟩
              · left; exact h
              · right; exact ⟨k, by omega, h'⟩

/-- **C151 (each object at most once).** No loop visits an object twice, whatever its body does to the manager. -/
theorem C151_once (os : List Op) (s : Seq) (h : Seq.init.run os = some s) (m m' : Mgr) (hm : runFresh os = .ok m) (body : Nat → List Op)
    (hb : loop body s 0 s.visible.length ≠ .notAllowed) (visited : List Nat) (hl : m.forEachOps body = .ok (m', visited)) :
    visited.Nodup := by
  obtain ⟨m1, h1, h2⟩ := C151_loop os s h body
  rw [hm] at h1
  cases h1
  cases hs : loop body s 0 s.visible.length with
  | notAllowed => exact absurd hs hb
  | noObject => rw [hs] at h2; simp only at h2; rw [hl] at h2; simp at h2
  | done s' ids =>
    rw [hs] at h2
    obtain ⟨m2, h3, -⟩ := h2
    rw [hl] at h3
    cases h3
    exact (loop_once body _ _ os s s' visited h hs).1

theorem grow_step {s s' : Seq} {o : Op} (ho : o = .create ∨ o = .refresh) (h : s.step o = some s') (hd : s.dead = []) :
    s'.dead = [] ∧ s.places <+: s'.places := by
  rcases ho with rfl | rfl
  · simp only [Seq.step, Option.some.injEq] at h
    subst h
    exact ⟨hd, ⟨[s.next], by simp [Seq.places]⟩⟩
  · have := C150_nothing_deleted s s' h hd
    simp only [Seq.step, Option.some.injEq] at h
    subst h
    refine ⟨rfl, ?_⟩
    simp only [Seq.places] at this ⊢
    rw [this]
    exact ⟨[], by simp⟩

theorem grow_run : ∀ (os : List Op) (s : Seq), (∀ o ∈ os, o = .create ∨ o = .refresh) → s.dead = [] →
    ∃ s', s.run os = some s' ∧ s'.dead = [] ∧ s.places <+: s'.places := by
  intro os
  induction os with
  | nil => intro s _ hd; exact ⟨s, rfl, hd, List.prefix_refl _⟩
  | cons o os ih =>
    intro s ho hd
    have ho1 := ho o (by simp)
    obtain ⟨s1, h1⟩ : ∃ s1, s.step o = some s1 := by rcases ho1 with rfl | rfl <;> exact ⟨_, rfl⟩
    obtain ⟨h2, h3⟩ := grow_step ho1 h1 hd
    obtain ⟨s', h4, h5, h6⟩ := ih s1 (fun o' h => ho o' (by simp [h])) h2
    exact ⟨s', by simp [Seq.run, h1, h4], h5, h3.trans h6⟩

theorem loop_grow (body : Nat → List Op) (hb : ∀ id, ∀ o ∈ body id, o = .create ∨ o = .refresh) : ∀ (n i : Nat) (s : Seq), s.dead = [] →
    i + n ≤ s.places.length → ∃ s', loop body s i n = .done s' ((s.places.drop i).take n) := by
  intro n
  induction n with
  | zero => intro i s _ _; exact ⟨s, by simp [loop]⟩
  | succ n ih =>
    intro i s hd hlen
    have hi : i < s.places.length := by omega
    obtain ⟨s1, h1, h2, h3⟩ := grow_run (body s.places[i]) s (hb _) hd
    obtain ⟨t, ht⟩ := h3
    obtain ⟨s', h4⟩ := ih (i + 1) s1 h2 (by rw [← ht, List.length_append]; omega)
    refine ⟨s', ?_⟩
    simp only [loop, List.getElem?_eq_getElem hi, h1, h4]
    rw [List.drop_eq_getElem_cons hi, List.take_succ_cons, ← ht, List.drop_append_of_le_length (by omega),
      List.take_append_of_le_length (by rw [List.length_drop]; omega)]

/-- **C151 (creating and refreshing).** If nothing is waiting to be deleted and the body only creates objects and refreshes, the loop is
defined and visits the objects that were visible at its start, in order. -/
theorem C151_grow (os : List Op) (s : Seq) (h : Seq.init.run os = some s) (hd : s.dead = []) (body : Nat → List Op)
    (hb : ∀ id, ∀ o ∈ body id, o = .create ∨ o = .refresh) :
    ∃ m m', runFresh os = .ok m ∧ m.forEachOps body = .ok (m', s.visible) := by
  obtain ⟨m, h1, h2⟩ := C151_loop os s h body
  obtain ⟨s', h3⟩ := loop_grow body hb s.visible.length 0 s hd (by simp [Seq.places])
  rw [h3] at h2
  obtain ⟨m', h4, -⟩ := h2
  refine ⟨m, m', h1, ?_⟩
  rw [h4]
  simp [Seq.places]

theorem fillGaps_length (f : Nat → Bool) : ∀ xs ys : List Nat, (fillGaps f xs ys).length ≤ xs.length := by
  intro xs
  induction xs with
  | nil => intro ys; simp [fillGaps]
  | cons a xs ih =>
    intro ys
    unfold fillGaps
    split
    · simpa using ih ys
    · cases ys with
      | nil => have := ih []; simp only [List.length_cons]; omega
      | cons y ys => simpa using ih ys

theorem loop_erase : ∀ (n i : Nat) (s : Seq), s.places.length ≤ i + 2 * n →
    loop (fun id => [.del id, .refresh]) s i (n + 1) = .noObject := by
  intro n
  induction n with
  | zero =>
    intro i s hlen
    simp only [loop]
    rw [List.getElem?_eq_none (by omega)]
  | succ n ih =>
    intro i s hlen
    unfold loop
    cases hp : s.places[i]? with
    | none => rfl
    | some id =>
      have hmem := List.mem_of_getElem? hp
      obtain ⟨s1, h1, h2⟩ : ∃ s1, s.run [.del id, .refresh] = some s1 ∧ s1.places.length < s.places.length := by
        refine ⟨_, by simp only [Seq.run, Seq.step, if_pos hmem, Option.bind_some]; rfl, ?_⟩
        simp only [Seq.places, List.append_nil]
        refine Nat.lt_of_le_of_lt (fillGaps_length _ _ _) ?_
        refine Nat.lt_of_le_of_lt (List.length_take_le _ _) ?_
        refine List.length_filter_lt_length_iff_exists.2 ⟨id, hmem, by simp⟩
      simp only [h1]
      rw [ih (i + 1) s1 (by omega)]

/-- **C151 (erasing while iterating is undefined).** Deleting each visited object and refreshing at once: the loop is undefined if
two or more objects are visible and fewer objects wait to become visible than are visible minus one. -/
theorem C151_erase (os : List Op) (s : Seq) (h : Seq.init.run os = some s) (h2 : s.pending.length + 2 ≤ s.visible.length) :
    ∃ m, runFresh os = .ok m ∧ m.forEachOps (fun id => [.del id, .refresh]) = .ub := by
  obtain ⟨m, h1, h3⟩ := C151_loop os s h (fun id => [.del id, .refresh])
  refine ⟨m, h1, ?_⟩
  obtain ⟨n, hn⟩ : ∃ n, s.visible.length = n + 1 := ⟨s.visible.length - 1, by omega⟩
  rw [hn, loop_erase n 0 s (by simp only [Seq.places, List.length_append]; omega)] at h3
  exact h3

/-- **C151 (clearing while iterating is undefined)** unless it happens in the last round: here the body clears the manager in the round of one
object, and does nothing in the others. -/
theorem C151_clear (os : List Op) (s : Seq) (h : Seq.init.run os = some s) (i : Nat) (hi : i + 1 < s.visible.length) :
    ∃ m, runFresh os = .ok m ∧ m.forEachOps (fun id => if s.visible[i]? = some id then [.clear] else []) = .ub := by
  obtain ⟨m, h1, h3⟩ := C151_loop os s h (fun id => if s.visible[i]? = some id then [.clear] else [])
  refine ⟨m, h1, ?_⟩
  have hvis : ∀ k, k < s.visible.length → s.places[k]? = s.visible[k]? := by
    intro k hk
    rw [Seq.places, List.getElem?_append_left hk]
  have hnd : s.visible.Nodup := (List.nodup_append.1 (reachable_wf h).1).1
  have key : ∀ d k, k + d = i → loop (fun id => if s.visible[i]? = some id then [Op.clear] else []) s k (s.visible.length - k) = .noObject := by
    intro d
    induction d with
    | zero =>
      intro k hk
      obtain rfl : k = i := by omega
      obtain ⟨n, hn⟩ : ∃ n, s.visible.length - k = n + 2 := ⟨s.visible.length - k - 2, by omega⟩
      rw [hn]
      unfold loop
      rw [hvis k (by omega), List.getElem?_eq_getElem (by omega)]
      simp only [if_true, Seq.run, Seq.step, Option.bind_some]
      unfold loop
      simp [Seq.places]
    | succ d ih =>
      intro k hk
      obtain ⟨n, hn⟩ : ∃ n, s.visible.length - k = n + 1 := ⟨s.visible.length - k - 1, by omega⟩
      have hn' : s.visible.length - (k + 1) = n := by omega
      rw [hn]
      unfold loop
      rw [hvis k (by omega), List.getElem?_eq_getElem (by omega)]
      have hne : ¬ (s.visible[i]? = some s.visible[k]) := by
        intro e
        rw [← List.getElem?_eq_getElem (by omega)] at e
        have := (List.getElem?_inj (by omega) hnd).1 e
        omega
      simp only [if_neg hne, Seq.run]
      rw [← hn', ih (k + 1) (by omega)]
  have := key i 0 (by omega)
  rw [Nat.sub_zero] at this
  rw [this] at h3
  exact h3

/-- **C151 (an object can be skipped and a waiting one visited).** Objects 0 to 3 are visible. The round of object 0 deletes it, refreshes
and creates object 4: object 3 moves into the first place and is not visited although it was visible all the time; object 4 is
visited although it is not visible yet. -/
theorem C151_skipped :
    ∃ m m', runFresh [.create, .create, .create, .create, .refresh] = .ok m ∧ m.iter = .ok [0, 1, 2, 3] ∧
      m.forEachOps (fun id => if id = 0 then [.del 0, .refresh, .create] else []) = .ok (m', [0, 1, 2, 4]) ∧ m'.iter = .ok [3, 1, 2] := by
  obtain ⟨m, h1, h2⟩ := C151_loop [.create, .create, .create, .create, .refresh] ⟨4, [0, 1, 2, 3], [], [], 25⟩ (by decide)
    (fun id => if id = 0 then [.del 0, .refresh, .create] else [])
  obtain ⟨m0, h3, h4⟩ := C150_order [.create, .create, .create, .create, .refresh] ⟨4, [0, 1, 2, 3], [], [], 25⟩ (by decide)
  rw [h1] at h3
  cases h3
  have : loop (fun id => if id = 0 then [.del 0, .refresh, .create] else []) ⟨4, [0, 1, 2, 3], [], [], 25⟩ 0 4 =
      .done ⟨5, [3, 1, 2], [4], [], 25⟩ [0, 1, 2, 4] := by decide
  simp only [List.length_cons, List.length_nil] at h2
  rw [this] at h2
  obtain ⟨m', h5, -, -, h6⟩ := h2
  exact ⟨m, m', h1, h4, h5, h6⟩

end Verif.Manager
