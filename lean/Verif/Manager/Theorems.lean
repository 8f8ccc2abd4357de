import Verif.Manager.Sim

/-! # Property theorems about the memory manager (C01-C04) -/

namespace Verif.Manager

open Verif

/-- A history used in the non-vacuity examples: five objects, two of them deleted, a refresh, one more
creation and deletion. -/
def demo : List Op :=
  [.create, .create, .create, .create, .create, .del 1, .del 4, .refresh, .create, .del 0, .refresh]

def demoAbs : Abs := { next := 6, visible := [2, 3, 5], pending := [], dead := [], cap := 25 }

/-! ## C01 -/

/-- **C01.** After any legal history ending in `refresh()`, the manager is fine (no undefined
behaviour, no failed assertion) and iterating it visits, each exactly once, exactly the objects that
existed before the refresh and had not been passed to `del`; `size()` is their number; these objects
are still constructed (identity unchanged) and every object passed to `del` has been destroyed. -/
theorem C01_refresh_keeps_exactly_live (os : List Op) (a : Abs) (h : Legal os a) :
    ∃ m visited, runFresh (os ++ [.refresh]) = .ok m ∧ m.iter = .ok visited ∧
      visited.Nodup ∧ (∀ id, id ∈ visited ↔ id ∈ a.existing ∧ id ∉ a.dead) ∧
      m.msize = visited.length ∧
      (∀ id ∈ visited, m.heap[id]? = some (.live true)) ∧
      (∀ id ∈ a.dead, m.heap[id]? = some .destroyed) := by
  have hl : Legal (os ++ [.refresh]) { a with
      visible := a.existing.filter (fun id => id ∉ a.dead), pending := [], dead := [] } := by
    unfold Legal at *
    have gen : ∀ (l : List Op) (x : Abs), x.run l = some a → x.run (l ++ [.refresh]) = a.step .refresh := by
      intro l
      induction l with
      | nil => intro x hx; simp [Abs.run] at hx; subst hx; simp [Abs.run, Abs.step]
      | cons o l ih =>
        intro x hx
        simp only [Abs.run, Option.bind_eq_some_iff, List.cons_append] at hx ⊢
        obtain ⟨y, h1, h2⟩ := hx
        simp [h1, ih y h2]
    exact gen os _ h
  obtain ⟨m0, vis0, _, hr0⟩ := rel_legal h
  obtain ⟨m, vis, h1, h2⟩ := rel_legal hl
  have hmem : ∀ id, id ∈ vis ↔ id ∈ a.existing ∧ id ∉ a.dead := by
    intro id; rw [h2.perm.mem_iff, List.mem_filter]; simp
  refine ⟨m, vis, h1, h2.iter, (List.nodup_append.1 h2.nodup).1, hmem, h2.msize, ?_, ?_⟩
  · intro id hid
    have := h2.flag (id := id) (by simp [hid])
    simpa [HasFlag] using this
  · intro id hid
    have hx := hr0.lt id (hr0.deadEx id hid)
    rw [h2.heap id hx]
    simp [cellOf, Abs.existing, hid]

example : Legal demo demoAbs := by unfold Legal; decide

/-! ## C02 -/

/-- **C02 (safety).** No legal history of calls runs into undefined behaviour (use of a slot holding no
object, double destruction, use of a destroyed object), a failed assertion, or an endless loop. -/
theorem C02_no_undefined_behaviour (os : List Op) (a : Abs) (h : Legal os a) :
    ∃ m, runFresh os = .ok m := by
  obtain ⟨m, _, h1, _⟩ := rel_legal h
  exact ⟨m, h1⟩

/-- **C02 (no leak, no premature destruction).** After any legal history, an object created through
the manager is constructed if it still exists for the user and destroyed otherwise; in particular, when
the history ends with `clear()` (which is all the destructor does) every object ever created has been
destroyed. That no object is destroyed twice is part of the previous theorem: the second destruction
would be `ub`. -/
theorem C02_objects_live_iff_existing (os : List Op) (a : Abs) (h : Legal os a) :
    ∃ m, runFresh os = .ok m ∧ m.heap.length = a.next ∧
      ∀ id, id < a.next → ((m.heap[id]? = some .destroyed ↔ id ∉ a.existing) ∧
        (id ∈ a.existing → m.heap[id]? = some (.live (decide (id ∉ a.dead))))) := by
  obtain ⟨m, vis, h1, h2⟩ := rel_legal h
  refine ⟨m, h1, h2.heapLen, ?_⟩
  intro id hid
  rw [h2.heap id hid]
  by_cases hx : id ∈ a.existing <;> simp [cellOf, hx]

/-- **C02 (clear).** -/
theorem C02_clear_destroys_everything (os : List Op) (a : Abs) (h : Legal (os ++ [.clear]) a) :
    ∃ m, runFresh (os ++ [.clear]) = .ok m ∧ m.msize = 0 ∧
      ∀ id, id < m.heap.length → m.heap[id]? = some .destroyed := by
  obtain ⟨m, vis, h1, h2⟩ := rel_legal h
  have hex : a.existing = [] := by
    have gen : ∀ (l : List Op) (x y : Abs), x.run (l ++ [.clear]) = some y → y.existing = [] := by
      intro l
      induction l with
      | nil => intro x y hx; simp [Abs.run, Abs.step] at hx; subst hx; simp [Abs.existing]
      | cons o l ih =>
        intro x y hx
        simp only [Abs.run, Option.bind_eq_some_iff, List.cons_append] at hx
        obtain ⟨z, _, h2⟩ := hx
        exact ih z y h2
    exact gen os _ _ h
  refine ⟨m, h1, ?_, ?_⟩
  · rw [h2.msize]
    have : a.visible = [] := by simp [Abs.existing] at hex; exact hex.1
    rw [h2.perm.length_eq, this]; rfl
  · intro id hid
    rw [h2.heapLen] at hid
    rw [h2.heap id hid]
    simp [cellOf, hex]

example : Legal (demo ++ [.clear]) { demoAbs with visible := [] } := by unfold Legal; decide

/-! ## C03 -/

/-- Calls that do not refresh or clear. -/
def Op.isQuiet : Op → Bool
  | .refresh => false
  | .clear => false
  | _ => true

theorem runFresh_append (os os' : List Op) :
    runFresh (os ++ os') = (do let m ← runFresh os; run m os') := by
  have gen : ∀ (l : List Op) (m : Mgr), run m (l ++ os') = (do let m ← run m l; run m os') := by
    intro l
    induction l with
    | nil => intro m; rfl
    | cons o l ih =>
      intro m
      simp only [List.cons_append, run]
      cases step m o with
      | ok m' => simpa using ih m'
      | _ => rfl
  unfold runFresh
  cases Mgr.init with
  | ok m => simpa using gen os m
  | _ => rfl

theorem rel_quiet_step {m a vis o a'} (h : Rel m a vis) (hq : o.isQuiet = true)
    (hs : a.step o = some a') : ∃ m', step m o = .ok m' ∧ Rel m' a' vis := by
  cases o with
  | create =>
    obtain ⟨m', a'', h1, h2, h3⟩ := rel_create h
    rw [hs] at h2; cases h2
    exact ⟨m', by simp [step, h1], h3⟩
  | del id =>
    simp only [Abs.step] at hs
    split at hs
    · cases hs
      exact rel_del h (by assumption)
    · cases hs
  | refresh => simp [Op.isQuiet] at hq
  | clear => simp [Op.isQuiet] at hq
  | reserve n =>
    simp only [Abs.step] at hs
    split at hs
    · cases hs
      exact rel_reserve h (by assumption)
    · cases hs

/-- **C03.** Whatever is created, deleted or reserved between two refreshes, iteration visits the same
objects in the same order, and `size()` does not change. -/
theorem C03_visible_range_is_stable (os quiet : List Op) (a' : Abs)
    (hq : ∀ o ∈ quiet, o.isQuiet = true) (h : Legal (os ++ quiet) a') :
    ∃ m m' visited, runFresh os = .ok m ∧ runFresh (os ++ quiet) = .ok m' ∧
      m.iter = .ok visited ∧ m'.iter = .ok visited ∧ m'.msize = m.msize := by
  have hsplit : ∃ a, Legal os a ∧ a.run quiet = some a' := by
    have gen : ∀ (l : List Op) (x : Abs), x.run (l ++ quiet) = some a' →
        ∃ a, x.run l = some a ∧ a.run quiet = some a' := by
      intro l
      induction l with
      | nil => intro x hx; exact ⟨x, rfl, hx⟩
      | cons o l ih =>
        intro x hx
        simp only [Abs.run, Option.bind_eq_some_iff, List.cons_append] at hx
        obtain ⟨z, h1, h2⟩ := hx
        obtain ⟨a, h3, h4⟩ := ih z h2
        exact ⟨a, by simp [Abs.run, h1, h3], h4⟩
    exact gen os _ h
  obtain ⟨a, hl, hr⟩ := hsplit
  obtain ⟨m, vis, h1, h2⟩ := rel_legal hl
  have gen : ∀ (l : List Op) (m : Mgr) (a : Abs), (∀ o ∈ l, o.isQuiet = true) → Rel m a vis →
      a.run l = some a' → ∃ m', run m l = .ok m' ∧ Rel m' a' vis := by
    intro l
    induction l with
    | nil => intro m a _ hrel hx; simp only [Abs.run, Option.some.injEq] at hx; subst hx; exact ⟨m, rfl, hrel⟩
    | cons o l ih =>
      intro m a hq hr hx
      simp only [Abs.run, Option.bind_eq_some_iff] at hx
      obtain ⟨a1, h1, h2⟩ := hx
      obtain ⟨m1, h3, h4⟩ := rel_quiet_step hr (hq o (by simp)) h1
      obtain ⟨m2, h5, h6⟩ := ih m1 a1 (fun o ho => hq o (by simp [ho])) h4 h2
      exact ⟨m2, by simp [run, h3, h5], h6⟩
  obtain ⟨m', h3, h4⟩ := gen quiet m a hq h2 hr
  refine ⟨m, m', vis, h1, ?_, h2.iter, h4.iter, ?_⟩
  · rw [runFresh_append, h1]; exact h3
  · rw [h4.msize, h2.msize]

example : ∃ a', Legal (demo ++ [.create, .del 2, .reserve 100, .create]) a' ∧
    (∀ o ∈ [Op.create, .del 2, .reserve 100, .create], o.isQuiet = true) :=
  ⟨{ next := 8, visible := [2, 3, 5], pending := [6, 7], dead := [2], cap := 100 },
   by unfold Legal; decide, by decide⟩

/-! ## C04 -/

/-- **C04 (growth).** A successful `reserve` leaves every slot below the old capacity as it was, only
adds raw slots, and changes nothing else. -/
theorem C04_reserve_preserves (m m' : Mgr) (n : Nat) (h : m.reserve n = .ok m') :
    m'.capacity = n ∧ m.capacity < n ∧ m'.msize = m.msize ∧ m'.sizeNext = m.sizeNext ∧
      m'.heap = m.heap ∧ (∀ i, i < m.capacity → m'.slots[i]? = m.slots[i]?) ∧
      (∀ i, m.capacity ≤ i → i < n → m'.slots[i]? = some none) ∧ m'.slots.length = n := by
  by_cases h1 : m.capacity < n
  · have h1' : m.capacity ≤ n := by omega
    simp only [Mgr.reserve, h1, h1', decide_true, Outcome.check_true, Outcome.bind_ok] at h
    split at h
    · simp at h
    · rename_i hl
      have hl' : m.capacity ≤ m.slots.length := by omega
      simp only [Outcome.pure_eq, Outcome.ok.injEq] at h
      subst h
      refine ⟨rfl, h1, rfl, rfl, rfl, ?_, ?_, ?_⟩
      · intro i hi
        simp only
        rw [List.getElem?_append_left (by simp; omega), List.getElem?_take_of_lt hi]
      · intro i hi hin
        simp only
        rw [List.getElem?_append_right (by simp; omega), List.getElem?_replicate]
        have : (m.slots.take m.capacity).length = m.capacity := by simp; omega
        rw [this, if_pos (by omega)]
      · simp; omega
  · simp [Mgr.reserve, h1] at h

/-- **C04 (room).** In every reachable state the used part of the storage fits in its capacity, which
is the number of slots really allocated, and `create` always finds room: it succeeds, stores the new
object right behind the used part and leaves the used part unchanged. -/
theorem C04_create_always_has_room (os : List Op) (a : Abs) (h : Legal os a) :
    ∃ m, runFresh os = .ok m ∧ m.sizeNext ≤ m.capacity ∧ m.capacity = m.slots.length ∧
      ∃ m', m.create = .ok (m', a.next) ∧ m'.sizeNext = m.sizeNext + 1 ∧
        m'.slots[m.sizeNext]? = some (some a.next) ∧
        ∀ i, i < m.sizeNext → m'.slots[i]? = m.slots[i]? := by
  obtain ⟨m, vis, h1, h2⟩ := rel_legal h
  obtain ⟨m', a', h3, h4, h5⟩ := rel_create h2
  refine ⟨m, h1, h2.sizeNext_le, by rw [h2.cap, h2.len], m', h3, ?_, ?_, ?_⟩
  all_goals (simp only [Abs.step, Option.some.injEq] at h4; subst h4)
  · rw [h5.sizeNext, h2.sizeNext]; simp [Nat.add_assoc]
  · obtain ⟨k, hk⟩ := h5.slots
    rw [hk, h2.sizeNext]
    apply slotsOf_get
    simp [← List.append_assoc]
  · intro i hi
    obtain ⟨k, hk⟩ := h5.slots
    obtain ⟨k2, hk2⟩ := h2.slots
    rw [h2.sizeNext] at hi
    rw [hk, hk2]
    rw [slotsOf_get (ids := vis ++ a.pending) (id := (vis ++ a.pending)[i]) (by simp)]
    apply slotsOf_get
    simp only [← List.append_assoc]
    rw [List.getElem?_append_left hi]; simp

/-- Non-vacuity: a history that fills the initial 25 slots and grows the storage. -/
example : ∃ a, Legal (List.replicate 30 .create) a ∧ a.cap = 75 :=
  ⟨{ next := 30, visible := [], pending := List.range 30, dead := [], cap := 75 },
   by unfold Legal; decide, rfl⟩

end Verif.Manager
