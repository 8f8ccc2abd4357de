import Verif.Manager.SimReent
import Verif.Manager.Theorems

/-!
# Theorems: destructors that use their manager (C138)
-/

namespace Verif.Manager

open Verif Spec

/-! ### Clearing -/

theorem clearLoopR_spec (spawn : Nat → Nat) : ∀ (fuel : Nat) (m : Mgr) (i : Nat) (q : List Nat)
    (pre tail : List (Option Nat)),
    m.slots = pre ++ (q.map some ++ tail) → pre.length = i → m.slots.length = m.capacity →
    m.sizeNext = i + q.length → q.Nodup → (∀ id ∈ q, ∃ b, HasFlag m.heap id b) → m.capacity < fuel + i →
    (∃ n' m', Drains spawn q m.heap.length n' ∧ i + q.length + (n' - m.heap.length) ≤ m.capacity ∧
      clearLoopR (creating spawn) fuel m i = .ok m' ∧
      m'.capacity = m.capacity ∧ m'.slots.length = m.slots.length ∧ m'.heap.length = n' ∧
      (∀ id, id < n' → (id ∈ q ∨ m.heap.length ≤ id) → m'.heap[id]? = some .destroyed) ∧
      (∀ id, id < m.heap.length → id ∉ q → m'.heap[id]? = m.heap[id]?)) ∨
    (clearLoopR (creating spawn) fuel m i = .ub ∧
      ∀ n', Drains spawn q m.heap.length n' → m.capacity < i + q.length + (n' - m.heap.length)) := by
  intro fuel
  induction fuel with
  | zero =>
    intro m i q pre tail hs hi hl _ _ _ hfuel
    exfalso
    have := congrArg List.length hs
    simp only [List.length_append, List.length_map] at this
    omega
  | succ fuel ih =>
    intro m i q pre tail hs hi hl hsn hnd hf hfuel
    rw [clearLoopR]
    have hle : m.sizeNext ≤ m.capacity := by
      have := congrArg List.length hs
      simp only [List.length_append, List.length_map] at this
      omega
    cases q with
    | nil =>
      simp only [List.length_nil, Nat.add_zero] at hsn
      rw [if_neg (by omega)]
      refine Or.inl ⟨m.heap.length, m, .nil _, by simp; omega, rfl, rfl, rfl, rfl, ?_, fun _ _ _ => rfl⟩
      intro id hid h
      rcases h with h | h
      · simp at h
      · omega
    | cons x q =>
      simp only [List.length_cons] at hsn
      rw [if_pos (by omega)]
      have hg : m.slots[i]? = some (some x) := by
        rw [hs, ← hi]; simp
      obtain ⟨b, hb⟩ := hf x (by simp)
      have hxl := hb.lt
      rw [deinitAtR_of hl hle hg hb]
      have hnd' := List.nodup_cons.1 hnd
      by_cases hfit : m.sizeNext + spawn x ≤ m.capacity
      · rw [if_pos hfit]
        simp only [Outcome.bind_ok]
        have hsl : (fill (spawn x) m.slots m.sizeNext m.heap.length).set i none =
            (pre ++ [none]) ++ ((q ++ List.range' m.heap.length (spawn x)).map some ++
              m.slots.drop (m.sizeNext + spawn x)) := by
          rw [fill_eq _ _ _ _ (by rw [hl]; exact hfit)]
          have ht : m.slots.take m.sizeNext = pre ++ (some x :: q.map some) := by
            rw [hs, ← List.append_assoc]
            apply List.take_left'
            simp; omega
          rw [ht]
          simp only [List.append_assoc, List.cons_append, List.map_append]
          rw [← hi, List.set_append_right _ _ (Nat.le_refl _)]
          simp
        rcases ih { m with
            slots := (fill (spawn x) m.slots m.sizeNext m.heap.length).set i none
            heap := (m.heap ++ List.replicate (spawn x) (Cell.live true)).set x .destroyed
            sizeNext := m.sizeNext + spawn x } (i + 1) (q ++ List.range' m.heap.length (spawn x)) (pre ++ [none])
            (m.slots.drop (m.sizeNext + spawn x)) hsl (by simp [hi]) (by simp [fill_length, hl])
            (by simp; omega)
            (by
              refine List.nodup_append.2 ⟨hnd'.2, List.nodup_range', ?_⟩
              intro y hy z hz he
              subst he
              obtain ⟨b', hb'⟩ := hf y (by simp [hy])
              have := hb'.lt
              simp only [List.mem_range'_1] at hz
              omega)
            (by
              intro id hid
              simp only [List.mem_append, List.mem_range'_1] at hid
              rcases hid with hid | hid
              · obtain ⟨b', hb'⟩ := hf id (by simp [hid])
                have hne : x ≠ id := fun he => hnd'.1 (he ▸ hid)
                refine ⟨b', ?_⟩
                have := hb'.lt
                unfold HasFlag at *
                simp only
                rw [List.getElem?_set_ne hne, List.getElem?_append_left this, hb']
              · refine ⟨true, ?_⟩
                unfold HasFlag
                simp only
                rw [List.getElem?_set_ne (by omega), List.getElem?_append_right hid.1,
                  List.getElem?_replicate, if_pos (by omega)])
            (by simp only; omega) with
          ⟨n', m', hdr, hroom, he, hc, hsl', hhl, hdes, hkeep⟩ | ⟨he, hov⟩
        · simp only [List.length_set, List.length_append, List.length_replicate, List.length_range'] at hdr hroom hhl hdes hkeep hsl'
          have hle' := hdr.le
          refine Or.inl ⟨n', m', .cons _ _ _ _ hdr, ?_, he, hc, ?_, hhl, ?_, ?_⟩
          · simp only [List.length_cons]; omega
          · rw [hsl', fill_length]
          · intro id hid h
            by_cases h1 : id ∈ q ∨ m.heap.length ≤ id
            · by_cases h2 : id < m.heap.length + spawn x
              · refine hdes id hid (Or.inl ?_)
                simp only [List.mem_append, List.mem_range'_1]
                rcases h1 with h1 | h1
                · exact Or.inl h1
                · exact Or.inr ⟨h1, h2⟩
              · exact hdes id hid (Or.inr (by omega))
            · rw [not_or] at h1
              have hx : id = x := by
                rcases h with h | h
                · simp only [List.mem_cons] at h
                  rcases h with h | h
                  · exact h
                  · exact absurd h h1.1
                · exact absurd h h1.2
              subst hx
              rw [hkeep id (by omega) (by
                simp only [List.mem_append, List.mem_range'_1]
                rintro (h | h)
                · exact h1.1 h
                · omega)]
              rw [List.getElem?_set_self (by simp; omega)]
          · intro id hid hn
            simp only [List.mem_cons, not_or] at hn
            rw [hkeep id (by omega) (by
              simp only [List.mem_append, List.mem_range'_1]
              rintro (h | h)
              · exact hn.2 h
              · omega), List.getElem?_set_ne (Ne.symm hn.1), List.getElem?_append_left hid]
        · simp only [List.length_set, List.length_append, List.length_replicate, List.length_range'] at hov
          refine Or.inr ⟨he, ?_⟩
          intro n' hd
          cases hd with
          | cons _ _ _ _ hd =>
            have := hov n' hd
            have := hd.le
            simp only [List.length_cons]
            omega
      · rw [if_neg hfit, Outcome.bind_ub]
        refine Or.inr ⟨rfl, ?_⟩
        intro n' hd
        cases hd with
        | cons _ _ _ _ hd =>
          have := hd.le
          simp only [List.length_cons]
          omega

theorem relR_clear {m : Mgr} {a : AbsR} {vis} (spawn) (h : RelR m a vis) :
    (∃ n' m', Drains spawn a.existing a.next n' ∧ a.existing.length + (n' - a.next) ≤ a.cap ∧
      m.clearR (creating spawn) = .ok m' ∧
      RelR m' { a with visible := [], pending := [], dead := [], next := n' } []) ∨
    (m.clearR (creating spawn) = .ub ∧
      ∀ n', Drains spawn a.existing a.next n' → a.cap < a.existing.length + (n' - a.next)) := by
  obtain ⟨tail, hk⟩ := h.slots
  have hdr : ∀ n', Drains spawn (vis ++ a.pending) a.next n' ↔ Drains spawn a.existing a.next n' :=
    fun n' => drains_perm h.perm _ _ _
  have hlex := h.lenEx
  have hcap := h.cap
  have hhl := h.heapLen
  rcases clearLoopR_spec spawn (m.capacity + 1) m 0 (vis ++ a.pending) [] tail (by simpa using hk) rfl
    (by rw [h.len, h.cap]) (by rw [h.sizeNext]; omega) h.nodup (fun id hid => ⟨_, h.flag hid⟩) (by omega) with
    ⟨n', m', h1, h2, h3, h4, h5, h6, h7, h8⟩ | ⟨h1, h2⟩
  · rw [hhl] at h1 h2 h7 h8
    refine Or.inl ⟨n', { m' with msize := 0, sizeNext := 0 }, (hdr n').1 h1, by omega, ?_, ?_⟩
    · rw [Mgr.clearR, h3]; rfl
    · have hle := h1.le
      constructor
      · exact ⟨m'.slots, by simp⟩
      · rw [h4, hcap]
      · rw [h5, h.len]
      · rfl
      · rfl
      · simp
      · simp
      · exact h6
      · simp [Abs.existing]
      · intro id hid
        obtain ⟨b, hb⟩ := h.lost id hid
        refine ⟨b, ?_⟩
        simp only
        rw [h8 id (h.ltLost hid) (by rw [h.mem_existing]; exact h.disj id hid), hb]
      · intro id hid _ hn
        simp only at hid hn ⊢
        by_cases he : id ∈ vis ++ a.pending ∨ a.next ≤ id
        · exact h7 id hid he
        · rw [not_or, h.mem_existing] at he
          rw [h8 id (by omega) (by rw [h.mem_existing]; exact he.1)]
          exact h.rest id (by omega) he.1 hn
      · simp [Abs.existing]
      · simp
      · exact h.pos
  · rw [hhl] at h2
    refine Or.inr ⟨by rw [Mgr.clearR, h1]; rfl, fun n' hd => ?_⟩
    have := h2 n' ((hdr n').2 hd)
    omega

theorem relR_init : ∃ m, Mgr.init = .ok m ∧ RelR m AbsR.init [] := by
  refine ⟨_, rfl, ?_⟩
  constructor
  · exact ⟨List.replicate 25 none, rfl⟩
  all_goals simp [AbsR.init, Abs.init, Abs.existing]

theorem drains_unique {spawn q n n1 n2} (h1 : Drains spawn q n n1) (h2 : Drains spawn q n n2) : n1 = n2 := by
  induction h1 with
  | nil => cases h2; rfl
  | cons _ _ _ _ _ ih => cases h2 with | cons _ _ _ _ h => exact ih h

theorem relR_step {dbg spawn o} {m : Mgr} {a a' : AbsR} {vis} (h : RelR m a vis) (hs : Step spawn a o a') :
    ∃ m' vis', stepR dbg (creating spawn) m o = .ok m' ∧ RelR m' a' vis' := by
  cases hs with
  | create =>
    obtain ⟨m', a'', h1, h2, h3⟩ := relR_create spawn h
    cases h2
    exact ⟨m', vis, h1, h3⟩
  | del id hid => obtain ⟨m', h1, h2⟩ := relR_del h hid; exact ⟨m', vis, h1, h2⟩
  | delLost id hid => obtain ⟨m', h1, h2⟩ := relR_delLost h hid; exact ⟨m', vis, h1, h2⟩
  | refresh hc =>
    rcases relR_refresh dbg spawn h with ⟨_, m', vis', h1, h2⟩ | ⟨hov, _⟩
    · exact ⟨m', vis', h1, h2⟩
    · omega
  | clear n' hd hc =>
    rcases relR_clear spawn h with ⟨n1, m', h1, h2, h3, h4⟩ | ⟨_, hov⟩
    · cases drains_unique h1 hd
      exact ⟨m', [], h3, h4⟩
    · have := hov n' hd; omega
  | reserve n hn => obtain ⟨m', h1, h2⟩ := relR_reserve h hn; exact ⟨m', vis, h1, h2⟩

theorem relR_run {dbg spawn} {a a' : AbsR} {os : List Op} (hs : Steps spawn a os a') :
    ∀ {m : Mgr} {vis}, RelR m a vis → ∃ m' vis', runR dbg (creating spawn) m os = .ok m' ∧ RelR m' a' vis' := by
  induction hs with
  | nil a => intro m vis h; exact ⟨m, vis, rfl, h⟩
  | cons a b c o os h1 _ ih =>
    intro m vis h
    obtain ⟨m1, vis1, e1, r1⟩ := relR_step (dbg := dbg) h h1
    obtain ⟨m2, vis2, e2, r2⟩ := ih r1
    exact ⟨m2, vis2, by simp [runR, e1, e2], r2⟩

theorem relR_legal {dbg spawn} {os : List Op} {a : AbsR} (h : LegalR spawn os a) :
    ∃ m vis, runFreshR dbg (creating spawn) os = .ok m ∧ RelR m a vis := by
  obtain ⟨m, h1, h2⟩ := relR_init
  obtain ⟨m', vis, h3, h4⟩ := relR_run (dbg := dbg) h h2
  exact ⟨m', vis, by simp [runFreshR, h1, h3], h4⟩

theorem RelR.iter {m a vis} (h : RelR m a vis) : m.iter = .ok vis := by
  obtain ⟨tail, hk⟩ := h.slots
  rw [Mgr.iter, h.msize]
  exact iterFrom_of m (a.pending.map some ++ tail) vis [] (by simp [hk])

theorem runR_append (dbg scr) : ∀ (os1 os2 : List Op) (m : Mgr),
    runR dbg scr m (os1 ++ os2) = (runR dbg scr m os1 >>= fun m => runR dbg scr m os2) := by
  intro os1
  induction os1 with
  | nil => intro os2 m; rfl
  | cons o os1 ih =>
    intro os2 m
    simp only [List.cons_append, runR]
    cases stepR dbg scr m o <;> simp [ih]

theorem runFreshR_append (dbg scr) (os1 os2 : List Op) :
    runFreshR dbg scr (os1 ++ os2) = (runFreshR dbg scr os1 >>= fun m => runR dbg scr m os2) := by
  unfold runFreshR
  obtain ⟨m, h, _⟩ := relR_init
  simp [h, runR_append]

/-! ### The theorems -/

/-- **C138 (legal histories are defined).** With destructors that create objects, every legal history is
carried out in debug and release builds: objects that exist are alive or marked, destroyed ones are destroyed,
iteration visits the visible ones. -/
theorem C138_history (dbg : Bool) (spawn : Nat → Nat) (os : List Op) (a : AbsR) (h : LegalR spawn os a) :
    ∃ m visited, runFreshR dbg (creating spawn) os = .ok m ∧ m.iter = .ok visited ∧
      visited.Perm a.visible ∧ m.heap.length = a.next ∧
      (∀ id ∈ a.existing, m.heap[id]? = some (.live (decide (id ∉ a.dead)))) ∧
      (∀ id, id < a.next → id ∉ a.existing → id ∉ a.lost → m.heap[id]? = some .destroyed) ∧
      (∀ id ∈ a.lost, id ∉ visited ∧ ∃ b, m.heap[id]? = some (.live b)) := by
  obtain ⟨m, vis, h1, h2⟩ := relR_legal (dbg := dbg) h
  refine ⟨m, vis, h1, h2.iter, h2.perm, h2.heapLen, h2.live, h2.rest, fun id hid => ⟨fun hc => ?_, h2.lost id hid⟩⟩
  exact h2.disj id hid ((h2.mem_existing id).1 (by simp [hc]))

/-- **C138 (refresh).** A refresh whose destructors create `k` objects in all, with room for them, keeps
exactly the objects that were not deleted and destroys the deleted ones; the `k` new objects are constructed but
not visited. -/
theorem C138_refresh (dbg : Bool) (spawn : Nat → Nat) (os : List Op) (a : AbsR) (h : LegalR spawn os a)
    (k : Nat) (hk : k = ((a.existing.filter (fun id => id ∈ a.dead)).map spawn).sum)
    (hroom : a.existing.length + k ≤ a.cap) :
    ∃ m visited, runFreshR dbg (creating spawn) (os ++ [.refresh]) = .ok m ∧ m.iter = .ok visited ∧
      visited.Nodup ∧ (∀ id, id ∈ visited ↔ id ∈ a.existing ∧ id ∉ a.dead) ∧
      (∀ id ∈ a.dead, m.heap[id]? = some .destroyed) ∧ m.heap.length = a.next + k ∧
      ∀ id, a.next ≤ id → id < a.next + k → id ∉ visited ∧ ∃ b, m.heap[id]? = some (.live b) := by
  subst hk
  obtain ⟨m, vis, h1, h2⟩ := relR_legal (dbg := dbg) h
  rcases relR_refresh dbg spawn h2 with ⟨_, m', vis', e, r⟩ | ⟨hov, _⟩
  · have hv : ∀ id, id ∈ vis' ↔ id ∈ a.existing ∧ id ∉ a.dead := by
      intro id; rw [r.perm.mem_iff]; simp
    refine ⟨m', vis', ?_, r.iter, ?_, hv, ?_, r.heapLen, ?_⟩
    · rw [runFreshR_append, h1]; simp [runR, stepR, e]
    · have := r.nodup; simpa using this
    · intro id hid
      have hex := h2.deadEx id hid
      refine r.rest id (by have := h2.lt hex; simp only; omega) ?_ ?_
      · simp [Abs.existing]; tauto
      · simp only [List.mem_append, List.mem_range'_1, not_or]
        exact ⟨fun hl => h2.disj id hl hex, by have := h2.lt hex; omega⟩
    · intro id h3 h4
      refine ⟨fun hc => ?_, r.lost id ?_⟩
      · have := h2.lt ((hv id).1 hc).1; omega
      · simp only [List.mem_append, List.mem_range'_1]
        exact Or.inr ⟨h3, h4⟩
  · unfold AbsR.doomed at hov; omega

/-- **C138 (a refresh without room).** If the new objects do not fit in the capacity, the behaviour of the
refresh is undefined. -/
theorem C138_refresh_no_room (dbg : Bool) (spawn : Nat → Nat) (os : List Op) (a : AbsR) (h : LegalR spawn os a)
    (hroom : a.cap < a.existing.length + ((a.existing.filter (fun id => id ∈ a.dead)).map spawn).sum) :
    runFreshR dbg (creating spawn) (os ++ [.refresh]) = .ub := by
  obtain ⟨m, vis, h1, h2⟩ := relR_legal (dbg := dbg) h
  rcases relR_refresh dbg spawn h2 with ⟨hc, _⟩ | ⟨_, e⟩
  · unfold AbsR.doomed at hc; omega
  · rw [runFreshR_append, h1]; simp [runR, stepR, e]

theorem lost_mono {spawn} {a b : AbsR} {os} (h : Steps spawn a os b) : ∀ id ∈ a.lost, id ∈ b.lost := by
  induction h with
  | nil => exact fun _ h => h
  | cons a b c o os h1 _ ih =>
    intro id hid
    refine ih id ?_
    cases h1 <;> simp [hid]

theorem steps_append {spawn} {a c : AbsR} : ∀ {os1 os2 : List Op}, Steps spawn a (os1 ++ os2) c →
    ∃ b, Steps spawn a os1 b ∧ Steps spawn b os2 c := by
  intro os1
  induction os1 generalizing a with
  | nil => intro os2 h; exact ⟨a, .nil a, h⟩
  | cons o os1 ih =>
    intro os2 h
    cases h with
    | cons _ b _ _ _ h1 h2 =>
      obtain ⟨d, h3, h4⟩ := ih h2
      exact ⟨d, .cons _ _ _ _ _ h1 h3, h4⟩

/-- **C138 (objects created by destructors during a refresh are lost).** Whatever happens after the refresh,
including `clear()` (all the destructor of the manager does), such an object is never visited and never
destroyed. -/
theorem C138_lost_for_ever (dbg : Bool) (spawn : Nat → Nat) (os rest : List Op) (a a' : AbsR)
    (h : LegalR spawn os a) (h' : Steps spawn a (.refresh :: rest) a') (id : Nat) (h1 : a.next ≤ id)
    (h2 : id < a.next + ((a.existing.filter (fun id => id ∈ a.dead)).map spawn).sum) :
    ∃ m visited, runFreshR dbg (creating spawn) (os ++ .refresh :: rest) = .ok m ∧ m.iter = .ok visited ∧
      id ∉ visited ∧ ∃ b, m.heap[id]? = some (.live b) := by
  obtain ⟨m, vis, e1, r1⟩ := relR_legal (dbg := dbg) h
  obtain ⟨m', vis', e2, r2⟩ := relR_run (dbg := dbg) h' r1
  have hl : id ∈ a'.lost := by
    cases h' with
    | cons _ b _ _ _ hs hr =>
      refine lost_mono hr id ?_
      cases hs
      simp only [List.mem_append, List.mem_range'_1]
      exact Or.inr ⟨h1, h2⟩
  refine ⟨m', vis', ?_, r2.iter, fun hc => ?_, r2.lost id hl⟩
  · rw [runFreshR_append, e1]; exact e2
  · exact r2.disj id hl ((r2.mem_existing id).1 (by simp [hc]))

/-- **C138 (clear).** `clear()` destroys the objects, those created by their destructors, those created by the
destructors of these, and so on, if this ends and the objects fit in the capacity: afterwards every object
ever created is destroyed, except those lost in earlier refreshes. -/
theorem C138_clear (dbg : Bool) (spawn : Nat → Nat) (os : List Op) (a : AbsR) (h : LegalR spawn os a) (n' : Nat)
    (hd : Drains spawn a.existing a.next n') (hroom : a.existing.length + (n' - a.next) ≤ a.cap) :
    ∃ m, runFreshR dbg (creating spawn) (os ++ [.clear]) = .ok m ∧ m.iter = .ok [] ∧ m.heap.length = n' ∧
      ∀ id, id < n' → id ∉ a.lost → m.heap[id]? = some .destroyed := by
  obtain ⟨m, vis, h1, h2⟩ := relR_legal (dbg := dbg) h
  rcases relR_clear spawn h2 with ⟨n1, m', e1, _, e3, r⟩ | ⟨_, hov⟩
  · cases drains_unique e1 hd
    refine ⟨m', ?_, r.iter, r.heapLen, fun id hid hn => r.rest id hid (by simp [Abs.existing]) hn⟩
    rw [runFreshR_append, h1]; simp [runR, stepR, e3]
  · have := hov n' hd; omega

/-- **C138 (clear without room).** If the destructors create more objects than fit, for instance objects without
end, the behaviour of `clear()` is undefined. -/
theorem C138_clear_no_room (dbg : Bool) (spawn : Nat → Nat) (os : List Op) (a : AbsR) (h : LegalR spawn os a)
    (hroom : ∀ n', Drains spawn a.existing a.next n' → a.cap < a.existing.length + (n' - a.next)) :
    runFreshR dbg (creating spawn) (os ++ [.clear]) = .ub := by
  obtain ⟨m, vis, h1, h2⟩ := relR_legal (dbg := dbg) h
  rcases relR_clear spawn h2 with ⟨n1, m', e1, e2, _⟩ | ⟨e, _⟩
  · have := hroom n1 e1; omega
  · rw [runFreshR_append, h1]; simp [runR, stepR, e]

/-! ### Destructors that do nothing -/

theorem deinitAtR_nil {m m' : Mgr} {i : Nat} (h : m.deinitAt i = .ok m') :
    m.deinitAtR (fun _ => []) i = .ok m' := by
  obtain ⟨id, b, h1, h2, rfl⟩ := deinitAt_ok h
  unfold HasFlag at h2
  simp [Mgr.deinitAtR, slotAt_of h1, h2, Mgr.acts]

theorem findAliveR_nil : ∀ (fuel : Nat) (m : Mgr) (iD iA : Nat) (r : Mgr × Bool × Nat),
    findAlive fuel m iD iA = .ok r → findAliveR (fun _ => []) fuel m iD iA = .ok r := by
  intro fuel
  induction fuel with
  | zero => intro m iD iA r h; simp [findAlive] at h
  | succ fuel ih =>
    intro m iD iA r h
    rw [findAlive] at h
    rw [findAliveR]
    obtain ⟨b, h1, h2⟩ := Outcome.bind_eq_ok.1 h
    rw [h1]
    simp only [Outcome.bind_ok]
    cases b with
    | true => simpa using h2
    | false =>
      simp only [Bool.false_eq_true, if_false] at h2 ⊢
      obtain ⟨m1, h3, h4⟩ := Outcome.bind_eq_ok.1 h2
      rw [deinitAtR_nil h3]
      simp only [Outcome.bind_ok]
      split at h4
      · rename_i hle; rw [if_pos hle]; exact h4
      · rename_i hle; rw [if_neg hle]; exact ih _ _ _ _ h4

theorem refreshLoopR_nil (dbg : Bool) : ∀ (fuel : Nat) (m : Mgr) (iD iA : Nat) (r : Mgr × Nat),
    refreshLoop fuel m iD iA = .ok r → refreshLoopR dbg (fun _ => []) fuel m iD iA = .ok r := by
  intro fuel
  induction fuel with
  | zero => intro m iD iA r h; simp [refreshLoop] at h
  | succ fuel ih =>
    intro m iD iA r h
    rw [refreshLoop] at h
    rw [refreshLoopR]
    obtain ⟨⟨done, j⟩, h1, h2⟩ := Outcome.bind_eq_ok.1 h
    rw [h1]
    simp only [Outcome.bind_ok]
    cases done with
    | true => simpa using h2
    | false =>
      simp only [Bool.false_eq_true, if_false] at h2 ⊢
      obtain ⟨⟨m1, done, k⟩, h3, h4⟩ := Outcome.bind_eq_ok.1 h2
      rw [findAliveR_nil _ _ _ _ _ h3]
      simp only [Outcome.bind_ok]
      cases done with
      | true => simpa using h4
      | false =>
        simp only [Bool.false_eq_true, if_false] at h4 ⊢
        obtain ⟨bD, h5, h6⟩ := Outcome.bind_eq_ok.1 h4
        obtain ⟨bA, h7, h8⟩ := Outcome.bind_eq_ok.1 h6
        obtain ⟨_, h9, h10⟩ := Outcome.bind_eq_ok.1 h8
        obtain ⟨p2, h11, h12⟩ := Outcome.bind_eq_ok.1 h10
        obtain ⟨p3, h13, h14⟩ := Outcome.bind_eq_ok.1 h12
        have hb : (!bD && bA) = true := by
          cases hb : (!bD && bA) with
          | true => rfl
          | false => rw [hb] at h9; simp at h9
        rw [h5, h7]
        simp only [Outcome.bind_ok, hb, Bool.or_true, Outcome.check_true, h11, deinitAtR_nil h13]
        exact ih _ _ _ _ h14

theorem clearLoopR_nil : ∀ (fuel : Nat) (m m' : Mgr) (i n : Nat), m.sizeNext = i + n → n < fuel →
    clearLoop m i n = .ok m' → clearLoopR (fun _ => []) fuel m i = .ok m' := by
  intro fuel
  induction fuel with
  | zero => intro m m' i n _ h; omega
  | succ fuel ih =>
    intro m m' i n hsn hn h
    rw [clearLoopR]
    cases n with
    | zero => rw [if_neg (by omega)]; exact h
    | succ n =>
      rw [if_pos (by omega)]
      obtain ⟨m1, h1, h2⟩ := Outcome.bind_eq_ok.1 h
      rw [deinitAtR_nil h1]
      obtain ⟨_, _, _, _, rfl⟩ := deinitAt_ok h1
      exact ih _ _ _ _ (by simp only; omega) (by omega) h2

theorem stepR_nil (dbg : Bool) {m m' : Mgr} {o : Op} (hle : m.sizeNext ≤ m.capacity) (h : step m o = .ok m') :
    stepR dbg (fun _ => []) m o = .ok m' := by
  cases o with
  | create =>
    obtain ⟨⟨m1, id⟩, h1, h2⟩ := Outcome.bind_eq_ok.1 h
    simp only [Outcome.pure_eq, Outcome.ok.injEq] at h2
    subst h2
    have key : ∀ (m2 : Mgr), (do
        let m ← m2.initAt m2.sizeNext m.heap.length
        return (({ m with sizeNext := m.sizeNext + 1 } : Mgr), m2.heap.length) : Outcome (Mgr × Nat)) = .ok (m1, m2.heap.length) →
        (do let m ← m2.initAtR m2.sizeNext m.heap.length
            return { m with sizeNext := m.sizeNext + 1 } : Outcome Mgr) = .ok m1 := by
      intro m2 hm
      obtain ⟨m3, h5, h6⟩ := Outcome.bind_eq_ok.1 hm
      simp only [Outcome.pure_eq, Outcome.ok.injEq, Prod.mk.injEq] at h6
      have : m2.initAtR m2.sizeNext m.heap.length = .ok m3 := by
        unfold Mgr.initAt at h5
        split at h5
        · rename_i hs
          simp only [Mgr.initAtR, hs]
          exact h5
        · simp at h5
      rw [this, Outcome.bind_ok, ← h6.1]; rfl
    by_cases hf : m.capacity ≤ m.sizeNext
    · simp only [Mgr.create, hf, if_true] at h1
      obtain ⟨m2, h3, h4⟩ := Outcome.bind_eq_ok.1 h1
      simp only [stepR, Mgr.createR, hf, if_true, h3, Outcome.bind_ok]
      apply key
      obtain ⟨m3, h5, h6⟩ := Outcome.bind_eq_ok.1 h4
      simp only [Outcome.pure_eq, Outcome.ok.injEq, Prod.mk.injEq] at h6
      rw [h5, Outcome.bind_ok, ← h6.1]; rfl
    · simp only [Mgr.create, hf, if_false, Outcome.bind_ok] at h1
      simp only [stepR, Mgr.createR, hf, if_false, Outcome.bind_ok]
      apply key
      obtain ⟨m3, h5, h6⟩ := Outcome.bind_eq_ok.1 h1
      simp only [Outcome.pure_eq, Outcome.ok.injEq, Prod.mk.injEq] at h6
      rw [h5, Outcome.bind_ok, ← h6.1]; rfl
  | del id => exact h
  | refresh =>
    change m.refresh = .ok m' at h
    change m.refreshR dbg _ = .ok m'
    unfold Mgr.refresh at h
    unfold Mgr.refreshR
    split at h
    · rename_i h0; rw [if_pos h0]; exact h
    · rename_i h0
      rw [if_neg h0]
      obtain ⟨⟨m1, d⟩, h1, h2⟩ := Outcome.bind_eq_ok.1 h
      obtain ⟨_, h3, h4⟩ := Outcome.bind_eq_ok.1 h2
      rw [refreshLoopR_nil dbg _ _ _ _ _ h1]
      simp only [Outcome.bind_ok]
      cases dbg with
      | true => simp only [if_true, h3, Outcome.bind_ok]; exact h4
      | false => simpa using h4
  | clear =>
    obtain ⟨m1, h1, h2⟩ := Outcome.bind_eq_ok.1 h
    simp only [stepR, Mgr.clearR, clearLoopR_nil (m.capacity + 1) m m1 0 m.sizeNext (by omega) (by omega) h1,
      Outcome.bind_ok]
    exact h2
  | reserve n => exact h

/-- **C138 (the plain manager is the case of destructors that do nothing).** -/
theorem C138_conservative (dbg : Bool) (os : List Op) (a : Abs) (h : Legal os a) :
    runFreshR dbg (fun _ => []) os = runFresh os := by
  obtain ⟨m, h1, h2⟩ := rel_init
  have gen : ∀ (os : List Op) (m : Mgr) (b : Abs) (vis : List Nat), Rel m b vis → b.run os = some a →
      runR dbg (fun _ => []) m os = run m os := by
    intro os
    induction os with
    | nil => intros; rfl
    | cons o os ih =>
      intro m b vis hr hs
      simp only [Abs.run, Option.bind_eq_some_iff] at hs
      obtain ⟨b1, h3, h4⟩ := hs
      obtain ⟨m1, vis1, e, r1⟩ := rel_step hr h3
      simp only [runR, run, e, stepR_nil dbg hr.sizeNext_le e, Outcome.bind_ok]
      exact ih _ _ _ r1 h4
  simp only [runFreshR, runFresh, h1, Outcome.bind_ok]
  exact gen os m _ _ h2 h

/-! ### Destructors that delete -/

/-- **C138 (deleting another object from a destructor).** Object 2 deletes object 0 in its destructor. The
refresh has already passed object 0: a debug build fails its assertion, a release build keeps visiting the
deleted object until the next refresh. -/
theorem C138_delete_in_destructor :
    let scr : Nat → List Act := fun id => if id = 2 then [.del 0] else []
    let os : List Op := [.create, .create, .create, .refresh, .del 2, .refresh]
    runFreshR true scr os = .assertFail ∧
    (∃ m, runFreshR false scr os = .ok m ∧ m.iter = .ok [0, 1] ∧ m.heap[0]? = some (.live false)) ∧
    (∃ m, runFreshR false scr (os ++ [.refresh]) = .ok m ∧ m.iter = .ok [1] ∧ m.heap[0]? = some .destroyed) := by
  refine ⟨by decide +kernel, ⟨_, rfl, by decide +kernel, by decide +kernel⟩, ⟨_, rfl, by decide +kernel, by decide +kernel⟩⟩

/-! ### Examples -/

/-- Object 1 creates two objects in its destructor, object 3 one. -/
def demoSpawn : Nat → Nat := fun id => if id = 1 then 2 else if id = 3 then 1 else 0

/-- A refresh that loses two objects, then clearing: they are still there. -/
example : ∃ a, LegalR demoSpawn [.create, .create, .create, .del 1, .refresh, .clear] a ∧ a.lost = [3, 4] ∧
    a.next = 5 := by
  refine ⟨_, .cons _ _ _ _ _ (.create _) (.cons _ _ _ _ _ (.create _) (.cons _ _ _ _ _ (.create _)
    (.cons _ _ _ _ _ (.del _ 1 (by decide)) (.cons _ _ _ _ _ (.refresh _ (by decide))
    (.cons _ _ _ _ _ (.clear _ 5 ?_ (by decide)) (.nil _)))))), rfl, rfl⟩
  exact .cons _ _ _ _ (.cons _ _ _ _ (.nil _))

/-- Clearing destroys the objects created meanwhile, and those created by these. -/
example : Drains demoSpawn [0, 1, 2] 3 6 := by
  refine .cons _ _ _ _ (.cons _ _ _ _ (.cons _ _ _ _ (.cons _ _ _ _ (.cons _ _ _ _ (.cons _ _ _ _ (.nil _))))))

end Verif.Manager
