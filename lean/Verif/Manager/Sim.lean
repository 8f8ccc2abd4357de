import Verif.Manager.Lemmas

/-! Simulation relation between the slot-level manager and the abstract one. -/

namespace Verif.Manager

open Verif

/-- The flag/state an object must have. -/
def cellOf (a : Abs) (id : Nat) : Cell :=
  if id ∈ a.existing then .live (decide (id ∉ a.dead)) else .destroyed

structure Rel (m : Mgr) (a : Abs) (vis : List Nat) : Prop where
  slots : ∃ k, m.slots = slotsOf (vis ++ a.pending) k []
  cap : m.capacity = a.cap
  len : m.slots.length = a.cap
  msize : m.msize = vis.length
  sizeNext : m.sizeNext = (vis ++ a.pending).length
  perm : vis.Perm a.visible
  nodup : (vis ++ a.pending).Nodup
  heapLen : m.heap.length = a.next
  heap : ∀ id, id < a.next → m.heap[id]? = some (cellOf a id)
  lt : ∀ id ∈ a.existing, id < a.next
  deadEx : ∀ id ∈ a.dead, id ∈ a.existing
  pos : 0 < a.cap

theorem Rel.mem_existing {m a vis} (h : Rel m a vis) (id : Nat) :
    id ∈ vis ++ a.pending ↔ id ∈ a.existing := by
  simp [Abs.existing, h.perm.mem_iff]

theorem Rel.lenEx {m a vis} (h : Rel m a vis) : (vis ++ a.pending).length = a.existing.length := by
  simp [Abs.existing, h.perm.length_eq]

theorem Rel.flag {m a vis} (h : Rel m a vis) {id : Nat} (hid : id ∈ vis ++ a.pending) :
    HasFlag m.heap id (decide (id ∉ a.dead)) := by
  have he := (h.mem_existing id).1 hid
  have := h.heap id (h.lt id he)
  unfold HasFlag; rw [this]; simp [cellOf, he]

theorem Rel.sizeNext_le {m a vis} (h : Rel m a vis) : m.sizeNext ≤ m.capacity := by
  obtain ⟨k, hk⟩ := h.slots
  have := h.len
  rw [hk] at this
  rw [h.sizeNext, h.cap, ← this]
  simp [slotsOf]

theorem slotsOf_length (ids k) : (slotsOf ids k []).length = ids.length + k := by
  simp [slotsOf]

theorem slotsOf_init (ids k id) :
    (slotsOf ids (k + 1) []).set ids.length (some id) = slotsOf (ids ++ [id]) k [] := by
  simp [slotsOf, List.replicate_succ]

theorem reserve_of {m : Mgr} {n : Nat} (h : m.capacity < n) (hl : m.slots.length = m.capacity) :
    m.reserve n = .ok { m with slots := m.slots ++ List.replicate (n - m.capacity) none, capacity := n } := by
  have h1 : m.capacity ≤ n := by omega
  have h2 : ¬ m.slots.length < m.capacity := by omega
  have h3 : m.slots.take m.capacity = m.slots := by rw [← hl]; simp
  simp [Mgr.reserve, h, h1, h2, h3]

theorem rel_reserve {m a vis n} (h : Rel m a vis) (hn : a.cap < n) :
    ∃ m', m.reserve n = .ok m' ∧ Rel m' { a with cap := n } vis := by
  have hl : m.slots.length = m.capacity := by rw [h.len, h.cap]
  refine ⟨_, reserve_of (by rw [h.cap]; exact hn) hl, ?_⟩
  obtain ⟨k, hk⟩ := h.slots
  constructor
  · refine ⟨k + (n - m.capacity), ?_⟩
    simp [hk, slotsOf, List.replicate_append_replicate]
  · rfl
  · simp [hl]; rw [h.cap]; omega
  · exact h.msize
  · exact h.sizeNext
  · exact h.perm
  · exact h.nodup
  · exact h.heapLen
  · exact h.heap
  · exact h.lt
  · exact h.deadEx
  · simp; omega

theorem rel_create {m a vis} (h : Rel m a vis) :
    ∃ m' a', m.create = .ok (m', a.next) ∧ a.step .create = some a' ∧ Rel m' a' vis := by
  have hl : m.slots.length = m.capacity := by rw [h.len, h.cap]
  obtain ⟨k, hk⟩ := h.slots
  have hlen2 := h.len
  rw [hk, slotsOf_length] at hlen2
  have hnx : a.next ∉ a.existing := fun hc => Nat.lt_irrefl _ (h.lt _ hc)
  have hnotin : a.next ∉ vis ++ a.pending := by rw [h.mem_existing]; exact hnx
  have hnd : a.next ∉ a.dead := fun hc => hnx (h.deadEx _ hc)
  -- the result, for any storage with room
  have key : ∀ (c k : Nat), (vis ++ a.pending).length + (k + 1) = c →
      let m1 : Mgr := { m with slots := slotsOf (vis ++ a.pending) (k + 1) [], capacity := c,
                               heap := m.heap ++ [Cell.live true] }
      ∃ m', (do let m ← m1.initAt m1.sizeNext a.next
                return ({ m with sizeNext := m.sizeNext + 1 }, a.next)) = Outcome.ok (m', a.next) ∧
        Rel m' { a with next := a.next + 1, pending := a.pending ++ [a.next], cap := c } vis := by
    intro c k hc m1
    have hroom : m1.slots[m1.sizeNext]? = some none := by
      simp only [m1, h.sizeNext]
      simp [slotsOf, List.getElem?_append_right]
    refine ⟨{ m1 with slots := slotsOf (vis ++ a.pending ++ [a.next]) k [], sizeNext := m.sizeNext + 1 },
      ?_, ?_⟩
    · simp only [Mgr.initAt, hroom, Outcome.bind_ok]
      simp only [m1, h.sizeNext, slotsOf_init, Outcome.pure_eq]
    · constructor
      · exact ⟨k, by simp⟩
      · rfl
      · simp only [slotsOf_length]; simp at hc ⊢; omega
      · exact h.msize
      · simp [h.sizeNext, Nat.add_assoc]
      · exact h.perm
      · show (vis ++ (a.pending ++ [a.next])).Nodup
        rw [← List.append_assoc]
        refine List.nodup_append.2 ⟨h.nodup, by simp, ?_⟩
        intro x hx y hy
        simp at hy; subst hy
        exact fun he => hnotin (he ▸ hx)
      · simp [m1, h.heapLen]
      · intro id hid
        simp only [m1]
        by_cases hc : id < a.next
        · rw [List.getElem?_append_left (by rw [h.heapLen]; exact hc), h.heap id hc]
          have hne : id ≠ a.next := by omega
          simp [cellOf, Abs.existing, hne]
        · have : id = a.next := by simp at hid; omega
          subst this
          rw [List.getElem?_append_right (by rw [h.heapLen]; omega)]
          simp [h.heapLen, cellOf, Abs.existing, hnd]
      · intro id hid
        simp only [Abs.existing, List.mem_append, List.mem_singleton] at hid
        have := h.lt id
        simp only [Abs.existing, List.mem_append] at this
        simp only
        rcases hid with hid | hid | hid
        · have := this (Or.inl hid); omega
        · have := this (Or.inr hid); omega
        · omega
      · intro id hid
        have := h.deadEx id hid
        simp only [Abs.existing, List.mem_append] at this ⊢
        tauto
      · show 0 < c
        omega
  by_cases hfull : m.capacity ≤ m.sizeNext
  · have hle := h.sizeNext_le
    have hk0 : k = 0 := by rw [h.sizeNext, h.cap] at hfull; omega
    have hpos := h.pos
    have hcap := h.cap
    obtain ⟨m', h1, h2⟩ := key (a.cap * 3) (a.cap * 2 - 1) (by rw [← hlen2, hk0]; omega)
    refine ⟨m', _, ?_, rfl, ?_⟩
    · simp only [Mgr.create]
      have hr := reserve_of (m := { m with heap := m.heap ++ [Cell.live true] }) (n := m.capacity * 3)
        (by simp; omega) hl
      simp only [hfull, if_true, hr, Outcome.bind_ok]
      have hs2 : m.slots ++ List.replicate (m.capacity * 3 - m.capacity) none
          = slotsOf (vis ++ a.pending) (a.cap * 2 - 1 + 1) [] := by
        rw [hk, hk0]
        have : m.capacity * 3 - m.capacity = a.cap * 2 - 1 + 1 := by omega
        rw [this]
        simp [slotsOf]
      rw [hs2, h.heapLen, hcap]
      exact h1
    · have hc : a.cap ≤ a.existing.length := by rw [← h.lenEx, ← h.sizeNext, ← h.cap]; exact hfull
      simp only [hc, if_true]
      exact h2
  · have hcap := h.cap
    have hsn := h.sizeNext
    obtain ⟨k', rfl⟩ : ∃ k', k = k' + 1 := ⟨k - 1, by omega⟩
    obtain ⟨m', h1, h2⟩ := key a.cap k' hlen2
    refine ⟨m', _, ?_, rfl, ?_⟩
    · simp only [Mgr.create, hfull, if_false, Outcome.bind_ok]
      rw [h.heapLen]
      rw [← hk, ← hcap] at h1
      exact h1
    · have hc : ¬ a.cap ≤ a.existing.length := by rw [← h.lenEx, ← h.sizeNext, ← h.cap]; exact hfull
      simp only [hc, if_false]
      exact h2

theorem rel_del {m a vis id} (h : Rel m a vis) (hid : id ∈ a.existing) :
    ∃ m', m.del id = .ok m' ∧ Rel m' { a with dead := id :: a.dead } vis := by
  have hlt := h.lt id hid
  have hc := h.heap id hlt
  rw [cellOf, if_pos hid] at hc
  refine ⟨{ m with heap := m.heap.set id (.live false) }, by simp [Mgr.del, hc], ?_⟩
  constructor
  · exact h.slots
  · exact h.cap
  · exact h.len
  · exact h.msize
  · exact h.sizeNext
  · exact h.perm
  · exact h.nodup
  · simp [h.heapLen]
  · intro i hi
    simp only [List.getElem?_set]
    by_cases he : id = i
    · subst he
      have hid' : id ∈ a.visible ∨ id ∈ a.pending := by simpa [Abs.existing] using hid
      simp [h.heapLen, hlt, cellOf, Abs.existing, hid']
    · simp only [if_neg he]
      rw [h.heap i hi]
      simp [cellOf, Abs.existing, Ne.symm he]
  · exact h.lt
  · intro i hi
    simp only [List.mem_cons] at hi
    rcases hi with rfl | hi
    · exact hid
    · exact h.deadEx i hi
  · exact h.pos

theorem checkAllAlive_of (m : Mgr) (ids : List Nat) (k tail)
    (hs : m.slots = slotsOf ids k tail) (hf : ∀ id ∈ ids, HasFlag m.heap id true) :
    ∀ n, n ≤ ids.length → checkAllAlive m n = .ok () := by
  intro n
  induction n with
  | zero => intro _; rfl
  | succ n ih =>
    intro hn
    have hget : m.slots[n]? = some (some ids[n]) := by
      rw [hs]; exact slotsOf_get (by simp)
    have := isAliveAt_of hget (hf ids[n] (by simp))
    simp [checkAllAlive, ih (by omega), this]

theorem rel_refresh' {m a vis} (h : Rel m a vis) :
    ∃ m' a' vis', m.refresh = .ok m' ∧ a.step .refresh = some a' ∧ Rel m' a' vis' ∧
      vis' = refill (fun id => decide (id ∉ a.dead)) (vis ++ a.pending) := by
  obtain ⟨k, hk⟩ := h.slots
  by_cases h0 : m.sizeNext = 0
  · have hnil : vis ++ a.pending = [] := by
      apply List.length_eq_zero_iff.1; rw [← h.sizeNext]; exact h0
    obtain ⟨rfl, hp⟩ := List.append_eq_nil_iff.1 hnil
    have hv : a.visible = [] := by simpa using h.perm
    have hex : a.existing = [] := by simp [Abs.existing, hp, hv]
    have hd : a.dead = [] := by
      apply List.eq_nil_iff_forall_not_mem.2
      intro x hx; have := h.deadEx x hx; simp [hex] at this
    refine ⟨_, _, [], by rw [Mgr.refresh, if_pos h0], rfl, ?_, by rw [hp]; rfl⟩
    have hlen := h.len
    constructor
    · exact ⟨k, by simpa [hp] using hk⟩
    · exact h.cap
    · exact h.len
    · rfl
    · simp [h.sizeNext, hp]
    · simp [hex]
    · simp
    · exact h.heapLen
    · intro id hid
      rw [h.heap id hid]
      simp [cellOf, Abs.existing, hp, hv]
    · simp [Abs.existing, hp, hv]
    · simp
    · exact h.pos
  · have hne : (vis ++ a.pending).length ≠ 0 := by rw [← h.sizeNext]; exact h0
    obtain ⟨new, k', deads, hrun, hp1, hp2, hlen, hnew⟩ := refreshLoop_spec (fun id => decide (id ∉ a.dead)) []
      _ (vis ++ a.pending) m [] k (m.sizeNext + 1) (m.sizeNext - 1) (Nat.le_refl _) (by simpa using hk)
      (fun id hid => h.flag hid) h.nodup (by have := h.sizeNext; simp only [List.length_nil]; omega)
      (by rw [h.sizeNext]; omega)
    simp only [List.length_nil, Nat.zero_add, List.nil_append] at hrun
    have hmemnew : ∀ id, id ∈ new ↔ id ∈ a.existing ∧ id ∉ a.dead := by
      intro id; rw [hp1.mem_iff, List.mem_filter, h.mem_existing]; simp
    have hmemdead : ∀ id, id ∈ deads ↔ id ∈ a.existing ∧ id ∈ a.dead := by
      intro id; rw [hp2.mem_iff, List.mem_filter, h.mem_existing]; simp
    let m' : Mgr := { m with slots := slotsOf new k' [], heap := destroyAll m.heap deads,
                             msize := new.length, sizeNext := new.length }
    have hflag : ∀ id ∈ new, HasFlag m'.heap id true := by
      intro id hid
      have hx := (hmemnew id).1 hid
      have hf := h.flag ((h.mem_existing id).2 hx.1)
      have hnd : id ∉ deads := by rw [hmemdead]; tauto
      have := hf.destroyAll hnd
      simpa [hx.2] using this
    have hchk := checkAllAlive_of m' new k' [] rfl hflag new.length (Nat.le_refl _)
    refine ⟨m', _, new, ?_, rfl, ?_, hnew⟩
    · rw [Mgr.refresh, if_neg h0, hrun]
      simp only [Outcome.bind_ok]
      change (do checkAllAlive m' new.length; return m') = _
      rw [hchk]; rfl
    · constructor
      · exact ⟨k', by simp [m']⟩
      · exact h.cap
      · have := h.len; rw [hk, slotsOf_length] at this
        simp only [m', slotsOf_length]; omega
      · rfl
      · simp [m']
      · refine hp1.trans ?_
        simp only [Abs.existing]
        exact (h.perm.append_right _).filter _
      · simp only [List.append_nil]
        exact hp1.nodup_iff.2 (h.nodup.filter _)
      · simp [m', destroyAll_length, h.heapLen]
      · intro id hid
        simp only [m']
        rw [destroyAll_get _ _ _ (by rw [h.heapLen]; exact hid), h.heap id hid]
        have := hmemdead id
        simp only [cellOf, Abs.existing, List.append_nil, List.mem_filter]
        simp only [Abs.existing] at this
        by_cases e1 : id ∈ a.visible ++ a.pending <;> by_cases e2 : id ∈ a.dead <;> simp [this, e1, e2]
      · intro id hid
        simp only [Abs.existing, List.append_nil, List.mem_filter] at hid
        exact h.lt id (by simpa [Abs.existing] using hid.1)
      · simp
      · exact h.pos

theorem rel_refresh {m a vis} (h : Rel m a vis) :
    ∃ m' a' vis', m.refresh = .ok m' ∧ a.step .refresh = some a' ∧ Rel m' a' vis' := by
  obtain ⟨m', a', vis', h1, h2, h3, -⟩ := rel_refresh' h
  exact ⟨m', a', vis', h1, h2, h3⟩

theorem clearLoop_spec (ids : List Nat) : ∀ (m : Mgr) (j : Nat) (k : Nat) (f : Nat → Bool),
    m.slots = List.replicate j none ++ slotsOf ids k [] →
    (∀ id ∈ ids, HasFlag m.heap id (f id)) → ids.Nodup →
    clearLoop m j ids.length = .ok { m with slots := List.replicate (j + ids.length + k) none,
                                            heap := destroyAll m.heap ids } := by
  induction ids with
  | nil =>
    intro m j k f hs _ _
    cases m with
    | mk slots msize sizeNext capacity heap =>
      simp only at hs
      subst hs
      simp [clearLoop, slotsOf, destroyAll, List.replicate_append_replicate]
  | cons x ids ih =>
    intro m j k f hs hf hnd
    have hget : m.slots[j]? = some (some x) := by
      rw [hs, List.getElem?_append_right (by simp)]; simp [slotsOf]
    have hde := deinitAt_of hget (hf x (by simp))
    simp only [List.length_cons, clearLoop, hde, Outcome.bind_ok]
    have hnd' := List.nodup_cons.1 hnd
    rw [ih _ (j + 1) k f ?_ ?_ hnd'.2]
    · simp [destroyAll, Nat.add_assoc, Nat.add_comm 1]
    · simp only [hs]
      rw [List.set_append_right _ _ (by simp)]
      simp [slotsOf, List.replicate_succ', List.append_assoc]
    · intro id hid
      have h0 := hf id (by simp [hid])
      have hne : x ≠ id := fun he => hnd'.1 (he ▸ hid)
      unfold HasFlag at *
      simp [List.getElem?_set, hne, h0]

theorem rel_clear {m a vis} (h : Rel m a vis) :
    ∃ m' a', m.clear = .ok m' ∧ a.step .clear = some a' ∧ Rel m' a' [] := by
  obtain ⟨k, hk⟩ := h.slots
  have hrun := clearLoop_spec (vis ++ a.pending) m 0 k (fun id => decide (id ∉ a.dead))
    (by simpa using hk) (fun id hid => h.flag hid) h.nodup
  refine ⟨{ m with slots := List.replicate (0 + (vis ++ a.pending).length + k) none,
                   heap := destroyAll m.heap (vis ++ a.pending), msize := 0, sizeNext := 0 },
    _, ?_, rfl, ?_⟩
  · rw [Mgr.clear, h.sizeNext, hrun]; rfl
  · constructor
    · exact ⟨0 + (vis ++ a.pending).length + k, by simp [slotsOf]⟩
    · exact h.cap
    · have := h.len; rw [hk, slotsOf_length] at this
      simp at this ⊢; omega
    · rfl
    · rfl
    · simp
    · simp
    · simp [destroyAll_length, h.heapLen]
    · intro id hid
      simp only
      rw [destroyAll_get _ _ _ (by rw [h.heapLen]; exact hid), h.heap id hid]
      simp only [cellOf, h.mem_existing]
      by_cases e1 : id ∈ a.existing <;> simp [Abs.existing, e1]
    · simp [Abs.existing]
    · simp
    · exact h.pos

theorem rel_init : ∃ m, Mgr.init = .ok m ∧ Rel m Abs.init [] := by
  refine ⟨_, rfl, ?_⟩
  constructor
  · exact ⟨25, rfl⟩
  all_goals simp [Abs.init, Abs.existing]

theorem rel_step {m a vis o a'} (h : Rel m a vis) (hs : a.step o = some a') :
    ∃ m' vis', step m o = .ok m' ∧ Rel m' a' vis' := by
  cases o with
  | create =>
    obtain ⟨m', a'', h1, h2, h3⟩ := rel_create h
    rw [hs] at h2; cases h2
    exact ⟨m', vis, by simp [step, h1], h3⟩
  | del id =>
    simp only [Abs.step] at hs
    split at hs
    · cases hs
      obtain ⟨m', h1, h2⟩ := rel_del h (by assumption)
      exact ⟨m', vis, h1, h2⟩
    · cases hs
  | refresh =>
    obtain ⟨m', a'', vis', h1, h2, h3⟩ := rel_refresh h
    rw [hs] at h2; cases h2
    exact ⟨m', vis', h1, h3⟩
  | clear =>
    obtain ⟨m', a'', h1, h2, h3⟩ := rel_clear h
    rw [hs] at h2; cases h2
    exact ⟨m', [], h1, h3⟩
  | reserve n =>
    simp only [Abs.step] at hs
    split at hs
    · cases hs
      obtain ⟨m', h1, h2⟩ := rel_reserve h (by assumption)
      exact ⟨m', vis, h1, h2⟩
    · cases hs

theorem rel_run {os : List Op} : ∀ {m a vis a'}, Rel m a vis → a.run os = some a' →
    ∃ m' vis', run m os = .ok m' ∧ Rel m' a' vis' := by
  induction os with
  | nil => intro m a vis a' h hs; simp [Abs.run] at hs; subst hs; exact ⟨m, vis, rfl, h⟩
  | cons o os ih =>
    intro m a vis a' h hs
    simp only [Abs.run, Option.bind_eq_some_iff] at hs
    obtain ⟨a1, h1, h2⟩ := hs
    obtain ⟨m1, vis1, h3, h4⟩ := rel_step h h1
    obtain ⟨m2, vis2, h5, h6⟩ := ih h4 h2
    exact ⟨m2, vis2, by simp [run, h3, h5], h6⟩

theorem rel_legal {os a} (h : Legal os a) : ∃ m vis, runFresh os = .ok m ∧ Rel m a vis := by
  obtain ⟨m, h1, h2⟩ := rel_init
  obtain ⟨m', vis, h3, h4⟩ := rel_run h2 h
  exact ⟨m', vis, by simp [runFresh, h1, h3], h4⟩

theorem iterFrom_of (m : Mgr) (suf : List (Option Nat)) : ∀ (ids : List Nat) (pre : List (Option Nat)),
    m.slots = pre ++ (ids.map some ++ suf) →
    iterFrom m pre.length ids.length = .ok ids := by
  intro ids
  induction ids with
  | nil => intro pre _; rfl
  | cons x ids ih =>
    intro pre hs
    have hget : m.slots[pre.length]? = some (some x) := by simp [hs]
    have := ih (pre ++ [some x]) (by simpa using hs)
    simp only [List.length_append, List.length_singleton] at this
    simp [iterFrom, slotAt_of hget, this]

theorem Rel.iter {m a vis} (h : Rel m a vis) : m.iter = .ok vis := by
  obtain ⟨k, hk⟩ := h.slots
  rw [Mgr.iter, h.msize]
  exact iterFrom_of m (a.pending.map some ++ (List.replicate k none ++ [])) vis [] (by simp [hk, slotsOf])

end Verif.Manager
