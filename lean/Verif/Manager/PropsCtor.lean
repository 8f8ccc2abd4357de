import Verif.Manager.Ctor
import Verif.Manager.PropsOrder

/-! # Constructors that use their manager, and constructors that throw (C157) -/

namespace Verif.Manager.Ctor

open Verif

/-! ## Simulation -/

/-- The cell of an object; `mk` are the objects under construction. -/
def cell (s : Seq) (mk : List Nat) (id : Nat) : Cell :=
  if id ∈ s.places ∨ id ∈ mk then .live (decide (id ∉ s.dead)) else .destroyed

structure R (m : Mgr) (s : Seq) (mk : List Nat) : Prop where
  slots : ∃ k, m.slots = slotsOf s.places k []
  cap : m.capacity = s.cap
  len : m.slots.length = s.cap
  msize : m.msize = s.visible.length
  sizeNext : m.sizeNext = s.places.length
  nodup : s.places.Nodup
  mkNodup : mk.Nodup
  disj : ∀ id ∈ mk, id ∉ s.places
  heapLen : m.heap.length = s.next
  heap : ∀ id, id < s.next → m.heap[id]? = some (cell s mk id)
  lt : ∀ id ∈ s.places, id < s.next
  mkLt : ∀ id ∈ mk, id < s.next
  deadEx : ∀ id ∈ s.dead, id ∈ s.places ∨ id ∈ mk
  pos : 0 < s.cap

variable {m : Mgr} {s : Seq} {mk : List Nat}

theorem R.flag (h : R m s mk) {id : Nat} (hid : id ∈ s.places) : HasFlag m.heap id (decide (id ∉ s.dead)) := by
  have := h.heap id (h.lt id hid)
  unfold HasFlag; rw [this]; simp [cell, hid]

theorem R.sizeNext_le (h : R m s mk) : m.sizeNext ≤ m.capacity := by
  obtain ⟨k, hk⟩ := h.slots
  have := h.len
  rw [hk] at this
  rw [h.sizeNext, h.cap, ← this]
  simp [slotsOf]

theorem r_reserve {n : Nat} (h : R m s mk) (hn : s.cap < n) : ∃ m', m.reserve n = .ok m' ∧ R m' { s with cap := n } mk := by
  have hl : m.slots.length = m.capacity := by rw [h.len, h.cap]
  refine ⟨_, reserve_of (by rw [h.cap]; exact hn) hl, ?_⟩
  obtain ⟨k, hk⟩ := h.slots
  constructor
  · refine ⟨k + (n - m.capacity), ?_⟩
    simp [hk, slotsOf, List.replicate_append_replicate, Seq.places]
  · rfl
  · simp [hl]; rw [h.cap]; omega
  · exact h.msize
  · exact h.sizeNext
  · exact h.nodup
  · exact h.mkNodup
  · exact h.disj
  · exact h.heapLen
  · exact h.heap
  · exact h.lt
  · exact h.mkLt
  · exact h.deadEx
  · simp; omega

theorem r_del {id : Nat} (h : R m s mk) (hid : id ∈ s.places ∨ id ∈ mk) :
    ∃ m', m.del id = .ok m' ∧ R m' { s with dead := id :: s.dead } mk := by
  have hlt : id < s.next := hid.elim (h.lt id) (h.mkLt id)
  have hc := h.heap id hlt
  rw [cell, if_pos hid] at hc
  refine ⟨{ m with heap := m.heap.set id (.live false) }, by simp [Mgr.del, hc], ?_⟩
  constructor
  · exact h.slots
  · exact h.cap
  · exact h.len
  · exact h.msize
  · exact h.sizeNext
  · exact h.nodup
  · exact h.mkNodup
  · exact h.disj
  · simp [h.heapLen]
  · intro i hi
    simp only [List.getElem?_set]
    by_cases he : id = i
    · subst he
      have hid' : (id ∈ s.visible ∨ id ∈ s.pending) ∨ id ∈ mk := by simpa [Seq.places] using hid
      simp [h.heapLen, hlt, cell, Seq.places, hid']
    · simp only [if_neg he]
      rw [h.heap i hi]
      simp [cell, Seq.places, Ne.symm he]
  · exact h.lt
  · exact h.mkLt
  · intro i hi
    simp only [List.mem_cons] at hi
    rcases hi with rfl | hi
    · exact hid
    · exact h.deadEx i hi
  · exact h.pos

theorem r_refresh (h : R m s mk) : ∃ m', m.refresh = .ok m' ∧
    R m' { s with visible := refill (fun id => id ∉ s.dead) s.places, pending := [], dead := s.dead.filter (fun id => id ∈ mk) } mk := by
  obtain ⟨k, hk⟩ := h.slots
  by_cases h0 : m.sizeNext = 0
  · have hnil : s.places = [] := by
      apply List.length_eq_zero_iff.1; rw [← h.sizeNext]; exact h0
    refine ⟨_, by rw [Mgr.refresh, if_pos h0], ?_⟩
    have hre : refill (fun id => decide (id ∉ s.dead)) s.places = [] := by rw [hnil]; rfl
    rw [hre]
    constructor
    · exact ⟨k, by rw [hnil] at hk; simpa [Seq.places] using hk⟩
    · exact h.cap
    · exact h.len
    · rfl
    · simp [h0, Seq.places]
    · simp [Seq.places]
    · exact h.mkNodup
    · simp [Seq.places]
    · exact h.heapLen
    · intro id hid
      rw [h.heap id hid]
      simp only [cell, hnil, Seq.places, List.append_nil, List.not_mem_nil, false_or, List.mem_filter]
      have hn : id ∉ s.visible ++ s.pending := by rw [show s.visible ++ s.pending = [] from hnil]; simp
      by_cases e : id ∈ mk
      · simp [e]
      · simpa [e] using hn
    · simp [Seq.places]
    · exact h.mkLt
    · intro id hid
      simp only [List.mem_filter, decide_eq_true_eq] at hid
      exact .inr hid.2
    · exact h.pos
  · have hne : s.places.length ≠ 0 := by rw [← h.sizeNext]; exact h0
    obtain ⟨new, k', deads, hrun, hp1, hp2, hlen, hnew⟩ := refreshLoop_spec (fun id => decide (id ∉ s.dead)) []
      _ s.places m [] k (m.sizeNext + 1) (m.sizeNext - 1) (Nat.le_refl _) (by simpa using hk)
      (fun id hid => h.flag hid) h.nodup (by have := h.sizeNext; simp only [List.length_nil]; omega)
      (by rw [h.sizeNext]; omega)
    simp only [List.length_nil, Nat.zero_add, List.nil_append] at hrun
    have hmemnew : ∀ id, id ∈ new ↔ id ∈ s.places ∧ id ∉ s.dead := by
      intro id; rw [hp1.mem_iff, List.mem_filter]; simp
    have hmemdead : ∀ id, id ∈ deads ↔ id ∈ s.places ∧ id ∈ s.dead := by
      intro id; rw [hp2.mem_iff, List.mem_filter]; simp
    let m' : Mgr := { m with slots := slotsOf new k' [], heap := destroyAll m.heap deads,
                             msize := new.length, sizeNext := new.length }
    have hflag : ∀ id ∈ new, HasFlag m'.heap id true := by
      intro id hid
      have hx := (hmemnew id).1 hid
      have hf := h.flag hx.1
      have hnd : id ∉ deads := by rw [hmemdead]; tauto
      have := hf.destroyAll hnd
      simpa [hx.2] using this
    have hchk := checkAllAlive_of m' new k' [] rfl hflag new.length (Nat.le_refl _)
    refine ⟨m', ?_, ?_⟩
    · rw [Mgr.refresh, if_neg h0, hrun]
      simp only [Outcome.bind_ok]
      change (do checkAllAlive m' new.length; return m') = _
      rw [hchk]; rfl
    · rw [← hnew]
      constructor
      · exact ⟨k', by simp [m', Seq.places]⟩
      · exact h.cap
      · have := h.len; rw [hk, slotsOf_length] at this
        simp only [m', slotsOf_length]; omega
      · rfl
      · simp [m', Seq.places]
      · simp only [Seq.places, List.append_nil]
        exact hp1.nodup_iff.2 (h.nodup.filter _)
      · exact h.mkNodup
      · intro id hid
        simp only [Seq.places, List.append_nil, hmemnew]
        exact fun hc => h.disj id hid hc.1
      · simp [m', destroyAll_length, h.heapLen]
      · intro id hid
        simp only [m']
        rw [destroyAll_get _ _ _ (by rw [h.heapLen]; exact hid), h.heap id hid]
        have h1 := hmemdead id
        have h2 := hmemnew id
        simp only [cell, Seq.places, List.append_nil, List.mem_filter, decide_eq_true_eq]
        have hd := h.disj id
        simp only [Seq.places] at h1 h2 hd
        by_cases e1 : id ∈ s.visible ++ s.pending <;> by_cases e2 : id ∈ s.dead <;> by_cases e3 : id ∈ mk <;>
          simp [h1, h2, e1, e2, e3] <;> exact absurd e1 (hd e3)
      · intro id hid
        simp only [Seq.places, List.append_nil, hmemnew] at hid
        exact h.lt id hid.1
      · exact h.mkLt
      · intro id hid
        simp only [List.mem_filter, decide_eq_true_eq] at hid
        exact .inr hid.2
      · exact h.pos

theorem r_clear (h : R m s mk) : ∃ m', m.clear = .ok m' ∧
    R m' { s with visible := [], pending := [], dead := s.dead.filter (fun id => id ∈ mk) } mk := by
  obtain ⟨k, hk⟩ := h.slots
  have hrun := clearLoop_spec s.places m 0 k (fun id => decide (id ∉ s.dead))
    (by simpa using hk) (fun id hid => h.flag hid) h.nodup
  refine ⟨{ m with slots := List.replicate (0 + s.places.length + k) none,
                   heap := destroyAll m.heap s.places, msize := 0, sizeNext := 0 }, ?_, ?_⟩
  · rw [Mgr.clear, h.sizeNext, hrun]; rfl
  · constructor
    · exact ⟨0 + s.places.length + k, by simp [slotsOf, Seq.places]⟩
    · exact h.cap
    · have := h.len; rw [hk, slotsOf_length] at this
      simp at this ⊢; omega
    · rfl
    · rfl
    · simp [Seq.places]
    · exact h.mkNodup
    · simp [Seq.places]
    · simp [destroyAll_length, h.heapLen]
    · intro id hid
      simp only
      rw [destroyAll_get _ _ _ (by rw [h.heapLen]; exact hid), h.heap id hid]
      simp only [cell, List.mem_filter, decide_eq_true_eq]
      have hd := h.disj id
      by_cases e1 : id ∈ s.places <;> by_cases e3 : id ∈ mk <;> simp [Seq.places, e1, e3]
      · exact absurd e1 (hd e3)
      · simpa [Seq.places] using e1
    · simp [Seq.places]
    · exact h.mkLt
    · intro id hid
      simp only [List.mem_filter, decide_eq_true_eq] at hid
      exact .inr hid.2
    · exact h.pos

/-- A constructor begins. -/
theorem r_begin (h : R m s mk) :
    R { m with heap := m.heap ++ [Cell.live true] } { s with next := s.next + 1 } (s.next :: mk) := by
  have hnp : s.next ∉ s.places := fun hc => Nat.lt_irrefl _ (h.lt _ hc)
  have hnm : s.next ∉ mk := fun hc => Nat.lt_irrefl _ (h.mkLt _ hc)
  have hnd : s.next ∉ s.dead := fun hc => (h.deadEx _ hc).elim hnp hnm
  constructor
  · exact h.slots
  · exact h.cap
  · exact h.len
  · exact h.msize
  · exact h.sizeNext
  · exact h.nodup
  · exact List.nodup_cons.2 ⟨hnm, h.mkNodup⟩
  · intro id hid
    rcases List.mem_cons.1 hid with rfl | hid
    · exact hnp
    · exact h.disj id hid
  · simp [h.heapLen]
  · intro id hid
    by_cases hc : id < s.next
    · rw [List.getElem?_append_left (by rw [h.heapLen]; exact hc), h.heap id hc]
      have hne : id ≠ s.next := by omega
      simp [cell, Seq.places, hne]
    · have : id = s.next := by simp at hid; omega
      subst this
      rw [List.getElem?_append_right (by rw [h.heapLen]; omega)]
      simp [h.heapLen, cell, hnd]
  · intro id hid; have := h.lt id hid; simp only; omega
  · intro id hid
    simp only
    rcases List.mem_cons.1 hid with rfl | hid
    · omega
    · have := h.mkLt id hid; omega
  · intro id hid
    rcases h.deadEx id hid with hc | hc
    · exact .inl hc
    · exact .inr (List.mem_cons_of_mem _ hc)
  · exact h.pos

/-- It throws. -/
theorem r_throw {id : Nat} (h : R m s (id :: mk)) :
    R { m with heap := m.heap.set id .destroyed } { s with dead := s.dead.filter (fun x => x ≠ id) } mk := by
  have hid := h.disj id (List.mem_cons_self ..)
  have hlt := h.mkLt id (List.mem_cons_self ..)
  have hnd := List.nodup_cons.1 h.mkNodup
  constructor
  · exact h.slots
  · exact h.cap
  · exact h.len
  · exact h.msize
  · exact h.sizeNext
  · exact h.nodup
  · exact hnd.2
  · intro i hi; exact h.disj i (List.mem_cons_of_mem _ hi)
  · simp [h.heapLen]
  · intro i hi
    simp only [List.getElem?_set]
    by_cases he : id = i
    · subst he
      simp only [Seq.places] at hid
      simp [h.heapLen, hlt, cell, Seq.places, hnd.1] at hid ⊢
      exact hid
    · rw [if_neg he, h.heap i hi]
      simp [cell, Seq.places, Ne.symm he]
  · exact h.lt
  · intro i hi; exact h.mkLt i (List.mem_cons_of_mem _ hi)
  · intro i hi
    simp only [List.mem_filter, decide_eq_true_eq] at hi
    rcases h.deadEx i hi.1 with hc | hc
    · exact .inl hc
    · rcases List.mem_cons.1 hc with rfl | hc
      · exact absurd rfl hi.2
      · exact .inr hc
  · exact h.pos

/-- It ends, and the object gets its place. -/
theorem r_end {id : Nat} (h : R m s (id :: mk)) :
    ∃ m', (do
        let m ← if m.capacity ≤ m.sizeNext then m.reserve (m.capacity * 3) else .ok m
        let m ← m.initAt m.sizeNext id
        return ({ m with sizeNext := m.sizeNext + 1 }, false) : Outcome (Mgr × Bool)) = .ok (m', false) ∧
      R m' { s with pending := s.pending ++ [id], cap := if s.cap ≤ s.places.length then s.cap * 3 else s.cap } mk := by
  -- with room
  have key : ∀ {m : Mgr} {s : Seq}, R m s (id :: mk) → ¬ m.capacity ≤ m.sizeNext →
      ∃ m', (do
          let m ← m.initAt m.sizeNext id
          return ({ m with sizeNext := m.sizeNext + 1 }, false) : Outcome (Mgr × Bool)) = .ok (m', false) ∧
        R m' { s with pending := s.pending ++ [id] } mk := by
    intro m s h hroom
    obtain ⟨k, hk⟩ := h.slots
    have hlen := h.len
    rw [hk, slotsOf_length] at hlen
    have hsn := h.sizeNext
    have hcap := h.cap
    obtain ⟨k', rfl⟩ : ∃ k', k = k' + 1 := ⟨k - 1, by omega⟩
    have hnd := List.nodup_cons.1 h.mkNodup
    have hid := h.disj id (List.mem_cons_self ..)
    have hget : m.slots[m.sizeNext]? = some none := by
      rw [hk, h.sizeNext]
      simp [slotsOf, List.getElem?_append_right]
    refine ⟨_, by simp only [Mgr.initAt, hget, Outcome.bind_ok]; rfl, ?_⟩
    constructor
    · refine ⟨k', ?_⟩
      simp only [hk, h.sizeNext, slotsOf_init]
      simp [Seq.places]
    · exact h.cap
    · simp only [List.length_set]; exact h.len
    · exact h.msize
    · simp [h.sizeNext, Seq.places, Nat.add_assoc]
    · simp only [Seq.places] at hid ⊢
      rw [← List.append_assoc]
      refine List.nodup_append.2 ⟨h.nodup, by simp, ?_⟩
      intro x hx y hy
      simp at hy; subst hy
      exact fun he => hid (he ▸ hx)
    · exact hnd.2
    · intro i hi
      have := h.disj i (List.mem_cons_of_mem _ hi)
      have hne : i ≠ id := by rintro rfl; exact hnd.1 hi
      simp only [Seq.places] at this ⊢
      simp at this ⊢
      exact ⟨this.1, this.2, hne⟩
    · exact h.heapLen
    · intro i hi
      have := h.heap i hi
      simp only
      rw [this]
      simp only [cell, Seq.places, List.mem_append, List.mem_cons, List.not_mem_nil, or_false]
      congr 1
      by_cases e1 : i ∈ s.visible <;> by_cases e2 : i ∈ s.pending <;> by_cases e3 : i = id <;> by_cases e4 : i ∈ mk <;> simp [e1, e2, e3, e4]
    · intro i hi
      simp only [Seq.places, ← List.append_assoc] at hi
      rcases List.mem_append.1 hi with hi | hi
      · exact h.lt i hi
      · simp at hi; subst hi; exact h.mkLt i (List.mem_cons_self ..)
    · intro i hi; exact h.mkLt i (List.mem_cons_of_mem _ hi)
    · intro i hi
      rcases h.deadEx i hi with hc | hc
      · left; simp only [Seq.places, ← List.append_assoc]; exact List.mem_append_left _ hc
      · rcases List.mem_cons.1 hc with rfl | hc
        · left; simp [Seq.places]
        · exact .inr hc
    · exact h.pos
  by_cases hfull : m.capacity ≤ m.sizeNext
  · have hc : s.cap ≤ s.places.length := by rw [← h.sizeNext, ← h.cap]; exact hfull
    rw [if_pos hfull, if_pos hc]
    have hpos := h.pos
    have hcap := h.cap
    obtain ⟨m1, h1, h2⟩ := r_reserve h (n := m.capacity * 3) (by omega)
    rw [h1, Outcome.bind_ok]
    have hsz : m1.sizeNext = m.sizeNext := by rw [h2.sizeNext, h.sizeNext]; rfl
    obtain ⟨m', h3, h4⟩ := key h2 (by
      have := h.sizeNext_le
      rw [h2.cap, hsz]; simp only; omega)
    refine ⟨m', h3, ?_⟩
    rw [← hcap]
    exact h4
  · have hc : ¬ s.cap ≤ s.places.length := by rw [← h.sizeNext, ← h.cap]; exact hfull
    rw [if_neg hfull, if_neg hc, Outcome.bind_ok]
    exact key h hfull

mutual
theorem act_sim {m : Mgr} {s : Seq} {mk : List Nat} (h : R m s mk) : (a : Act) → {s' : Seq} → {e : Bool} →
    Spec.act mk s a = some (s', e) → ∃ m', act m a = .ok (m', e) ∧ R m' s' mk
  | .make body throws caught, s', e, hs => by
    simp only [Spec.act] at hs
    cases hb : Spec.acts (s.next :: mk) { s with next := s.next + 1 } body with
    | none => rw [hb] at hs; cases hs
    | some y =>
      obtain ⟨s1, e1⟩ := y
      rw [hb] at hs
      obtain ⟨m1, h1, h2⟩ := acts_sim (r_begin h) body hb
      simp only [act, h1, Outcome.bind_ok, h.heapLen]
      by_cases he : (e1 || throws) = true
      · simp only [if_pos he, Option.some.injEq, Prod.mk.injEq] at hs ⊢
        obtain ⟨rfl, rfl⟩ := hs
        exact ⟨_, rfl, r_throw h2⟩
      · simp only [if_neg he, Option.some.injEq, Prod.mk.injEq] at hs ⊢
        obtain ⟨rfl, rfl⟩ := hs
        exact r_end h2
  | .del id, s', e, hs => by
    simp only [Spec.act] at hs
    split at hs
    · cases hs
      obtain ⟨m', h1, h2⟩ := r_del h (by assumption)
      exact ⟨m', by simp [act, h1], h2⟩
    · cases hs
  | .refresh, s', e, hs => by
    simp only [Spec.act, Option.some.injEq, Prod.mk.injEq] at hs
    obtain ⟨rfl, rfl⟩ := hs
    obtain ⟨m', h1, h2⟩ := r_refresh h
    exact ⟨m', by simp [act, h1], h2⟩
  | .clear, s', e, hs => by
    simp only [Spec.act, Option.some.injEq, Prod.mk.injEq] at hs
    obtain ⟨rfl, rfl⟩ := hs
    obtain ⟨m', h1, h2⟩ := r_clear h
    exact ⟨m', by simp [act, h1], h2⟩
  | .reserve n, s', e, hs => by
    simp only [Spec.act] at hs
    split at hs
    · cases hs
      obtain ⟨m', h1, h2⟩ := r_reserve h (by assumption)
      exact ⟨m', by simp [act, h1], h2⟩
    · cases hs

theorem acts_sim {m : Mgr} {s : Seq} {mk : List Nat} (h : R m s mk) : (as : List Act) → {s' : Seq} → {e : Bool} →
    Spec.acts mk s as = some (s', e) → ∃ m', acts m as = .ok (m', e) ∧ R m' s' mk
  | [], s', e, hs => by
    simp only [Spec.acts, Option.some.injEq, Prod.mk.injEq] at hs
    obtain ⟨rfl, rfl⟩ := hs
    exact ⟨m, rfl, h⟩
  | a :: as, s', e, hs => by
    simp only [Spec.acts] at hs
    cases ha : Spec.act mk s a with
    | none => rw [ha] at hs; cases hs
    | some y =>
      obtain ⟨s1, e1⟩ := y
      rw [ha] at hs
      obtain ⟨m1, h1, h2⟩ := act_sim h a ha
      cases e1 with
      | true =>
        simp only [Option.some.injEq, Prod.mk.injEq] at hs
        obtain ⟨rfl, rfl⟩ := hs
        exact ⟨m1, by simp [acts, h1], h2⟩
      | false =>
        obtain ⟨m2, h3, h4⟩ := acts_sim h2 as hs
        exact ⟨m2, by simp [acts, h1, h3], h4⟩
end

theorem r_init : ∃ m, Mgr.init = .ok m ∧ R m Seq.init [] := by
  refine ⟨_, rfl, ?_⟩
  constructor
  · exact ⟨25, rfl⟩
  · rfl
  · rfl
  · rfl
  · rfl
  · exact List.nodup_nil
  · exact List.nodup_nil
  · intro _ h; cases h
  · rfl
  · intro id h; exact absurd h (Nat.not_lt_zero _)
  · intro _ h; cases h
  · intro _ h; cases h
  · intro _ h; cases h
  · decide

theorem R.iter (h : R m s mk) : m.iter = .ok s.visible := by
  obtain ⟨k, hk⟩ := h.slots
  unfold Mgr.iter
  rw [h.msize]
  have := iterFrom_of m (s.pending.map some ++ List.replicate k none) s.visible [] (by simp [hk, slotsOf, Seq.places])
  simpa using this

/-! ## The theorems -/

/-- **C157.** A program whose constructors use the manager and throw at will, and that respects the preconditions, runs without undefined
behaviour or assertion failure; the loop over the manager visits exactly what the specification says, in its order; and every object that
was ever begun is destroyed or alive as the specification says. -/
theorem C157_constructors (prog : List Act) (s : Seq) (e : Bool) (h : Spec.acts [] Seq.init prog = some (s, e)) :
    ∃ m, runFresh prog = .ok (m, e) ∧ m.iter = .ok s.visible ∧ m.heap.length = s.next ∧
      (∀ id, id < s.next → m.heap[id]? = some (if id ∈ s.places then .live (decide (id ∉ s.dead)) else .destroyed)) ∧
      s.places.Nodup := by
  obtain ⟨m0, h0, hr0⟩ := r_init
  obtain ⟨m, h1, hr⟩ := acts_sim hr0 prog h
  refine ⟨m, by simp [runFresh, h0, h1], hr.iter, hr.heapLen, ?_, hr.nodup⟩
  intro id hid
  rw [hr.heap id hid]
  simp [cell]

mutual
theorem create_act (mk : List Nat) : (a : Act) → Spec.Creates a → (s : Seq) → (∀ id ∈ s.dead, id < s.next) →
    ∃ c, Spec.act mk s a =
      some ({ s with next := s.next + Spec.begun a, pending := s.pending ++ Spec.ended s.next a, cap := c }, Spec.leave a)
  | .make body throws caught, h, s, hd => by
    obtain ⟨c, hc⟩ := create_acts (s.next :: mk) body h { s with next := s.next + 1 } (fun id hid => by have := hd id hid; simp only; omega)
    have hf : s.dead.filter (fun x => decide (x ≠ s.next)) = s.dead := by
      apply List.filter_eq_self.2
      intro x hx
      have := hd x hx
      simp; omega
    simp only [Spec.act, hc, hf, Spec.begun, Spec.ended, Spec.leave]
    by_cases ht : (Spec.leaves body || throws) = true
    · have ht' : (throws || Spec.leaves body) = true := by rw [Bool.or_comm]; exact ht
      refine ⟨c, ?_⟩
      rw [if_pos ht, if_pos ht', ht']
      simp [Nat.add_assoc]
    · have ht' : ¬ (throws || Spec.leaves body) = true := by rw [Bool.or_comm]; exact ht
      rw [if_neg ht, if_neg ht', Bool.not_eq_true _ |>.mp ht']
      exact ⟨_, by simp only [Nat.add_assoc, List.append_assoc, Bool.false_and]; rfl⟩
  | .del _, h, _, _ => h.elim
  | .refresh, h, _, _ => h.elim
  | .clear, h, _, _ => h.elim
  | .reserve _, h, _, _ => h.elim

theorem create_acts (mk : List Nat) : (as : List Act) → Spec.AllCreate as → (s : Seq) → (∀ id ∈ s.dead, id < s.next) →
    ∃ c, Spec.acts mk s as =
      some ({ s with next := s.next + Spec.beguns as, pending := s.pending ++ Spec.endeds s.next as, cap := c }, Spec.leaves as)
  | [], _, s, _ => ⟨s.cap, by simp [Spec.acts, Spec.beguns, Spec.endeds, Spec.leaves]⟩
  | a :: as, h, s, hd => by
    obtain ⟨c, hc⟩ := create_act mk a h.1 s hd
    cases hl : Spec.leave a with
    | true =>
      rw [hl] at hc
      exact ⟨c, by simp [Spec.acts, hc, Spec.beguns, Spec.endeds, Spec.leaves, hl]⟩
    | false =>
      rw [hl] at hc
      obtain ⟨c', hc'⟩ := create_acts mk as h.2
        { s with next := s.next + Spec.begun a, pending := s.pending ++ Spec.ended s.next a, cap := c }
        (fun id hid => by have := hd id hid; simp only; omega)
      exact ⟨c', by simp [Spec.acts, hc, hc', Spec.beguns, Spec.endeds, Spec.leaves, hl, Nat.add_assoc]⟩
end

/-- **C157.** Objects that create their parts: the loop after a `refresh` visits the objects that came to exist in the order in which their
constructors ended, so that the parts stand before the whole. (If an exception left the program, `refresh` is called by the handler.) -/
theorem C157_order (prog : List Act) (h : Spec.AllCreate prog) :
    ∃ m m', runFresh prog = .ok (m, Spec.leaves prog) ∧ m.iter = .ok [] ∧ m.refresh = .ok m' ∧
      m'.iter = .ok (Spec.endeds 0 prog) ∧ m.heap.length = Spec.beguns prog := by
  obtain ⟨c, hc⟩ := create_acts [] prog h Seq.init (by intro _ h; cases h)
  obtain ⟨m0, h0, hr0⟩ := r_init
  obtain ⟨m, h1, hr⟩ := acts_sim hr0 prog hc
  obtain ⟨m', h2, hr'⟩ := r_refresh hr
  refine ⟨m, m', by simp [runFresh, h0, h1], hr.iter, h2, ?_, by rw [hr.heapLen]; simp [Seq.init]⟩
  rw [hr'.iter]
  have := refill_append_of_pos (f := fun id => decide (id ∉ ([] : List Nat))) (xs := Spec.endeds 0 prog) (by simp) []
  rw [refill_of_neg (l := []) (by simp), List.append_nil] at this
  exact congrArg Outcome.ok this

/-- The program without nested code. -/
def plain : Op → Act
  | .create => .make [] false false
  | .del id => .del id
  | .refresh => .refresh
  | .clear => .clear
  | .reserve n => .reserve n

/-- **C157.** The programs of the other theorems are those whose constructors do nothing. -/
theorem C157_conservative (os : List Op) : runFresh (os.map plain) = (do let m ← Mgr.init; let m ← run m os; return (m, false)) := by
  have : ∀ (os : List Op) (m : Mgr), acts m (os.map plain) = (do let m ← run m os; return (m, false)) := by
    intro os
    induction os with
    | nil => intro m; rfl
    | cons o os ih =>
      intro m
      simp only [List.map_cons, acts, run]
      cases o with
      | create =>
        simp only [plain, act, acts, Outcome.bind_ok, step, Mgr.create, Bool.or_self]
        by_cases hc : m.capacity ≤ m.sizeNext
        · simp only [hc, if_true]
          cases hq : Mgr.reserve { m with heap := m.heap ++ [Cell.live true] } (m.capacity * 3) with
          | ok m1 =>
            simp only [Outcome.bind_ok]
            cases hi : m1.initAt m1.sizeNext m.heap.length with
            | ok m2 => simpa using ih _
            | _ => rfl
          | _ => rfl
        · simp only [hc, if_false, Outcome.bind_ok]
          cases hi : Mgr.initAt { m with heap := m.heap ++ [Cell.live true] } m.sizeNext m.heap.length with
          | ok m2 => simpa [hi] using ih _
          | _ => simp [hi]
      | del id =>
        simp only [plain, act, step]
        cases m.del id with
        | ok m1 => simpa using ih m1
        | _ => rfl
      | refresh =>
        simp only [plain, act, step]
        cases m.refresh with
        | ok m1 => simpa using ih m1
        | _ => rfl
      | clear =>
        simp only [plain, act, step]
        cases m.clear with
        | ok m1 => simpa using ih m1
        | _ => rfl
      | reserve n =>
        simp only [plain, act, step]
        cases m.reserve n with
        | ok m1 => simpa using ih m1
        | _ => rfl
  simp [runFresh, this]

theorem spec_append (mk : List Nat) : ∀ (as bs : List Act) {s s' : Seq}, Spec.acts mk s as = some (s', false) →
    Spec.acts mk s (as ++ bs) = Spec.acts mk s' bs := by
  intro as
  induction as with
  | nil => intro bs s s' h; simp only [Spec.acts, Option.some.injEq, Prod.mk.injEq] at h; rw [h.1]; rfl
  | cons a as ih =>
    intro bs s s' h
    simp only [List.cons_append, Spec.acts] at h ⊢
    cases ha : Spec.act mk s a with
    | none => rw [ha] at h; cases h
    | some y =>
      obtain ⟨s1, e1⟩ := y
      rw [ha] at h
      cases e1 with
      | true => simp at h
      | false => exact ih bs h

/-- **C157.** A `create` whose constructor throws, whatever happened before and whatever the constructor did, leaves the manager as if only
the constructor's own statements had been executed, and the object is gone. -/
theorem C157_exception (before body : List Act) (s s' : Seq) (e : Bool) (h : Spec.acts [] Seq.init before = some (s, false))
    (hb : Spec.acts [s.next] { s with next := s.next + 1 } body = some (s', e)) :
    ∃ m, runFresh (before ++ [.make body true true]) = .ok (m, false) ∧ m.iter = .ok s'.visible ∧ s.next ∉ s'.places ∧
      m.heap[s.next]? = some .destroyed ∧
      (∀ id, id < s'.next → id ≠ s.next →
        m.heap[id]? = some (if id ∈ s'.places then .live (decide (id ∉ s'.dead)) else .destroyed)) := by
  obtain ⟨m0, h0, hr0⟩ := r_init
  obtain ⟨m1, h1, hr1⟩ := acts_sim hr0 before h
  obtain ⟨m2, h2, hr2⟩ := acts_sim (r_begin hr1) body hb
  have hall : Spec.acts [] Seq.init (before ++ [.make body true true]) =
      some ({ s' with dead := s'.dead.filter (fun id => id ≠ s.next) }, false) := by
    rw [spec_append [] before _ h]
    simp [Spec.acts, Spec.act, hb]
  obtain ⟨m, h3, h4, h5, h6, h7⟩ := C157_constructors _ _ _ hall
  have hn := hr2.disj s.next (List.mem_cons_self ..)
  refine ⟨m, h3, h4, hn, ?_, ?_⟩
  · have := h6 s.next (hr2.mkLt s.next (List.mem_cons_self ..))
    rw [this]
    exact congrArg some (if_neg hn)
  · intro id hid hne
    rw [h6 id hid]
    simp [Seq.places, hne]

/-- **C157.** An object deleted by its own constructor is never visited: the `refresh` after its `create` destroys it, whatever happened
before and whatever else the constructor did before it deleted it. -/
theorem C157_delete_itself (before body : List Act) (s s' : Seq) (h : Spec.acts [] Seq.init before = some (s, false))
    (hb : Spec.acts [s.next] { s with next := s.next + 1 } body = some (s', false)) :
    ∃ m xs, runFresh (before ++ [.make (body ++ [.del s.next]) false false, .refresh]) = .ok (m, false) ∧ m.iter = .ok xs ∧
      s.next ∉ xs ∧ m.heap[s.next]? = some .destroyed := by
  have hb' : Spec.acts [s.next] { s with next := s.next + 1 } (body ++ [.del s.next]) =
      some ({ s' with dead := s.next :: s'.dead }, false) := by
    rw [spec_append _ body _ hb]
    simp [Spec.acts, Spec.act]
  obtain ⟨m0, h0, hr0⟩ := r_init
  obtain ⟨m1, h1, hr1⟩ := acts_sim hr0 before h
  obtain ⟨m2, h2, hr2⟩ := acts_sim (r_begin hr1) body hb
  have hlt : s.next < s'.next := hr2.mkLt s.next (List.mem_cons_self ..)
  have hall : ∃ s'', Spec.acts [] Seq.init (before ++ [.make (body ++ [.del s.next]) false false, .refresh]) = some (s'', false) ∧
      s''.next = s'.next ∧ s''.pending = [] ∧ s''.visible = refill (fun id => id ∉ s.next :: s'.dead) (s'.visible ++ (s'.pending ++ [s.next])) := by
    rw [spec_append [] before _ h]
    simp only [Spec.acts, Spec.act, hb', Bool.or_self, Bool.false_eq_true, if_false]
    exact ⟨_, rfl, rfl, rfl, rfl⟩
  obtain ⟨s'', hs, hn, hp, hv⟩ := hall
  obtain ⟨m, h3, h4, h5, h6, h7⟩ := C157_constructors _ _ _ hs
  have hnot : s.next ∉ s''.visible := by
    rw [hv]
    intro hc
    have := (refill_only hc).1
    simp at this
  refine ⟨m, _, h3, h4, hnot, ?_⟩
  rw [h6 s.next (by rw [hn]; exact hlt), if_neg (by simpa [Seq.places, hp] using hnot)]

/-- **C157.** A tree of objects: `1` and `2` are parts of `0`; `4`, a part of `3`, throws, and `3` lets the exception pass; `5` catches that
of its part `6`, and then deletes itself. -/
theorem C157_example :
    (∃ m, runFresh [.make [.make [] false false, .refresh, .make [] false false] false false,
                    .make [.make [] true false, .make [] false false] false true,
                    .make [.make [] true true, .del 5] false false, .refresh] = .ok (m, false) ∧ m.iter = .ok [1, 2, 0] ∧
      m.heap[5]? = some .destroyed ∧ m.heap.length = 7) ∧
    Spec.endeds 0 [.make [.make [] false false, .make [] false false] false false,
                   .make [.make [] true false, .make [] false false] false true,
                   .make [.make [] true true] false false] = [1, 2, 0, 5] := by
  refine ⟨?_, by decide⟩
  obtain ⟨m, h1, h2, h3, h4, -⟩ := C157_constructors
    [.make [.make [] false false, .refresh, .make [] false false] false false,
     .make [.make [] true false, .make [] false false] false true,
     .make [.make [] true true, .del 5] false false, .refresh]
    { next := 7, visible := [1, 2, 0], pending := [], dead := [], cap := 25 } false (by decide +kernel)
  exact ⟨m, h1, h2, h4 5 (by decide), h3⟩

/-- A constructor that creates thirty parts makes the manager grow while its object has no place yet. -/
example : Spec.acts [] Seq.init [.make (List.replicate 30 (.make [] false false)) false false] =
    some ({ next := 31, visible := [], pending := (List.range 30).map (· + 1) ++ [0], dead := [], cap := 75 }, false) := by decide +kernel

end Verif.Manager.Ctor
