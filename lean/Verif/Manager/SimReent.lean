import Verif.Manager.LemmasReent

/-! Managers with creating destructors follow the abstract manager. -/

namespace Verif.Manager

open Verif Spec

structure RelR (m : Mgr) (a : AbsR) (vis : List Nat) : Prop where
  slots : ∃ tail, m.slots = (vis ++ a.pending).map some ++ tail
  cap : m.capacity = a.cap
  len : m.slots.length = a.cap
  msize : m.msize = vis.length
  sizeNext : m.sizeNext = (vis ++ a.pending).length
  perm : vis.Perm a.visible
  nodup : (vis ++ a.pending).Nodup
  heapLen : m.heap.length = a.next
  live : ∀ id ∈ a.existing, m.heap[id]? = some (.live (decide (id ∉ a.dead)))
  lost : ∀ id ∈ a.lost, ∃ b, m.heap[id]? = some (.live b)
  rest : ∀ id, id < a.next → id ∉ a.existing → id ∉ a.lost → m.heap[id]? = some .destroyed
  disj : ∀ id ∈ a.lost, id ∉ a.existing
  deadEx : ∀ id ∈ a.dead, id ∈ a.existing
  pos : 0 < a.cap

theorem RelR.mem_existing {m a vis} (h : RelR m a vis) (id : Nat) :
    id ∈ vis ++ a.pending ↔ id ∈ a.existing := by
  simp [Abs.existing, h.perm.mem_iff]

theorem RelR.perm_existing {m a vis} (h : RelR m a vis) : (vis ++ a.pending).Perm a.existing :=
  h.perm.append_right _

theorem RelR.lenEx {m a vis} (h : RelR m a vis) : (vis ++ a.pending).length = a.existing.length :=
  h.perm_existing.length_eq

theorem RelR.flag {m a vis} (h : RelR m a vis) {id : Nat} (hid : id ∈ vis ++ a.pending) :
    HasFlag m.heap id (decide (id ∉ a.dead)) := h.live id ((h.mem_existing id).1 hid)

theorem RelR.lt {m a vis} (h : RelR m a vis) {id : Nat} (hid : id ∈ a.existing) : id < a.next := by
  rw [← h.heapLen]; exact (List.getElem?_eq_some_iff.1 (h.live id hid)).1

theorem RelR.ltLost {m a vis} (h : RelR m a vis) {id : Nat} (hid : id ∈ a.lost) : id < a.next := by
  obtain ⟨b, hb⟩ := h.lost id hid
  rw [← h.heapLen]; exact (List.getElem?_eq_some_iff.1 hb).1

theorem RelR.size_le {m a vis} (h : RelR m a vis) : m.sizeNext ≤ m.capacity := by
  obtain ⟨k, hk⟩ := h.slots
  have := h.len
  rw [hk] at this
  rw [h.sizeNext, h.cap, ← this]
  simp

theorem cost_destroyAll {spawn : Nat → Nat} : ∀ (ids : List Nat) (h : List Cell), ids.Nodup →
    (∀ id ∈ ids, ∃ b, HasFlag h id b) → cost spawn (destroyAll h ids) = cost spawn h + (ids.map spawn).sum := by
  intro ids
  induction ids with
  | nil => intro h _ _; simp [destroyAll]
  | cons x ids ih =>
    intro h hn hf
    obtain ⟨b, hb⟩ := hf x (by simp)
    have hn' := List.nodup_cons.1 hn
    have := ih (h.set x .destroyed) hn'.2 (fun id hid => by
      obtain ⟨b, hb⟩ := hf id (by simp [hid])
      refine ⟨b, ?_⟩
      have hne : x ≠ id := fun he => hn'.1 (he ▸ hid)
      unfold HasFlag at *
      rw [List.getElem?_set_ne hne, hb])
    simp only [destroyAll, List.foldl_cons] at this ⊢
    rw [this, cost_set hb]
    simp [Nat.add_assoc]

theorem relR_create {m a vis} (spawn) (h : RelR m a vis) :
    ∃ m' a', m.createR = .ok m' ∧ Step spawn a .create a' ∧ RelR m' a' vis := by
  have hl : m.slots.length = m.capacity := by rw [h.len, h.cap]
  obtain ⟨tail, hk⟩ := h.slots
  have hnx : a.next ∉ a.existing := fun hc => Nat.lt_irrefl _ (h.lt hc)
  have hnl : a.next ∉ a.lost := fun hc => Nat.lt_irrefl _ (h.ltLost hc)
  have hnotin : a.next ∉ vis ++ a.pending := by rw [h.mem_existing]; exact hnx
  have hnd : a.next ∉ a.dead := fun hc => hnx (h.deadEx _ hc)
  have key : ∀ (c : Nat) (tail : List (Option Nat)), (vis ++ a.pending).length + tail.length = c → tail ≠ [] →
      let m1 : Mgr := { m with slots := (vis ++ a.pending).map some ++ tail, capacity := c,
                               heap := m.heap ++ [Cell.live true] }
      ∃ m', (do let m ← m1.initAtR m1.sizeNext m.heap.length
                return { m with sizeNext := m.sizeNext + 1 }) = Outcome.ok m' ∧
        RelR m' { a with next := a.next + 1, pending := a.pending ++ [a.next], cap := c } vis := by
    intro c tail hc hne m1
    obtain ⟨t0, tail, rfl⟩ := List.exists_cons_of_ne_nil hne
    have hroom : m1.slots[m1.sizeNext]? = some t0 := by
      simp only [m1, h.sizeNext]
      rw [List.getElem?_append_right (by simp)]; simp
    refine ⟨{ m1 with slots := (vis ++ (a.pending ++ [a.next])).map some ++ tail, sizeNext := m.sizeNext + 1 },
      ?_, ?_⟩
    · simp only [Mgr.initAtR, hroom, Outcome.bind_ok]
      simp only [m1, h.sizeNext, h.heapLen, Outcome.pure_eq, Outcome.ok.injEq, Mgr.mk.injEq, and_true]
      rw [List.set_append_right _ _ (by simp)]
      simp
    · constructor
      · exact ⟨tail, rfl⟩
      · rfl
      · simp at hc ⊢; omega
      · exact h.msize
      · simp [h.sizeNext, Nat.add_assoc]
      · exact h.perm
      · show (vis ++ (a.pending ++ [a.next])).Nodup
        rw [← List.append_assoc]
        refine List.nodup_append.2 ⟨h.nodup, by simp, ?_⟩
        intro x hx y hy
        simp at hy; subst hy
        exact fun he => hnotin (he ▸ hx)
      · simp [m1, h.heapLen]
      · intro id hid
        simp only [m1]
        simp only [Abs.existing, ← List.append_assoc, List.mem_append, List.mem_singleton] at hid
        rcases hid with hid | rfl
        · have hid' : id ∈ a.existing := by simpa [Abs.existing] using hid
          rw [List.getElem?_append_left (by rw [h.heapLen]; exact h.lt hid'), h.live id hid']
        · rw [List.getElem?_append_right (by rw [h.heapLen])]
          simp [h.heapLen, hnd]
      · intro id hid
        obtain ⟨b, hb⟩ := h.lost id hid
        exact ⟨b, by simp only [m1]; rw [List.getElem?_append_left (List.getElem?_eq_some_iff.1 hb).1, hb]⟩
      · intro id hid h1 h2
        simp only [Abs.existing, ← List.append_assoc, List.mem_append, List.mem_singleton, not_or] at h1
        have hid2 : id < a.next := by simp only at hid; omega
        simp only [m1]
        rw [List.getElem?_append_left (by rw [h.heapLen]; exact hid2)]
        exact h.rest id hid2 (by simp [Abs.existing, h1]) h2
      · intro id hid
        have := h.disj id hid
        have hne : id ≠ a.next := fun he => hnl (he ▸ hid)
        simp only [Abs.existing, ← List.append_assoc, List.mem_append, List.mem_singleton, not_or] at this ⊢
        exact ⟨this, hne⟩
      · intro id hid
        have := h.deadEx id hid
        simp only [Abs.existing, List.mem_append] at this ⊢
        tauto
      · show 0 < c
        simp at hc; omega
  have hlen2 := h.len
  rw [hk, List.length_append, List.length_map] at hlen2
  by_cases hfull : m.capacity ≤ m.sizeNext
  · have hle := h.size_le
    have hpos := h.pos
    have hcap := h.cap
    have ht0 : tail = [] := by
      apply List.length_eq_zero_iff.1
      have := h.sizeNext; omega
    obtain ⟨m', h1, h2⟩ := key (a.cap * 3) (List.replicate (a.cap * 3 - a.cap) none)
      (by rw [ht0] at hlen2; simp only [List.length_nil, List.length_replicate] at hlen2 ⊢; omega)
      (by intro he; have := congrArg List.length he; simp at this; omega)
    refine ⟨m', _, ?_, Step.create a, ?_⟩
    · simp only [Mgr.createR]
      have hr := reserve_of (m := { m with heap := m.heap ++ [Cell.live true] }) (n := m.capacity * 3)
        (by simp; omega) hl
      simp only [hfull, if_true, hr, Outcome.bind_ok]
      rw [← h1, hk, ht0, hcap, List.append_nil]
    · have hc : a.cap ≤ a.existing.length := by rw [← h.lenEx, ← h.sizeNext, ← h.cap]; exact hfull
      simp only [hc, if_true]
      exact h2
  · have hcap := h.cap
    have hsn := h.sizeNext
    obtain ⟨m', h1, h2⟩ := key a.cap tail hlen2 (by
      intro he; rw [he] at hlen2; simp only [List.length_nil] at hlen2; omega)
    refine ⟨m', _, ?_, Step.create a, ?_⟩
    · simp only [Mgr.createR, hfull, if_false, Outcome.bind_ok]
      rw [← hk, ← hcap] at h1
      exact h1
    · have hc : ¬ a.cap ≤ a.existing.length := by rw [← h.lenEx, ← h.sizeNext, ← h.cap]; exact hfull
      simp only [hc, if_false]
      exact h2

theorem relR_reserve {m a vis n} (h : RelR m a vis) (hn : a.cap < n) :
    ∃ m', m.reserve n = .ok m' ∧ RelR m' { a with cap := n } vis := by
  have hl : m.slots.length = m.capacity := by rw [h.len, h.cap]
  refine ⟨_, reserve_of (by rw [h.cap]; exact hn) hl, ?_⟩
  obtain ⟨k, hk⟩ := h.slots
  constructor
  · exact ⟨k ++ List.replicate (n - m.capacity) none, by simp [hk]⟩
  · rfl
  · simp [hl]; rw [h.cap]; omega
  · exact h.msize
  · exact h.sizeNext
  · exact h.perm
  · exact h.nodup
  · exact h.heapLen
  · exact h.live
  · exact h.lost
  · exact h.rest
  · exact h.disj
  · exact h.deadEx
  · simp; omega

theorem relR_del {m a vis id} (h : RelR m a vis) (hid : id ∈ a.existing) :
    ∃ m', m.del id = .ok m' ∧ RelR m' { a with dead := id :: a.dead } vis := by
  have hc := h.live id hid
  refine ⟨{ m with heap := m.heap.set id (.live false) }, by simp [Mgr.del, hc], ?_⟩
  constructor
  · exact h.slots
  · exact h.cap
  · exact h.len
  · exact h.msize
  · exact h.sizeNext
  · exact h.perm
  · exact h.nodup
  · simp [h.heapLen]
  · intro i hi
    simp only [List.getElem?_set]
    by_cases he : id = i
    · subst he
      simp [h.heapLen, h.lt hid]
    · simp only [if_neg he]
      rw [h.live i hi]
      simp [Ne.symm he]
  · intro i hi
    have hne : id ≠ i := fun he => h.disj i hi (he ▸ hid)
    simp only
    rw [List.getElem?_set_ne hne]
    exact h.lost i hi
  · intro i hi h1 h2
    have hne : id ≠ i := fun he => h1 (he ▸ hid)
    simp only
    rw [List.getElem?_set_ne hne]
    exact h.rest i hi h1 h2
  · exact h.disj
  · intro i hi
    simp only [List.mem_cons] at hi
    rcases hi with rfl | hi
    · exact hid
    · exact h.deadEx i hi
  · exact h.pos

theorem relR_delLost {m a vis id} (h : RelR m a vis) (hid : id ∈ a.lost) :
    ∃ m', m.del id = .ok m' ∧ RelR m' a vis := by
  obtain ⟨b, hc⟩ := h.lost id hid
  refine ⟨{ m with heap := m.heap.set id (.live false) }, by simp [Mgr.del, hc], ?_⟩
  constructor
  · exact h.slots
  · exact h.cap
  · exact h.len
  · exact h.msize
  · exact h.sizeNext
  · exact h.perm
  · exact h.nodup
  · simp [h.heapLen]
  · intro i hi
    have hne : id ≠ i := fun he => h.disj id hid (he ▸ hi)
    simp only
    rw [List.getElem?_set_ne hne]
    exact h.live i hi
  · intro i hi
    simp only [List.getElem?_set]
    by_cases he : id = i
    · exact ⟨false, by subst he; simp [h.heapLen, h.ltLost hid]⟩
    · simp only [if_neg he]; exact h.lost i hi
  · intro i hi h1 h2
    have hne : id ≠ i := fun he => h2 (he ▸ hid)
    simp only
    rw [List.getElem?_set_ne hne]
    exact h.rest i hi h1 h2
  · exact h.disj
  · exact h.deadEx
  · exact h.pos

theorem relR_refresh {m : Mgr} {a : AbsR} {vis} (dbg : Bool) (spawn) (h : RelR m a vis) :
    (a.existing.length + (a.doomed.map spawn).sum ≤ a.cap ∧
      ∃ m' vis', m.refreshR dbg (creating spawn) = .ok m' ∧ RelR m' { a with
        visible := a.existing.filter (fun id => id ∉ a.dead), pending := [], dead := [],
        next := a.next + (a.doomed.map spawn).sum,
        lost := a.lost ++ List.range' a.next (a.doomed.map spawn).sum } vis') ∨
    (a.cap < a.existing.length + (a.doomed.map spawn).sum ∧ m.refreshR dbg (creating spawn) = .ub) := by
  obtain ⟨tail, hk⟩ := h.slots
  by_cases h0 : m.sizeNext = 0
  · have hnil : vis ++ a.pending = [] := by
      apply List.length_eq_zero_iff.1; rw [← h.sizeNext]; exact h0
    have hex : a.existing = [] := by
      have := h.lenEx; rw [hnil] at this; exact List.length_eq_zero_iff.1 this.symm
    obtain ⟨rfl, hp⟩ := List.append_eq_nil_iff.1 hnil
    have hd : a.doomed = [] := by simp [AbsR.doomed, hex]
    left
    refine ⟨by simp [hex, hd], _, [], by rw [Mgr.refreshR, if_pos h0], ?_⟩
    simp only [hd, hex, List.map_nil, List.sum_nil, List.filter_nil, Nat.add_zero, List.range'_zero, List.append_nil]
    constructor
    · exact ⟨tail, by simpa [hp] using hk⟩
    · exact h.cap
    · exact h.len
    · rfl
    · simp [h0]
    · simp
    · simp
    · exact h.heapLen
    · simp [Abs.existing]
    · exact h.lost
    · intro id hid _ h2; exact h.rest id hid (by simp [hex]) h2
    · simp [Abs.existing]
    · simp
    · exact h.pos
  · have hsn := h.sizeNext
    have hN : m.sizeNext ≠ 0 := h0
    obtain ⟨new, k', deads, hrun, hp1, hp2, hlen, hnew⟩ := refreshLoop_spec (fun id => decide (id ∉ a.dead)) tail
      _ (vis ++ a.pending) m [] 0 (m.sizeNext + 1) (m.sizeNext - 1) (Nat.le_refl _) (by simpa [slotsOf] using hk)
      (fun id hid => h.flag hid) h.nodup (by simp only [List.length_nil]; omega) (by omega)
    simp only [List.length_nil, Nat.zero_add, List.nil_append] at hrun
    have hmemnew : ∀ id, id ∈ new ↔ id ∈ a.existing ∧ id ∉ a.dead := by
      intro id; rw [hp1.mem_iff, List.mem_filter, h.mem_existing]; simp
    have hmemdead : ∀ id, id ∈ deads ↔ id ∈ a.existing ∧ id ∈ a.dead := by
      intro id; rw [hp2.mem_iff, List.mem_filter, h.mem_existing]; simp
    have hdoom : deads.Perm a.doomed := by
      refine hp2.trans ?_
      have := h.perm_existing.filter (fun id => decide (id ∈ a.dead))
      simpa [AbsR.doomed] using this
    have hsum : (deads.map spawn).sum = (a.doomed.map spawn).sum := (hdoom.map spawn).sum_eq
    have hcost : cost spawn (destroyAll m.heap deads) = cost spawn m.heap + (a.doomed.map spawn).sum := by
      rw [cost_destroyAll deads m.heap (hp2.nodup_iff.2 (h.nodup.filter _)), hsum]
      intro id hid
      exact ⟨_, h.live id ((hmemdead id).1 hid).1⟩
    have s0 : Sim spawn m.sizeNext m.heap.length m.capacity (cost spawn m.heap) m m := by
      constructor
      · intros; rfl
      · rfl
      · intros; rfl
      · intro id h1 h2; omega
      · rfl
      · rfl
      · rfl
      · rw [h.len, h.cap]
      · exact h.size_le
      · exact Nat.le_refl _
    have hlex := h.lenEx
    have hcap := h.cap
    rcases Sim.refreshLoop dbg _ _ _ _ _ _ _ s0 (by omega) hrun with ⟨m1, e1, s1⟩ | ⟨e1, hov⟩
    · left
      have z1 := s1.size
      have z2 := s1.hlen
      have z3 := s1.le
      simp only [hcost] at z1 z2
      refine ⟨by omega, { m1 with msize := new.length, sizeNext := new.length }, new, ?_, ?_⟩
      · rw [Mgr.refreshR, if_neg h0, e1]
        simp only [Outcome.bind_ok]
        have hg : ∀ i (hi : i < new.length), m1.slots[i]? = some (some new[i]) := by
          intro i hi
          rw [s1.slots i (by omega)]
          exact slotsOf_get (by simp)
        have hfl : ∀ id ∈ new, HasFlag m1.heap id true := by
          intro id hid
          apply s1.flag
          have hx := (hmemnew id).1 hid
          have := (h.flag ((h.mem_existing id).2 hx.1)).destroyAll (ids := deads) (by rw [hmemdead]; tauto)
          simpa [hx.2] using this
        have hchk : ∀ n, n ≤ new.length →
            checkAllAlive { m1 with msize := new.length, sizeNext := new.length } n = .ok () := by
          intro n
          induction n with
          | zero => intro _; rfl
          | succ n ih =>
            intro hn
            have := isAliveAt_of (m := { m1 with msize := new.length, sizeNext := new.length })
              (hg n (by omega)) (hfl _ (by simp))
            simp [checkAllAlive, ih (by omega), this]
        cases dbg with
        | true => simp only [if_true, hchk _ (Nat.le_refl _), Outcome.bind_ok, Outcome.pure_eq]
        | false => rfl
      · have hold : ∀ id, id < m.heap.length → m1.heap[id]? = if id ∈ deads then some .destroyed else m.heap[id]? := by
          intro id hid
          rw [s1.heap id hid]
          exact destroyAll_get deads m.heap id hid
        have hmlen : m1.heap.length = a.next + (a.doomed.map spawn).sum := by rw [← h.heapLen]; omega
        constructor
        · refine ⟨m1.slots.drop new.length, ?_⟩
          simp only [List.append_nil]
          have ht : m1.slots.take new.length = new.map some := by
            apply List.ext_getElem?
            intro i
            rw [List.getElem?_take]
            split
            · rename_i hi
              rw [s1.slots i (by omega)]
              rw [slotsOf_get (ids := new) (id := new[i]) (by simp)]
              simp [hi]
            · rename_i hi
              rw [List.getElem?_eq_none (by simp; omega)]
          rw [← ht, List.take_append_drop]
        · rw [s1.cap, hcap]
        · rw [s1.slen, hcap]
        · rfl
        · simp
        · refine hp1.trans ?_
          have := h.perm_existing.filter (fun id => decide (id ∉ a.dead))
          exact this
        · simp only [List.append_nil]
          exact hp1.nodup_iff.2 (h.nodup.filter _)
        · exact hmlen
        · intro id hid
          simp only [Abs.existing, List.append_nil, List.mem_filter, decide_eq_true_eq] at hid
          have hid' : id ∈ a.existing := by simpa [Abs.existing] using hid.1
          rw [hold id (by rw [h.heapLen]; exact h.lt hid'), if_neg (by rw [hmemdead]; tauto), h.live id hid']
          simp [hid.2]
        · intro id hid
          simp only [List.mem_append, List.mem_range'_1] at hid
          rcases hid with hid | hid
          · obtain ⟨b, hb⟩ := h.lost id hid
            refine ⟨b, ?_⟩
            rw [hold id (by rw [h.heapLen]; exact h.ltLost hid), if_neg, hb]
            rw [hmemdead]; exact fun hc => h.disj id hid hc.1
          · exact ⟨true, s1.new id (by rw [h.heapLen]; exact hid.1) (by rw [hmlen]; exact hid.2)⟩
        · intro id hid h1 h2
          simp only [List.mem_append, List.mem_range'_1, not_or] at h2
          have hlt : id < a.next := by simp only at hid; omega
          rw [hold id (by rw [h.heapLen]; exact hlt)]
          by_cases hd : id ∈ deads
          · rw [if_pos hd]
          · rw [if_neg hd]
            refine h.rest id hlt (fun he => ?_) h2.1
            rw [hmemdead] at hd
            apply h1
            simp only [Abs.existing, List.append_nil, List.mem_filter, decide_eq_true_eq]
            exact ⟨by simpa [Abs.existing] using he, by tauto⟩
        · intro id hid hc
          simp only [Abs.existing, List.append_nil, List.mem_filter] at hc
          have hc' : id ∈ a.existing := by simpa [Abs.existing] using hc.1
          simp only [List.mem_append, List.mem_range'_1] at hid
          rcases hid with hid | hid
          · exact h.disj id hid hc'
          · have := h.lt hc'; omega
        · simp
        · exact h.pos
    · right
      simp only [hcost] at hov
      refine ⟨by omega, ?_⟩
      rw [Mgr.refreshR, if_neg h0, e1, Outcome.bind_ub]

end Verif.Manager
