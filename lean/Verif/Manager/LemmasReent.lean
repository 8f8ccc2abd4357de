import Verif.Manager.Reent

/-! Lemmas for managers whose objects act in their destructors. -/

namespace Verif.Manager

open Verif

/-! ### Draining -/

theorem Spec.Drains.le {spawn q n n'} (h : Spec.Drains spawn q n n') : n ≤ n' := by
  induction h with
  | nil => exact Nat.le_refl _
  | cons id q n n' _ ih => omega

theorem drains_append {spawn : Nat → Nat} {n' : Nat} : ∀ (q1 q2 : List Nat) (n : Nat),
    Spec.Drains spawn (q1 ++ q2) n n' ↔
      Spec.Drains spawn (q2 ++ List.range' n (q1.map spawn).sum) (n + (q1.map spawn).sum) n' := by
  intro q1
  induction q1 with
  | nil => intro q2 n; simp
  | cons id q1 ih =>
    intro q2 n
    have h1 : Spec.Drains spawn (id :: (q1 ++ q2)) n n' ↔
        Spec.Drains spawn ((q1 ++ q2) ++ List.range' n (spawn id)) (n + spawn id) n' :=
      ⟨fun h => by cases h; assumption, fun h => .cons _ _ _ _ h⟩
    rw [List.cons_append, h1, List.append_assoc, ih, List.append_assoc]
    simp only [List.map_cons, List.sum_cons]
    have h2 := List.range'_append (s := n) (m := spawn id) (n := (q1.map spawn).sum) (step := 1)
    rw [Nat.one_mul] at h2
    rw [h2, Nat.add_assoc]

theorem drains_perm {spawn : Nat → Nat} {q1 q2 : List Nat} (hp : q1.Perm q2) (r : List Nat) (n n' : Nat) :
    Spec.Drains spawn (q1 ++ r) n n' ↔ Spec.Drains spawn (q2 ++ r) n n' := by
  rw [drains_append q1, drains_append q2, (hp.map spawn).sum_eq]

/-! ### One destructor that creates -/

/-- Slots after `n` objects, the first with identity `id`, were stored from index `i` on. -/
def fill : (n : Nat) → (slots : List (Option Nat)) → (i id : Nat) → List (Option Nat)
  | 0, s, _, _ => s
  | n + 1, s, i, id => fill n (s.set i (some id)) (i + 1) (id + 1)

theorem fill_length : ∀ (n : Nat) (s : List (Option Nat)) (i id : Nat), (fill n s i id).length = s.length
  | 0, _, _, _ => rfl
  | n + 1, s, i, id => by rw [fill, fill_length]; simp

theorem fill_below : ∀ (n : Nat) (s : List (Option Nat)) (i id j : Nat), j < i →
    (fill n s i id)[j]? = s[j]?
  | 0, _, _, _, _, _ => rfl
  | n + 1, s, i, id, j, h => by
    rw [fill, fill_below n _ _ _ _ (by omega), List.getElem?_set_ne (by omega)]

theorem fill_eq : ∀ (n : Nat) (s : List (Option Nat)) (i id : Nat), i + n ≤ s.length →
    fill n s i id = s.take i ++ ((List.range' id n).map some ++ s.drop (i + n))
  | 0, s, i, id, _ => by simp [fill]
  | n + 1, s, i, id, h => by
    rw [fill, fill_eq n _ _ _ (by simp; omega)]
    have hi : i < s.length := by omega
    rw [List.range'_succ, List.map_cons, List.take_add_one, List.take_set_of_le (Nat.le_refl i)]
    simp only [List.getElem?_set_self hi, Option.toList_some, List.append_assoc, List.singleton_append,
      List.cons_append]
    rw [List.drop_set_of_lt (by omega)]
    rw [show i + 1 + n = i + (n + 1) by omega]
    simp

theorem createR_room {m : Mgr} (h : m.sizeNext < m.capacity) (hl : m.slots.length = m.capacity) :
    m.createR = .ok { m with
      slots := m.slots.set m.sizeNext (some m.heap.length), heap := m.heap ++ [Cell.live true]
      sizeNext := m.sizeNext + 1 } := by
  have h1 : ¬ m.capacity ≤ m.sizeNext := by omega
  have h2 : m.sizeNext < m.slots.length := by omega
  simp only [Mgr.createR, h1, if_false, Outcome.bind_ok, Mgr.initAtR, List.getElem?_eq_getElem h2,
    Outcome.pure_eq]

theorem acts_create : ∀ (n : Nat) (m : Mgr), m.slots.length = m.capacity → m.sizeNext ≤ m.capacity →
    m.acts (List.replicate n .create) =
      if m.sizeNext + n ≤ m.capacity then .ok { m with
        slots := fill n m.slots m.sizeNext m.heap.length
        heap := m.heap ++ List.replicate n (Cell.live true)
        sizeNext := m.sizeNext + n } else .ub := by
  intro n
  induction n with
  | zero =>
    intro m hl hs
    simp [Mgr.acts, hs, fill]
  | succ n ih =>
    intro m hl hs
    rw [List.replicate_succ, Mgr.acts]
    by_cases hfull : m.capacity ≤ m.sizeNext
    · rw [if_neg (by omega)]
      simp [Mgr.act, hfull]
    · simp only [Mgr.act, hfull, if_false, createR_room (by omega : m.sizeNext < m.capacity) hl, Outcome.bind_ok]
      rw [ih _ (by simpa using hl) (by simp only; omega)]
      simp only
      by_cases h : m.sizeNext + (n + 1) ≤ m.capacity
      · rw [if_pos (by omega), if_pos h]
        simp [fill, List.replicate_succ, Nat.add_assoc, Nat.add_comm 1]
      · rw [if_neg (by omega), if_neg h]

theorem deinitAtR_of {spawn : Nat → Nat} {m : Mgr} {i id : Nat} {b : Bool} (hl : m.slots.length = m.capacity)
    (hs : m.sizeNext ≤ m.capacity) (h : m.slots[i]? = some (some id)) (hf : HasFlag m.heap id b) :
    m.deinitAtR (Spec.creating spawn) i =
      if m.sizeNext + spawn id ≤ m.capacity then .ok { m with
        slots := (fill (spawn id) m.slots m.sizeNext m.heap.length).set i none
        heap := (m.heap ++ List.replicate (spawn id) (Cell.live true)).set id .destroyed
        sizeNext := m.sizeNext + spawn id } else .ub := by
  unfold HasFlag at hf
  simp only [Mgr.deinitAtR, slotAt_of h, Outcome.bind_ok, hf, Spec.creating, acts_create _ _ hl hs]
  split <;> rfl

/-! ### The compaction loop with and without actions -/

/-- The number of objects created by the destructors that have run. -/
def cost (spawn : Nat → Nat) (h : List Cell) : Nat :=
  ∑ id ∈ (Finset.range h.length).filter (fun id => h[id]? = some .destroyed), spawn id

theorem cost_set {spawn : Nat → Nat} {h : List Cell} {id : Nat} {b : Bool} (hf : HasFlag h id b) :
    cost spawn (h.set id .destroyed) = cost spawn h + spawn id := by
  have hlt := hf.lt
  unfold HasFlag at hf
  have e : (Finset.range (h.set id .destroyed).length).filter (fun x => (h.set id .destroyed)[x]? = some .destroyed)
      = insert id ((Finset.range h.length).filter (fun x => h[x]? = some .destroyed)) := by
    ext x
    simp only [Finset.mem_filter, Finset.mem_range, List.length_set, Finset.mem_insert, List.getElem?_set]
    by_cases hx : id = x
    · subst hx; simp [hlt]
    · simp [hx, Ne.symm hx]
  unfold cost
  rw [e, Finset.sum_insert (by simp [hf]), Nat.add_comm]

/-- Cells stay destroyed. -/
def Later (h h' : List Cell) : Prop :=
  h'.length = h.length ∧ ∀ id : Nat, h[id]? = some Cell.destroyed → h'[id]? = some Cell.destroyed

theorem Later.refl (h) : Later h h := ⟨rfl, fun _ x => x⟩

theorem Later.trans {a b c} (h1 : Later a b) (h2 : Later b c) : Later a c :=
  ⟨h2.1.trans h1.1, fun id h => h2.2 id (h1.2 id h)⟩

theorem Later.cost {spawn : Nat → Nat} {h h' : List Cell} (l : Later h h') : cost spawn h ≤ cost spawn h' := by
  unfold Manager.cost
  refine Finset.sum_le_sum_of_subset ?_
  intro x
  simp only [Finset.mem_filter, Finset.mem_range, l.1]
  exact fun hx => ⟨hx.1, l.2 x hx.2⟩

theorem later_set (h : List Cell) (id : Nat) : Later h (h.set id .destroyed) := by
  refine ⟨by simp, fun x hx => ?_⟩
  rw [List.getElem?_set]
  split
  · have := (List.getElem?_eq_some_iff.1 hx).1
    subst_vars; simp [this]
  · exact hx

theorem slotAt_ok {m : Mgr} {i id : Nat} (h : m.slotAt i = .ok id) : m.slots[i]? = some (some id) := by
  unfold Mgr.slotAt at h
  split at h
  · injection h with h; subst h; assumption
  · simp at h

theorem isAliveAt_ok {m : Mgr} {i : Nat} {b : Bool} (h : m.isAliveAt i = .ok b) :
    ∃ id, m.slots[i]? = some (some id) ∧ HasFlag m.heap id b := by
  obtain ⟨id, h1, h2⟩ := Outcome.bind_eq_ok.1 h
  refine ⟨id, slotAt_ok h1, ?_⟩
  unfold Mgr.getBool at h2
  split at h2
  · injection h2 with h2; subst h2; assumption
  · simp at h2

theorem deinitAt_ok {m m' : Mgr} {i : Nat} (h : m.deinitAt i = .ok m') :
    ∃ id b, m.slots[i]? = some (some id) ∧ HasFlag m.heap id b ∧
      m' = { m with slots := m.slots.set i none, heap := m.heap.set id .destroyed } := by
  obtain ⟨id, h1, h2⟩ := Outcome.bind_eq_ok.1 h
  obtain ⟨m1, h3, h4⟩ := Outcome.bind_eq_ok.1 h2
  unfold Mgr.destroy at h3
  split at h3
  · rename_i b hb
    injection h3 with h3; subst h3
    injection h4 with h4; subst h4
    exact ⟨id, b, slotAt_ok h1, hb, rfl⟩
  · simp at h3

theorem findAlive_later : ∀ (fuel : Nat) (p p' : Mgr) (iD iA : Nat) (r : Bool × Nat),
    findAlive fuel p iD iA = .ok (p', r) → Later p.heap p'.heap := by
  intro fuel
  induction fuel with
  | zero => intro p p' iD iA r h; simp [findAlive] at h
  | succ fuel ih =>
    intro p p' iD iA r h
    rw [findAlive] at h
    obtain ⟨b, h1, h2⟩ := Outcome.bind_eq_ok.1 h
    cases b with
    | true =>
      simp only [if_true, Outcome.pure_eq, Outcome.ok.injEq, Prod.mk.injEq] at h2
      rw [h2.1]; exact Later.refl _
    | false =>
      simp only [Bool.false_eq_true, if_false] at h2
      obtain ⟨p1, h3, h4⟩ := Outcome.bind_eq_ok.1 h2
      obtain ⟨id, b, _, _, rfl⟩ := deinitAt_ok h3
      split at h4
      · simp only [Outcome.pure_eq, Outcome.ok.injEq, Prod.mk.injEq] at h4
        rw [← h4.1]; exact later_set _ _
      · exact (later_set _ _).trans (ih _ _ _ _ _ h4)

theorem findAlive_idx {N : Nat} : ∀ (fuel : Nat) (p p' : Mgr) (iD iA : Nat) (r : Bool × Nat), iA < N →
    findAlive fuel p iD iA = .ok (p', r) → r.2 < N := by
  intro fuel
  induction fuel with
  | zero => intro p p' iD iA r _ h; simp [findAlive] at h
  | succ fuel ih =>
    intro p p' iD iA r hA h
    rw [findAlive] at h
    obtain ⟨b, h1, h2⟩ := Outcome.bind_eq_ok.1 h
    cases b with
    | true =>
      simp only [if_true, Outcome.pure_eq, Outcome.ok.injEq, Prod.mk.injEq] at h2
      rw [← h2.2]; exact hA
    | false =>
      simp only [Bool.false_eq_true, if_false] at h2
      obtain ⟨p1, h3, h4⟩ := Outcome.bind_eq_ok.1 h2
      split at h4
      · simp only [Outcome.pure_eq, Outcome.ok.injEq, Prod.mk.injEq] at h4
        rw [← h4.2]; exact hA
      · rename_i hle
        have hd : decSize iA = iA - 1 := by simp [decSize]; omega
        rw [hd] at h4
        exact ih _ _ _ _ _ (by omega) h4

theorem swapAt_ok {m m' : Mgr} {d a : Nat} (h : m.swapAt d a = .ok m') :
    ∃ x y, m.slots[d]? = some (some x) ∧ m.slots[a]? = some (some y) ∧
      m' = { m with slots := (m.slots.set d (some y)).set a (some x) } := by
  obtain ⟨x, h1, h2⟩ := Outcome.bind_eq_ok.1 h
  obtain ⟨y, h3, h4⟩ := Outcome.bind_eq_ok.1 h2
  injection h4 with h4
  exact ⟨x, y, slotAt_ok h1, slotAt_ok h3, h4.symm⟩

theorem refreshLoop_later : ∀ (fuel : Nat) (p p' : Mgr) (iD iA d : Nat),
    refreshLoop fuel p iD iA = .ok (p', d) → Later p.heap p'.heap := by
  intro fuel
  induction fuel with
  | zero => intro p p' iD iA d h; simp [refreshLoop] at h
  | succ fuel ih =>
    intro p p' iD iA d h
    rw [refreshLoop] at h
    obtain ⟨⟨done, j⟩, h1, h2⟩ := Outcome.bind_eq_ok.1 h
    cases done with
    | true =>
      simp only [if_true, Outcome.pure_eq, Outcome.ok.injEq, Prod.mk.injEq] at h2
      rw [h2.1]; exact Later.refl _
    | false =>
      simp only [Bool.false_eq_true, if_false] at h2
      obtain ⟨⟨p1, done, k⟩, h3, h4⟩ := Outcome.bind_eq_ok.1 h2
      have l1 := findAlive_later _ _ _ _ _ _ h3
      cases done with
      | true =>
        simp only [if_true, Outcome.pure_eq, Outcome.ok.injEq, Prod.mk.injEq] at h4
        rw [← h4.1]; exact l1
      | false =>
        simp only [Bool.false_eq_true, if_false] at h4
        obtain ⟨bD, h5, h6⟩ := Outcome.bind_eq_ok.1 h4
        obtain ⟨bA, h7, h8⟩ := Outcome.bind_eq_ok.1 h6
        obtain ⟨_, h9, h10⟩ := Outcome.bind_eq_ok.1 h8
        obtain ⟨p2, h11, h12⟩ := Outcome.bind_eq_ok.1 h10
        obtain ⟨p3, h13, h14⟩ := Outcome.bind_eq_ok.1 h12
        obtain ⟨x, y, _, _, rfl⟩ := swapAt_ok h11
        obtain ⟨id, b, _, _, rfl⟩ := deinitAt_ok h13
        exact (l1.trans (later_set _ _)).trans (ih _ _ _ _ _ h14)

/-- The manager `m` with acting destructors agrees with `p` on the first `N` slots and `H` objects. -/
structure Sim (spawn : Nat → Nat) (N H C c0 : Nat) (p m : Mgr) : Prop where
  slots : ∀ i, i < N → m.slots[i]? = p.slots[i]?
  pheap : p.heap.length = H
  heap : ∀ id, id < H → m.heap[id]? = p.heap[id]?
  new : ∀ id, H ≤ id → id < m.heap.length → m.heap[id]? = some (.live true)
  size : m.sizeNext + c0 = N + cost spawn p.heap
  hlen : m.heap.length + c0 = H + cost spawn p.heap
  cap : m.capacity = C
  slen : m.slots.length = C
  le : m.sizeNext ≤ C
  nle : N ≤ m.sizeNext

variable {spawn : Nat → Nat} {N H C c0 : Nat}

theorem Sim.flag {p m : Mgr} (s : Sim spawn N H C c0 p m) {id : Nat} {b : Bool} (h : HasFlag p.heap id b) :
    HasFlag m.heap id b := by
  have hlt : id < H := s.pheap ▸ h.lt
  unfold HasFlag at *
  rw [s.heap id hlt, h]

theorem Sim.isAliveAt {p m : Mgr} (s : Sim spawn N H C c0 p m) {i : Nat} {b : Bool} (hi : i < N)
    (h : p.isAliveAt i = .ok b) : m.isAliveAt i = .ok b := by
  obtain ⟨id, h1, h2⟩ := isAliveAt_ok h
  exact isAliveAt_of (by rw [s.slots i hi, h1]) (s.flag h2)

theorem Sim.deinitAt {p p' m : Mgr} (s : Sim spawn N H C c0 p m) {i : Nat} (hi : i < N)
    (h : p.deinitAt i = .ok p') :
    (∃ m', m.deinitAtR (Spec.creating spawn) i = .ok m' ∧ Sim spawn N H C c0 p' m') ∨
    (m.deinitAtR (Spec.creating spawn) i = .ub ∧ C + c0 < N + cost spawn p'.heap) := by
  obtain ⟨id, b, h1, h2, rfl⟩ := deinitAt_ok h
  have hlt : id < H := s.pheap ▸ h2.lt
  have hm := h2
  rw [deinitAtR_of (by rw [s.slen, s.cap]) (by rw [s.cap]; exact s.le) (by rw [s.slots i hi, h1]) (s.flag h2)]
  have hsz := s.size
  have hhl := s.hlen
  have hcap := s.cap
  have hc := cost_set (spawn := spawn) h2
  by_cases hfit : m.sizeNext + spawn id ≤ m.capacity
  · rw [if_pos hfit]
    refine Or.inl ⟨_, rfl, ?_⟩
    have hlen : m.heap.length = H + (m.heap.length - H) := by
      have := s.nle; omega
    constructor
    · intro j hj
      simp only [List.getElem?_set]
      have hfl : (fill (spawn id) m.slots m.sizeNext m.heap.length)[j]? = p.slots[j]? := by
        rw [fill_below _ _ _ _ _ (Nat.lt_of_lt_of_le hj s.nle), s.slots j hj]
      have e1 : (fill (spawn id) m.slots m.sizeNext m.heap.length).length = m.slots.length := fill_length _ _ _ _
      by_cases hij : i = j
      · subst hij
        have hip : i < p.slots.length := (List.getElem?_eq_some_iff.1 h1).1
        have him : i < m.slots.length := by
          have := s.slots i hi
          rw [h1] at this
          exact (List.getElem?_eq_some_iff.1 this).1
        simp [e1, him, hip]
      · simp only [if_neg hij]; exact hfl
    · simp [s.pheap]
    · intro x hx
      have hxm : x < m.heap.length := by rw [hlen]; omega
      simp only [List.getElem?_set]
      by_cases hix : id = x
      · subst hix
        have : id < p.heap.length := by rw [s.pheap]; exact hx
        simp only [if_true, List.length_append]
        rw [if_pos (by omega), if_pos this]
      · simp only [if_neg hix]
        rw [List.getElem?_append_left hxm, s.heap x hx]
    · intro x hx hxl
      simp only [List.length_set, List.length_append, List.length_replicate] at hxl
      simp only
      rw [List.getElem?_set_ne (by omega)]
      by_cases hxm : x < m.heap.length
      · rw [List.getElem?_append_left hxm]; exact s.new x hx hxm
      · rw [List.getElem?_append_right (by omega), List.getElem?_replicate, if_pos (by omega)]
    · simp only [hc]; omega
    · simp only [List.length_set, List.length_append, List.length_replicate, hc]; omega
    · exact hcap
    · simp [fill_length, s.slen]
    · simp only; omega
    · have := s.nle; simp only; omega
  · rw [if_neg hfit]
    refine Or.inr ⟨rfl, ?_⟩
    simp only [hc]; omega

theorem Sim.findDead {p m : Mgr} (s : Sim spawn N H C c0 p m) : ∀ (fuel iD iA : Nat) (r : Bool × Nat), iA < N →
    findDead p fuel iD iA = .ok r → findDead m fuel iD iA = .ok r := by
  intro fuel
  induction fuel with
  | zero => intro iD iA r _ h; simp [Manager.findDead] at h
  | succ fuel ih =>
    intro iD iA r hA h
    rw [Manager.findDead] at h ⊢
    by_cases hgt : iD > iA
    · rw [if_pos hgt] at h ⊢; exact h
    · rw [if_neg hgt] at h ⊢
      obtain ⟨b, h1, h2⟩ := Outcome.bind_eq_ok.1 h
      rw [s.isAliveAt (by omega) h1]
      simp only [Outcome.bind_ok]
      cases b with
      | false => simpa using h2
      | true =>
        simp only [Bool.not_true, Bool.false_eq_true, if_false] at h2 ⊢
        exact ih _ _ _ hA h2

theorem Sim.findAlive : ∀ (fuel : Nat) (p m p' : Mgr) (iD iA : Nat) (r : Bool × Nat),
    Sim spawn N H C c0 p m → iA < N → findAlive fuel p iD iA = .ok (p', r) →
    r.2 < N ∧ ((∃ m', findAliveR (Spec.creating spawn) fuel m iD iA = .ok (m', r) ∧ Sim spawn N H C c0 p' m') ∨
      (findAliveR (Spec.creating spawn) fuel m iD iA = .ub ∧ C + c0 < N + cost spawn p'.heap)) := by
  intro fuel
  induction fuel with
  | zero => intro p m p' iD iA r _ _ h; simp [Manager.findAlive] at h
  | succ fuel ih =>
    intro p m p' iD iA r s hA h
    rw [Manager.findAlive] at h
    rw [findAliveR]
    obtain ⟨b, h1, h2⟩ := Outcome.bind_eq_ok.1 h
    rw [s.isAliveAt hA h1]
    simp only [Outcome.bind_ok]
    cases b with
    | true =>
      simp only [if_true, Outcome.pure_eq, Outcome.ok.injEq, Prod.mk.injEq] at h2 ⊢
      obtain ⟨rfl, rfl⟩ := h2
      exact ⟨hA, Or.inl ⟨m, ⟨rfl, rfl⟩, s⟩⟩
    | false =>
      simp only [Bool.false_eq_true, if_false] at h2 ⊢
      obtain ⟨p1, h3, h4⟩ := Outcome.bind_eq_ok.1 h2
      rcases s.deinitAt hA h3 with ⟨m1, e1, s1⟩ | ⟨e1, hov⟩
      · rw [e1]
        simp only [Outcome.bind_ok]
        by_cases hle : iA ≤ iD
        · rw [if_pos hle] at h4 ⊢
          simp only [Outcome.pure_eq, Outcome.ok.injEq, Prod.mk.injEq] at h4 ⊢
          obtain ⟨rfl, rfl⟩ := h4
          exact ⟨hA, Or.inl ⟨m1, ⟨rfl, rfl⟩, s1⟩⟩
        · rw [if_neg hle] at h4 ⊢
          have hd : decSize iA = iA - 1 := by simp [decSize]; omega
          rw [hd] at h4 ⊢
          exact ih _ _ _ _ _ _ s1 (by omega) h4
      · rw [e1, Outcome.bind_ub]
        have hr2 : r.2 < N := by
          by_cases hle : iA ≤ iD
          · rw [if_pos hle] at h4
            simp only [Outcome.pure_eq, Outcome.ok.injEq, Prod.mk.injEq] at h4
            obtain ⟨rfl, rfl⟩ := h4
            exact hA
          · rw [if_neg hle] at h4
            have hd : decSize iA = iA - 1 := by simp [decSize]; omega
            rw [hd] at h4
            exact findAlive_idx _ _ _ _ _ _ (by omega) h4
        refine ⟨hr2, Or.inr ⟨rfl, ?_⟩⟩
        have hl : Later p1.heap p'.heap := by
          by_cases hle : iA ≤ iD
          · rw [if_pos hle] at h4
            simp only [Outcome.pure_eq, Outcome.ok.injEq, Prod.mk.injEq] at h4
            rw [← h4.1]; exact Later.refl _
          · rw [if_neg hle] at h4
            exact findAlive_later _ _ _ _ _ _ h4
        have := hl.cost (spawn := spawn)
        omega

theorem findDead_le (p : Mgr) : ∀ (fuel iD iA j : Nat), findDead p fuel iD iA = .ok (false, j) → j ≤ iA := by
  intro fuel
  induction fuel with
  | zero => intro iD iA r h; simp [Manager.findDead] at h
  | succ fuel ih =>
    intro iD iA r h
    rw [Manager.findDead] at h
    by_cases hgt : iD > iA
    · simp [hgt] at h
    · rw [if_neg hgt] at h
      obtain ⟨b, h1, h2⟩ := Outcome.bind_eq_ok.1 h
      cases b with
      | false => simp at h2; omega
      | true =>
        simp only [Bool.not_true, Bool.false_eq_true, if_false] at h2
        exact ih _ _ _ h2

theorem findAlive_ge : ∀ (fuel : Nat) (p p' : Mgr) (iD iA : Nat) (r : Bool × Nat), iD ≤ iA →
    findAlive fuel p iD iA = .ok (p', r) → iD ≤ r.2 := by
  intro fuel
  induction fuel with
  | zero => intro p p' iD iA r _ h; simp [findAlive] at h
  | succ fuel ih =>
    intro p p' iD iA r hA h
    rw [findAlive] at h
    obtain ⟨b, h1, h2⟩ := Outcome.bind_eq_ok.1 h
    cases b with
    | true =>
      simp only [if_true, Outcome.pure_eq, Outcome.ok.injEq, Prod.mk.injEq] at h2
      rw [← h2.2]; exact hA
    | false =>
      simp only [Bool.false_eq_true, if_false] at h2
      obtain ⟨p1, h3, h4⟩ := Outcome.bind_eq_ok.1 h2
      split at h4
      · simp only [Outcome.pure_eq, Outcome.ok.injEq, Prod.mk.injEq] at h4
        rw [← h4.2]; exact hA
      · rename_i hle
        have hd : decSize iA = iA - 1 := by simp [decSize]; omega
        rw [hd] at h4
        exact ih _ _ _ _ _ (by omega) h4

theorem Sim.swapAt {p p' m : Mgr} (s : Sim spawn N H C c0 p m) {d a : Nat} (hd : d < N) (ha : a < N)
    (h : p.swapAt d a = .ok p') : ∃ m', m.swapAt d a = .ok m' ∧ Sim spawn N H C c0 p' m' := by
  obtain ⟨x, y, h1, h2, rfl⟩ := swapAt_ok h
  have g1 : m.slots[d]? = some (some x) := by rw [s.slots d hd, h1]
  have g2 : m.slots[a]? = some (some y) := by rw [s.slots a ha, h2]
  refine ⟨{ m with slots := (m.slots.set d (some y)).set a (some x) }, ?_, ?_⟩
  · simp [Mgr.swapAt, slotAt_of g1, slotAt_of g2]
  · have l1 := (List.getElem?_eq_some_iff.1 h1).1
    have l2 := (List.getElem?_eq_some_iff.1 h2).1
    have l3 := (List.getElem?_eq_some_iff.1 g1).1
    have l4 := (List.getElem?_eq_some_iff.1 g2).1
    constructor
    · intro i hi
      simp only [List.getElem?_set, List.length_set, l1, l2, l3, l4]
      rw [s.slots i hi]
    · exact s.pheap
    · exact s.heap
    · exact s.new
    · exact s.size
    · exact s.hlen
    · exact s.cap
    · simp [s.slen]
    · exact s.le
    · exact s.nle

theorem Sim.refreshLoop (dbg : Bool) : ∀ (fuel : Nat) (p m p' : Mgr) (iD iA d : Nat),
    Sim spawn N H C c0 p m → iA < N → refreshLoop fuel p iD iA = .ok (p', d) →
    (∃ m', refreshLoopR dbg (Spec.creating spawn) fuel m iD iA = .ok (m', d) ∧ Sim spawn N H C c0 p' m') ∨
      (refreshLoopR dbg (Spec.creating spawn) fuel m iD iA = .ub ∧ C + c0 < N + cost spawn p'.heap) := by
  intro fuel
  induction fuel with
  | zero => intro p m p' iD iA d _ _ h; simp [Manager.refreshLoop] at h
  | succ fuel ih =>
    intro p m p' iD iA d s hA h
    rw [Manager.refreshLoop] at h
    rw [refreshLoopR]
    obtain ⟨⟨done, j⟩, h1, h2⟩ := Outcome.bind_eq_ok.1 h
    rw [s.findDead _ _ _ _ hA h1]
    simp only [Outcome.bind_ok]
    cases done with
    | true =>
      simp only [if_true, Outcome.pure_eq, Outcome.ok.injEq, Prod.mk.injEq] at h2 ⊢
      obtain ⟨rfl, rfl⟩ := h2
      exact Or.inl ⟨m, ⟨rfl, rfl⟩, s⟩
    | false =>
      have hj := findDead_le _ _ _ _ _ h1
      simp only [Bool.false_eq_true, if_false] at h2 ⊢
      obtain ⟨⟨p1, done, k⟩, h3, h4⟩ := Outcome.bind_eq_ok.1 h2
      obtain ⟨hk, hs⟩ := Sim.findAlive _ _ _ _ _ _ _ s hA h3
      have hge := findAlive_ge _ _ _ _ _ _ hj h3
      simp only at hk hge
      have hlat : Later p1.heap p'.heap := by
        cases done with
        | true =>
          simp only [if_true, Outcome.pure_eq, Outcome.ok.injEq, Prod.mk.injEq] at h4
          rw [← h4.1]; exact Later.refl _
        | false =>
          simp only [Bool.false_eq_true, if_false] at h4
          obtain ⟨bD, h5, h6⟩ := Outcome.bind_eq_ok.1 h4
          obtain ⟨bA, h7, h8⟩ := Outcome.bind_eq_ok.1 h6
          obtain ⟨_, h9, h10⟩ := Outcome.bind_eq_ok.1 h8
          obtain ⟨p2, h11, h12⟩ := Outcome.bind_eq_ok.1 h10
          obtain ⟨p3, h13, h14⟩ := Outcome.bind_eq_ok.1 h12
          obtain ⟨x, y, _, _, rfl⟩ := swapAt_ok h11
          obtain ⟨id, b, _, _, rfl⟩ := deinitAt_ok h13
          exact (later_set _ _).trans (refreshLoop_later _ _ _ _ _ _ h14)
      rcases hs with ⟨m1, e1, s1⟩ | ⟨e1, hov⟩
      · rw [e1]
        simp only [Outcome.bind_ok]
        cases done with
        | true =>
          simp only [if_true, Outcome.pure_eq, Outcome.ok.injEq, Prod.mk.injEq] at h4 ⊢
          obtain ⟨rfl, rfl⟩ := h4
          exact Or.inl ⟨m1, ⟨rfl, rfl⟩, s1⟩
        | false =>
          simp only [Bool.false_eq_true, if_false] at h4 ⊢
          obtain ⟨bD, h5, h6⟩ := Outcome.bind_eq_ok.1 h4
          obtain ⟨bA, h7, h8⟩ := Outcome.bind_eq_ok.1 h6
          obtain ⟨_, h9, h10⟩ := Outcome.bind_eq_ok.1 h8
          obtain ⟨p2, h11, h12⟩ := Outcome.bind_eq_ok.1 h10
          obtain ⟨p3, h13, h14⟩ := Outcome.bind_eq_ok.1 h12
          have hb : (!bD && bA) = true := by
            cases hb : (!bD && bA) with
            | true => rfl
            | false => rw [hb] at h9; simp at h9
          have hne : j ≠ k := by
            intro he; subst he
            rw [h5] at h7; injection h7 with h7; subst h7
            cases bD <;> simp at hb
          obtain ⟨m2, e2, s2⟩ := s1.swapAt (by omega) hk h11
          rw [s1.isAliveAt (by omega) h5, s1.isAliveAt hk h7]
          simp only [Outcome.bind_ok, hb, Bool.or_true, Outcome.check_true, e2]
          rcases s2.deinitAt hk h13 with ⟨m3, e3, s3⟩ | ⟨e3, hov⟩
          · rw [e3]
            simp only [Outcome.bind_ok]
            have hd : decSize k = k - 1 := by simp [decSize]; omega
            rw [hd] at h14 ⊢
            exact ih _ _ _ _ _ _ s3 (by omega) h14
          · rw [e3, Outcome.bind_ub]
            have := (refreshLoop_later _ _ _ _ _ _ h14).cost (spawn := spawn)
            exact Or.inr ⟨rfl, by omega⟩
      · rw [e1, Outcome.bind_ub]
        have := hlat.cost (spawn := spawn)
        exact Or.inr ⟨rfl, by omega⟩

end Verif.Manager
