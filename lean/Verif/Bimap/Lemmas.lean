import Verif.Bimap.Spec

/-! # Lemmas about pointer sets and the bimap invariant -/

namespace Verif.Bimap

open Verif Verif.Container

section PtrSet
variable {K : Type} {lt : K → K → Bool} {deref deref' : Nat → Option K}

theorem derefAll_ok {l : List (K × Nat)} (h : ∀ x ∈ l, deref x.2 = some x.1) :
    derefAll deref (l.map (·.2)) = .ok l := by
  induction l with
  | nil => rfl
  | cons x l ih =>
    have h1 := h x (by simp)
    have h2 := ih (fun y hy => h y (by simp [hy]))
    simp [derefAll, h1, h2]

theorem inOrder_iff {l : List (K × Nat)} : inOrder lt l = true ↔ l.Pairwise (fun x y => lt x.1 y.1 = true) := by
  induction l with
  | nil => simp [inOrder]
  | cons x l ih => simp [inOrder, ih]

/-- The set `s` shows the sequence `l` of values and pointers, in order. -/
structure Shows (lt : K → K → Bool) (deref : Nat → Option K) (s : List Nat) (l : List (K × Nat)) : Prop where
  eq : s = l.map (·.2)
  pts : ∀ x ∈ l, deref x.2 = some x.1
  ord : l.Pairwise (fun x y => lt x.1 y.1 = true)

theorem Shows.view {s l} (h : Shows lt deref s l) : view lt deref s = .ok l := by
  have h1 := derefAll_ok h.pts
  have h2 := inOrder_iff.2 h.ord
  simp [Bimap.view, h.eq, h1, h2]

theorem equiv_iff (hlt : StrictTotal lt) {x y : K} : equiv lt x y = true ↔ x = y := by
  constructor
  · intro h
    by_cases e : x = y
    · exact e
    · rcases hlt.total x y e with h' | h' <;> simp [equiv, h'] at h
  · rintro rfl; simp [equiv, hlt.irrefl]

theorem Shows.unique (hlt : StrictTotal lt) {s l} (h : Shows lt deref s l) {x y : K × Nat}
    (hx : x ∈ l) (hy : y ∈ l) (e : x.1 = y.1) : x = y := by
  have ho := h.ord
  clear h
  induction l with
  | nil => simp at hx
  | cons z l ih =>
    rw [List.pairwise_cons] at ho
    rcases List.mem_cons.1 hx with rfl | hx' <;> rcases List.mem_cons.1 hy with rfl | hy'
    · rfl
    · have := ho.1 y hy'; rw [e, hlt.irrefl] at this; simp at this
    · have := ho.1 x hx'; rw [e, hlt.irrefl] at this; simp at this
    · exact ih hx' hy' ho.2

theorem Shows.find_mem (hlt : StrictTotal lt) {s l} (h : Shows lt deref s l) {k : K} {p : Nat}
    (hm : (k, p) ∈ l) : setFind lt deref s k = .ok (some p) := by
  rw [setFind, h.view]
  simp only [Outcome.bind_ok, Outcome.pure_eq]
  cases hf : l.find? (fun x => equiv lt x.1 k) with
  | none =>
    rw [List.find?_eq_none] at hf
    have := hf _ hm
    simp [(equiv_iff hlt).2 rfl] at this
  | some y =>
    have h1 : y ∈ l := List.mem_of_find?_eq_some hf
    have h2 : equiv lt y.1 k = true := by simpa using List.find?_some hf
    have := h.unique hlt h1 hm ((equiv_iff hlt).1 h2)
    simp [this]

theorem Shows.find_none (hlt : StrictTotal lt) {s l} (h : Shows lt deref s l) {k : K}
    (hm : ∀ x ∈ l, x.1 ≠ k) : setFind lt deref s k = .ok none := by
  rw [setFind, h.view]
  simp only [Outcome.bind_ok, Outcome.pure_eq]
  have : l.find? (fun x => equiv lt x.1 k) = none := by
    rw [List.find?_eq_none]
    intro x hx hc
    exact hm x hx ((equiv_iff hlt).1 hc)
  simp [this]

theorem dropWhile_ge (hlt : StrictTotal lt) {l : List (K × Nat)} {k : K}
    (ho : l.Pairwise (fun x y => lt x.1 y.1 = true)) (hm : ∀ x ∈ l, x.1 ≠ k) :
    ∀ x ∈ l.dropWhile (fun y => lt y.1 k), lt k x.1 = true := by
  induction l with
  | nil => simp
  | cons z l ih =>
    rw [List.pairwise_cons] at ho
    intro x hx
    rw [List.dropWhile_cons] at hx
    split at hx
    · exact ih ho.2 (fun y hy => hm y (by simp [hy])) x hx
    · rename_i hz
      have hzk : lt k z.1 = true := by
        rcases hlt.total _ _ (hm z (by simp)) with h' | h'
        · exact absurd h' hz
        · exact h'
      rcases List.mem_cons.1 hx with rfl | hx'
      · exact hzk
      · exact hlt.trans _ _ _ hzk (ho.1 x hx')

theorem takeWhile_lt {l : List (K × Nat)} {k : K} : ∀ x ∈ l.takeWhile (fun y => lt y.1 k), lt x.1 k = true := by
  induction l with
  | nil => simp
  | cons z l ih =>
    intro x hx
    rw [List.takeWhile_cons] at hx
    split at hx
    · rcases List.mem_cons.1 hx with rfl | hx'
      · assumption
      · exact ih x hx'
    · simp at hx

theorem Shows.emplace (hlt : StrictTotal lt) {s l} (h : Shows lt deref s l) {k : K} {p : Nat}
    (hp : deref p = some k) (hm : ∀ x ∈ l, x.1 ≠ k) :
    ∃ s' l', setEmplace lt deref s p = .ok s' ∧ Shows lt deref s' l' ∧
      ∀ x, x ∈ l' ↔ x = (k, p) ∨ x ∈ l := by
  have hany : l.any (fun y => equiv lt y.1 k) = false := by
    rw [List.any_eq_false]
    intro x hx hc
    exact hm x hx ((equiv_iff hlt).1 hc)
  have hsplit : ∀ x, x ∈ l ↔ x ∈ l.takeWhile (fun y => lt y.1 k) ∨ x ∈ l.dropWhile (fun y => lt y.1 k) := by
    intro x
    rw [← List.mem_append, List.takeWhile_append_dropWhile]
  refine ⟨_, l.takeWhile (fun y => lt y.1 k) ++ (k, p) :: l.dropWhile (fun y => lt y.1 k),
    by rw [setEmplace, h.view]; simp [hp, hany]; rfl, ⟨by simp, ?_, ?_⟩, ?_⟩
  · intro x hx
    rw [List.mem_append, List.mem_cons] at hx
    rcases hx with hx | rfl | hx
    · exact h.pts x ((hsplit x).2 (.inl hx))
    · exact hp
    · exact h.pts x ((hsplit x).2 (.inr hx))
  · have ho := h.ord
    rw [← List.takeWhile_append_dropWhile (p := fun y => lt y.1 k) (l := l), List.pairwise_append] at ho
    rw [List.pairwise_append, List.pairwise_cons]
    refine ⟨ho.1, ⟨dropWhile_ge hlt h.ord hm, ho.2.1⟩, ?_⟩
    intro x hx y hy
    rcases List.mem_cons.1 hy with rfl | hy
    · exact takeWhile_lt x hx
    · exact ho.2.2 x hx y hy
  · intro x
    rw [List.mem_append, List.mem_cons, hsplit x]
    constructor <;> rintro (h | h | h) <;> simp [h]

theorem Shows.mono {s l} (h : Shows lt deref s l) (hd : ∀ x ∈ l, deref' x.2 = some x.1) :
    Shows lt deref' s l := ⟨h.eq, hd, h.ord⟩

theorem Shows.erase (hlt : StrictTotal lt) {s l} (h : Shows lt deref s l) (k : K) :
    ∃ s' l', setErase lt deref s k = .ok s' ∧ Shows lt deref s' l' ∧
      ∀ x, x ∈ l' ↔ x ∈ l ∧ x.1 ≠ k := by
  refine ⟨_, l.filter (fun x => !equiv lt x.1 k), by rw [setErase, h.view]; rfl, ⟨rfl, ?_, ?_⟩, ?_⟩
  · intro x hx; exact h.pts x (List.mem_filter.1 hx).1
  · exact h.ord.filter _
  · intro x
    rw [List.mem_filter]
    by_cases e : x.1 = k
    · subst e; simp [(equiv_iff hlt).2 (rfl : x.1 = x.1)]
    · have : equiv lt x.1 k = false := by
        cases hc : equiv lt x.1 k with
        | false => rfl
        | true => exact absurd ((equiv_iff hlt).1 hc) e
      simp [this, e]

end PtrSet

section Inv
variable {A B : Type} {ltA : A → A → Bool} {ltB : B → B → Bool}

/-- The two indices list exactly the pairs in storage. -/
structure Inv (ltA : A → A → Bool) (ltB : B → B → Bool) (m : Bm A B) : Prop where
  ids : (m.storage.map (·.1)).Nodup
  fresh : ∀ x ∈ m.storage, x.1 < m.next
  i1 : ∃ l, Shows ltA m.deref1 m.set1 l ∧ ∀ a p, (a, p) ∈ l ↔ ∃ b, (p, a, b) ∈ m.storage
  i2 : ∃ l, Shows ltB m.deref2 m.set2 l ∧ ∀ b p, (b, p) ∈ l ↔ ∃ a, (p, a, b) ∈ m.storage

theorem inv_empty : Inv ltA ltB (Bm.empty : Bm A B) := by
  refine ⟨by simp [Bm.empty], by simp [Bm.empty], ⟨[], ⟨rfl, by simp, by simp⟩, by simp [Bm.empty]⟩,
    ⟨[], ⟨rfl, by simp, by simp⟩, by simp [Bm.empty]⟩⟩

theorem find?_of_nodup {l : List (Nat × A × B)} (hn : (l.map (·.1)).Nodup) {x : Nat × A × B} (hx : x ∈ l) :
    l.find? (fun y => y.1 == x.1) = some x := by
  induction l with
  | nil => simp at hx
  | cons z l ih =>
    rw [List.map_cons, List.nodup_cons] at hn
    rcases List.mem_cons.1 hx with rfl | hx'
    · simp
    · have : z.1 ≠ x.1 := by
        intro e; exact hn.1 (List.mem_map.2 ⟨x, hx', e.symm⟩)
      rw [List.find?_cons_of_neg (by simpa using this)]
      exact ih hn.2 hx'

theorem pairAt_of_mem {m : Bm A B} (hn : (m.storage.map (·.1)).Nodup) {p a b}
    (hx : (p, a, b) ∈ m.storage) : m.pairAt p = some (a, b) := by
  have := find?_of_nodup hn hx
  simp only at this
  simp [Bm.pairAt, this]

theorem Inv.key_unique (h1 : StrictTotal ltA) {m : Bm A B} (h : Inv ltA ltB m) {p q a b c}
    (hx : (p, a, b) ∈ m.storage) (hy : (q, a, c) ∈ m.storage) : p = q ∧ b = c := by
  obtain ⟨l, hs, hl⟩ := h.i1
  have e := hs.unique h1 ((hl a p).2 ⟨_, hx⟩) ((hl a q).2 ⟨_, hy⟩) rfl
  simp only [Prod.mk.injEq, true_and] at e
  subst e
  have u := pairAt_of_mem h.ids hx
  rw [pairAt_of_mem h.ids hy] at u
  simp at u
  exact ⟨rfl, u.symm⟩

theorem Inv.val_unique (h2 : StrictTotal ltB) {m : Bm A B} (h : Inv ltA ltB m) {p q a b c}
    (hx : (p, a, b) ∈ m.storage) (hy : (q, c, b) ∈ m.storage) : p = q ∧ a = c := by
  obtain ⟨l, hs, hl⟩ := h.i2
  have e := hs.unique h2 ((hl b p).2 ⟨_, hx⟩) ((hl b q).2 ⟨_, hy⟩) rfl
  simp only [Prod.mk.injEq, true_and] at e
  subst e
  have u := pairAt_of_mem h.ids hx
  rw [pairAt_of_mem h.ids hy] at u
  simp at u
  exact ⟨rfl, u.symm⟩

theorem Inv.find1_mem (h1 : StrictTotal ltA) {m : Bm A B} (h : Inv ltA ltB m) {p a b}
    (hx : (p, a, b) ∈ m.storage) : m.find1 ltA a = .ok (some p) := by
  obtain ⟨l, hs, hl⟩ := h.i1
  exact hs.find_mem h1 ((hl a p).2 ⟨_, hx⟩)

theorem Inv.find2_mem (h2 : StrictTotal ltB) {m : Bm A B} (h : Inv ltA ltB m) {p a b}
    (hx : (p, a, b) ∈ m.storage) : m.find2 ltB b = .ok (some p) := by
  obtain ⟨l, hs, hl⟩ := h.i2
  exact hs.find_mem h2 ((hl b p).2 ⟨_, hx⟩)

theorem Inv.find1_none (h1 : StrictTotal ltA) {m : Bm A B} (h : Inv ltA ltB m) {a}
    (hx : ∀ q ∈ m.pairs, q.1 ≠ a) : m.find1 ltA a = .ok none := by
  obtain ⟨l, hs, hl⟩ := h.i1
  refine hs.find_none h1 ?_
  rintro ⟨a', p⟩ hx' e
  obtain ⟨b, hb⟩ := (hl a' p).1 hx'
  exact hx (a', b) (List.mem_map.2 ⟨_, hb, rfl⟩) e

theorem Inv.find2_none (h2 : StrictTotal ltB) {m : Bm A B} (h : Inv ltA ltB m) {b}
    (hx : ∀ q ∈ m.pairs, q.2 ≠ b) : m.find2 ltB b = .ok none := by
  obtain ⟨l, hs, hl⟩ := h.i2
  refine hs.find_none h2 ?_
  rintro ⟨b', p⟩ hx' e
  obtain ⟨a, hb⟩ := (hl b' p).1 hx'
  exact hx (a, b') (List.mem_map.2 ⟨_, hb, rfl⟩) e

theorem mem_pairs {m : Bm A B} {a b} : (a, b) ∈ m.pairs ↔ ∃ p, (p, a, b) ∈ m.storage := by
  simp [Bm.pairs]

theorem Inv.emplace (h1 : StrictTotal ltA) (h2 : StrictTotal ltB) {m : Bm A B} (h : Inv ltA ltB m)
    {dbg : Bool} {a b} (ha : ∀ q ∈ m.pairs, q.1 ≠ a) (hb : ∀ q ∈ m.pairs, q.2 ≠ b) :
    ∃ m', m.emplace ltA ltB dbg a b = .ok m' ∧ Inv ltA ltB m' ∧ m'.pairs = m.pairs ++ [(a, b)] := by
  have hck : assertDbg dbg (do
      let h1 ← m.has1 ltA a
      if h1 then return false else return !(← m.has2 ltB b)) = .ok () := by
    cases dbg <;> simp [assertDbg, Bm.has1, Bm.has2, h.find1_none h1 ha, h.find2_none h2 hb]
  obtain ⟨l1, hs1, hl1⟩ := h.i1
  obtain ⟨l2, hs2, hl2⟩ := h.i2
  have hnew : m.next ∉ m.storage.map (·.1) := by
    intro hc
    obtain ⟨x, hx, e⟩ := List.mem_map.1 hc
    have := h.fresh x hx
    omega
  let m1 : Bm A B := { m with storage := m.storage ++ [(m.next, a, b)], next := m.next + 1 }
  have hids : (m1.storage.map (·.1)).Nodup := by
    simp only [m1, List.map_append, List.map_cons, List.map_nil]
    rw [List.nodup_append]
    exact ⟨h.ids, by simp, fun x hx y hy => by simp at hy; subst hy; intro e; exact hnew (e ▸ hx)⟩
  have hp : m1.pairAt m.next = some (a, b) := pairAt_of_mem hids (by simp [m1])
  have hpts1 : ∀ x ∈ l1, m1.deref1 x.2 = some x.1 := by
    rintro ⟨a', p⟩ hx
    obtain ⟨b', hb'⟩ := (hl1 a' p).1 hx
    have : m1.pairAt p = some (a', b') := pairAt_of_mem hids (by simp [m1, hb'])
    simp [Bm.deref1, this]
  have hpts2 : ∀ x ∈ l2, m1.deref2 x.2 = some x.1 := by
    rintro ⟨b', p⟩ hx
    obtain ⟨a', hb'⟩ := (hl2 b' p).1 hx
    have : m1.pairAt p = some (a', b') := pairAt_of_mem hids (by simp [m1, hb'])
    simp [Bm.deref2, this]
  obtain ⟨s1', l1', e1, hs1', hl1'⟩ := (hs1.mono hpts1).emplace h1 (k := a) (p := m.next)
    (by simp [Bm.deref1, hp]) (by
      rintro ⟨a', p⟩ hx e
      obtain ⟨b', hb'⟩ := (hl1 a' p).1 hx
      exact ha _ (mem_pairs.2 ⟨p, hb'⟩) e)
  obtain ⟨s2', l2', e2, hs2', hl2'⟩ := (hs2.mono hpts2).emplace h2 (k := b) (p := m.next)
    (by simp [Bm.deref2, hp]) (by
      rintro ⟨b', p⟩ hx e
      obtain ⟨a', hb'⟩ := (hl2 b' p).1 hx
      exact hb _ (mem_pairs.2 ⟨p, hb'⟩) e)
  refine ⟨{ m1 with set1 := s1', set2 := s2' }, ?_, ⟨hids, ?_, ⟨l1', hs1', ?_⟩, ⟨l2', hs2', ?_⟩⟩, ?_⟩
  · rw [Bm.emplace]
    simp only [hck, Outcome.bind_ok, Nat.add_sub_cancel]
    have e1' : setEmplace ltA m1.deref1 m.set1 m.next = .ok s1' := e1
    have e2' : setEmplace ltB m1.deref2 m.set2 m.next = .ok s2' := e2
    simp only [m1] at e1' e2'
    simp only [e1', e2', Outcome.bind_ok, Outcome.pure_eq, m1]
  · intro x hx
    simp only [m1, List.mem_append, List.mem_singleton] at hx ⊢
    rcases hx with hx | rfl
    · have := h.fresh x hx; omega
    · simp
  · intro a' p
    rw [hl1']
    simp only [m1, List.mem_append, List.mem_singleton, Prod.mk.injEq, hl1]
    constructor
    · rintro (⟨rfl, rfl⟩ | ⟨b', hb'⟩)
      · exact ⟨b, by simp⟩
      · exact ⟨b', by simp [hb']⟩
    · rintro ⟨b', hb' | ⟨rfl, rfl, rfl⟩⟩
      · exact .inr ⟨b', hb'⟩
      · simp
  · intro b' p
    rw [hl2']
    simp only [m1, List.mem_append, List.mem_singleton, Prod.mk.injEq, hl2]
    constructor
    · rintro (⟨rfl, rfl⟩ | ⟨a', hb'⟩)
      · exact ⟨a, by simp⟩
      · exact ⟨a', by simp [hb']⟩
    · rintro ⟨a', hb' | ⟨rfl, rfl, rfl⟩⟩
      · exact .inr ⟨a', hb'⟩
      · simp
  · simp [Bm.pairs, m1]

theorem Inv.erasePair (h1 : StrictTotal ltA) (h2 : StrictTotal ltB) {m : Bm A B} (h : Inv ltA ltB m)
    {p a b} (hx : (p, a, b) ∈ m.storage) :
    ∃ m', m.erasePair ltA ltB (some p) = .ok m' ∧ Inv ltA ltB m' ∧
      m'.storage = m.storage.filter (fun x => x.1 ≠ p) := by
  obtain ⟨l1, hs1, hl1⟩ := h.i1
  obtain ⟨l2, hs2, hl2⟩ := h.i2
  obtain ⟨s1', l1', e1, hs1', hl1'⟩ := hs1.erase h1 a
  obtain ⟨s2', l2', e2, hs2', hl2'⟩ := hs2.erase h2 b
  have hsto : m.storage.filter (fun x => some x.1 != some p) = m.storage.filter (fun x => x.1 ≠ p) := by
    apply List.filter_congr
    intro x _
    by_cases e : x.1 = p <;> simp [e]
  let m1 : Bm A B := { m with set1 := s1', set2 := s2', storage := m.storage.filter (fun x => x.1 ≠ p) }
  have hids : (m1.storage.map (·.1)).Nodup :=
    List.Nodup.sublist (List.Sublist.map _ List.filter_sublist) h.ids
  have hmem : ∀ x, x ∈ m1.storage ↔ x ∈ m.storage ∧ x.1 ≠ p := by
    intro x; simp [m1, List.mem_filter]
  have hl1m : ∀ a' q, (a', q) ∈ l1' ↔ ∃ b', (q, a', b') ∈ m1.storage := by
    intro a' q
    rw [hl1', hl1]
    constructor
    · rintro ⟨⟨b', hb'⟩, hne⟩
      refine ⟨b', (hmem _).2 ⟨hb', ?_⟩⟩
      rintro rfl
      have u := pairAt_of_mem h.ids hb'
      rw [pairAt_of_mem h.ids hx] at u
      simp at u
      exact hne u.1.symm
    · rintro ⟨b', hb'⟩
      obtain ⟨hb', hne⟩ := (hmem _).1 hb'
      refine ⟨⟨b', hb'⟩, ?_⟩
      rintro rfl
      exact hne (h.key_unique h1 hb' hx).1
  have hl2m : ∀ b' q, (b', q) ∈ l2' ↔ ∃ a', (q, a', b') ∈ m1.storage := by
    intro b' q
    rw [hl2', hl2]
    constructor
    · rintro ⟨⟨a', hb'⟩, hne⟩
      refine ⟨a', (hmem _).2 ⟨hb', ?_⟩⟩
      rintro rfl
      have u := pairAt_of_mem h.ids hb'
      rw [pairAt_of_mem h.ids hx] at u
      simp at u
      exact hne u.2.symm
    · rintro ⟨a', hb'⟩
      obtain ⟨hb', hne⟩ := (hmem _).1 hb'
      refine ⟨⟨a', hb'⟩, ?_⟩
      rintro rfl
      exact hne (h.val_unique h2 hb' hx).1
  refine ⟨m1, ?_, ⟨hids, ?_, ⟨l1', hs1'.mono ?_, hl1m⟩, ⟨l2', hs2'.mono ?_, hl2m⟩⟩, rfl⟩
  · rw [Bm.erasePair]
    simp only [Bm.pairOf, pairAt_of_mem h.ids hx, Outcome.bind_ok, e1, e2, Outcome.pure_eq, hsto, m1]
  · intro x hx'
    exact h.fresh x ((hmem x).1 hx').1
  · rintro ⟨a', q⟩ hx'
    obtain ⟨b', hb'⟩ := (hl1m a' q).1 hx'
    simp [Bm.deref1, pairAt_of_mem hids hb']
  · rintro ⟨b', q⟩ hx'
    obtain ⟨a', hb'⟩ := (hl2m b' q).1 hx'
    simp [Bm.deref2, pairAt_of_mem hids hb']

theorem Inv.bijection (h1 : StrictTotal ltA) (h2 : StrictTotal ltB) {m : Bm A B} (h : Inv ltA ltB m) :
    Bijection m.pairs := by
  have hnd : m.storage.Nodup := by
    have := h.ids
    rw [List.Nodup, List.pairwise_map] at this
    exact this.imp (fun hne e => hne (congrArg (·.1) e))
  constructor
  · rw [Bm.pairs, List.map_map, List.Nodup, List.pairwise_map]
    refine hnd.imp_of_mem ?_
    rintro ⟨p, a, b⟩ ⟨q, a', b'⟩ hx hy hne e
    simp only [Function.comp_apply] at e
    subst e
    obtain ⟨rfl, rfl⟩ := h.key_unique h1 hx hy
    exact hne rfl
  · rw [Bm.pairs, List.map_map, List.Nodup, List.pairwise_map]
    refine hnd.imp_of_mem ?_
    rintro ⟨p, a, b⟩ ⟨q, a', b'⟩ hx hy hne e
    simp only [Function.comp_apply] at e
    subst e
    obtain ⟨rfl, rfl⟩ := h.val_unique h2 hx hy
    exact hne rfl

variable [DecidableEq A] [DecidableEq B]

theorem Inv.erase1 (h1 : StrictTotal ltA) (h2 : StrictTotal ltB) {m : Bm A B} (h : Inv ltA ltB m)
    {dbg : Bool} {a} (ha : ∃ q ∈ m.pairs, q.1 = a) :
    ∃ m', m.erase1 ltA ltB dbg a = .ok m' ∧ Inv ltA ltB m' ∧ m'.pairs = m.pairs.filter (fun q => q.1 ≠ a) := by
  obtain ⟨⟨a', b⟩, hq, rfl⟩ := ha
  obtain ⟨p, hp⟩ := mem_pairs.1 hq
  obtain ⟨m', e, hi, hst⟩ := h.erasePair h1 h2 hp
  have hpairs : m'.pairs = m.pairs.filter (fun q => q.1 ≠ a') := by
    rw [Bm.pairs, hst, Bm.pairs, List.filter_map]
    congr 1
    apply List.filter_congr
    rintro ⟨q, a'', b''⟩ hx
    simp only [Function.comp_apply, decide_eq_decide]
    constructor
    · rintro hne rfl; exact hne (h.key_unique h1 hx hp).1
    · rintro hne rfl
      have u := pairAt_of_mem h.ids hx
      rw [pairAt_of_mem h.ids hp] at u
      simp at u
      exact hne u.1.symm
  have hn : m'.find1 ltA a' = .ok none := hi.find1_none h1 (by
    rw [hpairs]; intro q hq; simpa using (List.mem_filter.1 hq).2)
  refine ⟨m', ?_, hi, hpairs⟩
  rw [Bm.erase1]
  cases dbg <;> simp [assertDbg, Bm.has1, h.find1_mem h1 hp, e, hn]

theorem Inv.erase2 (h1 : StrictTotal ltA) (h2 : StrictTotal ltB) {m : Bm A B} (h : Inv ltA ltB m)
    {dbg : Bool} {b} (ha : ∃ q ∈ m.pairs, q.2 = b) :
    ∃ m', m.erase2 ltA ltB dbg b = .ok m' ∧ Inv ltA ltB m' ∧ m'.pairs = m.pairs.filter (fun q => q.2 ≠ b) := by
  obtain ⟨⟨a, b'⟩, hq, rfl⟩ := ha
  obtain ⟨p, hp⟩ := mem_pairs.1 hq
  obtain ⟨m', e, hi, hst⟩ := h.erasePair h1 h2 hp
  have hpairs : m'.pairs = m.pairs.filter (fun q => q.2 ≠ b') := by
    rw [Bm.pairs, hst, Bm.pairs, List.filter_map]
    congr 1
    apply List.filter_congr
    rintro ⟨q, a'', b''⟩ hx
    simp only [Function.comp_apply, decide_eq_decide]
    constructor
    · rintro hne rfl; exact hne (h.val_unique h2 hx hp).1
    · rintro hne rfl
      have u := pairAt_of_mem h.ids hx
      rw [pairAt_of_mem h.ids hp] at u
      simp at u
      exact hne u.2.symm
  have hn : m'.find2 ltB b' = .ok none := hi.find2_none h2 (by
    rw [hpairs]; intro q hq; simpa using (List.mem_filter.1 hq).2)
  refine ⟨m', ?_, hi, hpairs⟩
  rw [Bm.erase2]
  cases dbg <;> simp [assertDbg, Bm.has2, h.find2_mem h2 hp, e, hn]

theorem inv_step (h1 : StrictTotal ltA) (h2 : StrictTotal ltB) {m : Bm A B} (h : Inv ltA ltB m)
    {dbg : Bool} {o : Op A B} (hl : Legal m.pairs o) :
    ∃ m', step ltA ltB dbg m o = .ok m' ∧ Inv ltA ltB m' ∧ m'.pairs = specStep m.pairs o := by
  cases o with
  | emplace a b => exact h.emplace h1 h2 hl.1 hl.2
  | erase1 a => exact h.erase1 h1 h2 hl
  | erase2 b => exact h.erase2 h1 h2 hl
  | clear =>
    refine ⟨m.clear, rfl, ⟨by simp [Bm.clear], by simp [Bm.clear], ⟨[], ⟨rfl, by simp, by simp⟩, by simp [Bm.clear]⟩,
      ⟨[], ⟨rfl, by simp, by simp⟩, by simp [Bm.clear]⟩⟩, rfl⟩

theorem inv_run (h1 : StrictTotal ltA) (h2 : StrictTotal ltB) {dbg : Bool} (os : List (Op A B)) :
    ∀ {m : Bm A B}, Inv ltA ltB m → LegalRun m.pairs os →
    ∃ m', run ltA ltB dbg m os = .ok m' ∧ Inv ltA ltB m' ∧ m'.pairs = specRun m.pairs os := by
  induction os with
  | nil => intro m h _; exact ⟨m, rfl, h, rfl⟩
  | cons o os ih =>
    intro m h hl
    obtain ⟨m1, e1, h', hp⟩ := inv_step h1 h2 (dbg := dbg) h hl.1
    obtain ⟨m2, e2, h'', hp'⟩ := ih h' (by rw [hp]; exact hl.2)
    exact ⟨m2, by simp [run, e1, e2], h'', by rw [hp', hp]; rfl⟩

theorem inv_ofList (h1 : StrictTotal ltA) (h2 : StrictTotal ltB) {dbg : Bool} (es : List (A × B)) :
    ∀ {m : Bm A B}, Inv ltA ltB m → Bijection (m.pairs ++ es) →
    ∃ m', Bm.ofList ltA ltB dbg m es = .ok m' ∧ Inv ltA ltB m' ∧ m'.pairs = m.pairs ++ es := by
  induction es with
  | nil => intro m h _; exact ⟨m, rfl, h, by simp⟩
  | cons x es ih =>
    intro m h hb
    obtain ⟨hb1, hb2⟩ := hb
    have hb1' := hb1
    have hb2' := hb2
    rw [List.map_append, List.nodup_append] at hb1 hb2
    obtain ⟨m1, e1, h', hp⟩ := h.emplace h1 h2 (dbg := dbg) (a := x.1) (b := x.2)
      (fun q hq e => hb1.2.2 q.1 (List.mem_map.2 ⟨q, hq, rfl⟩) x.1 (by simp) e)
      (fun q hq e => hb2.2.2 q.2 (List.mem_map.2 ⟨q, hq, rfl⟩) x.2 (by simp) e)
    obtain ⟨m2, e2, h'', hp'⟩ := ih h' (by
      rw [hp]; exact ⟨by simpa using hb1', by simpa using hb2'⟩)
    exact ⟨m2, by simp [Bm.ofList, e1, e2], h'', by rw [hp', hp]; simp⟩

theorem Inv.at1_mem (h1 : StrictTotal ltA) {m : Bm A B} (h : Inv ltA ltB m) {a b}
    (hq : (a, b) ∈ m.pairs) : m.at1 ltA a = .ok b := by
  obtain ⟨p, hp⟩ := mem_pairs.1 hq
  rw [Bm.at1]
  simp [h.find1_mem h1 hp, Bm.pairOf, pairAt_of_mem h.ids hp]

theorem Inv.at2_mem (h2 : StrictTotal ltB) {m : Bm A B} (h : Inv ltA ltB m) {a b}
    (hq : (a, b) ∈ m.pairs) : m.at2 ltB b = .ok a := by
  obtain ⟨p, hp⟩ := mem_pairs.1 hq
  rw [Bm.at2]
  simp [h.find2_mem h2 hp, Bm.pairOf, pairAt_of_mem h.ids hp]

theorem Inv.at1_none (h1 : StrictTotal ltA) {m : Bm A B} (h : Inv ltA ltB m) {a}
    (hx : ∀ q ∈ m.pairs, q.1 ≠ a) : m.at1 ltA a = .throw := by
  rw [Bm.at1]; simp [h.find1_none h1 hx]

theorem Inv.at2_none (h2 : StrictTotal ltB) {m : Bm A B} (h : Inv ltA ltB m) {b}
    (hx : ∀ q ∈ m.pairs, q.2 ≠ b) : m.at2 ltB b = .throw := by
  rw [Bm.at2]; simp [h.find2_none h2 hx]

theorem Inv.get1_mem (h1 : StrictTotal ltA) {m : Bm A B} (h : Inv ltA ltB m) {dbg : Bool} {a b}
    (hq : (a, b) ∈ m.pairs) : m.get1 ltA dbg a = .ok b := by
  obtain ⟨p, hp⟩ := mem_pairs.1 hq
  rw [Bm.get1]
  cases dbg <;> simp [assertDbg, Bm.has1, h.find1_mem h1 hp, Bm.pairOf, pairAt_of_mem h.ids hp]

theorem Inv.get2_mem (h2 : StrictTotal ltB) {m : Bm A B} (h : Inv ltA ltB m) {dbg : Bool} {a b}
    (hq : (a, b) ∈ m.pairs) : m.get2 ltB dbg b = .ok a := by
  obtain ⟨p, hp⟩ := mem_pairs.1 hq
  rw [Bm.get2]
  cases dbg <;> simp [assertDbg, Bm.has2, h.find2_mem h2 hp, Bm.pairOf, pairAt_of_mem h.ids hp]

end Inv

end Verif.Bimap
