import Verif.Bimap.PropsDefault

/-! # Bimaps made from lists of pairs, with or without repetitions (C11) -/

namespace Verif.Bimap

open Verif Verif.Container

variable {A B : Type} [DecidableEq A] [DecidableEq B] {ltA : A → A → Bool} {ltB : B → B → Bool}

/-- One side of `emplace` without assertions: the index leads to the first pair with a key. -/
theorem side_emplace {K : Type} [DecidableEq K] {lt : K → K → Bool} (hlt : StrictTotal lt) (st : List (Nat × A × B)) (n : Nat) (x : A × B)
    (f : A × B → K) (d0 d : Nat → Option K) (hd : ∀ y ∈ st ++ [(n, x)], d y.1 = some (f y.2)) {s : List Nat} {l : List (K × Nat)}
    (hs : Shows lt d0 s l) (hl : ∀ k p, (k, p) ∈ l ↔ (st.find? (fun y => f y.2 = k)).map (·.1) = some p) :
    ∃ s' l', setEmplace lt d s n = .ok s' ∧ Shows lt d s' l' ∧
      ∀ k p, (k, p) ∈ l' ↔ ((st ++ [(n, x)]).find? (fun y => f y.2 = k)).map (·.1) = some p := by
  have hpts : ∀ y ∈ l, d y.2 = some y.1 := by
    rintro ⟨k, p⟩ hy
    have h := (hl k p).1 hy
    cases hf : st.find? (fun y => f y.2 = k) with
    | none => rw [hf] at h; cases h
    | some y =>
      rw [hf] at h
      obtain rfl : y.1 = p := by simpa using h
      have h2 : f y.2 = k := by simpa using List.find?_some hf
      show d y.1 = some k
      rw [← h2]
      exact hd y (List.mem_append_left _ (List.mem_of_find?_eq_some hf))
  have hs' := hs.mono hpts
  have hn : d n = some (f x) := hd (n, x) (by simp)
  cases hf : st.find? (fun y => f y.2 = f x) with
  | some y =>
    refine ⟨s, l, hs'.emplace_there hlt hn ((hl (f x) y.1).2 (by rw [hf]; rfl)), hs', fun k p => ?_⟩
    rw [hl, List.find?_append]
    cases hk : st.find? (fun y => f y.2 = k) with
    | some z => rfl
    | none =>
      have hne : f x ≠ k := by
        rintro rfl
        rw [hf] at hk; cases hk
      simp [hne]
  | none =>
    obtain ⟨s', l', e, h1, h2⟩ := hs'.emplace hlt hn (by
      rintro ⟨k, p⟩ hy rfl
      have := (hl _ p).1 hy
      rw [hf] at this; cases this)
    refine ⟨s', l', e, h1, fun k p => ?_⟩
    rw [h2, hl, List.find?_append]
    cases hk : st.find? (fun y => f y.2 = k) with
    | some z =>
      have hne : k ≠ f x := by
        rintro rfl
        rw [hf] at hk; cases hk
      simp [hne]
    | none =>
      by_cases hx : f x = k
      · subst hx
        simp [eq_comm]
      · simp [hx, Ne.symm hx]

/-- Without assertions: each index leads to the first pair with a key. -/
structure First (ltA : A → A → Bool) (ltB : B → B → Bool) (m : Bm A B) : Prop where
  ids : (m.storage.map (·.1)).Nodup
  fresh : ∀ x ∈ m.storage, x.1 < m.next
  i1 : ∃ l, Shows ltA m.deref1 m.set1 l ∧ ∀ a p, (a, p) ∈ l ↔ (m.storage.find? (fun y => y.2.1 = a)).map (·.1) = some p
  i2 : ∃ l, Shows ltB m.deref2 m.set2 l ∧ ∀ b p, (b, p) ∈ l ↔ (m.storage.find? (fun y => y.2.2 = b)).map (·.1) = some p

theorem first_emplace (hA : StrictTotal ltA) (hB : StrictTotal ltB) {m : Bm A B} (h : First ltA ltB m) (a : A) (b : B) :
    ∃ m', m.emplace ltA ltB false a b = .ok m' ∧ First ltA ltB m' ∧ m'.pairs = m.pairs ++ [(a, b)] := by
  obtain ⟨l1, hs1, hl1⟩ := h.i1
  obtain ⟨l2, hs2, hl2⟩ := h.i2
  let m1 : Bm A B := { m with storage := m.storage ++ [(m.next, a, b)], next := m.next + 1 }
  have hids : (m1.storage.map (·.1)).Nodup := by
    simp only [m1, List.map_append, List.map_cons, List.map_nil]
    rw [List.nodup_append]
    refine ⟨h.ids, by simp, fun x hx y hy => ?_⟩
    obtain ⟨z, hz, rfl⟩ := List.mem_map.1 hx
    have := h.fresh z hz
    simp at hy; omega
  have hd1 : ∀ y ∈ m.storage ++ [(m.next, a, b)], m1.deref1 y.1 = some y.2.1 := by
    rintro ⟨p, a', b'⟩ hy
    simp [Bm.deref1, pairAt_of_mem hids (show (p, a', b') ∈ m1.storage from hy)]
  have hd2 : ∀ y ∈ m.storage ++ [(m.next, a, b)], m1.deref2 y.1 = some y.2.2 := by
    rintro ⟨p, a', b'⟩ hy
    simp [Bm.deref2, pairAt_of_mem hids (show (p, a', b') ∈ m1.storage from hy)]
  obtain ⟨s1, l1', e1, h1, h1'⟩ := side_emplace hA m.storage m.next (a, b) (·.1) m.deref1 m1.deref1 hd1 hs1 hl1
  obtain ⟨s2, l2', e2, h2, h2'⟩ := side_emplace hB m.storage m.next (a, b) (·.2) m.deref2 m1.deref2 hd2 hs2 hl2
  refine ⟨{ m1 with set1 := s1, set2 := s2 }, ?_, ⟨hids, ?_, ⟨l1', h1, h1'⟩, ⟨l2', h2, h2'⟩⟩, by simp [Bm.pairs, m1]⟩
  · rw [Bm.emplace]
    simp only [assertDbg, Bool.false_eq_true, if_false, Outcome.bind_ok, Nat.add_sub_cancel]
    simp only [m1] at e1 e2
    simp only [e1, e2, Outcome.bind_ok, Outcome.pure_eq, m1]
  · intro x hx
    rcases List.mem_append.1 hx with hx | hx
    · have := h.fresh x hx
      show x.1 < m.next + 1
      omega
    · simp at hx; subst hx; exact Nat.lt_succ_self m.next

theorem first_ofList (hA : StrictTotal ltA) (hB : StrictTotal ltB) (es : List (A × B)) : ∀ {m : Bm A B}, First ltA ltB m →
    ∃ m', Bm.ofList ltA ltB false m es = .ok m' ∧ First ltA ltB m' ∧ m'.pairs = m.pairs ++ es := by
  induction es with
  | nil => intro m h; exact ⟨m, rfl, h, by simp⟩
  | cons x es ih =>
    intro m h
    obtain ⟨m1, e1, h1, hp1⟩ := first_emplace hA hB h x.1 x.2
    obtain ⟨m2, e2, h2, hp2⟩ := ih h1
    exact ⟨m2, by simp [Bm.ofList, e1, e2], h2, by rw [hp2, hp1]; simp⟩

theorem find_pairs {m : Bm A B} (P : A × B → Bool) : m.pairs.find? P = (m.storage.find? (fun y => P y.2)).map (·.2) := by
  rw [Bm.pairs, List.find?_map]; rfl

/-- **C11 (lists with repetitions).** A bimap made from a list in which a key is repeated, on either side: with assertions the program stops.
Without them the bimap keeps all pairs, in order, and `at` gives the partner of the first pair with the key, on both sides; it throws only for keys
that are in no pair. -/
theorem C11_from_list (hA : StrictTotal ltA) (hB : StrictTotal ltB) (es : List (A × B)) :
    (¬ Bijection es → Bm.ofList ltA ltB true (Bm.empty : Bm A B) es = .assertFail) ∧
    (∃ m, Bm.ofList ltA ltB false (Bm.empty : Bm A B) es = .ok m ∧ m.pairs = es ∧
      (∀ pre a b post, es = pre ++ (a, b) :: post → (∀ q ∈ pre, q.1 ≠ a) → m.at1 ltA a = .ok b) ∧
      (∀ pre a b post, es = pre ++ (a, b) :: post → (∀ q ∈ pre, q.2 ≠ b) → m.at2 ltB b = .ok a) ∧
      (∀ a, (∀ q ∈ es, q.1 ≠ a) → m.at1 ltA a = .throw) ∧ (∀ b, (∀ q ∈ es, q.2 ≠ b) → m.at2 ltB b = .throw)) := by
  constructor
  · have go : ∀ (es : List (A × B)) (m : Bm A B), Inv ltA ltB m → ¬ Bijection (m.pairs ++ es) →
        Bm.ofList ltA ltB true m es = .assertFail := by
      intro es
      induction es with
      | nil => intro m h hb; exact absurd (h.bijection hA hB) (by simpa using hb)
      | cons x es ih =>
        intro m h hb
        by_cases h1 : ∀ q ∈ m.pairs, q.1 ≠ x.1
        · by_cases h2 : ∀ q ∈ m.pairs, q.2 ≠ x.2
          · obtain ⟨m', e, h', hp⟩ := h.emplace hA hB (dbg := true) h1 h2
            simp only [Bm.ofList, e, Outcome.bind_ok]
            exact ih m' h' (by rw [hp]; simpa using hb)
          · have h2' : ∃ q ∈ m.pairs, q.2 = x.2 := by simpa using h2
            obtain ⟨⟨a', b'⟩, hq, hb'⟩ := h2'
            obtain ⟨p, hp⟩ := mem_pairs.1 hq
            have hf := h.find2_mem hB hp
            rw [show b' = x.2 from hb'] at hf
            simp [Bm.ofList, Bm.emplace, assertDbg, Bm.has1, Bm.has2, h.find1_none hA h1, hf, Outcome.check]
        · have h1' : ∃ q ∈ m.pairs, q.1 = x.1 := by simpa using h1
          obtain ⟨⟨a', b'⟩, hq, ha'⟩ := h1'
          obtain ⟨p, hp⟩ := mem_pairs.1 hq
          have hf := h.find1_mem hA hp
          rw [show a' = x.1 from ha'] at hf
          simp [Bm.ofList, Bm.emplace, assertDbg, Bm.has1, hf, Outcome.check]
    intro hb
    exact go es _ inv_empty (by simpa [Bm.pairs, Bm.empty] using hb)
  · obtain ⟨m, e, h, hp⟩ := first_ofList hA hB es (m := (Bm.empty : Bm A B))
      ⟨by simp [Bm.empty], by simp [Bm.empty], ⟨[], ⟨rfl, by simp, by simp⟩, by simp [Bm.empty]⟩, ⟨[], ⟨rfl, by simp, by simp⟩, by simp [Bm.empty]⟩⟩
    have hp : m.pairs = es := by simpa [Bm.pairs, Bm.empty] using hp
    obtain ⟨l1, hs1, hl1⟩ := h.i1
    obtain ⟨l2, hs2, hl2⟩ := h.i2
    have at1 : ∀ q, es.find? (fun y => y.1 = q.1) = some q → m.at1 ltA q.1 = .ok q.2 := by
      intro q hq
      rw [← hp, find_pairs] at hq
      cases hf : m.storage.find? (fun y => y.2.1 = q.1) with
      | none => rw [hf] at hq; cases hq
      | some y =>
        rw [hf] at hq
        obtain ⟨p, y2⟩ := y
        obtain rfl : y2 = q := by simpa using hq
        have hfind : m.find1 ltA y2.1 = .ok (some p) := hs1.find_mem hA ((hl1 _ p).2 (by rw [hf]; rfl))
        simp [Bm.at1, hfind, Bm.pairOf, pairAt_of_mem h.ids (List.mem_of_find?_eq_some hf)]
    have at2 : ∀ q, es.find? (fun y => y.2 = q.2) = some q → m.at2 ltB q.2 = .ok q.1 := by
      intro q hq
      rw [← hp, find_pairs] at hq
      cases hf : m.storage.find? (fun y => y.2.2 = q.2) with
      | none => rw [hf] at hq; cases hq
      | some y =>
        rw [hf] at hq
        obtain ⟨p, y2⟩ := y
        obtain rfl : y2 = q := by simpa using hq
        have hfind : m.find2 ltB y2.2 = .ok (some p) := hs2.find_mem hB ((hl2 _ p).2 (by rw [hf]; rfl))
        simp [Bm.at2, hfind, Bm.pairOf, pairAt_of_mem h.ids (List.mem_of_find?_eq_some hf)]
    refine ⟨m, e, hp, ?_, ?_, ?_, ?_⟩
    · rintro pre a b post rfl hpre
      refine at1 (a, b) ?_
      rw [List.find?_append, List.find?_eq_none.2 (by simpa using hpre)]
      simp
    · rintro pre a b post rfl hpre
      refine at2 (a, b) ?_
      rw [List.find?_append, List.find?_eq_none.2 (by simpa using hpre)]
      simp
    · intro a ha
      have hn : m.storage.find? (fun y => y.2.1 = a) = none := by
        rw [List.find?_eq_none]
        intro y hy
        have : y.2 ∈ es := by rw [← hp]; exact List.mem_map.2 ⟨y, hy, rfl⟩
        simpa using ha _ this
      have hfind : m.find1 ltA a = .ok none := hs1.find_none hA (by
        rintro ⟨k, p⟩ hx rfl
        have := (hl1 _ p).1 hx
        rw [hn] at this; cases this)
      simp [Bm.at1, hfind]
    · intro b hb
      have hn : m.storage.find? (fun y => y.2.2 = b) = none := by
        rw [List.find?_eq_none]
        intro y hy
        have : y.2 ∈ es := by rw [← hp]; exact List.mem_map.2 ⟨y, hy, rfl⟩
        simpa using hb _ this
      have hfind : m.find2 ltB b = .ok none := hs2.find_none hB (by
        rintro ⟨k, p⟩ hx rfl
        have := (hl2 _ p).1 hx
        rw [hn] at this; cases this)
      simp [Bm.at2, hfind]

example : ¬ Bijection [(10, 1), (11, 1), (10, 2)] ∧
    (Bm.ofList ltN ltN false (Bm.empty : Bm Nat Nat) [(10, 1), (11, 1), (10, 2)]).bind (fun m => m.at2 ltN 2) = .ok 10 := by
  constructor
  · simp [Bijection]
  · decide

end Verif.Bimap
