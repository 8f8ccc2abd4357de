import Verif.Bimap.Theorems

/-! # `operator[]` of a bimap when the default partner is in use (C12), and the number of pairs (C11) -/

namespace Verif.Bimap

open Verif Verif.Container

variable {A B : Type} [DecidableEq A] [DecidableEq B] {ltA : A → A → Bool} {ltB : B → B → Bool}

theorem Shows.emplace_there {K : Type} {lt : K → K → Bool} {deref : Nat → Option K} (hlt : StrictTotal lt) {s l} (h : Shows lt deref s l)
    {k : K} {p q : Nat} (hp : deref p = some k) (hm : (k, q) ∈ l) : setEmplace lt deref s p = .ok s := by
  have hany : l.any (fun y => equiv lt y.1 k) = true := by
    rw [List.any_eq_true]
    exact ⟨(k, q), hm, (equiv_iff hlt).2 rfl⟩
  simp [setEmplace, h.view, hp, hany]

/-- **C12 fails** whenever the default partner is in use. In every state a legal history leads to, let the default partner belong to `a0`,
and let `a` be absent. With assertions `bm[a]` stops the program. Without them it adds the pair `(a, T2{})` to the storage and to the
index of the first side only: both keys have the same partner, `at` of the partner still answers `a0`, and the pairs are no longer a
bijection; the answers for all other keys are unchanged. -/
theorem C12_default_partner_in_use_always (hA : StrictTotal ltA) (hB : StrictTotal ltB) (os : List (Op A B)) (hos : LegalRun [] os)
    (dB : B) (a a0 : A) (h0 : (a0, dB) ∈ specRun [] os) (ha : ∀ q ∈ specRun [] os, q.1 ≠ a) :
    (∃ m, run ltA ltB true (Bm.empty : Bm A B) os = .ok m ∧ m.index1 ltA ltB true dB a = .assertFail) ∧
    (∃ m m', run ltA ltB false (Bm.empty : Bm A B) os = .ok m ∧ m.index1 ltA ltB false dB a = .ok (m', dB) ∧
      m'.pairs = specRun [] os ++ [(a, dB)] ∧ m'.at1 ltA a = .ok dB ∧ m'.at2 ltB dB = .ok a0 ∧ a0 ≠ a ∧
      (∀ q ∈ specRun [] os, m'.at1 ltA q.1 = .ok q.2 ∧ m'.at2 ltB q.2 = .ok q.1) ∧ ¬ Bijection m'.pairs) := by
  constructor
  · obtain ⟨m, e, h, hp⟩ := inv_run hA hB (dbg := true) os (inv_empty (A := A) (B := B)) hos
    refine ⟨m, e, ?_⟩
    change m.pairs = specRun [] os at hp
    rw [← hp] at h0 ha
    obtain ⟨p0, hp0⟩ := mem_pairs.1 h0
    simp [Bm.index1, Bm.has1, h.find1_none hA ha, Bm.emplace, assertDbg, Bm.has2, h.find2_mem hB hp0, Outcome.check]
  · obtain ⟨m, e, h, hp⟩ := inv_run hA hB (dbg := false) os (inv_empty (A := A) (B := B)) hos
    change m.pairs = specRun [] os at hp
    rw [← hp] at h0 ha ⊢
    obtain ⟨p0, hp0⟩ := mem_pairs.1 h0
    obtain ⟨l1, hs1, hl1⟩ := h.i1
    obtain ⟨l2, hs2, hl2⟩ := h.i2
    have hnew : m.next ∉ m.storage.map (·.1) := by
      intro hc
      obtain ⟨x, hx, e⟩ := List.mem_map.1 hc
      have := h.fresh x hx
      omega
    let m1 : Bm A B := { m with storage := m.storage ++ [(m.next, a, dB)], next := m.next + 1 }
    have hids : (m1.storage.map (·.1)).Nodup := by
      simp only [m1, List.map_append, List.map_cons, List.map_nil]
      rw [List.nodup_append]
      exact ⟨h.ids, by simp, fun x hx y hy => by simp at hy; subst hy; intro e; exact hnew (e ▸ hx)⟩
    have hpn : m1.pairAt m.next = some (a, dB) := pairAt_of_mem hids (by simp [m1])
    have hold : ∀ {p a' b'}, (p, a', b') ∈ m.storage → m1.pairAt p = some (a', b') :=
      fun hx => pairAt_of_mem hids (by simp [m1, hx])
    have hpts1 : ∀ x ∈ l1, m1.deref1 x.2 = some x.1 := by
      rintro ⟨a', p⟩ hx
      obtain ⟨b', hb'⟩ := (hl1 a' p).1 hx
      simp [Bm.deref1, hold hb']
    have hpts2 : ∀ x ∈ l2, m1.deref2 x.2 = some x.1 := by
      rintro ⟨b', p⟩ hx
      obtain ⟨a', hb'⟩ := (hl2 b' p).1 hx
      simp [Bm.deref2, hold hb']
    obtain ⟨s1', l1', e1, hs1', hl1'⟩ := (hs1.mono hpts1).emplace hA (k := a) (p := m.next)
      (by simp [Bm.deref1, hpn]) (by
        rintro ⟨a', p⟩ hx e
        obtain ⟨b', hb'⟩ := (hl1 a' p).1 hx
        exact ha _ (mem_pairs.2 ⟨p, hb'⟩) e)
    have e2 : setEmplace ltB m1.deref2 m.set2 m.next = .ok m.set2 :=
      (hs2.mono hpts2).emplace_there hB (k := dB) (q := p0) (by simp [Bm.deref2, hpn]) ((hl2 dB p0).2 ⟨a0, hp0⟩)
    let m' : Bm A B := { m1 with set1 := s1' }
    have hat1 : ∀ {p a' b'}, (a', p) ∈ l1' → m1.pairAt p = some (a', b') → m'.at1 ltA a' = .ok b' := by
      intro p a' b' hx hpa
      have hf : m'.find1 ltA a' = .ok (some p) := hs1'.find_mem hA hx
      have hpa' : m'.pairAt p = some (a', b') := hpa
      simp [Bm.at1, hf, Bm.pairOf, hpa']
    have hat2 : ∀ {p a' b'}, (p, a', b') ∈ m.storage → m'.at2 ltB b' = .ok a' := by
      intro p a' b' hx
      have hf : m'.find2 ltB b' = .ok (some p) := (hs2.mono hpts2).find_mem hB ((hl2 b' p).2 ⟨_, hx⟩)
      have hpa' : m'.pairAt p = some (a', b') := hold hx
      simp [Bm.at2, hf, Bm.pairOf, hpa']
    have hne : a0 ≠ a := fun he => ha _ h0 he
    have hpairs : m'.pairs = m.pairs ++ [(a, dB)] := by simp [Bm.pairs, m', m1]
    refine ⟨m, m', e, ?_, hpairs, hat1 ((hl1' _).2 (.inl rfl)) hpn, hat2 hp0, hne, ?_, ?_⟩
    · have he : m.emplace ltA ltB false a dB = .ok m' := by
        rw [Bm.emplace]
        simp only [assertDbg, Bool.false_eq_true, if_false, Outcome.bind_ok, Nat.add_sub_cancel]
        have e1' : setEmplace ltA m1.deref1 m.set1 m.next = .ok s1' := e1
        simp only [m1] at e1' e2
        simp only [e1', e2, Outcome.bind_ok, Outcome.pure_eq, m1, m']
      simp [Bm.index1, Bm.has1, h.find1_none hA ha, he]
    · rintro ⟨a', b'⟩ hq
      obtain ⟨p, hx⟩ := mem_pairs.1 hq
      exact ⟨hat1 ((hl1' _).2 (.inr ((hl1 a' p).2 ⟨_, hx⟩))) (hold hx), hat2 hx⟩
    · intro hb
      rw [hpairs] at hb
      have hn := hb.2
      simp only [List.map_append, List.map_cons, List.map_nil] at hn
      exact (List.nodup_append.1 hn).2.2 dB (List.mem_map.2 ⟨_, h0, rfl⟩) dB (by simp) rfl

example : LegalRun ([] : List (Nat × Nat)) [.emplace 1 0, .emplace 2 5] ∧
    (1, 0) ∈ specRun [] [Op.emplace 1 0, .emplace 2 5] ∧ ∀ q ∈ specRun [] [Op.emplace 1 0, .emplace 2 5], q.1 ≠ 3 := by
  refine ⟨?_, by decide, by decide⟩
  simp [LegalRun, Legal, specStep]

/-- **C11 (size).** `size()`, the number of pairs stored, is the number of pairs of the specification after every legal history; so each
side has as many keys that `has` finds as `size()` says, and each index has that many entries. -/
theorem C11_size (hA : StrictTotal ltA) (hB : StrictTotal ltB) (dbg : Bool) (os : List (Op A B)) (hos : LegalRun [] os) :
    ∃ m, run ltA ltB dbg (Bm.empty : Bm A B) os = .ok m ∧ m.pairs.length = (specRun [] os).length ∧
      m.set1.length = (specRun [] os).length ∧ m.set2.length = (specRun [] os).length := by
  obtain ⟨m, e, h, hp⟩ := inv_run hA hB (dbg := dbg) os (inv_empty (A := A) (B := B)) hos
  change m.pairs = specRun [] os at hp
  have nd : ∀ {K : Type} {lt : K → K → Bool} {l : List (K × Nat)}, StrictTotal lt → l.Pairwise (fun x y => lt x.1 y.1 = true) → l.Nodup := by
    intro K lt l hlt ho
    refine ho.imp ?_
    rintro x y hxy rfl
    rw [hlt.irrefl] at hxy
    cases hxy
  have ns : ∀ {K : Type} (f : Nat × A × B → K), (m.storage.map (fun x => (f x, x.1))).Nodup := by
    intro K f
    have := h.ids
    rw [List.Nodup, List.pairwise_map] at this ⊢
    exact this.imp (fun hne he => hne (congrArg Prod.snd he))
  refine ⟨m, e, by rw [hp], ?_, ?_⟩
  · obtain ⟨l, hs, hl⟩ := h.i1
    have hperm : l.Perm (m.storage.map (fun x => (x.2.1, x.1))) := by
      rw [List.perm_ext_iff_of_nodup (nd hA hs.ord) (ns _)]
      rintro ⟨a, p⟩
      rw [hl, List.mem_map]
      constructor
      · rintro ⟨b, hb⟩; exact ⟨_, hb, rfl⟩
      · rintro ⟨⟨p', a', b⟩, hb, he⟩; cases he; exact ⟨b, hb⟩
    rw [hs.eq, List.length_map, hperm.length_eq, ← hp]; simp [Bm.pairs]
  · obtain ⟨l, hs, hl⟩ := h.i2
    have hperm : l.Perm (m.storage.map (fun x => (x.2.2, x.1))) := by
      rw [List.perm_ext_iff_of_nodup (nd hB hs.ord) (ns _)]
      rintro ⟨b, p⟩
      rw [hl, List.mem_map]
      constructor
      · rintro ⟨a, hb⟩; exact ⟨_, hb, rfl⟩
      · rintro ⟨⟨p', a, b'⟩, hb, he⟩; cases he; exact ⟨a, hb⟩
    rw [hs.eq, List.length_map, hperm.length_eq, ← hp]; simp [Bm.pairs]

end Verif.Bimap
