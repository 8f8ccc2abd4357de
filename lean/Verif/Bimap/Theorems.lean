import Verif.Bimap.Lemmas

/-! # C11 - C13: `Bimap` and `FatEnum` -/

namespace Verif.Bimap

open Verif Verif.Container

variable {A B : Type} [DecidableEq A] [DecidableEq B] {ltA : A → A → Bool} {ltB : B → B → Bool}

/-- C11. Every history of `emplace`, `erase` (through either side) and `clear` that respects the
preconditions runs without assertion failure or undefined behaviour, with assertions on or off. Afterwards
iteration gives exactly the pairs put in and not erased, in insertion order; they are a bijection; `at`
returns the partner of a key that is there and throws exactly for one that is not; `find`, `has`, `count`
and `get` agree with `at`. -/
theorem C11_bimap_is_a_bijection (hA : StrictTotal ltA) (hB : StrictTotal ltB) (dbg : Bool)
    (os : List (Op A B)) (hos : LegalRun [] os) :
    ∃ m, run ltA ltB dbg (Bm.empty : Bm A B) os = .ok m ∧
      m.pairs = specRun [] os ∧ Bijection m.pairs ∧
      (∀ a b, (m.at1 ltA a = .ok b ↔ (a, b) ∈ m.pairs) ∧ (m.at2 ltB b = .ok a ↔ (a, b) ∈ m.pairs) ∧
        (m.at1 ltA a = .ok b ↔ m.at2 ltB b = .ok a)) ∧
      (∀ a, (m.at1 ltA a = .throw ↔ ∀ q ∈ m.pairs, q.1 ≠ a) ∧
        m.has1 ltA a = .ok (decide (∃ q ∈ m.pairs, q.1 = a)) ∧
        m.count1 ltA a = .ok (m.pairs.countP (fun q => q.1 = a)) ∧
        (∀ b, (a, b) ∈ m.pairs → m.get1 ltA dbg a = .ok b)) ∧
      (∀ b, (m.at2 ltB b = .throw ↔ ∀ q ∈ m.pairs, q.2 ≠ b) ∧
        m.has2 ltB b = .ok (decide (∃ q ∈ m.pairs, q.2 = b)) ∧
        m.count2 ltB b = .ok (m.pairs.countP (fun q => q.2 = b)) ∧
        (∀ a, (a, b) ∈ m.pairs → m.get2 ltB dbg b = .ok a)) := by
  obtain ⟨m, e, hi, hp⟩ := inv_run hA hB (dbg := dbg) os (inv_empty (A := A) (B := B)) hos
  have hbij := hi.bijection hA hB
  have hab : ∀ a b, (m.at1 ltA a = .ok b ↔ (a, b) ∈ m.pairs) := by
    intro a b
    constructor
    · intro h
      by_cases hx : ∃ q ∈ m.pairs, q.1 = a
      · obtain ⟨⟨a', b'⟩, hq, rfl⟩ := hx
        rw [hi.at1_mem hA hq] at h
        cases h; exact hq
      · rw [hi.at1_none hA (fun q hq e => hx ⟨q, hq, e⟩)] at h; cases h
    · exact hi.at1_mem hA
  have hba : ∀ a b, (m.at2 ltB b = .ok a ↔ (a, b) ∈ m.pairs) := by
    intro a b
    constructor
    · intro h
      by_cases hx : ∃ q ∈ m.pairs, q.2 = b
      · obtain ⟨⟨a', b'⟩, hq, rfl⟩ := hx
        rw [hi.at2_mem hB hq] at h
        cases h; exact hq
      · rw [hi.at2_none hB (fun q hq e => hx ⟨q, hq, e⟩)] at h; cases h
    · exact hi.at2_mem hB
  refine ⟨m, e, by simpa [Bm.pairs, Bm.empty] using hp, hbij, fun a b => ⟨hab a b, hba a b, by rw [hab, hba]⟩, ?_, ?_⟩
  · intro a
    by_cases hx : ∃ q ∈ m.pairs, q.1 = a
    · have hx0 := hx
      obtain ⟨⟨a', b'⟩, hq, rfl⟩ := hx
      obtain ⟨p, hpm⟩ := mem_pairs.1 hq
      refine ⟨?_, ?_, ?_, fun b hb => hi.get1_mem hA hb⟩
      · rw [hi.at1_mem hA hq]
        exact ⟨fun h => (nomatch h : False).elim, fun h => absurd rfl (h _ hq)⟩
      · rw [decide_eq_true hx0]; simp [Bm.has1, hi.find1_mem hA hpm]
      · have hc : m.pairs.countP (fun q => q.1 = a') = 1 := by
          have h := (List.Nodup.count hbij.1 (a := a')).trans (if_pos (List.mem_map.2 ⟨_, hq, rfl⟩))
          rw [List.count, List.countP_map] at h
          rw [← h]; apply List.countP_congr; intro x _; simp
        rw [hc]; simp [Bm.count1, hi.find1_mem hA hpm]
    · have hx' : ∀ q ∈ m.pairs, q.1 ≠ a := fun q hq e => hx ⟨q, hq, e⟩
      refine ⟨?_, ?_, ?_, fun b hb => hi.get1_mem hA hb⟩
      · rw [hi.at1_none hA hx']; exact ⟨fun _ => hx', fun _ => rfl⟩
      · rw [decide_eq_false hx]; simp [Bm.has1, hi.find1_none hA hx']
      · have hc : m.pairs.countP (fun q => q.1 = a) = 0 := by
          rw [List.countP_eq_zero]; intro q hq; simpa using hx' q hq
        rw [hc]; simp [Bm.count1, hi.find1_none hA hx']
  · intro b
    by_cases hx : ∃ q ∈ m.pairs, q.2 = b
    · have hx0 := hx
      obtain ⟨⟨a', b'⟩, hq, rfl⟩ := hx
      obtain ⟨p, hpm⟩ := mem_pairs.1 hq
      refine ⟨?_, ?_, ?_, fun b hb => hi.get2_mem hB hb⟩
      · rw [hi.at2_mem hB hq]
        exact ⟨fun h => (nomatch h : False).elim, fun h => absurd rfl (h _ hq)⟩
      · rw [decide_eq_true hx0]; simp [Bm.has2, hi.find2_mem hB hpm]
      · have hc : m.pairs.countP (fun q => q.2 = b') = 1 := by
          have h := (List.Nodup.count hbij.2 (a := b')).trans (if_pos (List.mem_map.2 ⟨_, hq, rfl⟩))
          rw [List.count, List.countP_map] at h
          rw [← h]; apply List.countP_congr; intro x _; simp
        rw [hc]; simp [Bm.count2, hi.find2_mem hB hpm]
    · have hx' : ∀ q ∈ m.pairs, q.2 ≠ b := fun q hq e => hx ⟨q, hq, e⟩
      refine ⟨?_, ?_, ?_, fun b hb => hi.get2_mem hB hb⟩
      · rw [hi.at2_none hB hx']; exact ⟨fun _ => hx', fun _ => rfl⟩
      · rw [decide_eq_false hx]; simp [Bm.has2, hi.find2_none hB hx']
      · have hc : m.pairs.countP (fun q => q.2 = b) = 0 := by
          rw [List.countP_eq_zero]; intro q hq; simpa using hx' q hq
        rw [hc]; simp [Bm.count2, hi.find2_none hB hx']

/-- C12, the part that holds. In every state reached by a legal history, `bm[a]` on a key that is there
changes nothing and gives its partner; on an absent key, when the default partner is not in use, it adds
the pair `(a, T2{})` at the end and keeps all others. Missing: a default partner in use, see
`C12_default_partner_in_use`. -/
theorem C12_index_inserts_partial (hA : StrictTotal ltA) (hB : StrictTotal ltB) (dbg : Bool)
    (os : List (Op A B)) (hos : LegalRun [] os) (dB : B) (a : A) :
    ∃ m, run ltA ltB dbg (Bm.empty : Bm A B) os = .ok m ∧
      (∀ b, (a, b) ∈ m.pairs → m.index1 ltA ltB dbg dB a = .ok (m, b)) ∧
      ((∀ q ∈ m.pairs, q.1 ≠ a) → (∀ q ∈ m.pairs, q.2 ≠ dB) →
        ∃ m', m.index1 ltA ltB dbg dB a = .ok (m', dB) ∧ m'.pairs = m.pairs ++ [(a, dB)] ∧
          m'.at1 ltA a = .ok dB ∧ m'.at2 ltB dB = .ok a ∧
          (∀ q ∈ m.pairs, m'.at1 ltA q.1 = .ok q.2 ∧ m'.at2 ltB q.2 = .ok q.1) ∧
          Bijection m'.pairs) := by
  obtain ⟨m, e, hi, hp⟩ := inv_run hA hB (dbg := dbg) os (inv_empty (A := A) (B := B)) hos
  refine ⟨m, e, ?_, ?_⟩
  · intro b hb
    obtain ⟨p, hpm⟩ := mem_pairs.1 hb
    simp [Bm.index1, Bm.has1, hi.find1_mem hA hpm, hi.get1_mem hA hb]
  · intro ha hb
    obtain ⟨m', e', hi', hp'⟩ := hi.emplace hA hB (dbg := dbg) ha hb
    refine ⟨m', by simp [Bm.index1, Bm.has1, hi.find1_none hA ha, e'], hp', hi'.at1_mem hA (by simp [hp']),
      hi'.at2_mem hB (by simp [hp']), ?_, hi'.bijection hA hB⟩
    intro q hq
    exact ⟨hi'.at1_mem hA (by simp [hp', hq]), hi'.at2_mem hB (by simp [hp', hq])⟩

/-- C12 through the other side: `bm[b]` for a key of the second column. -/
theorem C12_index_other_side_partial (hA : StrictTotal ltA) (hB : StrictTotal ltB) (dbg : Bool)
    (os : List (Op A B)) (hos : LegalRun [] os) (dA : A) (b : B) :
    ∃ m, run ltA ltB dbg (Bm.empty : Bm A B) os = .ok m ∧
      (∀ a, (a, b) ∈ m.pairs → m.index2 ltA ltB dbg dA b = .ok (m, a)) ∧
      ((∀ q ∈ m.pairs, q.2 ≠ b) → (∀ q ∈ m.pairs, q.1 ≠ dA) →
        ∃ m', m.index2 ltA ltB dbg dA b = .ok (m', dA) ∧ m'.pairs = m.pairs ++ [(dA, b)] ∧
          m'.at2 ltB b = .ok dA ∧ m'.at1 ltA dA = .ok b ∧
          (∀ q ∈ m.pairs, m'.at1 ltA q.1 = .ok q.2 ∧ m'.at2 ltB q.2 = .ok q.1) ∧
          Bijection m'.pairs) := by
  obtain ⟨m, e, hi, hp⟩ := inv_run hA hB (dbg := dbg) os (inv_empty (A := A) (B := B)) hos
  refine ⟨m, e, ?_, ?_⟩
  · intro a hb
    obtain ⟨p, hpm⟩ := mem_pairs.1 hb
    simp [Bm.index2, Bm.has2, hi.find2_mem hB hpm, hi.get2_mem hB hb]
  · intro hb ha
    obtain ⟨m', e', hi', hp'⟩ := hi.emplace hA hB (dbg := dbg) ha hb
    refine ⟨m', by simp [Bm.index2, Bm.has2, hi.find2_none hB hb, e'], hp', hi'.at2_mem hB (by simp [hp']),
      hi'.at1_mem hA (by simp [hp']), ?_, hi'.bijection hA hB⟩
    intro q hq
    exact ⟨hi'.at1_mem hA (by simp [hp', hq]), hi'.at2_mem hB (by simp [hp', hq])⟩

/-- `<` on numbers, for the examples. -/
def ltN (x y : Nat) : Bool := decide (x < y)

theorem ltN_total : StrictTotal ltN := by
  refine ⟨?_, ?_, ?_⟩ <;> simp [ltN] <;> omega

/-- C12 fails: the default partner may be in use, and two absent keys are enough to get there. A debug build
stops in an assertion. A release build keeps two pairs with the same partner, of which only the first is
indexed on the second side: `at(0)` answers 1 although `at(2)` answers 0; and erasing 2 removes the index
entry of pair (1, 0), so that `at(0)` throws although `at(1)` still answers 0. -/
theorem C12_default_partner_in_use :
    (do let (m, _) ← (Bm.empty : Bm Nat Nat).index1 ltN ltN true 0 1
        m.index1 ltN ltN true 0 2) = .assertFail ∧
    (do let (m, _) ← (Bm.empty : Bm Nat Nat).index1 ltN ltN false 0 1
        let (m, _) ← m.index1 ltN ltN false 0 2
        let m' ← m.erase1 ltN ltN false 2
        return (← m.at1 ltN 2, ← m.at2 ltN 0, ← m'.at1 ltN 1)) = .ok (0, 1, 0) ∧
    (do let (m, _) ← (Bm.empty : Bm Nat Nat).index1 ltN ltN false 0 1
        let (m, _) ← m.index1 ltN ltN false 0 2
        let m' ← m.erase1 ltN ltN false 2
        m'.at2 ltN 0) = .throw := by decide

/-- Writing through the reference that `operator[]` returns changes a key of an ordered set in place:
after `bm = {(1, 1), (2, 2)}; bm[1] = 3` every lookup on the second side is undefined behaviour. -/
theorem C12_write_through_reference_breaks_order :
    (do let m ← Bm.ofList ltN ltN true (Bm.empty : Bm Nat Nat) [(1, 1), (2, 2)]
        let m ← m.assign1 ltN ltN true 0 1 3
        m.at2 ltN 3) = .ub := by decide

/-- C13. For every list of distinct names and distinct enumerators: name to enumerator and back, and
enumerator to name and back, are inverse to each other; an unknown name or value stops the program; the
lists of names and of values are in declaration order, and the size is the number of enumerators. -/
theorem C13_fatenum_conversions_inverse (hA : StrictTotal ltA) (hB : StrictTotal ltB) (dbg : Bool)
    (es : List (A × B)) (hes : Bijection es) :
    (∀ i (h : i < es.length), getAsStr ltA ltB dbg es es[i].2 = .ok es[i].1 ∧
      getFromStr ltA ltB dbg es es[i].1 = .ok es[i].2 ∧
      (getValues es)[i]? = some es[i].2 ∧ (getElementNames es)[i]? = some es[i].1) ∧
    (∀ v s, getAsStr ltA ltB dbg es v = .ok s ↔ getFromStr ltA ltB dbg es s = .ok v) ∧
    (∀ v, (∀ q ∈ es, q.2 ≠ v) → getAsStr ltA ltB dbg es v = .assertFail) ∧
    (∀ s, (∀ q ∈ es, q.1 ≠ s) → getFromStr ltA ltB dbg es s = .assertFail) ∧
    (getValues es).length = getSize es ∧ (getElementNames es).length = getSize es ∧ getSize es = es.length := by
  obtain ⟨m, e, hi, hp⟩ := inv_ofList hA hB (dbg := dbg) es (inv_empty (A := A) (B := B))
    (by simpa [Bm.pairs, Bm.empty] using hes)
  have hp : m.pairs = es := by simpa [Bm.pairs, Bm.empty] using hp
  have ha : ∀ a b, (a, b) ∈ es → getAsStr ltA ltB dbg es b = .ok a := by
    intro a b h
    rw [← hp] at h
    obtain ⟨p, hpm⟩ := mem_pairs.1 h
    rw [getAsStr, fatBimap, e]
    cases dbg <;> simp [assertDbg, Bm.has2, hi.find2_mem hB hpm, hi.at2_mem hB h, noexcept]
  have hf : ∀ a b, (a, b) ∈ es → getFromStr ltA ltB dbg es a = .ok b := by
    intro a b h
    rw [← hp] at h
    obtain ⟨p, hpm⟩ := mem_pairs.1 h
    rw [getFromStr, fatBimap, e]
    cases dbg <;> simp [assertDbg, Bm.has1, hi.find1_mem hA hpm, hi.at1_mem hA h, noexcept]
  have ha' : ∀ v, (∀ q ∈ es, q.2 ≠ v) → getAsStr ltA ltB dbg es v = .assertFail := by
    intro v h
    rw [← hp] at h
    rw [getAsStr, fatBimap, e]
    cases dbg <;> simp [assertDbg, Bm.has2, hi.find2_none hB h, hi.at2_none hB h, noexcept]
  have hf' : ∀ s, (∀ q ∈ es, q.1 ≠ s) → getFromStr ltA ltB dbg es s = .assertFail := by
    intro v h
    rw [← hp] at h
    rw [getFromStr, fatBimap, e]
    cases dbg <;> simp [assertDbg, Bm.has1, hi.find1_none hA h, hi.at1_none hA h, noexcept]
  refine ⟨fun i h => ⟨ha _ _ (List.getElem_mem h), hf _ _ (List.getElem_mem h), by simp [getValues, h],
    by simp [getElementNames, h]⟩, ?_, ha', hf', by simp [getValues, getSize], by simp [getElementNames, getSize], rfl⟩
  intro v s
  constructor
  · intro h
    by_cases hx : ∃ q ∈ es, q.2 = v
    · obtain ⟨⟨a', b'⟩, hq, rfl⟩ := hx
      rw [ha _ _ hq] at h; cases h; exact hf _ _ hq
    · rw [ha' v (fun q hq e => hx ⟨q, hq, e⟩)] at h; cases h
  · intro h
    by_cases hx : ∃ q ∈ es, q.1 = s
    · obtain ⟨⟨a', b'⟩, hq, rfl⟩ := hx
      rw [hf _ _ hq] at h; cases h; exact ha _ _ hq
    · rw [hf' s (fun q hq e => hx ⟨q, hq, e⟩)] at h; cases h

/-! ### The hypotheses are satisfiable -/

example : LegalRun ([] : List (Nat × Nat)) [.emplace 1 5, .emplace 2 6, .erase2 5, .emplace 1 7, .erase1 2] := by
  simp [LegalRun, Legal, specStep]

example : StrictTotal ltN ∧
    (run ltN ltN true (Bm.empty : Bm Nat Nat) [.emplace 1 5, .emplace 2 6, .erase2 5, .emplace 1 7]).bind
      (fun m => m.at1 ltN 1) = .ok 7 := ⟨ltN_total, by decide⟩

example : Bijection [(10, 1), (11, 0)] := by simp [Bijection]

end Verif.Bimap
