import Verif.Bimap.Ref
import Verif.Bimap.Theorems

/-!
# C140: references into a bimap
-/

namespace Verif.Bimap

open Verif Verif.Container

variable {A B : Type} [DecidableEq A] [DecidableEq B] {ltA : A → A → Bool} {ltB : B → B → Bool}

theorem stay_run (hA : StrictTotal ltA) (hB : StrictTotal ltB) {dbg : Bool} {os : List (Op A B)} :
    ∀ {m m' : Bm A B}, Inv ltA ltB m → LegalRun m.pairs os → run ltA ltB dbg m os = .ok m' → ∀ {p : Nat} {q : A × B},
      m.pairAt p = some q → (∀ n, q ∈ specRun m.pairs (os.take n)) → m'.pairAt p = some q := by
  induction os with
  | nil =>
    intro m m' _ _ hr p q hp _
    cases hr; exact hp
  | cons o os ih =>
    intro m m' hi hl hr p q hp hq
    obtain ⟨m1, e1, hi1, hp1⟩ := inv_step hA hB (dbg := dbg) hi hl.1
    simp only [run, e1, Outcome.bind_ok] at hr
    refine ih hi1 (by rw [hp1]; exact hl.2) hr (stay_step hA hi hi1 e1 hp ?_) ?_
    · rw [hp1]; exact hq 1
    · intro n; rw [hp1]; exact hq (n + 1)

/-- **C140 (references).** After every legal history `os`, `emplace` gives a reference to the new pair that is different from the
references to all others; and a reference to a pair leads to that same pair after every legal continuation `os'`, as long as the
pair has not been erased in between. -/
theorem C140_references (hA : StrictTotal ltA) (hB : StrictTotal ltB) (dbg : Bool) (os os' : List (Op A B))
    (hos : LegalRun [] (os ++ os')) :
    ∃ m m', run ltA ltB dbg (Bm.empty : Bm A B) os = .ok m ∧ run ltA ltB dbg m os' = .ok m' ∧
      (∀ q ∈ m.pairs, ∃ p, m.pairAt p = some q) ∧
      (∀ p q, m.pairAt p = some q → q ∈ m.pairs ∧ ∀ p', m.pairAt p' = some q → p' = p) ∧
      (∀ p q, m.pairAt p = some q → (∀ n, q ∈ specRun (specRun [] os) (os'.take n)) → m'.pairAt p = some q) ∧
      (∀ a b, Legal m'.pairs (.emplace a b) → ∃ m'', m'.emplace ltA ltB dbg a b = .ok m'' ∧
        m''.pairAt m'.next = some (a, b) ∧ m'.pairAt m'.next = none) := by
  have split : ∀ (os : List (Op A B)) (ps : List (A × B)), LegalRun ps (os ++ os') →
      LegalRun ps os ∧ LegalRun (specRun ps os) os' := by
    intro os
    induction os with
    | nil => intro ps h; exact ⟨trivial, h⟩
    | cons o os ih => intro ps h; exact ⟨⟨h.1, (ih _ h.2).1⟩, (ih _ h.2).2⟩
  obtain ⟨hl1, hl2⟩ := split os [] hos
  obtain ⟨m, e, hi, hp⟩ := inv_run hA hB (dbg := dbg) os (inv_empty (A := A) (B := B)) hl1
  have hp : m.pairs = specRun [] os := by simpa [Bm.pairs, Bm.empty] using hp
  obtain ⟨m', e', hi', hp'⟩ := inv_run hA hB (dbg := dbg) os' hi (by rw [hp]; exact hl2)
  refine ⟨m, m', e, e', ?_, ?_, ?_, ?_⟩
  · rintro ⟨a, b⟩ hq
    obtain ⟨p, hx⟩ := mem_pairs.1 hq
    exact ⟨p, pairAt_of_mem hi.ids hx⟩
  · rintro p ⟨a, b⟩ hx
    have hm := pairAt_mem hx
    refine ⟨mem_pairs.2 ⟨p, hm⟩, fun p' hx' => (hi.key_unique hA (pairAt_mem hx') hm).1⟩
  · intro p q hx hq
    exact stay_run hA hB hi (by rw [hp]; exact hl2) e' hx (by rw [hp]; exact hq)
  · intro a b hl
    obtain ⟨m'', e'', hi'', _⟩ := hi'.emplace hA hB (dbg := dbg) hl.1 hl.2
    refine ⟨m'', e'', pairAt_of_mem hi''.ids (by rw [emplace_storage e'']; simp), ?_⟩
    cases hx : m'.pairAt m'.next with
    | none => rfl
    | some q => exact absurd (hi'.fresh _ (pairAt_mem hx)) (Nat.lt_irrefl _)

/-- The facts about erasing the pair at `p`. -/
theorem erased (hA : StrictTotal ltA) (hB : StrictTotal ltB) {m : Bm A B} (hi : Inv ltA ltB m) {p : Nat} {a : A} {b : B}
    (hp : m.pairAt p = some (a, b)) :
    ∃ m', m.erasePair ltA ltB (some p) = .ok m' ∧ Inv ltA ltB m' ∧ m'.pairAt p = none ∧
      m'.pairs = m.pairs.filter (fun q => q ≠ (a, b)) ∧ (m'.set1 = [] ↔ m'.pairs = []) ∧ (m'.set2 = [] ↔ m'.pairs = []) := by
  have hm := pairAt_mem hp
  obtain ⟨m', e, hi', hs⟩ := hi.erasePair hA hB hm
  refine ⟨m', e, hi', ?_, ?_, ?_, ?_⟩
  · cases hx : m'.pairAt p with
    | none => rfl
    | some q =>
      have := pairAt_mem hx
      rw [hs] at this
      simp at this
  · rw [Bm.pairs, hs, Bm.pairs, List.filter_map]
    congr 1
    apply List.filter_congr
    rintro ⟨p', a', b'⟩ hx
    simp only [Function.comp_apply, decide_eq_decide]
    constructor
    · rintro hne h
      obtain ⟨rfl, rfl⟩ := Prod.mk.inj h
      exact hne (hi.key_unique hA hx hm).1
    · rintro hne rfl
      have u := pairAt_of_mem hi.ids hx
      rw [hp] at u
      exact hne (Option.some.inj u).symm
  · obtain ⟨l, h1, h2⟩ := hi'.i1
    rw [h1.eq, List.map_eq_nil_iff, List.eq_nil_iff_forall_not_mem, List.eq_nil_iff_forall_not_mem]
    constructor
    · rintro h ⟨a', b'⟩ hx
      obtain ⟨p', hx⟩ := mem_pairs.1 hx
      exact h _ ((h2 a' p').2 ⟨b', hx⟩)
    · rintro h ⟨a', p'⟩ hx
      obtain ⟨b', hx⟩ := (h2 a' p').1 hx
      exact h (a', b') (mem_pairs.2 ⟨p', hx⟩)
  · obtain ⟨l, h1, h2⟩ := hi'.i2
    rw [h1.eq, List.map_eq_nil_iff, List.eq_nil_iff_forall_not_mem, List.eq_nil_iff_forall_not_mem]
    constructor
    · rintro h ⟨a', b'⟩ hx
      obtain ⟨p', hx⟩ := mem_pairs.1 hx
      exact h _ ((h2 b' p').2 ⟨a', hx⟩)
    · rintro h ⟨b', p'⟩ hx
      obtain ⟨a', hx⟩ := (h2 b' p').1 hx
      exact h (a', b') (mem_pairs.2 ⟨p', hx⟩)

/-- **C140 (erasing by a reference, without assertions).** In every state a legal history leads to, erasing a pair through a
reference to one of its own keys removes exactly that pair. -/
theorem C140_erase_own_key (hA : StrictTotal ltA) (hB : StrictTotal ltB) (os : List (Op A B)) (hos : LegalRun [] os) :
    ∃ m, run ltA ltB false (Bm.empty : Bm A B) os = .ok m ∧ ∀ p q, m.pairAt p = some q →
      ∃ m', m.eraseRef1 ltA ltB false p = .ok m' ∧ m.eraseRef2 ltA ltB false p = .ok m' ∧
        m'.pairs = m.pairs.filter (fun x => x ≠ q) := by
  obtain ⟨m, e, hi, hp⟩ := inv_run hA hB (dbg := false) os (inv_empty (A := A) (B := B)) hos
  refine ⟨m, e, ?_⟩
  rintro p ⟨a, b⟩ hx
  obtain ⟨m', e', hi', hn, hps, _, _⟩ := erased hA hB hi hx
  have hm := pairAt_mem hx
  have f1 : setFind ltA m.deref1 m.set1 a = .ok (some p) := hi.find1_mem hA hm
  have f2 : setFind ltB m.deref2 m.set2 b = .ok (some p) := hi.find2_mem hB hm
  refine ⟨m', ?_, ?_, hps⟩
  · have d : m.deref1 p = some a := by simp [Bm.deref1, hx]
    simp only [Bm.eraseRef1, assertDbg, setFindRef, d]
    simp [f1, e']
  · have d : m.deref2 p = some b := by simp [Bm.deref2, hx]
    simp only [Bm.eraseRef2, assertDbg, setFindRef, d]
    simp [f2, e']

/-- **C140, violated with assertions on**: the closing assertion of `erase` reads the key again. If it is a key of the erased pair,
that is a read of freed memory, in every state with another pair left; it goes unnoticed only for the last pair. -/
theorem C140_erase_own_key_debug (hA : StrictTotal ltA) (hB : StrictTotal ltB) (os : List (Op A B)) (hos : LegalRun [] os) :
    ∃ m, run ltA ltB true (Bm.empty : Bm A B) os = .ok m ∧ ∀ p q, m.pairAt p = some q →
      (m.pairs ≠ [q] → m.eraseRef1 ltA ltB true p = .ub ∧ m.eraseRef2 ltA ltB true p = .ub) ∧
      (m.pairs = [q] → ∃ m', m.eraseRef1 ltA ltB true p = .ok m' ∧ m.eraseRef2 ltA ltB true p = .ok m' ∧ m'.pairs = []) := by
  obtain ⟨m, e, hi, hp⟩ := inv_run hA hB (dbg := true) os (inv_empty (A := A) (B := B)) hos
  refine ⟨m, e, ?_⟩
  rintro p ⟨a, b⟩ hx
  obtain ⟨m', e', hi', hn, hps, hs1, hs2⟩ := erased hA hB hi hx
  have hm := pairAt_mem hx
  have f1 : setFindRef ltA m.deref1 m.set1 (m.deref1 p) = .ok (some p) := by
    rw [show m.deref1 p = some a by simp [Bm.deref1, hx]]; exact hi.find1_mem hA hm
  have f2 : setFindRef ltB m.deref2 m.set2 (m.deref2 p) = .ok (some p) := by
    rw [show m.deref2 p = some b by simp [Bm.deref2, hx]]; exact hi.find2_mem hB hm
  have d1 : m'.deref1 p = none := by simp [Bm.deref1, hn]
  have d2 : m'.deref2 p = none := by simp [Bm.deref2, hn]
  have hnil : m'.pairs = [] ↔ m.pairs = [(a, b)] := by
    have hnd := (hi.bijection hA hB).1
    have hmem : (a, b) ∈ m.pairs := mem_pairs.2 ⟨p, hm⟩
    rw [hps]
    constructor
    · intro h
      have hall : ∀ q ∈ m.pairs, q = (a, b) := by
        intro q hq
        refine Classical.byContradiction fun hne => ?_
        have : q ∈ m.pairs.filter (fun q => q ≠ (a, b)) := List.mem_filter.2 ⟨hq, by simpa using hne⟩
        rw [h] at this; simp at this
      revert hall hmem hnd
      generalize m.pairs = l
      intro hnd hmem hall
      match l with
      | [] => simp at hmem
      | [x] => rw [hall x (by simp)]
      | x :: y :: l =>
        rw [hall x (by simp), hall y (by simp)] at hnd
        simp at hnd
    · intro h; rw [h]; simp
  constructor
  · intro hne
    have h1 : m'.set1 ≠ [] := fun h => hne (hnil.1 (hs1.1 h))
    have h2 : m'.set2 ≠ [] := fun h => hne (hnil.1 (hs2.1 h))
    constructor
    · simp only [Bm.eraseRef1, assertDbg, if_true, f1, Outcome.bind_ok, e']
      simp [setFindRef, d1, h1, Outcome.check]
    · simp only [Bm.eraseRef2, assertDbg, if_true, f2, Outcome.bind_ok, e']
      simp [setFindRef, d2, h2, Outcome.check]
  · intro heq
    have h1 : m'.set1 = [] := hs1.2 (hnil.2 heq)
    have h2 : m'.set2 = [] := hs2.2 (hnil.2 heq)
    refine ⟨m', ?_, ?_, hnil.2 heq⟩
    · simp only [Bm.eraseRef1, assertDbg, if_true, f1, Outcome.bind_ok, e']
      simp [setFindRef, d1, h1, Outcome.check]
    · simp only [Bm.eraseRef2, assertDbg, if_true, f2, Outcome.bind_ok, e']
      simp [setFindRef, d2, h2, Outcome.check]

/-! ## Cases -/

def refDemo : List (Op Nat Nat) := [.emplace 5 1, .emplace 3 7, .erase1 5, .emplace 5 2, .emplace 9 9]

example : LegalRun [] (refDemo ++ [.erase2 2, .emplace 5 1]) := by simp [refDemo, LegalRun, Legal, specStep]

/-- The pair (3, 7) is at address 1 throughout. -/
example : ∀ n, ((3, 7) : Nat × Nat) ∈ specRun (specRun [] refDemo) ([.erase2 2, .emplace 5 1].take n) := by
  intro n
  match n with
  | 0 => decide
  | 1 => decide
  | n + 2 => simp [refDemo, specRun, specStep]

example : ∃ m m', run ltN ltN true (Bm.empty : Bm Nat Nat) refDemo = .ok m ∧ m.pairAt 1 = some (3, 7) ∧
    m.eraseRef1 ltN ltN true 1 = .ub ∧ m.eraseRef1 ltN ltN false 1 = .ok m' ∧ m'.pairs = [(5, 2), (9, 9)] :=
  ⟨_, _, rfl, by decide, by decide, rfl, by decide⟩

end Verif.Bimap
