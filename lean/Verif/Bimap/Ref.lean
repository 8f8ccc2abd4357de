import Verif.Bimap.Lemmas

/-!
# References into a bimap

Source: `include/SSVUtils/Bimap/Inc/Bimap.hpp:115-129, 149-159`.

A reference to a pair is its address. `erase` takes its key by reference; here the reference may lead into the bimap itself, as in
`bm.erase(bm.at(b))` or `bm.erase(p->first)` in a loop. With assertions on, `eraseImpl` looks the key up once more at the end.
-/

namespace Verif.Bimap

open Verif Verif.Container

variable {A B : Type} {ltA : A → A → Bool} {ltB : B → B → Bool}

/-- `set.find(&k)` where `k` is a reference that may dangle: a set without elements compares nothing, any other reads `k`. -/
def setFindRef (lt : A → A → Bool) (deref : Nat → Option A) (s : List Nat) (k : Option A) : Outcome (Option Nat) :=
  match k with
  | some k => setFind lt deref s k
  | none => if s = [] then .ok none else .ub

/-- `erase((*p).first)`: `eraseImpl`, Bimap.hpp:115-129, with a key inside the pair at `p`. -/
def Bm.eraseRef1 (ltA : A → A → Bool) (ltB : B → B → Bool) (m : Bm A B) (dbg : Bool) (p : Nat) : Outcome (Bm A B) := do
  assertDbg dbg (do return (← setFindRef ltA m.deref1 m.set1 (m.deref1 p)).isSome)
  let q ← setFindRef ltA m.deref1 m.set1 (m.deref1 p)
  let m ← m.erasePair ltA ltB q
  assertDbg dbg (do return !(← setFindRef ltA m.deref1 m.set1 (m.deref1 p)).isSome)
  return m

/-- `erase((*p).second)`. -/
def Bm.eraseRef2 (ltA : A → A → Bool) (ltB : B → B → Bool) (m : Bm A B) (dbg : Bool) (p : Nat) : Outcome (Bm A B) := do
  assertDbg dbg (do return (← setFindRef ltB m.deref2 m.set2 (m.deref2 p)).isSome)
  let q ← setFindRef ltB m.deref2 m.set2 (m.deref2 p)
  let m ← m.erasePair ltA ltB q
  assertDbg dbg (do return !(← setFindRef ltB m.deref2 m.set2 (m.deref2 p)).isSome)
  return m

/-! ### Lemmas -/

theorem emplace_storage {m m' : Bm A B} {dbg : Bool} {a : A} {b : B} (h : m.emplace ltA ltB dbg a b = .ok m') :
    m'.storage = m.storage ++ [(m.next, a, b)] := by
  unfold Bm.emplace at h
  obtain ⟨_, _, h⟩ := Outcome.bind_eq_ok.1 h
  obtain ⟨s1, _, h⟩ := Outcome.bind_eq_ok.1 h
  obtain ⟨s2, _, h⟩ := Outcome.bind_eq_ok.1 h
  injection h with h
  rw [← h]

theorem erasePair_storage {m m' : Bm A B} {p : Option Nat} (h : m.erasePair ltA ltB p = .ok m') :
    m'.storage = m.storage.filter (fun x => some x.1 != p) := by
  unfold Bm.erasePair at h
  obtain ⟨_, _, h⟩ := Outcome.bind_eq_ok.1 h
  obtain ⟨s1, _, h⟩ := Outcome.bind_eq_ok.1 h
  obtain ⟨s2, _, h⟩ := Outcome.bind_eq_ok.1 h
  injection h with h
  rw [← h]

/-- What any operation does to the storage: new pairs at the end, others removed. -/
theorem step_storage {m m' : Bm A B} {dbg : Bool} {o : Op A B} (h : step ltA ltB dbg m o = .ok m') :
    (∃ a b, o = .emplace a b ∧ m'.storage = m.storage ++ [(m.next, a, b)]) ∨
      m'.storage.Sublist m.storage := by
  cases o with
  | emplace a b => exact .inl ⟨a, b, rfl, emplace_storage h⟩
  | erase1 a =>
    simp only [step, Bm.erase1] at h
    obtain ⟨_, _, h⟩ := Outcome.bind_eq_ok.1 h
    obtain ⟨q, _, h⟩ := Outcome.bind_eq_ok.1 h
    obtain ⟨m1, h1, h⟩ := Outcome.bind_eq_ok.1 h
    obtain ⟨_, _, h⟩ := Outcome.bind_eq_ok.1 h
    injection h with h
    rw [← h, erasePair_storage h1]
    exact .inr List.filter_sublist
  | erase2 a =>
    simp only [step, Bm.erase2] at h
    obtain ⟨_, _, h⟩ := Outcome.bind_eq_ok.1 h
    obtain ⟨q, _, h⟩ := Outcome.bind_eq_ok.1 h
    obtain ⟨m1, h1, h⟩ := Outcome.bind_eq_ok.1 h
    obtain ⟨_, _, h⟩ := Outcome.bind_eq_ok.1 h
    injection h with h
    rw [← h, erasePair_storage h1]
    exact .inr List.filter_sublist
  | clear =>
    injection h with h
    rw [← h]
    exact .inr (List.nil_sublist _)

theorem pairAt_mem {m : Bm A B} {p : Nat} {q : A × B} (h : m.pairAt p = some q) : (p, q) ∈ m.storage := by
  simp only [Bm.pairAt, Option.map_eq_some_iff] at h
  obtain ⟨⟨p', q'⟩, h1, h2⟩ := h
  have := List.mem_of_find?_eq_some h1
  have h3 := List.find?_some h1
  simp at h2 h3
  subst h2 h3
  exact this

variable [DecidableEq A] [DecidableEq B]

/-- A pair that is still there after an operation has not moved. -/
theorem stay_step (h1 : StrictTotal ltA) {m m' : Bm A B} (hi : Inv ltA ltB m) (hi' : Inv ltA ltB m') {dbg : Bool} {o : Op A B}
    (h : step ltA ltB dbg m o = .ok m') {p : Nat} {q : A × B} (hp : m.pairAt p = some q) (hq : q ∈ m'.pairs) :
    m'.pairAt p = some q := by
  have hm := pairAt_mem hp
  obtain ⟨a, b⟩ := q
  obtain ⟨p', hp'⟩ := mem_pairs.1 hq
  rcases step_storage h with ⟨a', b', -, hs⟩ | hs
  · exact pairAt_of_mem hi'.ids (by rw [hs]; exact List.mem_append_left _ hm)
  · obtain ⟨rfl, -⟩ := hi.key_unique h1 hm (hs.subset hp')
    exact pairAt_of_mem hi'.ids hp'

end Verif.Bimap
