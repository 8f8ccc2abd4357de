import Verif.RecVec.Sim

/-!
# C126: recycling vectors
-/

namespace Verif.RecVec

open Verif Verif.Recycler

/-- `sizeof(TBase)` is at least the size of a pointer (`static_assert`, StorageImpl.hpp:38-42), and every type made or listed is at
least as big as its base class. (Vectors use the layout without the alive flag, ManagerImpl.hpp:73-76.) -/
def VTypes (cfg : Cfg) (os : List VOp) : Prop :=
  cfg.withBool = false ∧ 8 ≤ cfg.base.size ∧ (∀ t, VMakes os t → cfg.base.size ≤ t.size) ∧
    ∀ sizes, VOp.newFixed sizes ∈ os → ∀ k ∈ sizes, cfg.base.size ≤ k

/-- Vectors that are monomorphic or have a fixed list of types are moved only while they own no object. -/
def MovedEmpty (cfg : Cfg) (os : List VOp) : Prop := VAbs.init.movesOk cfg.base os = true

theorem vinv_legal {cfg os a} (lk : Bool) (h : VLegal cfg.base os a) (ht : VTypes cfg os) (hm : MovedEmpty cfg os)
    (hx : lk = false → ∀ v t, VOp.createThrow v t ∉ os) : ∃ s b, vrun cfg VState.init os = .ok s ∧ VInv cfg lk s a b := by
  refine vinv_run cfg lk ht.2.1 os _ _ a _ (vinv_init cfg lk) h (fun t hv => ⟨?_, Nat.le_trans ht.2.1 (ht.2.2.1 t hv)⟩)
    (fun sizes hz k hk => Nat.le_trans ht.2.1 (ht.2.2.2 sizes hz k hk)) hm hx
  simp [Cfg.itemOffset, ht.1]

/-- Position `j` of vector `v` holds object `i` of type `t`. -/
def Holds (s : VState) (v j i : Nat) (t : Ty) : Prop := ∃ es, s.vecs[v]? = some (some es) ∧ es[j]? = some (some (i, t))

theorem holds_abs {cfg lk s a b} (h : VInv cfg lk s a b) {v j i : Nat} {t : Ty} (hh : Holds s v j i t) :
    ∃ k es, a.vecs[v]? = some (some (k, es)) ∧ es[j]? = some (some (i, t)) := by
  obtain ⟨es, h1, h2⟩ := hh
  rw [h.vecs, contents, List.getElem?_map] at h1
  cases hv : a.vecs[v]? with
  | none => simp [hv] at h1
  | some o =>
    cases o with
    | none => simp [hv] at h1
    | some p =>
      obtain ⟨k, es'⟩ := p
      simp only [hv, Option.map_some, Option.some.injEq] at h1
      subst h1
      exact ⟨k, es', rfl, h2⟩

theorem ids_inj (es : List Entry) (hn : (ids es).Nodup) (j j' i : Nat) (t t' : Ty) (h : es[j]? = some (some (i, t)))
    (h' : es[j']? = some (some (i, t'))) : j = j' := by
  induction es generalizing j j' with
  | nil => simp at h
  | cons e es ih =>
    have tail : (ids es).Nodup := by
      cases e with
      | none => exact hn
      | some p => exact (List.nodup_cons.1 hn).2
    have head : ∀ (i : Nat) (t t' : Ty) (n : Nat), e = some (i, t) → es[n]? = some (some (i, t')) → False := by
      rintro i t t' n rfl hx
      exact (List.nodup_cons.1 hn).1 (mem_ids.2 ⟨t', List.mem_of_getElem? hx⟩)
    cases j with
    | zero =>
      cases j' with
      | zero => rfl
      | succ n' => exact (head i t t' n' (by simpa using h) (by simpa using h')).elim
    | succ n =>
      cases j' with
      | zero => exact (head i t' t n (by simpa using h') (by simpa using h)).elim
      | succ n' => rw [ih tail n n' (by simpa using h) (by simpa using h')]

/-- **C126 (ownership).** Every legal history of vectors — polymorphic ones may be moved at any time, constructors may throw, and
vectors are destroyed in any order — runs without undefined behaviour and leaves the vectors with exactly the sequences of objects
of the specification. Every object in a vector is alive, in a block of the size of its type; no two positions of any vectors hold
the same object or share a block; and every object that exists is in some vector. -/
theorem C126_ownership_partial (cfg : Cfg) (os : List VOp) (a : VAbs) (h : VLegal cfg.base os a) (ht : VTypes cfg os)
    (hm : MovedEmpty cfg os) :
    ∃ s, vrun cfg VState.init os = .ok s ∧ s.vecs = a.vecs.map (Option.map Prod.snd) ∧
      (∀ v j i t, Holds s v j i t → ∃ p c, s.st.ptrs[i]? = some (some (p, c)) ∧ s.st.heap[p]? = some (Block.mk t.size (.obj i))) ∧
      (∀ v v' j j' i i' t t' p c c', Holds s v j i t → Holds s v' j' i' t' → s.st.ptrs[i]? = some (some (p, c)) →
        s.st.ptrs[i']? = some (some (p, c')) → v = v' ∧ j = j') ∧
      (∀ (p n i : Nat), s.st.heap[p]? = some (Block.mk n (.obj i)) → ∃ v j t, Holds s v j i t) := by
  obtain ⟨s, b, h1, h2⟩ := vinv_legal true h ht hm (by simp)
  obtain ⟨fl, bs, hi⟩ := h2.inv
  have toObj : ∀ v j i t, Holds s v j i t → b.objs[i]? = some (some (v, t)) := by
    intro v j i t hh
    obtain ⟨k, es, g1, g2⟩ := holds_abs h2 hh
    exact (h2.corr.objs i v t).2 ⟨k, es, g1, List.mem_of_getElem? g2⟩
  refine ⟨s, h1, h2.vecs, ?_, ?_, ?_⟩
  · intro v j i t hh
    have ho := toObj v j i t hh
    obtain ⟨_, p, c, hp⟩ := hi.objs i v t ho
    obtain ⟨_, _, _, _, _, _, hb⟩ := hi.ptrs i p c hp
    have hl := hi.lay i v t p c ho hp
    refine ⟨p, c, hp, ?_⟩
    rw [hb, ← hl]; simp [Cfg.layoutSize, Cfg.itemOffset, ht.1]
  · intro v v' j j' i i' t t' p c c' hh hh' hp hp'
    obtain ⟨_, _, _, _, _, _, hb⟩ := hi.ptrs i p c hp
    obtain ⟨_, _, _, _, _, _, hb'⟩ := hi.ptrs i' p c' hp'
    have hii : i = i' := by rw [hb] at hb'; simp at hb'; exact hb'.2
    subst hii
    have e := (toObj _ _ _ _ hh).symm.trans (toObj _ _ _ _ hh')
    simp only [Option.some.injEq, Prod.mk.injEq] at e
    obtain ⟨rfl, rfl⟩ := e
    obtain ⟨k, es, g1, g2⟩ := holds_abs h2 hh
    obtain ⟨k', es', g1', g2'⟩ := holds_abs h2 hh'
    rw [g1] at g1'; simp at g1'; obtain ⟨rfl, rfl⟩ := g1'
    exact ⟨rfl, ids_inj es (h2.corr.nodup _ _ _ g1) j j' i t t g2 g2'⟩
  · intro p n i hb
    obtain ⟨c, hp⟩ := hi.heapObj p n i hb
    obtain ⟨r, t, _, ho, _⟩ := hi.ptrs i p c hp
    obtain ⟨k, es, g1, g2⟩ := (h2.corr.objs i r t).1 ho
    obtain ⟨j, hj⟩ := List.getElem?_of_mem g2
    refine ⟨r, j, t, es, ?_, hj⟩
    rw [h2.vecs, contents, List.getElem?_map, g1]; rfl

/-- **C126 (release).** When all vectors have been destroyed, in whatever order, every block has been given back exactly once —
unless a constructor has thrown. -/
theorem C126_all_freed_partial (cfg : Cfg) (os : List VOp) (a : VAbs) (h : VLegal cfg.base os a) (ht : VTypes cfg os)
    (hm : MovedEmpty cfg os) (hx : ∀ v t, VOp.createThrow v t ∉ os) (hend : ∀ v ∈ a.vecs, v = none) :
    ∃ s, vrun cfg VState.init os = .ok s ∧ ∀ b ∈ s.st.heap, b.content = .freed := by
  obtain ⟨s, b, h1, h2⟩ := vinv_legal false h ht hm (fun _ => hx)
  obtain ⟨fl, bs, hi⟩ := h2.inv
  refine ⟨s, h1, ?_⟩
  have hnone : ∀ (r : Nat) (rec : Rec), s.st.recs[r]? ≠ some (some rec) := by
    intro r rec hr
    have : (some rec.kind) ∈ b.recs := by
      rw [← hi.kinds, List.mem_map]; exact ⟨_, List.mem_of_getElem? hr, rfl⟩
    rw [h2.corr.kinds, List.mem_map] at this
    obtain ⟨o, ho, e⟩ := this
    rw [hend o ho] at e; simp at e
  intro bl hb
  obtain ⟨p, hp⟩ := List.getElem?_of_mem hb
  obtain ⟨n, c⟩ := bl
  cases c with
  | raw => exact absurd hp (hi.heapRaw p n rfl)
  | obj i =>
    obtain ⟨c, hc⟩ := hi.heapObj p n i hp
    obtain ⟨r, _, rec, _, h3, _⟩ := hi.ptrs i p c hc
    exact absurd h3 (hnone r rec)
  | link nxt =>
    obtain ⟨c, hc⟩ := hi.heapLink p n nxt hp rfl
    by_cases hx : ∃ b, s.st.chunks[c]? = some ⟨true, b⟩
    · obtain ⟨b, hb⟩ := hx
      obtain ⟨r, rec, h3, _⟩ := hi.chunkRec c b hb
      exact absurd h3 (hnone r rec)
    · rw [hi.dead c (fun b hb => hx ⟨b, hb⟩)] at hc; simp at hc
  | freed => rfl

/-! ## References stay valid -/

/-- No pointer is changed except by its destruction. -/
def Stable (s s' : State) : Prop :=
  ∀ (i : Nat) (x : Option (Nat × Nat)), s.ptrs[i]? = some x → s'.ptrs[i]? = some x ∨ s'.ptrs[i]? = some none

theorem Stable.refl (s : State) : Stable s s := fun _ _ h => .inl h

theorem Stable.trans {s s1 s2 : State} (h : Stable s s1) (h' : Stable s1 s2) : Stable s s2 := by
  intro i x hx
  rcases h i x hx with h1 | h1
  · exact h' i x h1
  · rcases h' i _ h1 with h2 | h2 <;> exact .inr h2

theorem Stable.of_eq {s s' : State} (h : s'.ptrs = s.ptrs) : Stable s s' := fun i x hx => .inl (by rw [h]; exact hx)

theorem stable_delete {cfg : Cfg} {s s' : State} {i : Nat} {t : Ty} (h : s.delete cfg i t = .ok s') : Stable s s' := by
  unfold State.delete at h
  split at h
  · obtain ⟨ch, _, h⟩ := Outcome.bind_eq_ok.1 h
    split at h
    · split at h
      · simp at h
      · cases h
        intro j x hx
        by_cases hj : j = i
        · subst hj; exact .inr (by simp [lt_of_get hx])
        · exact .inl (by simpa [List.getElem?_set_ne (Ne.symm hj)] using hx)
    · simp at h
  · simp at h

theorem stable_deleteAll {cfg : Cfg} {s s' : State} {es : List Entry} (h : deleteAll cfg s es = .ok s') : Stable s s' := by
  induction es generalizing s with
  | nil => cases h; exact Stable.refl _
  | cons e es ih =>
    cases e with
    | none => exact ih h
    | some p =>
      obtain ⟨i, t⟩ := p
      simp only [deleteAll] at h
      obtain ⟨s1, h1, h2⟩ := Outcome.bind_eq_ok.1 h
      exact (stable_delete h1).trans (ih h2)

theorem ptrs_allocate (s : State) (n : Nat) : (s.allocate n).1.ptrs = s.ptrs := rfl

theorem construct_ptrs {cfg : Cfg} {s s' : State} {p i : Nat} {t : Ty} (h : s.construct cfg t p i = .ok s') : s'.ptrs = s.ptrs := by
  unfold State.construct at h
  split at h
  · split at h
    · simp at h
    · injection h with h; rw [← h]
  · simp at h

theorem chunkCreate_ptrs {cfg : Cfg} {s s' : State} {c : Nat} {t : Ty} (h : s.chunkCreate cfg c t = .ok s') :
    ∃ x, s'.ptrs = s.ptrs ++ [some x] := by
  unfold State.chunkCreate at h
  obtain ⟨⟨al, base⟩, h0, h⟩ := Outcome.bind_eq_ok.1 h
  cases base with
  | none =>
    obtain ⟨s2, h3, h⟩ := Outcome.bind_eq_ok.1 h
    cases h3
    obtain ⟨s3, h4, h5⟩ := Outcome.bind_eq_ok.1 h
    injection h5 with h5
    exact ⟨_, by rw [← h5]; simp only [construct_ptrs h4]; rfl⟩
  | some a =>
    obtain ⟨nxt, h1, h⟩ := Outcome.bind_eq_ok.1 h
    obtain ⟨s2, h3, h⟩ := Outcome.bind_eq_ok.1 h
    cases h3
    obtain ⟨s3, h4, h5⟩ := Outcome.bind_eq_ok.1 h
    injection h5 with h5
    exact ⟨_, by rw [← h5]; simp only [construct_ptrs h4]; rfl⟩

theorem create_ptrs {cfg : Cfg} {s s' : State} {r : Nat} {t : Ty} (h : s.create cfg r t = .ok s') :
    ∃ x, s'.ptrs = s.ptrs ++ [some x] := by
  unfold State.create at h
  obtain ⟨⟨s1, c⟩, h1, h2⟩ := Outcome.bind_eq_ok.1 h
  have e1 : s1.ptrs = s.ptrs := by
    unfold State.getChunk at h1
    split at h1
    · split at h1
      · cases h1; rfl
      · simp at h1
    · split at h1
      · cases h1; rfl
      · cases h1; rfl
    · split at h1
      · cases h1; rfl
      · simp at h1
    · simp at h1
  have e2 := chunkCreate_ptrs h2
  obtain ⟨x, e2⟩ := e2
  exact ⟨x, by rw [e2, e1]⟩

theorem stable_create {cfg : Cfg} {s s' : State} {r : Nat} {t : Ty} (h : s.create cfg r t = .ok s') : Stable s s' := by
  obtain ⟨x, hx⟩ := create_ptrs h
  intro i y hy
  exact .inl (by rw [hx, List.getElem?_append_left (lt_of_get hy)]; exact hy)

theorem stable_createThrow {cfg : Cfg} {s s' : State} {r : Nat} {t : Ty} (h : s.createThrow cfg r t = .ok s') : Stable s s' := by
  unfold State.createThrow at h
  obtain ⟨s1, h1, h2⟩ := Outcome.bind_eq_ok.1 h
  refine (stable_create h1).trans ?_
  split at h2
  · split at h2
    · cases h2
      intro j x hx
      by_cases hj : j = s1.ptrs.length - 1
      · subst hj; exact .inr (by simp [lt_of_get hx])
      · exact .inl (by simpa [List.getElem?_set_ne (Ne.symm hj)] using hx)
    · simp at h2
  · simp at h2

theorem freeChain_ptrs {fuel : Nat} {s s' : State} {b : Option Nat} (h : freeChain fuel s b = .ok s') : s'.ptrs = s.ptrs := by
  induction fuel generalizing s b with
  | zero =>
    cases b with
    | none => cases h; rfl
    | some a => simp [freeChain] at h
  | succ n ih =>
    cases b with
    | none => cases h; rfl
    | some a =>
      simp only [freeChain] at h
      obtain ⟨nxt, _, h⟩ := Outcome.bind_eq_ok.1 h
      obtain ⟨s1, h1, h⟩ := Outcome.bind_eq_ok.1 h
      rw [ih h]
      unfold State.deallocate at h1
      split at h1
      · split at h1
        · simp at h1
        · cases h1; rfl
      · simp at h1

theorem destroyRec_ptrs {s s' : State} {r : Nat} (h : s.destroyRec r = .ok s') : s'.ptrs = s.ptrs := by
  have key : ∀ (cs : List Nat) (s s' : State), destroyChunks s cs = .ok s' → s'.ptrs = s.ptrs := by
    intro cs
    induction cs with
    | nil => intro s s' h; cases h; rfl
    | cons c cs ih =>
      intro s s' h
      simp only [destroyChunks] at h
      obtain ⟨s1, h1, h⟩ := Outcome.bind_eq_ok.1 h
      rw [ih _ _ h]
      unfold State.destroyChunk at h1
      obtain ⟨ch, _, h1⟩ := Outcome.bind_eq_ok.1 h1
      obtain ⟨s2, h2, h1⟩ := Outcome.bind_eq_ok.1 h1
      injection h1 with h1
      rw [← h1]
      have e := freeChain_ptrs h2
      exact e
  unfold State.destroyRec at h
  split at h
  · obtain ⟨s1, h1, h⟩ := Outcome.bind_eq_ok.1 h
    injection h with h
    rw [← h]
    have e := key _ _ _ h1
    exact e
  · simp at h

theorem moveHolders_ptrs {m m' : List (Nat × Nat)} {s s' : State} (h : moveHolders s m = .ok (s', m')) : s'.ptrs = s.ptrs := by
  induction m generalizing s s' m' with
  | nil => cases h; rfl
  | cons x m ih =>
    obtain ⟨k, c⟩ := x
    simp only [moveHolders] at h
    obtain ⟨⟨s1, m1⟩, h1, h⟩ := Outcome.bind_eq_ok.1 h
    obtain ⟨ch, _, h⟩ := Outcome.bind_eq_ok.1 h
    cases h
    have := ih h1
    exact this

theorem moveRec_ptrs {s s' : State} {r : Nat} (h : s.moveRec r = .ok s') : s'.ptrs = s.ptrs := by
  unfold State.moveRec at h
  split at h
  · obtain ⟨ch, _, h⟩ := Outcome.bind_eq_ok.1 h
    cases h; rfl
  · cases h; rfl
  · obtain ⟨⟨cs, m⟩, h1, h⟩ := Outcome.bind_eq_ok.1 h
    cases h
    have := moveHolders_ptrs h1
    exact this
  · simp at h

theorem stable_vstep {cfg : Cfg} {s s' : VState} {o : VOp} (h : vstep cfg s o = .ok s') : Stable s.st s'.st := by
  cases o with
  | newMono => cases h; exact Stable.of_eq rfl
  | newPoly => cases h; exact Stable.of_eq rfl
  | newFixed sizes => cases h; exact Stable.of_eq rfl
  | create v t =>
    simp only [vstep] at h
    obtain ⟨es, _, h⟩ := Outcome.bind_eq_ok.1 h
    obtain ⟨st, h1, h⟩ := Outcome.bind_eq_ok.1 h
    cases h; exact stable_create h1
  | createAt v i t =>
    simp only [vstep] at h
    obtain ⟨es, _, h⟩ := Outcome.bind_eq_ok.1 h
    obtain ⟨st, h1, h⟩ := Outcome.bind_eq_ok.1 h
    split at h
    · simp at h
    · cases h; exact stable_create h1
  | createThrow v t =>
    simp only [vstep] at h
    obtain ⟨es, _, h⟩ := Outcome.bind_eq_ok.1 h
    obtain ⟨st, h1, h⟩ := Outcome.bind_eq_ok.1 h
    cases h; exact stable_createThrow h1
  | reset v i =>
    simp only [vstep] at h
    obtain ⟨es, _, h⟩ := Outcome.bind_eq_ok.1 h
    split at h
    · obtain ⟨st, h1, h⟩ := Outcome.bind_eq_ok.1 h
      cases h; exact stable_delete h1
    · cases h; exact Stable.refl _
    · simp at h
  | swap v i j =>
    simp only [vstep] at h
    obtain ⟨es, _, h⟩ := Outcome.bind_eq_ok.1 h
    split at h
    · cases h; exact Stable.refl _
    · simp at h
  | clear v =>
    simp only [vstep] at h
    obtain ⟨es, _, h⟩ := Outcome.bind_eq_ok.1 h
    obtain ⟨st, h1, h⟩ := Outcome.bind_eq_ok.1 h
    cases h; exact stable_deleteAll h1
  | move v =>
    simp only [vstep] at h
    obtain ⟨es, _, h⟩ := Outcome.bind_eq_ok.1 h
    obtain ⟨st, h1, h⟩ := Outcome.bind_eq_ok.1 h
    cases h; exact Stable.of_eq (moveRec_ptrs h1)
  | destroy v =>
    simp only [vstep] at h
    obtain ⟨es, _, h⟩ := Outcome.bind_eq_ok.1 h
    obtain ⟨st, h1, h⟩ := Outcome.bind_eq_ok.1 h
    obtain ⟨st', h2, h⟩ := Outcome.bind_eq_ok.1 h
    cases h; exact (stable_deleteAll h1).trans (Stable.of_eq (destroyRec_ptrs h2))

theorem stable_vrun {cfg : Cfg} {s s' : VState} {os : List VOp} (h : vrun cfg s os = .ok s') : Stable s.st s'.st := by
  induction os generalizing s with
  | nil => cases h; exact Stable.refl _
  | cons o os ih =>
    simp only [vrun] at h
    obtain ⟨s1, h1, h2⟩ := Outcome.bind_eq_ok.1 h
    exact (stable_vstep h1).trans (ih h2)

theorem run_split {base : Ty} {os os' : List VOp} {a a' : VAbs} (h : a.run base (os ++ os') = some a')
    (hm : a.movesOk base (os ++ os') = true) :
    ∃ a1, a.run base os = some a1 ∧ a1.run base os' = some a' ∧ a.movesOk base os = true := by
  induction os generalizing a with
  | nil => exact ⟨a, rfl, h, rfl⟩
  | cons o os ih =>
    simp only [List.cons_append, VAbs.run, Option.bind_eq_some_iff] at h
    obtain ⟨a1, h1, h2⟩ := h
    rw [List.cons_append, VAbs.movesOk, Bool.and_eq_true, h1] at hm
    obtain ⟨a2, g1, g2, g3⟩ := ih h2 hm.2
    refine ⟨a2, by simp [VAbs.run, h1, g1], g2, ?_⟩
    rw [VAbs.movesOk, Bool.and_eq_true, h1]
    exact ⟨hm.1, g3⟩

theorem vrun_append {cfg : Cfg} {s s' : VState} {os os' : List VOp} (h : vrun cfg s (os ++ os') = .ok s') :
    ∃ s1, vrun cfg s os = .ok s1 ∧ vrun cfg s1 os' = .ok s' := by
  induction os generalizing s with
  | nil => exact ⟨s, rfl, h⟩
  | cons o os ih =>
    simp only [List.cons_append, vrun] at h
    obtain ⟨s1, h1, h2⟩ := Outcome.bind_eq_ok.1 h
    obtain ⟨s2, g1, g2⟩ := ih h2
    exact ⟨s2, by simp [vrun, h1, g1], g2⟩

/-- **C126 (references).** While an object stays in vectors it stays at its address, whatever happens in between: insertions,
swaps, growth, or a move of its vector. -/
theorem C126_references_partial (cfg : Cfg) (os os' : List VOp) (a : VAbs) (h : VLegal cfg.base (os ++ os') a)
    (ht : VTypes cfg (os ++ os')) (hm : MovedEmpty cfg (os ++ os')) :
    ∃ s s', vrun cfg VState.init os = .ok s ∧ vrun cfg s os' = .ok s' ∧
      ∀ v j v' j' i t t', Holds s v j i t → Holds s' v' j' i t' →
        ∃ p c, s.st.ptrs[i]? = some (some (p, c)) ∧ s'.st.ptrs[i]? = some (some (p, c)) := by
  obtain ⟨a1, r1, r2, r3⟩ := run_split h hm
  have ht1 : VTypes cfg os := ⟨ht.1, ht.2.1, fun t ⟨v, hv⟩ => ht.2.2.1 t ⟨v, by
    rcases hv with hv | ⟨i, hv⟩ | hv
    · exact .inl (List.mem_append_left _ hv)
    · exact .inr (.inl ⟨i, List.mem_append_left _ hv⟩)
    · exact .inr (.inr (List.mem_append_left _ hv))⟩,
    fun sizes hz => ht.2.2.2 sizes (List.mem_append_left _ hz)⟩
  obtain ⟨s', b', h1, h2⟩ := vinv_legal true h ht hm (by simp)
  obtain ⟨s, g1, g2⟩ := vrun_append h1
  obtain ⟨s0, b, k1, k2⟩ := vinv_legal true (a := a1) (os := os) r1 ht1 r3 (by simp)
  rw [g1] at k1; cases k1
  refine ⟨s, s', g1, g2, ?_⟩
  intro v j v' j' i t t' hh hh'
  obtain ⟨k, es, e1, e2⟩ := holds_abs k2 hh
  obtain ⟨k', es', e1', e2'⟩ := holds_abs h2 hh'
  obtain ⟨fl, bs, hi⟩ := k2.inv
  obtain ⟨fl', bs', hi'⟩ := h2.inv
  have o1 := (k2.corr.objs i v t).2 ⟨k, es, e1, List.mem_of_getElem? e2⟩
  have o2 := (h2.corr.objs i v' t').2 ⟨k', es', e1', List.mem_of_getElem? e2'⟩
  obtain ⟨_, p, c, hp⟩ := hi.objs i v t o1
  obtain ⟨_, p', c', hp'⟩ := hi'.objs i v' t' o2
  refine ⟨p, c, hp, ?_⟩
  · rcases stable_vrun g2 i _ hp with hx | hx
    · exact hx
    · rw [hx] at hp'; simp at hp'

/-! ## Cases -/

def demoCfg : Cfg := { withBool := false, base := ⟨16, 8⟩ }

/-- A vector with objects of three types, one inserted at the front; it is moved, the old one is destroyed first. -/
def demo : List VOp :=
  [.newPoly, .create 0 ⟨32, 8⟩, .create 0 ⟨48, 8⟩, .createAt 0 0 ⟨16, 8⟩, .reset 0 1, .createThrow 0 ⟨24, 8⟩, .move 0,
   .create 1 ⟨32, 8⟩, .swap 1 0 3, .destroy 0]

example : VLegal demoCfg.base demo ⟨[none, some (.poly, [some (4, ⟨32, 8⟩), none, some (1, ⟨48, 8⟩), some (2, ⟨16, 8⟩)])], 5⟩ ∧
    MovedEmpty demoCfg demo := by
  unfold VLegal MovedEmpty; decide

example : VTypes demoCfg demo := by
  refine ⟨rfl, by decide, ?_, by simp [demo]⟩
  rintro t ⟨v, h | ⟨i, h⟩ | h⟩ <;> simp [demo] at h
  · rcases h with ⟨_, rfl⟩ | ⟨_, rfl⟩ | ⟨_, rfl⟩ <;> decide
  · obtain ⟨_, _, rfl⟩ := h; decide
  · obtain ⟨_, rfl⟩ := h; decide

/-- A vector with a fixed list of types, moved while it is empty. -/
def demoFixed : List VOp :=
  [.newFixed [32, 48], .create 0 ⟨32, 8⟩, .createAt 0 0 ⟨48, 8⟩, .clear 0, .move 0, .create 1 ⟨32, 8⟩, .destroy 0]

example : VLegal demoCfg.base demoFixed ⟨[none, some (.fixed [32, 48], [some (2, ⟨32, 8⟩)])], 3⟩ ∧ MovedEmpty demoCfg demoFixed := by
  unfold VLegal MovedEmpty; decide

example : VTypes demoCfg demoFixed := by
  refine ⟨rfl, by decide, ?_, ?_⟩
  · rintro t ⟨v, h | ⟨i, h⟩ | h⟩ <;> simp [demoFixed] at h
    · rcases h with ⟨_, rfl⟩ | ⟨_, rfl⟩ <;> decide
    · obtain ⟨_, _, rfl⟩ := h; decide
  · intro sizes h
    simp [demoFixed] at h
    subst h; decide

/-- Everything destroyed, the moved-from vector first. -/
example : VLegal demoCfg.base [.newPoly, .create 0 ⟨32, 8⟩, .createAt 0 0 ⟨16, 8⟩, .move 0, .destroy 0, .clear 1, .create 1 ⟨16, 8⟩, .destroy 1]
    ⟨[none, none], 3⟩ := by unfold VLegal; decide

/-- **C126, violated by monomorphic vectors.** The objects of a moved monomorphic vector go on belonging to the old one: if that is
destroyed first — as when a vector is returned from a function without elision — destroying the new one is undefined. -/
theorem C126_mono_move_dangles : ∃ (os : List VOp) (a : VAbs),
    VLegal demoCfg.base os a ∧ (∀ t, VMakes os t → t = demoCfg.base) ∧ vrun demoCfg VState.init os = .ub ∧
      os = [.newMono, .create 0 ⟨16, 8⟩, .move 0, .destroy 0, .destroy 1] := by
  refine ⟨_, ⟨[none, none], 1⟩, by unfold VLegal; decide, ?_, by rfl, rfl⟩
  rintro t ⟨v, h | ⟨i, h⟩ | h⟩ <;> simp at h
  obtain ⟨_, rfl⟩ := h; rfl

/-- **C126, violated by vectors with a fixed list of types.** They hold their free blocks in place, too, so the same happens,
although an object of a listed type in an ordinary polymorphic vector could be moved along. -/
theorem C126_fixed_move_dangles : ∃ (os os' : List VOp) (a a' : VAbs),
    VLegal demoCfg.base os a ∧ VTypes demoCfg os ∧ vrun demoCfg VState.init os = .ub ∧
      VLegal demoCfg.base os' a' ∧ (∃ s, vrun demoCfg VState.init os' = .ok s) ∧
      os = [.newFixed [16, 32], .create 0 ⟨32, 8⟩, .move 0, .destroy 0, .destroy 1] ∧ os' = .newPoly :: os.tail := by
  refine ⟨_, _, ⟨[none, none], 1⟩, ⟨[none, none], 1⟩, by unfold VLegal; decide, ?_, by rfl, by unfold VLegal; decide,
    ⟨_, by rfl⟩, rfl, rfl⟩
  refine ⟨rfl, by decide, ?_, by simp [demoCfg]⟩
  rintro t ⟨v, h | ⟨i, h⟩ | h⟩ <;> simp at h
  obtain ⟨_, rfl⟩ := h; decide

/-- **C126, violated when a constructor throws**: its block is lost. -/
theorem C126_throw_leaks : ∃ (os : List VOp) (a : VAbs) (s : VState),
    VLegal demoCfg.base os a ∧ (∀ v ∈ a.vecs, v = none) ∧ vrun demoCfg VState.init os = .ok s ∧
      (∃ b ∈ s.st.heap, b.content ≠ .freed) ∧ os = [.newPoly, .create 0 ⟨32, 8⟩, .createThrow 0 ⟨32, 8⟩, .destroy 0] :=
  ⟨_, ⟨[none], 2⟩,
   ⟨{ heap := [⟨32, .freed⟩, ⟨32, .raw⟩], chunks := [⟨false, none⟩], recs := [none], ptrs := [none, none] }, [none]⟩,
   by unfold VLegal; decide, by decide, by rfl, by decide, rfl⟩

end Verif.RecVec
