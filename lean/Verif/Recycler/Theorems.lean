import Verif.Recycler.Sim

/-! # Property theorems about the recyclers (C05-C07, C63) -/

namespace Verif.Recycler

open Verif

/-- The history makes an object of type `t`, or tries to. -/
def Makes (os : List Op) (t : Ty) : Prop := ∃ r, Op.create r t ∈ os ∨ Op.createThrow r t ∈ os

/-- No constructor throws. -/
def NoThrow (os : List Op) : Prop := ∀ r t, Op.createThrow r t ∉ os

/-- `sizeof(TBase)` is at least the size of a pointer (`static_assert`, StorageImpl.hpp:38-42), and every
created or listed type is at least as big as its base class `TBase`. -/
def TypesDerive (cfg : Cfg) (os : List Op) : Prop :=
  8 ≤ cfg.base.size ∧ (∀ t, Makes os t → cfg.base.size ≤ t.size) ∧
    ∀ sizes, Op.newFixed sizes ∈ os → ∀ k ∈ sizes, cfg.base.size ≤ k

/-- With the manager layout, no created type is aligned more strictly than `TBase` (nothing is required
of the plain recyclers' layout). -/
def SameAlign (cfg : Cfg) (os : List Op) : Prop :=
  cfg.withBool = true → ∀ t, Makes os t → t.align = cfg.base.align

/-- Recyclers that are monomorphic or have a fixed list of types are moved only while they own nothing. -/
def MovedEmpty (cfg : Cfg) (os : List Op) : Prop := Abs.init.movedEmpty cfg.base os = true

/-- Recyclers that are monomorphic or have a fixed list of types are not assigned to by moving. -/
def NoAssign (cfg : Cfg) (os : List Op) : Prop := Abs.init.noAssign cfg.base os = true

theorem Inv.moveMono {cfg lk s a fl bs} (h : Inv cfg lk s a fl bs) (h8 : 8 ≤ cfg.base.size) {r : Nat}
    (hk : a.recs[r]? = some (some .mono)) :
    ∃ s' fl' bs', s.moveRec r = .ok s' ∧ Inv cfg lk s' { a with recs := a.recs ++ [some .mono] } fl' bs' := by
  obtain ⟨rec, hr, hkk⟩ := h.kindAt hk
  cases rec with
  | poly m => simp [Rec.kind] at hkk
  | fixed ks m => simp [Rec.kind] at hkk
  | mono c =>
    obtain ⟨b, hb⟩ := h.recChunk r _ c hr (by simp [Rec.chunkIds])
    have hclt := lt_of_get hb
    have hflnil : fl s.chunks.length = [] := h.dead _ (by simp)
    obtain ⟨bs', h1⟩ := h.newMono h8
    have hr' : (s.recs ++ [some (Rec.mono s.chunks.length)])[r]? = some (some (.mono c)) := by
      rw [List.getElem?_append_left (lt_of_get hr)]; exact hr
    have hn' : (s.recs ++ [some (Rec.mono s.chunks.length)])[s.recs.length]? = some (some (.mono s.chunks.length)) := by
      simp
    have e1 := (h1.key r (.mono c) cfg.base.size c hr' (by simp [Rec.keyed])).1
    have e2 := (h1.key s.recs.length _ cfg.base.size s.chunks.length hn' (by simp [Rec.keyed])).1
    have hb1 : (s.chunks ++ [(⟨true, none⟩ : Chunk)])[c]? = some ⟨true, b⟩ := by
      rw [List.getElem?_append_left hclt]; exact hb
    have hb2 : (s.chunks ++ [(⟨true, none⟩ : Chunk)])[s.chunks.length]? = some ⟨true, none⟩ := by simp
    have h2 := h1.transfer (lk' := lk) hb1 hb2 (e1.trans e2.symm) (fun hl => ⟨hl, by omega, hflnil⟩)
    refine ⟨_, _, bs', ?_, h2⟩
    have hset : (s.chunks.set c (⟨true, none⟩ : Chunk)) ++ [⟨true, b⟩] =
        ((s.chunks ++ [(⟨true, none⟩ : Chunk)]).set s.chunks.length ⟨true, b⟩).set c ⟨true, none⟩ := by
      apply List.ext_getElem?
      intro j
      simp only [List.getElem?_set, List.getElem?_append, List.length_set, List.length_append, List.length_singleton,
        List.getElem?_singleton]
      repeat' split
      all_goals first | rfl | omega
    simp only [State.moveRec, hr, State.chunkAt, hb, if_true, Outcome.bind_ok, Outcome.pure_eq, hset]

theorem Inv.assignMono {cfg lk s a fl bs} (h : Inv cfg lk s a fl bs) {d r : Nat}
    (hd : a.recs[d]? = some (some .mono)) (hk : a.recs[r]? = some (some .mono)) :
    ∃ s' fl', s.moveAssign d r = .ok s' ∧ Inv cfg true s' a fl' bs := by
  obtain ⟨recd, hrd, hkd⟩ := h.kindAt hd
  obtain ⟨recr, hr, hkr⟩ := h.kindAt hk
  cases recd with
  | poly m => simp [Rec.kind] at hkd
  | fixed ks m => simp [Rec.kind] at hkd
  | mono cd =>
  cases recr with
  | poly m => simp [Rec.kind] at hkr
  | fixed ks m => simp [Rec.kind] at hkr
  | mono cr =>
    obtain ⟨bd, hbd⟩ := h.recChunk d _ cd hrd (by simp [Rec.chunkIds])
    obtain ⟨br, hbr⟩ := h.recChunk r _ cr hr (by simp [Rec.chunkIds])
    have e1 := (h.key d _ cfg.base.size cd hrd (by simp [Rec.keyed])).1
    have e2 := (h.key r _ cfg.base.size cr hr (by simp [Rec.keyed])).1
    have h2 := h.transfer (lk' := true) hbr hbd (e2.trans e1.symm) (by simp)
    exact ⟨_, _, by simp only [State.moveAssign, hrd, hr, State.chunkAt, hbd, hbr, if_true, Outcome.bind_ok,
      Outcome.pure_eq], h2⟩

theorem Inv.moveHolders {cfg lk s a fl bs} (h : Inv cfg lk s a fl bs) {r : Nat} {ks : List Nat} {m0 : List (Nat × Nat)}
    (hr : s.recs[r]? = some (some (.fixed ks m0))) : ∀ m, (∀ x ∈ m, x ∈ m0) → (m.map (·.1)).Nodup →
    ∃ chunks' m' fl' bs', moveHolders s m = .ok ({ s with chunks := chunks' }, m') ∧ m'.map (·.1) = m.map (·.1) ∧
      Inv cfg lk { s with chunks := chunks', recs := s.recs ++ [some (.fixed (m.map (·.1)) m')] }
        { a with recs := a.recs ++ [some (.fixed (m.map (·.1)))] } fl' bs' := by
  intro m
  induction m with
  | nil =>
    intro _ _
    refine ⟨s.chunks, [], fl, bs, rfl, rfl, ?_⟩
    simpa [Rec.kind] using h.newEmpty (.fixed [] []) rfl rfl (by simp [Rec.sized])
  | cons x m ih =>
    obtain ⟨k, c⟩ := x
    intro hm hn
    rw [List.map_cons, List.nodup_cons] at hn
    obtain ⟨chunks1, m1, fl1, bs1, h1, h2, h3⟩ := ih (fun x hx => hm x (by simp [hx])) hn.2
    have hkc := hm (k, c) (by simp)
    have hr1 : (s.recs ++ [some (Rec.fixed (m.map (·.1)) m1)])[r]? = some (some (.fixed ks m0)) := by
      rw [List.getElem?_append_left (lt_of_get hr)]; exact hr
    have hcid : c ∈ (Rec.fixed ks m0).chunkIds := (Rec.mem_chunkIds (cfg := cfg)).2 ⟨k, hkc⟩
    obtain ⟨b, hb⟩ := h3.recChunk r _ c hr1 hcid
    have hb' : chunks1[c]? = some ⟨true, b⟩ := hb
    have hlast : (s.recs ++ [some (Rec.fixed (m.map (·.1)) m1)])[s.recs.length]? =
        some (some (.fixed (m.map (·.1)) m1)) := by simp
    have h8 := (h.key r _ k c hr hkc).2
    have h4 := h3.addChunk (r := s.recs.length) (k := k)
      (rec := .fixed (((k, c) :: m).map (·.1)) ((k, chunks1.length) :: m1))
      (recs' := s.recs ++ [some (.fixed (((k, c) :: m).map (·.1)) ((k, chunks1.length) :: m1))])
      (arecs' := a.recs ++ [some (.fixed (((k, c) :: m).map (·.1)))]) (by simp [h.kinds, Rec.kind]) (by simp) (by
        intro r' hr'
        simp only [List.getElem?_append, List.getElem?_singleton]
        split
        · rfl
        · rw [if_neg (by omega), if_neg (by omega)])
      ⟨m1, by simp [Rec.keyed], by rw [h2]; exact hn.1, .inr ⟨_, hlast, rfl⟩⟩ h8 (by
        intro x; simp only [List.map_cons, h2])
    have hr2 : (s.recs ++ [some (Rec.fixed (((k, c) :: m).map (·.1)) ((k, chunks1.length) :: m1))])[r]? =
        some (some (.fixed ks m0)) := by
      rw [List.getElem?_append_left (lt_of_get hr)]; exact hr
    have hn2 : (s.recs ++ [some (Rec.fixed (((k, c) :: m).map (·.1)) ((k, chunks1.length) :: m1))])[s.recs.length]? =
        some (some (.fixed (((k, c) :: m).map (·.1)) ((k, chunks1.length) :: m1))) := by simp
    have e1 := (h4.key r _ k c hr2 hkc).1
    have e2 := (h4.key s.recs.length _ k chunks1.length hn2 (by simp [Rec.keyed])).1
    have hclt := lt_of_get hb'
    have hb1 : (chunks1 ++ [(⟨true, none⟩ : Chunk)])[c]? = some ⟨true, b⟩ := by
      rw [List.getElem?_append_left hclt]; exact hb'
    have hb2 : (chunks1 ++ [(⟨true, none⟩ : Chunk)])[chunks1.length]? = some ⟨true, none⟩ := by simp
    have h5 := h4.transfer (lk' := lk) hb1 hb2 (e1.trans e2.symm) (fun hl => ⟨hl, by omega, h3.dead _ (by simp)⟩)
    have hset : (chunks1.set c (⟨true, none⟩ : Chunk)) ++ [⟨true, b⟩] =
        ((chunks1 ++ [(⟨true, none⟩ : Chunk)]).set chunks1.length ⟨true, b⟩).set c ⟨true, none⟩ := by
      apply List.ext_getElem?
      intro j
      simp only [List.getElem?_set, List.getElem?_append, List.length_set, List.length_append, List.length_singleton,
        List.getElem?_singleton]
      repeat' split
      all_goals first | rfl | omega
    refine ⟨(chunks1.set c (⟨true, none⟩ : Chunk)) ++ [⟨true, b⟩], (k, chunks1.length) :: m1, _, _, ?_, by simp [h2],
      hset ▸ h5⟩
    simp only [Recycler.moveHolders, h1, Outcome.bind_ok, State.chunkAt, hb', if_true, Outcome.pure_eq]

theorem Inv.moveFixed {cfg lk s a fl bs} (h : Inv cfg lk s a fl bs) {r : Nat} {ks : List Nat}
    (hk : a.recs[r]? = some (some (.fixed ks))) :
    ∃ s' fl' bs', s.moveRec r = .ok s' ∧ Inv cfg lk s' { a with recs := a.recs ++ [some (.fixed ks)] } fl' bs' := by
  obtain ⟨rec, hr, hkk⟩ := h.kindAt hk
  cases rec with
  | poly m => simp [Rec.kind] at hkk
  | mono c => simp [Rec.kind] at hkk
  | fixed ks' m =>
    simp only [Rec.kind, Kind.fixed.injEq] at hkk
    subst hkk
    obtain ⟨chunks', m', fl', bs', h1, h2, h3⟩ := h.moveHolders hr m (fun _ hx => hx) (h.keys r _ hr)
    have hlast : (s.recs ++ [some (Rec.fixed (m.map (·.1)) m')])[s.recs.length]? = some (some (.fixed (m.map (·.1)) m')) := by
      simp
    have h4 := h3.rekind (rec' := .fixed ks' m') hlast rfl (by
      intro k; rw [h2]; exact h.sized r _ hr k)
    have hlen : s.recs.length = a.recs.length := by rw [← h.kinds]; simp
    have e1 : (s.recs ++ [some (Rec.fixed (m.map (·.1)) m')]).set s.recs.length (some (.fixed ks' m')) =
        s.recs ++ [some (.fixed ks' m')] := by rw [List.set_append_right _ _ (Nat.le_refl _)]; simp
    have e2 : (a.recs ++ [some (Kind.fixed (m.map (·.1)))]).set s.recs.length (some (.fixed ks')) =
        a.recs ++ [some (.fixed ks')] := by rw [hlen, List.set_append_right _ _ (Nat.le_refl _)]; simp
    simp only [Rec.kind, e1, e2] at h4
    exact ⟨_, fl', bs', by simp only [State.moveRec, hr, h1, Outcome.bind_ok, Outcome.pure_eq], h4⟩

theorem Inv.assignHolders {cfg lk s a fl bs} (h : Inv cfg lk s a fl bs) {d r : Nat} {ks : List Nat} {md mr : List (Nat × Nat)}
    (hd : s.recs[d]? = some (some (.fixed ks md))) (hr : s.recs[r]? = some (some (.fixed ks mr))) :
    ∀ m, (∀ x ∈ m, x ∈ md) → ∃ chunks' fl', assignHolders s mr m = .ok { s with chunks := chunks' } ∧
      Inv cfg true { s with chunks := chunks' } a fl' bs := by
  intro m
  induction m with
  | nil =>
    intro _
    refine ⟨s.chunks, fl, rfl, ?_⟩
    exact { h with heapRaw := by simp, heapLink := by simp }
  | cons x m ih =>
    obtain ⟨k, cd⟩ := x
    intro hm
    obtain ⟨chunks1, fl1, h1, h2⟩ := ih (fun x hx => hm x (by simp [hx]))
    have hkd := hm (k, cd) (by simp)
    obtain ⟨cr, hl⟩ := lookup_some ((h.sized r _ hr k).1 ((h.sized d _ hd k).2 (List.mem_map.2 ⟨_, hkd, rfl⟩)))
    have hkr := lookup_mem hl
    obtain ⟨bd, hbd⟩ := h2.recChunk d _ cd hd ((Rec.mem_chunkIds (cfg := cfg)).2 ⟨k, hkd⟩)
    obtain ⟨br, hbr⟩ := h2.recChunk r _ cr hr ((Rec.mem_chunkIds (cfg := cfg)).2 ⟨k, hkr⟩)
    have e1 := (h.key d _ k cd hd hkd).1
    have e2 := (h.key r _ k cr hr hkr).1
    have h3 := h2.transfer (lk' := true) hbr hbd (e2.trans e1.symm) (by simp)
    have hbd' : chunks1[cd]? = some ⟨true, bd⟩ := hbd
    have hbr' : chunks1[cr]? = some ⟨true, br⟩ := hbr
    exact ⟨_, _, by simp only [Recycler.assignHolders, h1, Outcome.bind_ok, hl, State.chunkAt, hbd', hbr', if_true,
      Outcome.pure_eq], h3⟩

theorem Inv.assignFixed {cfg lk s a fl bs} (h : Inv cfg lk s a fl bs) {d r : Nat} {ks : List Nat}
    (hd : a.recs[d]? = some (some (.fixed ks))) (hk : a.recs[r]? = some (some (.fixed ks))) :
    ∃ s' fl', s.moveAssign d r = .ok s' ∧ Inv cfg true s' a fl' bs := by
  obtain ⟨recd, hrd, hkd⟩ := h.kindAt hd
  obtain ⟨recr, hr, hkr⟩ := h.kindAt hk
  cases recd with
  | poly m => simp [Rec.kind] at hkd
  | mono c => simp [Rec.kind] at hkd
  | fixed kd md =>
  cases recr with
  | poly m => simp [Rec.kind] at hkr
  | mono c => simp [Rec.kind] at hkr
  | fixed kr mr =>
    simp only [Rec.kind, Kind.fixed.injEq] at hkd hkr
    subst hkd hkr
    obtain ⟨chunks', fl', h1, h2⟩ := h.assignHolders hrd hr md (fun _ hx => hx)
    exact ⟨_, fl', by simp only [State.moveAssign, hrd, hr, h1], h2⟩

theorem Abs.inPlace_iff {a : Abs} {r : Nat} : a.inPlace r = true ↔
    a.recs[r]? = some (some .mono) ∨ ∃ ks, a.recs[r]? = some (some (.fixed ks)) := by
  unfold Abs.inPlace
  split
  · rename_i k hk
    rw [hk]
    cases k <;> simp [Kind.inPlace]
  · rename_i hk
    constructor
    · intro h; simp at h
    · rintro (h | ⟨ks, h⟩) <;> exact absurd h (hk _)

theorem inv_run (cfg : Cfg) (lk : Bool) (h8 : 8 ≤ cfg.base.size) : ∀ (os : List Op) (s : State) (a a' : Abs)
    (fl : Nat → List Nat) (bs : Nat → Nat), Inv cfg lk s a fl bs → a.runStay cfg.base os = some a' →
    (∀ t, Makes os t → Fits cfg t) → (∀ sizes, Op.newFixed sizes ∈ os → ∀ k ∈ sizes, 8 ≤ k) →
    (lk = false → a.noAssign cfg.base os = true ∧ NoThrow os) →
    ∃ s' fl' bs', run cfg s os = .ok s' ∧ Inv cfg lk s' a' fl' bs' := by
  intro os
  induction os with
  | nil =>
    intro s a a' fl bs h hr _ _ _
    simp only [Abs.runStay, Option.some.injEq] at hr; subst hr
    exact ⟨s, fl, bs, rfl, h⟩
  | cons o os ih =>
    intro s a a' fl bs h hr hf hz hm
    simp only [Abs.runStay, Option.bind_eq_some_iff] at hr
    obtain ⟨a1, h1, h2⟩ := hr
    have hf' : ∀ t, Makes os t → Fits cfg t := fun t hx => hf t (by
      obtain ⟨r, hx⟩ := hx
      exact ⟨r, hx.imp (List.mem_cons_of_mem _) (List.mem_cons_of_mem _)⟩)
    have hz' : ∀ sizes, Op.newFixed sizes ∈ os → ∀ k ∈ sizes, 8 ≤ k := fun sizes hx => hz sizes (List.mem_cons_of_mem _ hx)
    have hm' : lk = false → a1.noAssign cfg.base os = true ∧ NoThrow os := by
      intro hl
      refine ⟨?_, fun r t hx => (hm hl).2 r t (List.mem_cons_of_mem _ hx)⟩
      have := (hm hl).1
      rw [Abs.noAssign, Bool.and_eq_true, h1] at this
      exact this.2
    have key : ∃ s1 fl1 bs1, step cfg s o = .ok s1 ∧ Inv cfg lk s1 a1 fl1 bs1 := by
      cases o with
      | newMono =>
        obtain ⟨bs', hb⟩ := h.newMono h8
        simp only [Abs.stepStay, Abs.step, Option.some.injEq] at h1; subst h1
        exact ⟨_, _, _, rfl, hb⟩
      | newPoly =>
        simp only [Abs.stepStay, Abs.step, Option.some.injEq] at h1; subst h1
        exact ⟨_, _, _, rfl, h.newPoly⟩
      | newFixed sizes =>
        simp only [Abs.stepStay, Abs.step, Option.some.injEq] at h1; subst h1
        obtain ⟨bs', hb⟩ := h.newFixed sizes (hz sizes (by simp))
        exact ⟨_, _, _, rfl, hb⟩
      | create r t =>
        have ht := hf t ⟨r, .inl (by simp)⟩
        simp only [Abs.stepStay, Abs.step] at h1
        split at h1
        · split at h1
          · simp at h1; subst h1
            obtain ⟨s', fl', bs', h3, h4⟩ := h.create (by assumption) (by assumption) ht
            exact ⟨s', fl', bs', h3, h4⟩
          · simp at h1
        · simp at h1
      | delete i t =>
        simp only [Abs.stepStay, Abs.step] at h1
        split at h1
        · split at h1
          · simp at h1; subst h1; subst_vars
            obtain ⟨s', fl', h3, h4⟩ := h.delete (by assumption)
            exact ⟨s', fl', bs, h3, h4⟩
          · simp at h1
        · simp at h1
      | move r =>
        simp only [Abs.stepStay] at h1
        split at h1
        · rename_i hk
          rcases Abs.inPlace_iff.1 hk with hk | ⟨ks, hk⟩
          · simp [hk] at h1; subst h1
            exact h.moveMono h8 hk
          · simp [hk] at h1; subst h1
            exact h.moveFixed hk
        · rename_i hnm
          simp only [Abs.step] at h1
          split at h1
          · rename_i k hk
            simp at h1; subst h1
            cases k with
            | mono => exact absurd (Abs.inPlace_iff.2 (.inl hk)) hnm
            | fixed ks => exact absurd (Abs.inPlace_iff.2 (.inr ⟨ks, hk⟩)) hnm
            | poly =>
              obtain ⟨s', fl', h3, h4⟩ := h.moveRec hk
              exact ⟨s', fl', bs, h3, h4⟩
          · simp at h1
      | moveAssign d r =>
        simp only [Abs.stepStay] at h1
        split at h1
        · rename_i hk
          simp at h1; subst h1
          obtain ⟨s', fl', h3, h4⟩ : ∃ s' fl', s.moveAssign d r = .ok s' ∧ Inv cfg true s' a fl' bs := by
            rcases Abs.inPlace_iff.1 hk.1 with hk' | ⟨ks, hk'⟩
            · exact h.assignMono (hk.2.trans hk') hk'
            · exact h.assignFixed (hk.2.trans hk') hk'
          cases lk with
          | true => exact ⟨s', fl', bs, h3, h4⟩
          | false =>
            have := (hm rfl).1
            rw [Abs.noAssign, Bool.and_eq_true] at this
            simp [Abs.notAssign, hk.1] at this
        · rename_i hnm
          simp only [Abs.step] at h1
          split at h1
          · rename_i k k' hk hk'
            split at h1
            · rename_i hc
              obtain ⟨hc1, rfl, hc3⟩ := hc
              simp at h1; subst h1
              cases k with
              | mono => exact absurd ⟨Abs.inPlace_iff.2 (.inl hk'), hk.trans hk'.symm⟩ hnm
              | fixed ks => exact absurd ⟨Abs.inPlace_iff.2 (.inr ⟨ks, hk'⟩), hk.trans hk'.symm⟩ hnm
              | poly =>
                obtain ⟨s', fl', h3, h4⟩ := h.moveAssign hk hk' hc1 hc3
                exact ⟨s', fl', bs, h3, h4⟩
            · simp at h1
          · simp at h1
      | destroyRec r =>
        simp only [Abs.stepStay, Abs.step] at h1
        split at h1
        · split at h1
          · simp at h1; subst h1
            obtain ⟨s', fl', h3, h4⟩ := h.destroyRec (by assumption) (by assumption)
            exact ⟨s', fl', bs, h3, h4⟩
          · simp at h1
        · simp at h1
      | createThrow r t =>
        have ht := hf t ⟨r, .inr (by simp)⟩
        have hlk : lk = true := by
          cases lk with
          | true => rfl
          | false => exact absurd (List.mem_cons_self ..) ((hm rfl).2 r t)
        subst hlk
        have main : ∀ k, a.recs[r]? = some (some k) → k.makes cfg.base t = true → a1 = { a with objs := a.objs ++ [none] } →
            ∃ s1 fl1 bs1, step cfg s (.createThrow r t) = .ok s1 ∧ Inv cfg true s1 a1 fl1 bs1 := by
          intro k hk hb ha1
          obtain ⟨s', fl', bs', h3, h4⟩ := h.create hk hb ht
          have hlast : ({ a with objs := a.objs ++ [some (r, t)] } : Abs).objs[a.objs.length]? = some (some (r, t)) := by simp
          have hlen : s'.ptrs.length = a.objs.length + 1 := by rw [h4.ptrLen]; simp
          obtain ⟨_, p, c, hp⟩ := h4.objs _ _ _ hlast
          obtain ⟨n, hn, h5⟩ := h4.abandon hlast hp
          have hgl : s'.ptrs.getLast? = some (some (p, c)) := by
            rw [List.getLast?_eq_getElem?, hlen, Nat.add_sub_cancel]; exact hp
          refine ⟨{ s' with heap := s'.heap.set p ⟨n, .raw⟩, ptrs := s'.ptrs.set a.objs.length none }, fl', bs', ?_, ?_⟩
          · simp only [step, State.createThrow, h3, Outcome.bind_ok, hgl, hn, hlen, Nat.add_sub_cancel]
          · subst ha1
            simpa using h5
        simp only [Abs.stepStay, Abs.step] at h1
        split at h1
        · split at h1
          · simp at h1
            exact main _ (by assumption) (by assumption) h1.symm
          · simp at h1
        · simp at h1
    obtain ⟨s1, fl1, bs1, h3, h4⟩ := key
    obtain ⟨s2, fl2, bs2, h6, h7⟩ := ih s1 a1 a' fl1 bs1 h4 h2 hf' hz' hm'
    exact ⟨s2, fl2, bs2, by simp [run, h3, h6], h7⟩

theorem reown_unused {a : Abs} {r n : Nat} (hu : a.unused r = true) : a.reown r n = a.objs := by
  unfold Abs.reown
  conv_rhs => rw [← List.map_id a.objs]
  apply List.map_congr_left
  intro o ho
  cases o with
  | none => rfl
  | some x =>
    obtain ⟨i, hi⟩ := List.getElem?_of_mem ho
    have := Abs.unused_iff.1 hu i x.1 x.2 hi
    simp [this]

/-- Without objects at the time of a move it makes no difference whether they go along. -/
theorem stay_of_movedEmpty {base : Ty} : ∀ (os : List Op) (a a' : Abs), a.run base os = some a' →
    a.movedEmpty base os = true → a.runStay base os = some a' := by
  intro os
  induction os with
  | nil => intro a a' h _; exact h
  | cons o os ih =>
    intro a a' h hm
    simp only [Abs.run, Option.bind_eq_some_iff] at h
    obtain ⟨a1, h1, h2⟩ := h
    rw [Abs.movedEmpty, Bool.and_eq_true, h1] at hm
    obtain ⟨hm1, hm2⟩ := hm
    have hs : a.stepStay base o = some a1 := by
      cases o with
      | move r =>
        simp only [Abs.stepStay]
        split
        · rename_i hk
          simp [Abs.movesEmpty, hk] at hm1
          simp only [Abs.step] at h1
          split at h1
          · rename_i k hk'
            simp at h1; subst h1
            rw [reown_unused hm1, hk']; rfl
          · simp at h1
        · exact h1
      | moveAssign d r =>
        simp only [Abs.stepStay]
        split
        · rename_i hk
          simp [Abs.movesEmpty, hk.1] at hm1
          simp only [Abs.step] at h1
          split at h1
          · split at h1
            · simp at h1; subst h1
              rw [reown_unused hm1]
            · simp at h1
          · simp at h1
        · exact h1
      | _ => exact h1
    simp only [Abs.runStay, hs, Option.bind_some]
    exact ih a1 a' h2 hm2

theorem fits_of {cfg os} (ht : TypesDerive cfg os) (ha : SameAlign cfg os) :
    ∀ t, Makes os t → Fits cfg t := by
  intro t hx
  refine ⟨?_, Nat.le_trans ht.1 (ht.2.1 t hx)⟩
  simp only [Cfg.itemOffset]
  split
  · exact ha (by assumption) t hx
  · rfl

theorem movedEmpty_prefix {base : Ty} : ∀ (os os' : List Op) (a : Abs), a.movedEmpty base (os ++ os') = true →
    a.movedEmpty base os = true := by
  intro os
  induction os with
  | nil => intros; rfl
  | cons o os ih =>
    intro os' a h
    rw [List.cons_append, Abs.movedEmpty, Bool.and_eq_true] at h
    rw [Abs.movedEmpty, Bool.and_eq_true]
    refine ⟨h.1, ?_⟩
    have h2 := h.2
    split at h2
    · exact ih os' _ h2
    · rfl

theorem inv_stay {cfg os a} (lk : Bool) (h : LegalStay cfg os a) (ht : TypesDerive cfg os) (ha : SameAlign cfg os)
    (hm : lk = false → NoAssign cfg os ∧ NoThrow os) : ∃ s fl bs, run cfg State.init os = .ok s ∧ Inv cfg lk s a fl bs :=
  inv_run cfg lk ht.1 os State.init Abs.init a _ _ (Inv.init cfg lk) h (fits_of ht ha)
    (fun sizes hx k hk => Nat.le_trans ht.1 (ht.2.2 sizes hx k hk)) hm

theorem inv_legal {cfg os a} (h : Legal cfg os a) (ht : TypesDerive cfg os) (ha : SameAlign cfg os)
    (hm : MovedEmpty cfg os) : ∃ s fl bs, run cfg State.init os = .ok s ∧ Inv cfg true s a fl bs :=
  inv_stay true (stay_of_movedEmpty os _ a h hm) ht ha (by simp)

theorem inv_legal_noAssign {cfg os a} (h : Legal cfg os a) (ht : TypesDerive cfg os) (ha : SameAlign cfg os)
    (hm : MovedEmpty cfg os) (hn : NoAssign cfg os) (hx : NoThrow os) :
    ∃ s fl bs, run cfg State.init os = .ok s ∧ Inv cfg false s a fl bs :=
  inv_stay false (stay_of_movedEmpty os _ a h hm) ht ha (fun _ => ⟨hn, hx⟩)

/-! ## A history for the non-vacuity examples

Base type of size 16, two derived types of size 32, one of size 48. -/

def demoCfg (b : Bool) : Cfg := { withBool := b, base := ⟨16, 8⟩ }

def demo : List Op :=
  [.newPoly, .create 0 ⟨32, 8⟩, .create 0 ⟨48, 8⟩, .delete 0 ⟨32, 8⟩, .create 0 ⟨32, 8⟩, .create 0 ⟨32, 8⟩,
   .move 0, .delete 1 ⟨48, 8⟩, .create 1 ⟨48, 8⟩, .create 0 ⟨16, 8⟩, .delete 2 ⟨32, 8⟩]

def demoAbs : Abs :=
  { recs := [some .poly, some .poly],
    objs := [none, none, none, some (1, ⟨32, 8⟩), some (1, ⟨48, 8⟩), some (0, ⟨16, 8⟩)] }

instance (cfg : Cfg) (os : List Op) (a : Abs) : Decidable (Legal cfg os a) :=
  inferInstanceAs (Decidable (_ = _))

theorem demo_types (b : Bool) : TypesDerive (demoCfg b) demo ∧ SameAlign (demoCfg b) demo ∧ MovedEmpty (demoCfg b) demo := by
  refine ⟨⟨by simp [demoCfg], ?_⟩, ?_, ?_⟩
  · refine ⟨?_, by intro sizes h; simp [demo] at h⟩
    intro t ⟨r, h⟩; simp [demo] at h; rcases h with h | h | h | h | h <;> simp [h, demoCfg]
  · intro _ t ⟨r, h⟩; simp [demo] at h; rcases h with h | h | h | h | h <;> simp [h, demoCfg]
  · cases b <;> unfold MovedEmpty <;> decide

/-! ## C05 -/

/-- **C05.** After any legal history of a plain recycler (no alive flag) the program is fine, the
`unique_ptr`s of two different live objects never point to the same block, and each of them still finds
its own object there (it has been neither destroyed nor overwritten by another one). Constructors may throw.
As this holds after
every prefix too, a block is handed out again only after its object has been destroyed. -/
theorem C05_live_objects_never_share (cfg : Cfg) (os : List Op) (a : Abs) (hl : cfg.withBool = false)
    (h : Legal cfg os a) (ht : TypesDerive cfg os) (hm : MovedEmpty cfg os) :
    ∃ s, run cfg State.init os = .ok s ∧
      (∀ i : Nat, (∃ r t, a.objs[i]? = some (some (r, t))) ↔ ∃ p c, s.ptrs[i]? = some (some (p, c))) ∧
      (∀ i j p c d : Nat, s.ptrs[i]? = some (some (p, c)) → s.ptrs[j]? = some (some (p, d)) → i = j) ∧
      (∀ i p c : Nat, s.ptrs[i]? = some (some (p, c)) → ∃ n, s.heap[p]? = some ⟨n, .obj i⟩) := by
  obtain ⟨s, fl, bs, h1, h2⟩ := inv_legal h ht (fun hx => by simp [hl] at hx) hm
  refine ⟨s, h1, ?_, ?_, ?_⟩
  · intro i
    constructor
    · rintro ⟨r, t, hi⟩; exact (h2.objs i r t hi).2
    · rintro ⟨p, c, hi⟩; obtain ⟨r, t, _, h3, _⟩ := h2.ptrs i p c hi; exact ⟨r, t, h3⟩
  · intro i j p c d hi hj
    obtain ⟨_, _, _, _, _, _, h3⟩ := h2.ptrs i p c hi
    obtain ⟨_, _, _, _, _, _, h4⟩ := h2.ptrs j p d hj
    rw [h3] at h4; simp at h4; exact h4.2
  · intro i p c hi
    obtain ⟨_, _, _, _, _, _, h3⟩ := h2.ptrs i p c hi
    exact ⟨_, h3⟩

example : Legal (demoCfg false) demo demoAbs := by decide

/-- **C05 with objects that stay.** The same for histories in which recyclers that are monomorphic or have a fixed list of
types are moved and move-assigned without restriction: an object goes on belonging to the recycler that made it, which has to outlive it. -/
theorem C05_live_objects_never_share_stay (cfg : Cfg) (os : List Op) (a : Abs)
    (h : LegalStay cfg os a) (ht : TypesDerive cfg os) (ha : SameAlign cfg os) :
    ∃ s, run cfg State.init os = .ok s ∧
      (∀ i : Nat, (∃ r t, a.objs[i]? = some (some (r, t))) ↔ ∃ p c, s.ptrs[i]? = some (some (p, c))) ∧
      (∀ i j p c d : Nat, s.ptrs[i]? = some (some (p, c)) → s.ptrs[j]? = some (some (p, d)) → i = j) ∧
      (∀ i p c : Nat, s.ptrs[i]? = some (some (p, c)) → ∃ n, s.heap[p]? = some ⟨n, .obj i⟩) := by
  obtain ⟨s, fl, bs, h1, h2⟩ := inv_stay true h ht ha (by simp)
  refine ⟨s, h1, ?_, ?_, ?_⟩
  · intro i
    constructor
    · rintro ⟨r, t, hi⟩; exact (h2.objs i r t hi).2
    · rintro ⟨p, c, hi⟩; obtain ⟨r, t, _, h3, _⟩ := h2.ptrs i p c hi; exact ⟨r, t, h3⟩
  · intro i j p c d hi hj
    obtain ⟨_, _, _, _, _, _, h3⟩ := h2.ptrs i p c hi
    obtain ⟨_, _, _, _, _, _, h4⟩ := h2.ptrs j p d hj
    rw [h3] at h4; simp at h4; exact h4.2
  · intro i p c hi
    obtain ⟨_, _, _, _, _, _, h3⟩ := h2.ptrs i p c hi
    exact ⟨_, h3⟩

/-- Two monomorphic recyclers with live objects and spare blocks, moved from and assigned to (also to itself). -/
example : LegalStay (demoCfg false) [.newMono, .create 0 ⟨16, 8⟩, .create 0 ⟨16, 8⟩, .delete 0 ⟨16, 8⟩, .move 0,
      .create 1 ⟨16, 8⟩, .create 0 ⟨16, 8⟩, .delete 2 ⟨16, 8⟩, .moveAssign 0 1, .create 0 ⟨16, 8⟩, .moveAssign 1 1]
    { recs := [some .mono, some .mono],
      objs := [none, some (0, ⟨16, 8⟩), none, some (0, ⟨16, 8⟩), some (0, ⟨16, 8⟩)] } := by
  unfold LegalStay; decide

/-- **C05, manager layout (partial).** The same for managers, whose blocks start with the alive flag,
provided no type is aligned more strictly than `TBase`. What is missing: over-aligned types, for which
the claim is false (`C07_overaligned_type_breaks`). -/
theorem C05_live_objects_never_share_manager_partial (cfg : Cfg) (os : List Op) (a : Abs)
    (h : Legal cfg os a) (ht : TypesDerive cfg os) (ha : SameAlign cfg os) (hm : MovedEmpty cfg os) :
    ∃ s, run cfg State.init os = .ok s ∧
      (∀ i j p c d : Nat, s.ptrs[i]? = some (some (p, c)) → s.ptrs[j]? = some (some (p, d)) → i = j) ∧
      (∀ i p c : Nat, s.ptrs[i]? = some (some (p, c)) → ∃ n, s.heap[p]? = some ⟨n, .obj i⟩) := by
  obtain ⟨s, fl, bs, h1, h2⟩ := inv_legal h ht ha hm
  refine ⟨s, h1, ?_, ?_⟩
  · intro i j p c d hi hj
    obtain ⟨_, _, _, _, _, _, h3⟩ := h2.ptrs i p c hi
    obtain ⟨_, _, _, _, _, _, h4⟩ := h2.ptrs j p d hj
    rw [h3] at h4; simp at h4; exact h4.2
  · intro i p c hi
    obtain ⟨_, _, _, _, _, _, h3⟩ := h2.ptrs i p c hi
    exact ⟨_, h3⟩

example : Legal (demoCfg true) demo demoAbs := by decide

/-! ## C06 -/

/-- **C05 (other types are rejected).** After any legal history a recycler that cannot make a type (`MonoRecycler`: any type but `TBase`;
`PolyFixedRecycler`: a type of a size that is not listed) rejects its creation at compile time. -/
theorem C05_other_types_rejected (cfg : Cfg) (os : List Op) (a : Abs) (h : Legal cfg os a) (ht : TypesDerive cfg os)
    (ha : SameAlign cfg os) (hm : MovedEmpty cfg os) {r : Nat} {t : Ty} {k : Kind} (hk : a.recs[r]? = some (some k))
    (hn : k.makes cfg.base t = false) :
    ∃ s, run cfg State.init os = .ok s ∧ step cfg s (.create r t) = .assertFail ∧ step cfg s (.createThrow r t) = .assertFail := by
  obtain ⟨s, fl, bs, h1, h2⟩ := inv_legal h ht ha hm
  obtain ⟨rec, h3, h4⟩ := h2.kindAt hk
  have key : s.getChunk cfg r t = .assertFail := by
    cases rec with
    | mono c =>
      have : t ≠ cfg.base := by simpa [← h4, Rec.kind, Kind.makes] using hn
      simp [State.getChunk, h3, this]
    | fixed ks m =>
      have h5 : t.size ∉ ks := by simpa [← h4, Rec.kind, Kind.makes] using hn
      have : m.lookup t.size = none := by
        cases hl : m.lookup t.size with
        | none => rfl
        | some c => exact absurd ((h2.sized r _ h3 t.size).2 (List.mem_map.mpr ⟨_, lookup_mem hl, rfl⟩)) h5
      simp [State.getChunk, h3, this]
    | poly m => simp [← h4, Rec.kind, Kind.makes] at hn
  have e : s.create cfg r t = .assertFail := by simp only [State.create, key]; rfl
  refine ⟨s, h1, e, ?_⟩
  show s.createThrow cfg r t = _
  simp only [State.createThrow, e]; rfl

/-- Non-vacuity: a recycler with a list of one size, in use, and a type that is twice as large. -/
example : let os : List Op := [.newFixed [16], .create 0 ⟨16, 8⟩, .newMono]
    ∃ a, Legal (demoCfg false) os a ∧ TypesDerive (demoCfg false) os ∧ SameAlign (demoCfg false) os ∧ MovedEmpty (demoCfg false) os ∧
      a.recs[0]? = some (some (.fixed [16])) ∧ (Kind.fixed [16]).makes (demoCfg false).base ⟨32, 8⟩ = false :=
  ⟨{ recs := [some (.fixed [16]), some .mono], objs := [some (0, ⟨16, 8⟩)] }, by decide,
    ⟨by simp [demoCfg], fun t ⟨r, h⟩ => by simp at h; simp [h, demoCfg], fun sizes h => by simp at h; simp [h, demoCfg]⟩,
    fun _ t ⟨r, h⟩ => by simp at h; simp [h, demoCfg], by unfold MovedEmpty; decide, by decide, by decide⟩

/-- **C06 with objects that stay (partial: only polymorphic recyclers are move-assigned).** As
`C06_all_blocks_freed_partial` below, for the use the code supports: an object made by a recycler that is monomorphic or has
a fixed list of types is destroyed while that very recycler exists, whether or not it has been moved from since. -/
theorem C06_all_blocks_freed_stay_partial (cfg : Cfg) (os : List Op) (a : Abs)
    (h : LegalStay cfg os a) (ht : TypesDerive cfg os) (ha : SameAlign cfg os) (hm : NoAssign cfg os)
    (hx : NoThrow os) (hend : ∀ r ∈ a.recs, r = none) :
    ∃ s, run cfg State.init os = .ok s ∧ ∀ b ∈ s.heap, b.content = .freed := by
  obtain ⟨s, fl, bs, h1, h2⟩ := inv_stay false h ht ha (fun _ => ⟨hm, hx⟩)
  refine ⟨s, h1, ?_⟩
  have hnone : ∀ (r : Nat) (rec : Rec), s.recs[r]? ≠ some (some rec) := by
    intro r rec hr
    have : (some rec.kind) ∈ a.recs := by
      rw [← h2.kinds, List.mem_map]; exact ⟨_, List.mem_of_getElem? hr, rfl⟩
    have := hend _ this
    simp at this
  intro b hb
  obtain ⟨p, hp⟩ := List.getElem?_of_mem hb
  obtain ⟨n, c⟩ := b
  cases c with
  | raw => exact absurd hp (h2.heapRaw p n rfl)
  | obj i =>
    obtain ⟨c, hc⟩ := h2.heapObj p n i hp
    obtain ⟨r, _, rec, _, h3, _⟩ := h2.ptrs i p c hc
    exact absurd h3 (hnone r rec)
  | link nxt =>
    obtain ⟨c, hc⟩ := h2.heapLink p n nxt hp rfl
    by_cases hx : ∃ b, s.chunks[c]? = some ⟨true, b⟩
    · obtain ⟨b, hb⟩ := hx
      obtain ⟨r, rec, h3, _⟩ := h2.chunkRec c b hb
      exact absurd h3 (hnone r rec)
    · rw [h2.dead c (fun b hb => hx ⟨b, hb⟩)] at hc; simp at hc
  | freed => rfl

/-- A monomorphic recycler is moved while it owns an object and a spare block; the object is destroyed later. -/
example : LegalStay (demoCfg true) [.newMono, .create 0 ⟨16, 8⟩, .create 0 ⟨16, 8⟩, .delete 1 ⟨16, 8⟩, .move 0,
      .create 1 ⟨16, 8⟩, .delete 0 ⟨16, 8⟩, .delete 2 ⟨16, 8⟩, .destroyRec 0, .destroyRec 1]
      { recs := [none, none], objs := [none, none, none] } ∧
    NoAssign (demoCfg true) [.newMono, .create 0 ⟨16, 8⟩, .create 0 ⟨16, 8⟩, .delete 1 ⟨16, 8⟩, .move 0,
      .create 1 ⟨16, 8⟩, .delete 0 ⟨16, 8⟩, .delete 2 ⟨16, 8⟩, .destroyRec 0, .destroyRec 1] := by
  unfold LegalStay NoAssign; decide

/-- **C06 (partial: recyclers that are monomorphic or have a fixed list of types are moved only while they own no object, and
not by assignment).** When every
recycler of a legal history has been destroyed, every block ever allocated has been given back; as freeing a block twice
would be `ub`, it was given back exactly once. Polymorphic recyclers may be moved and move-assigned freely. -/
theorem C06_all_blocks_freed_partial (cfg : Cfg) (os : List Op) (a : Abs)
    (h : Legal cfg os a) (ht : TypesDerive cfg os) (ha : SameAlign cfg os) (hm : MovedEmpty cfg os)
    (hn : NoAssign cfg os) (hx : NoThrow os) (hend : ∀ r ∈ a.recs, r = none) :
    ∃ s, run cfg State.init os = .ok s ∧ ∀ b ∈ s.heap, b.content = .freed :=
  C06_all_blocks_freed_stay_partial cfg os a (stay_of_movedEmpty os _ a h hm) ht ha hn hx hend

/-- Non-vacuity: the demo history continued to the end, with a move assignment. -/
def demoEnd : List Op := demo ++
  [.newPoly, .moveAssign 2 1, .delete 3 ⟨32, 8⟩, .delete 4 ⟨48, 8⟩, .delete 5 ⟨16, 8⟩,
   .destroyRec 1, .destroyRec 0, .destroyRec 2]

example : NoThrow demoEnd := by intro r t h; simp [demoEnd, demo] at h

example : ∃ a, Legal (demoCfg true) demoEnd a ∧ MovedEmpty (demoCfg true) demoEnd ∧
    NoAssign (demoCfg true) demoEnd ∧ (∀ r ∈ a.recs, r = none) :=
  ⟨{ recs := [none, none, none], objs := List.replicate 6 none }, by decide, by unfold MovedEmpty; decide,
   by unfold NoAssign; decide, by decide⟩

/-- A history with a monomorphic recycler that meets the hypotheses. -/
example : Legal (demoCfg true) [.newMono, .create 0 ⟨16, 8⟩, .delete 0 ⟨16, 8⟩, .create 0 ⟨16, 8⟩,
    .create 0 ⟨16, 8⟩, .delete 1 ⟨16, 8⟩, .delete 2 ⟨16, 8⟩, .destroyRec 0]
    { recs := [none], objs := [none, none, none] } := by decide

/-- **C06 fails for move assignment of monomorphic recyclers**: the target's free blocks are leaked
(StorageImpl.hpp:52-57 overwrites `base`). The history is legal and ends with everything destroyed. -/
theorem C06_mono_move_assign_leaks : ∃ (os : List Op) (a : Abs) (s : State),
    Legal (demoCfg false) os a ∧ (∀ r ∈ a.recs, r = none) ∧ run (demoCfg false) State.init os = .ok s ∧
      ∃ b ∈ s.heap, b.content ≠ .freed :=
  ⟨[.newMono, .newMono, .create 0 ⟨16, 8⟩, .delete 0 ⟨16, 8⟩, .moveAssign 0 1, .destroyRec 1, .destroyRec 0],
   { recs := [none, none], objs := [none] },
   { heap := [⟨16, .link none⟩], chunks := [⟨false, none⟩, ⟨false, none⟩], recs := [none, none], ptrs := [none] },
   by decide, by decide, by rfl, by decide⟩

/-- **C06 fails for move construction of monomorphic recyclers**: an object created before the move
still refers to the moved-from recycler's chunk; when that recycler dies first, destroying the object is
undefined behaviour. (`MonoRecVector`'s defaulted move constructor, ManagerImpl.hpp:92, does exactly
this.) -/
theorem C06_mono_move_dangles : ∃ (os : List Op) (a : Abs),
    Legal (demoCfg false) os a ∧ run (demoCfg false) State.init os = .ub :=
  ⟨[.newMono, .create 0 ⟨16, 8⟩, .move 0, .destroyRec 0, .delete 0 ⟨16, 8⟩],
   { recs := [none, some .mono], objs := [none] }, by decide, by rfl⟩

/-- **C06 fails for `PolyFixedRecycler`s in the same ways**, since they hold their chunks by value too. -/
theorem C06_fixed_moves_fail :
    (∃ (os : List Op) (a : Abs), os = [.newFixed [16, 32, 32], .create 0 ⟨32, 8⟩, .move 0, .destroyRec 0, .delete 0 ⟨32, 8⟩] ∧
      Legal (demoCfg false) os a ∧ run (demoCfg false) State.init os = .ub) ∧
    (∃ (os : List Op) (a : Abs) (s : State), os = [.newFixed [16, 32], .newFixed [16, 32], .create 0 ⟨32, 8⟩,
        .delete 0 ⟨32, 8⟩, .moveAssign 0 1, .destroyRec 1, .destroyRec 0] ∧
      Legal (demoCfg false) os a ∧ (∀ r ∈ a.recs, r = none) ∧ run (demoCfg false) State.init os = .ok s ∧
      ∃ b ∈ s.heap, b.content ≠ .freed) :=
  ⟨⟨_, { recs := [none, some (.fixed [16, 32, 32])], objs := [none] }, rfl, by decide, by rfl⟩,
   ⟨_, { recs := [none, none], objs := [none] },
    { heap := [⟨32, .link none⟩], chunks := List.replicate 4 ⟨false, none⟩, recs := [none, none], ptrs := [none] },
    rfl, by decide, by decide, by rfl, by decide⟩⟩

/-- A recycler with a fixed list of types that meets the hypotheses: it is moved with spare blocks and live objects. -/
example : LegalStay (demoCfg false) [.newFixed [16, 32, 48, 32], .create 0 ⟨32, 8⟩, .create 0 ⟨48, 8⟩, .delete 0 ⟨32, 8⟩,
      .move 0, .create 1 ⟨32, 8⟩, .create 0 ⟨32, 8⟩, .delete 1 ⟨48, 8⟩, .create 0 ⟨48, 8⟩, .create 0 ⟨16, 8⟩]
    { recs := [some (.fixed [16, 32, 48, 32]), some (.fixed [16, 32, 48, 32])],
      objs := [none, none, some (1, ⟨32, 8⟩), some (0, ⟨32, 8⟩), some (0, ⟨48, 8⟩), some (0, ⟨16, 8⟩)] } := by
  unfold LegalStay; decide

/-- **C06 fails when a constructor throws**: the block meant for the object is lost, for a new block as well as for a
recycled one. -/
theorem C06_throwing_constructor_leaks : ∃ (os : List Op) (a : Abs) (s : State),
    Legal (demoCfg false) os a ∧ (∀ r ∈ a.recs, r = none) ∧ run (demoCfg false) State.init os = .ok s ∧
      (∃ b ∈ s.heap, b.content ≠ .freed) ∧
      os = [.newPoly, .create 0 ⟨32, 8⟩, .delete 0 ⟨32, 8⟩, .createThrow 0 ⟨32, 8⟩, .destroyRec 0] :=
  ⟨_, { recs := [none], objs := [none, none] },
   { heap := [⟨32, .raw⟩], chunks := [⟨false, none⟩], recs := [none], ptrs := [none, none] },
   by decide, by decide, by rfl, by decide, rfl⟩

/-- A throwing constructor is among what `C05_live_objects_never_share` and `C07_blocks_big_enough` allow. -/
example : Legal (demoCfg false) [.newPoly, .create 0 ⟨32, 8⟩, .delete 0 ⟨32, 8⟩, .createThrow 0 ⟨32, 8⟩, .create 0 ⟨32, 8⟩]
    { recs := [some .poly], objs := [none, none, some (0, ⟨32, 8⟩)] } := by decide

/-! ## C07 -/

/-- **C07.** In every reachable state of plain recyclers each live object's block is at least as large
as the layout of its dynamic type; no creation ever constructs into a smaller block (that would be
`ub`). -/
theorem C07_blocks_big_enough (cfg : Cfg) (os : List Op) (a : Abs) (hl : cfg.withBool = false)
    (h : Legal cfg os a) (ht : TypesDerive cfg os) (hm : MovedEmpty cfg os) :
    ∃ s, run cfg State.init os = .ok s ∧ ∀ (i r : Nat) (t : Ty), a.objs[i]? = some (some (r, t)) →
      ∃ p c n, s.ptrs[i]? = some (some (p, c)) ∧ s.heap[p]? = some ⟨n, .obj i⟩ ∧ t.size ≤ n := by
  obtain ⟨s, fl, bs, h1, h2⟩ := inv_legal h ht (fun hx => by simp [hl] at hx) hm
  refine ⟨s, h1, ?_⟩
  intro i r t hi
  obtain ⟨_, p, c, hp⟩ := h2.objs i r t hi
  obtain ⟨_, _, _, _, _, _, h3⟩ := h2.ptrs i p c hp
  have h4 := h2.lay i r t p c hi hp
  exact ⟨p, c, _, hp, h3, by rw [← h4, Cfg.layoutSize]; omega⟩

/-- **C07 with objects that stay.** The same with unrestricted moves of all recyclers, and for the manager layout
if no type is over-aligned. -/
theorem C07_blocks_big_enough_stay (cfg : Cfg) (os : List Op) (a : Abs)
    (h : LegalStay cfg os a) (ht : TypesDerive cfg os) (ha : SameAlign cfg os) :
    ∃ s, run cfg State.init os = .ok s ∧ ∀ (i r : Nat) (t : Ty), a.objs[i]? = some (some (r, t)) →
      ∃ p c n, s.ptrs[i]? = some (some (p, c)) ∧ s.heap[p]? = some ⟨n, .obj i⟩ ∧
        (if cfg.withBool then t.align else 0) + t.size ≤ n := by
  obtain ⟨s, fl, bs, h1, h2⟩ := inv_stay true h ht ha (by simp)
  refine ⟨s, h1, ?_⟩
  intro i r t hi
  obtain ⟨_, p, c, hp⟩ := h2.objs i r t hi
  obtain ⟨_, _, _, _, _, _, h3⟩ := h2.ptrs i p c hp
  have h4 := h2.lay i r t p c hi hp
  exact ⟨p, c, _, hp, h3, Nat.le_of_eq h4⟩

/-- **C07, manager layout (partial).** Room for the flag and the item, if no type is over-aligned. -/
theorem C07_blocks_big_enough_manager_partial (cfg : Cfg) (os : List Op) (a : Abs)
    (h : Legal cfg os a) (ht : TypesDerive cfg os) (ha : SameAlign cfg os) (hm : MovedEmpty cfg os) :
    ∃ s, run cfg State.init os = .ok s ∧ ∀ (i r : Nat) (t : Ty), a.objs[i]? = some (some (r, t)) →
      ∃ p c n, s.ptrs[i]? = some (some (p, c)) ∧ s.heap[p]? = some ⟨n, .obj i⟩ ∧
        (if cfg.withBool then t.align else 0) + t.size ≤ n := by
  obtain ⟨s, fl, bs, h1, h2⟩ := inv_legal h ht ha hm
  refine ⟨s, h1, ?_⟩
  intro i r t hi
  obtain ⟨_, p, c, hp⟩ := h2.objs i r t hi
  obtain ⟨_, _, _, _, _, _, h3⟩ := h2.ptrs i p c hp
  have h4 := h2.lay i r t p c hi hp
  exact ⟨p, c, _, hp, h3, Nat.le_of_eq h4⟩

/-- **C07 fails for the manager layout with over-aligned types.** Two types of size 32, aligned to 8
and 16: their layouts need 40 and 48 bytes, but they share the chunk for size 32. Creating the second
type in a block left by the first would overflow it. The second conjunct: even a single over-aligned
object cannot be destroyed properly, because the start of its block is computed from `TBase`'s offset. -/
theorem C07_overaligned_type_breaks :
    (∃ os a, Legal (demoCfg true) os a ∧ TypesDerive (demoCfg true) os ∧
      os = [.newPoly, .create 0 ⟨32, 8⟩, .delete 0 ⟨32, 8⟩, .create 0 ⟨32, 16⟩] ∧
      run (demoCfg true) State.init os = .ub) ∧
    (∃ os a, Legal (demoCfg true) os a ∧ TypesDerive (demoCfg true) os ∧
      os = [.newPoly, .create 0 ⟨32, 16⟩, .delete 0 ⟨32, 16⟩] ∧
      run (demoCfg true) State.init os = .ub) := by
  refine ⟨⟨_, { recs := [some .poly], objs := [none, some (0, ⟨32, 16⟩)] }, ?_, ⟨by decide, ?_⟩, rfl, rfl⟩,
    ⟨_, { recs := [some .poly], objs := [none] }, ?_, ⟨by decide, ?_⟩, rfl, rfl⟩⟩
  · decide
  · refine ⟨?_, by intro sizes h; simp at h⟩
    intro t ⟨r, h⟩; simp at h; rcases h with h | h <;> simp [h, demoCfg]
  · decide
  · refine ⟨?_, by intro sizes h; simp at h⟩
    intro t ⟨r, h⟩; simp at h; simp [h, demoCfg]

/-! ## C63 -/

theorem lookup_of_nodup {m : List (Nat × Nat)} {k c : Nat} (hnd : (m.map (·.1)).Nodup) (hk : (k, c) ∈ m) :
    m.lookup k = some c := by
  induction m with
  | nil => simp at hk
  | cons x m ih =>
    obtain ⟨k', c'⟩ := x
    simp only [List.map_cons, List.nodup_cons] at hnd
    rcases List.mem_cons.1 hk with hx | hx
    · simp at hx; simp [hx]
    · have hne : k ≠ k' := by
        rintro rfl
        exact hnd.1 (List.mem_map.2 ⟨_, hx, rfl⟩)
      rw [List.lookup_cons]
      simp only [beq_eq_false_iff_ne.2 hne]
      exact ih hnd.2 hx

/-- **C63.** Recycling: creating an object of the same size right after destroying one of the same
recycler takes the block just released; no memory is allocated. -/
theorem C63_released_block_is_reused (cfg : Cfg) (os : List Op) (i r : Nat) (t t' : Ty) (a a' : Abs)
    (h : Legal cfg os a) (ho : a.objs[i]? = some (some (r, t))) (hsz : t'.size = t.size)
    (h' : Legal cfg (os ++ [.delete i t, .create r t']) a')
    (ht : TypesDerive cfg (os ++ [.delete i t, .create r t']))
    (ha : SameAlign cfg (os ++ [.delete i t, .create r t']))
    (hm : MovedEmpty cfg (os ++ [.delete i t, .create r t'])) :
    ∃ s s' p c, run cfg State.init os = .ok s ∧
      run cfg State.init (os ++ [.delete i t, .create r t']) = .ok s' ∧
      s.ptrs[i]? = some (some (p, c)) ∧ s'.ptrs[i]? = some none ∧ s'.ptrs.getLast? = some (some (p, c)) ∧
      s'.heap.length = s.heap.length := by
  obtain ⟨s, fl, bs, h1, h2⟩ := inv_legal h
    ⟨ht.1, fun t ⟨r, hx⟩ => ht.2.1 t ⟨r, hx.imp (List.mem_append_left _) (List.mem_append_left _)⟩,
      fun sizes hx => ht.2.2 sizes (List.mem_append_left _ hx)⟩
    (fun hb t ⟨r, hx⟩ => ha hb t ⟨r, hx.imp (List.mem_append_left _) (List.mem_append_left _)⟩)
    (movedEmpty_prefix os _ _ hm)
  obtain ⟨s', _, _, h3, h4⟩ := inv_legal h' ht ha hm
  obtain ⟨hoff, p, c, hp⟩ := h2.objs i r t ho
  obtain ⟨r1, t1, rec, h5, h6, h7, h8⟩ := h2.ptrs i p c hp
  rw [ho] at h5; simp at h5; obtain ⟨rfl, rfl⟩ := h5
  obtain ⟨b, hb⟩ := h2.recChunk r rec c h6 h7
  obtain ⟨k, hk⟩ := (Rec.mem_chunkIds (cfg := cfg)).1 h7
  obtain ⟨hbs, hk8⟩ := h2.key r rec k c h6 hk
  have hlay := h2.lay i r t p c ho hp
  have hkt : k = t.size := by rw [Cfg.layoutSize, hbs, hoff] at hlay; omega
  subst hkt
  have hfit := fits_of ht ha t' ⟨r, by simp⟩
  have hlay' : cfg.layoutSize t' = bs c := by rw [Cfg.layoutSize, hsz, hfit.1, hbs]
  have hrun : ∀ (l : List Op) (x : State) (l' : List Op), run cfg x (l ++ l') = (do let y ← run cfg x l; run cfg y l') := by
    intro l
    induction l with
    | nil => intro x l'; simp [run]
    | cons o l ih =>
      intro x l'
      simp only [List.cons_append, run]
      cases step cfg x o with
      | ok y => simpa using ih y l'
      | _ => rfl
  rw [hrun, h1] at h3
  have hn8 : ¬ (bs c < 8) := by omega
  have hclt := lt_of_get hb
  have hplt := lt_of_get h8
  have hilt := lt_of_get hp
  -- state after the destruction
  have hdel : s.delete cfg i t = .ok { s with
      heap := s.heap.set p ⟨bs c, .link b⟩, chunks := s.chunks.set c ⟨true, some p⟩,
      ptrs := s.ptrs.set i none } := by
    simp [State.delete, hp, State.chunkAt, hb, h8, hoff, hn8]
  simp only [Outcome.bind_ok, run, step, hdel] at h3
  -- the same chunk is found again
  have hget : State.getChunk { s with
      heap := s.heap.set p ⟨bs c, .link b⟩, chunks := s.chunks.set c ⟨true, some p⟩,
      ptrs := s.ptrs.set i none } cfg r t' = .ok ({ s with
      heap := s.heap.set p ⟨bs c, .link b⟩, chunks := s.chunks.set c ⟨true, some p⟩,
      ptrs := s.ptrs.set i none }, c) := by
    cases rec with
    | mono c0 =>
      simp [Rec.chunkIds] at h7; subst h7
      have hkind : a.recs[r]? = some (some .mono) := by
        rw [← h2.kinds]; simp [h6, Rec.kind]
      have : t' = cfg.base := by
        have gen : ∀ (l : List Op) (x : Abs), x.run cfg.base l = some a →
            x.run cfg.base (l ++ [.delete i t, .create r t']) = a.run cfg.base [.delete i t, .create r t'] := by
          intro l
          induction l with
          | nil => intro x hx; simp [Abs.run] at hx; subst hx; rfl
          | cons o l ih =>
            intro x hx
            simp only [Abs.run, Option.bind_eq_some_iff, List.cons_append] at hx ⊢
            obtain ⟨y, h1, h2⟩ := hx
            rw [h1]; exact ih y h2
        have h9 := gen os _ h
        unfold Legal at h'
        rw [h9] at h'
        simp only [Abs.run, Abs.step, ho, if_true, Option.bind_some, hkind] at h'
        split at h'
        · rename_i hmk; simpa [Kind.makes] using hmk
        · simp at h'
      simp [State.getChunk, h6, this]
    | fixed ks m =>
      have hlk : m.lookup t'.size = some c := by
        rw [hsz]; exact lookup_of_nodup (h2.keys r _ h6) hk
      simp [State.getChunk, h6, hlk]
    | poly m =>
      have hlk : m.lookup t'.size = some c := by
        rw [hsz]; exact lookup_of_nodup (h2.keys r _ h6) hk
      simp [State.getChunk, h6, hlk]
  have hcreate : State.create { s with
      heap := s.heap.set p ⟨bs c, .link b⟩, chunks := s.chunks.set c ⟨true, some p⟩,
      ptrs := s.ptrs.set i none } cfg r t' = .ok { s with
      heap := s.heap.set p ⟨bs c, .obj s.ptrs.length⟩, chunks := s.chunks.set c ⟨true, b⟩,
      ptrs := s.ptrs.set i none ++ [some (p, c)] } := by
    rw [State.create, hget]
    simp [State.chunkCreate, State.chunkAt, hclt, State.readLink, hplt, State.construct, hlay']
  refine ⟨s, { s with
      heap := s.heap.set p ⟨bs c, .obj s.ptrs.length⟩, chunks := s.chunks.set c ⟨true, b⟩,
      ptrs := s.ptrs.set i none ++ [some (p, c)] }, p, c, h1, ?_, hp, ?_, ?_, ?_⟩
  · rw [hrun, h1]; simp only [Outcome.bind_ok, run, step, hdel, hcreate]
  · simp [List.getElem?_append, hilt]
  · simp
  · simp

example : ∃ a a', Legal (demoCfg true) demo a ∧ a.objs[4]? = some (some (1, ⟨48, 8⟩)) ∧
    Legal (demoCfg true) (demo ++ [.delete 4 ⟨48, 8⟩, .create 1 ⟨48, 8⟩]) a' :=
  ⟨demoAbs, { demoAbs with objs := [none, none, none, some (1, ⟨32, 8⟩), none, some (0, ⟨16, 8⟩), some (1, ⟨48, 8⟩)] },
   by decide, by decide, by decide⟩

end Verif.Recycler
