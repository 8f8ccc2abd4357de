import Verif.Recycler.Lemmas

/-! # Every legal call preserves the invariant -/

namespace Verif.Recycler

open Verif

theorem lt_of_get {α : Type} {l : List α} {i : Nat} {x : α} (h : l[i]? = some x) : i < l.length := by
  rcases Nat.lt_or_ge i l.length with h1 | h1
  · exact h1
  · rw [List.getElem?_eq_none h1] at h; simp at h

theorem Inv.kindAt {cfg lk s a fl bs} (h : Inv cfg lk s a fl bs) {r : Nat} {k : Kind}
    (hk : a.recs[r]? = some (some k)) : ∃ rec, s.recs[r]? = some (some rec) ∧ rec.kind = k := by
  rw [← h.kinds, List.getElem?_map, Option.map_eq_some_iff] at hk
  obtain ⟨x, h1, h2⟩ := hk
  cases x with
  | none => simp at h2
  | some rec => simp at h2; exact ⟨rec, h1, h2⟩

theorem lookup_mem {m : List (Nat × Nat)} {k c : Nat} (h : m.lookup k = some c) : (k, c) ∈ m := by
  induction m with
  | nil => simp at h
  | cons x m ih =>
    obtain ⟨k', c'⟩ := x
    simp only [List.lookup_cons] at h
    split at h
    · simp_all
    · simp [ih h]

theorem lookup_none {m : List (Nat × Nat)} {k : Nat} (h : m.lookup k = none) : k ∉ m.map (·.1) := by
  induction m with
  | nil => simp
  | cons x m ih =>
    obtain ⟨k', c'⟩ := x
    simp only [List.lookup_cons] at h
    split at h
    · simp at h
    · rename_i hk
      simp at hk
      simp only [List.map_cons, List.mem_cons, not_or]
      exact ⟨hk, ih h⟩

/-! ## creation of a recycler -/

theorem Inv.newEmpty {cfg lk s a fl bs} (h : Inv cfg lk s a fl bs) (rec0 : Rec) (hid : rec0.chunkIds = [])
    (hke : rec0.keyed cfg = []) (hsz : rec0.sized) :
    Inv cfg lk { s with recs := s.recs ++ [some rec0] } { a with recs := a.recs ++ [some rec0.kind] } fl bs := by
  have hget : ∀ (r : Nat) (rec : Rec), (s.recs ++ [some rec0])[r]? = some (some rec) →
      s.recs[r]? = some (some rec) ∨ rec = rec0 := by
    intro r rec hr
    simp only [List.getElem?_append, List.getElem?_singleton] at hr
    split at hr
    · exact .inl hr
    · split at hr
      · simp at hr; exact .inr hr.symm
      · simp at hr
  have hold : ∀ (r : Nat) (rec : Rec), s.recs[r]? = some (some rec) →
      (s.recs ++ [some rec0])[r]? = some (some rec) := by
    intro r rec hr
    rw [List.getElem?_append_left (lt_of_get hr)]; exact hr
  constructor
  · simp [h.kinds]
  · exact h.ptrLen
  · intro i p c hi
    obtain ⟨r, t, rec, h1, h2, h3, h4⟩ := h.ptrs i p c hi
    exact ⟨r, t, rec, h1, hold _ _ h2, h3, h4⟩
  · exact h.objs
  · exact h.heapRaw
  · exact h.heapObj
  · exact h.heapLink
  · exact h.chain
  · exact h.dead
  · exact h.nodup
  · exact h.disj
  · intro r rec c h1 h2
    rcases hget r rec h1 with h3 | rfl
    · exact h.recChunk r rec c h3 h2
    · simp [hid] at h2
  · intro r r' rec rec' c h1 h2 h3 h4
    rcases hget r rec h1 with h5 | rfl
    · rcases hget r' rec' h2 with h6 | rfl
      · exact h.recDisj r r' rec rec' c h5 h6 h3 h4
      · simp [hid] at h4
    · simp [hid] at h3
  · intro r rec h1
    rcases hget r rec h1 with h3 | rfl
    · exact h.recNodup r rec h3
    · simp [hid]
  · intro c b hc
    obtain ⟨r, rec, h1, h2⟩ := h.chunkRec c b hc
    exact ⟨r, rec, hold _ _ h1, h2⟩
  · intro r rec k c h1 h2
    rcases hget r rec h1 with h3 | rfl
    · exact h.key r rec k c h3 h2
    · simp [hke] at h2
  · exact h.lay
  · intro r rec h1
    rcases hget r rec h1 with h3 | rfl
    · exact h.keys r rec h3
    · simp [hke]
  · intro r rec h1
    rcases hget r rec h1 with h3 | rfl
    · exact h.sized r rec h3
    · exact hsz

theorem Inv.newPoly {cfg lk s a fl bs} (h : Inv cfg lk s a fl bs) :
    Inv cfg lk { s with recs := s.recs ++ [some (.poly [])] } { a with recs := a.recs ++ [some .poly] } fl bs :=
  h.newEmpty (.poly []) rfl rfl trivial

/-- Declaring another kind for a recycler with the same chunks. -/
theorem Inv.rekind {cfg lk s a fl bs} (h : Inv cfg lk s a fl bs) {r : Nat} {rec rec' : Rec}
    (hr : s.recs[r]? = some (some rec)) (hk : rec'.keyed cfg = rec.keyed cfg) (hsz : rec'.sized) :
    Inv cfg lk { s with recs := s.recs.set r (some rec') } { a with recs := a.recs.set r (some rec'.kind) } fl bs := by
  have hid : rec'.chunkIds = rec.chunkIds := by rw [Rec.chunkIds_eq cfg, Rec.chunkIds_eq cfg, hk]
  have hrlt := lt_of_get hr
  have hget : ∀ (r1 : Nat) (rec1 : Rec), (s.recs.set r (some rec'))[r1]? = some (some rec1) →
      ∃ rec2, s.recs[r1]? = some (some rec2) ∧ rec1.chunkIds = rec2.chunkIds ∧ rec1.keyed cfg = rec2.keyed cfg ∧
        (rec2.sized → rec1.sized) := by
    intro r1 rec1 h1
    by_cases hrr : r1 = r
    · subst hrr
      simp [hrlt] at h1; subst h1
      exact ⟨rec, hr, hid, hk, fun _ => hsz⟩
    · rw [List.getElem?_set_ne (fun e => hrr e.symm)] at h1
      exact ⟨rec1, h1, rfl, rfl, id⟩
  have hput : ∀ (r1 : Nat) (rec1 : Rec), s.recs[r1]? = some (some rec1) →
      ∃ rec2, (s.recs.set r (some rec'))[r1]? = some (some rec2) ∧ rec2.chunkIds = rec1.chunkIds := by
    intro r1 rec1 h1
    by_cases hrr : r1 = r
    · subst hrr
      rw [hr] at h1; simp at h1; subst h1
      exact ⟨rec', by simp [hrlt], hid⟩
    · exact ⟨rec1, by rw [List.getElem?_set_ne (fun e => hrr e.symm)]; exact h1, rfl⟩
  constructor
  · simp only [List.map_set, h.kinds, Option.map_some]
  · exact h.ptrLen
  · intro i p c hi
    obtain ⟨r1, t, rec1, h1, h2, h3, h4⟩ := h.ptrs i p c hi
    obtain ⟨rec2, h5, h6⟩ := hput r1 rec1 h2
    exact ⟨r1, t, rec2, h1, h5, h6 ▸ h3, h4⟩
  · exact h.objs
  · exact h.heapRaw
  · exact h.heapObj
  · exact h.heapLink
  · exact h.chain
  · exact h.dead
  · exact h.nodup
  · exact h.disj
  · intro r1 rec1 c h1 h2
    obtain ⟨rec2, h3, h4, _⟩ := hget r1 rec1 h1
    exact h.recChunk r1 rec2 c h3 (h4 ▸ h2)
  · intro r1 r2 rec1 rec2 c h1 h2 h3 h4
    obtain ⟨rec3, h5, h6, _⟩ := hget r1 rec1 h1
    obtain ⟨rec4, h7, h8, _⟩ := hget r2 rec2 h2
    exact h.recDisj r1 r2 rec3 rec4 c h5 h7 (h6 ▸ h3) (h8 ▸ h4)
  · intro r1 rec1 h1
    obtain ⟨rec2, h3, h4, _⟩ := hget r1 rec1 h1
    rw [h4]; exact h.recNodup r1 rec2 h3
  · intro c b hb
    obtain ⟨r1, rec1, h1, h2⟩ := h.chunkRec c b hb
    obtain ⟨rec2, h5, h6⟩ := hput r1 rec1 h1
    exact ⟨r1, rec2, h5, h6 ▸ h2⟩
  · intro r1 rec1 k c h1 h2
    obtain ⟨rec2, h3, _, h4, _⟩ := hget r1 rec1 h1
    exact h.key r1 rec2 k c h3 (h4 ▸ h2)
  · exact h.lay
  · intro r1 rec1 h1
    obtain ⟨rec2, h3, _, h4, _⟩ := hget r1 rec1 h1
    rw [h4]; exact h.keys r1 rec2 h3
  · intro r1 rec1 h1
    obtain ⟨rec2, h3, _, _, h4⟩ := hget r1 rec1 h1
    exact h4 (h.sized r1 rec2 h3)

/-- Adding a fresh chunk `c = s.chunks.length` to (a possibly new) recycler `r`. -/
theorem Inv.addChunk {cfg lk s a fl bs} (h : Inv cfg lk s a fl bs) {recs' : List (Option Rec)}
    {arecs' : List (Option Kind)} {r k : Nat} {rec : Rec}
    (hkinds : recs'.map (Option.map Rec.kind) = arecs')
    (hr : recs'[r]? = some (some rec)) (hother : ∀ r', r' ≠ r → recs'[r']? = s.recs[r']?)
    (hkeyed : ∃ old : List (Nat × Nat), rec.keyed cfg = (k, s.chunks.length) :: old ∧
      k ∉ old.map (·.1) ∧ (old = [] ∧ (∀ rec0, s.recs[r]? ≠ some (some rec0)) ∨
        ∃ rec0, s.recs[r]? = some (some rec0) ∧ rec0.keyed cfg = old))
    (hk : 8 ≤ k) (hsz : rec.sized) :
    Inv cfg lk { s with chunks := s.chunks ++ [⟨true, none⟩], recs := recs' } { a with recs := arecs' } fl
      (upd bs s.chunks.length (cfg.itemOffset cfg.base + k)) := by
  obtain ⟨old, hk1, hk0, hk2⟩ := hkeyed
  have hfresh : ∀ b, s.chunks[s.chunks.length]? ≠ some ⟨true, b⟩ := by simp
  have hflnil := h.dead _ hfresh
  have hids : ∀ c, c ∈ rec.chunkIds → c = s.chunks.length ∨ ∃ rec0, s.recs[r]? = some (some rec0) ∧
      c ∈ rec0.chunkIds := by
    intro c hc
    obtain ⟨k', hk'⟩ := (Rec.mem_chunkIds (cfg := cfg)).1 hc
    rw [hk1] at hk'
    rcases List.mem_cons.1 hk' with h1 | h1
    · simp at h1; exact .inl h1.2
    · rcases hk2 with ⟨h2, _⟩ | ⟨rec0, h2, h3⟩
      · simp [h2] at h1
      · exact .inr ⟨rec0, h2, Rec.mem_chunkIds.2 ⟨k', h3 ▸ h1⟩⟩
  have hids0 : ∀ rec0 c, s.recs[r]? = some (some rec0) → c ∈ rec0.chunkIds → c ∈ rec.chunkIds := by
    intro rec0 c h0 hc
    obtain ⟨k', hk'⟩ := (Rec.mem_chunkIds (cfg := cfg)).1 hc
    rcases hk2 with ⟨_, h2⟩ | ⟨rec1, h2, h3⟩
    · exact absurd h0 (h2 _)
    · rw [h0] at h2; simp at h2; subst h2
      refine (Rec.mem_chunkIds (cfg := cfg)).2 ⟨k', ?_⟩
      rw [hk1, ← h3]; simp [hk']
  have hmem : s.chunks.length ∈ rec.chunkIds := by
    refine (Rec.mem_chunkIds (cfg := cfg)).2 ⟨k, ?_⟩
    rw [hk1]; simp
  have hlt : ∀ (r' : Nat) (rec' : Rec) (c : Nat), s.recs[r']? = some (some rec') → c ∈ rec'.chunkIds → c < s.chunks.length := by
    intro r' rec' c h1 h2
    obtain ⟨b, hb⟩ := h.recChunk r' rec' c h1 h2
    exact lt_of_get hb
  have hchunk : ∀ (c : Nat) (b : Option Nat), s.chunks[c]? = some ⟨true, b⟩ → (s.chunks ++ [(⟨true, none⟩ : Chunk)])[c]? = some ⟨true, b⟩ := by
    intro c b hb
    rw [List.getElem?_append_left (lt_of_get hb)]; exact hb
  have hchunk' : ∀ (c : Nat) (b : Option Nat), (s.chunks ++ [(⟨true, none⟩ : Chunk)])[c]? = some ⟨true, b⟩ →
      s.chunks[c]? = some ⟨true, b⟩ ∧ c ≠ s.chunks.length ∨ c = s.chunks.length ∧ b = none := by
    intro c b hb
    simp only [List.getElem?_append, List.getElem?_singleton] at hb
    split at hb
    · exact .inl ⟨hb, by omega⟩
    · split at hb
      · simp at hb; exact .inr ⟨by omega, hb.symm⟩
      · simp at hb
  -- owner of a chunk in the new state
  have hnew : ∀ (r' : Nat) (rec' : Rec) (c : Nat), recs'[r']? = some (some rec') → c ∈ rec'.chunkIds →
      c = s.chunks.length ∧ r' = r ∨ ∃ rec0, s.recs[r']? = some (some rec0) ∧ c ∈ rec0.chunkIds := by
    intro r' rec' c h1 h2
    by_cases hrr : r' = r
    · subst hrr
      rw [hr] at h1; simp at h1; subst h1
      rcases hids c h2 with h3 | h3
      · exact .inl ⟨h3, rfl⟩
      · exact .inr h3
    · rw [hother r' hrr] at h1
      exact .inr ⟨rec', h1, h2⟩
  constructor
  · exact hkinds
  · exact h.ptrLen
  · intro i p c hi
    obtain ⟨r', t, rec', h1, h2, h3, h4⟩ := h.ptrs i p c hi
    have hcl := hlt r' rec' c h2 h3
    have hbs : upd bs s.chunks.length (cfg.itemOffset cfg.base + k) c = bs c := by
      simp only [upd]; rw [if_neg (by omega)]
    rw [hbs]
    by_cases hrr : r' = r
    · subst hrr
      exact ⟨r', t, rec, h1, hr, hids0 rec' c h2 h3, h4⟩
    · exact ⟨r', t, rec', h1, by simpa [hother r' hrr] using h2, h3, h4⟩
  · exact h.objs
  · exact h.heapRaw
  · exact h.heapObj
  · exact h.heapLink
  · intro c b hb
    rcases hchunk' c b hb with ⟨h1, h2⟩ | ⟨rfl, rfl⟩
    · have hbs : upd bs s.chunks.length (cfg.itemOffset cfg.base + k) c = bs c := by
        simp only [upd]; rw [if_neg h2]
      rw [hbs]; exact h.chain c b h1
    · rw [hflnil]; rfl
  · intro c hc
    by_cases hcc : c = s.chunks.length
    · rw [hcc]; exact hflnil
    · apply h.dead
      intro b hb
      exact hc b (hchunk c b hb)
  · exact h.nodup
  · exact h.disj
  · intro r' rec' c h1 h2
    rcases hnew r' rec' c h1 h2 with ⟨rfl, _⟩ | ⟨rec0, h3, h4⟩
    · exact ⟨none, by simp⟩
    · obtain ⟨b, hb⟩ := h.recChunk r' rec0 c h3 h4
      exact ⟨b, hchunk c b hb⟩
  · intro r1 r2 rec1 rec2 c h1 h2 h3 h4
    rcases hnew r1 rec1 c h1 h3 with ⟨h5, h6⟩ | ⟨rec0, h5, h6⟩
    · rcases hnew r2 rec2 c h2 h4 with ⟨_, h7⟩ | ⟨rec0, h7, h8⟩
      · rw [h6, h7]
      · have := hlt r2 rec0 c h7 h8; omega
    · rcases hnew r2 rec2 c h2 h4 with ⟨h7, _⟩ | ⟨rec0', h7, h8⟩
      · have := hlt r1 rec0 c h5 h6; omega
      · exact h.recDisj r1 r2 rec0 rec0' c h5 h7 h6 h8
  · intro r' rec' h1
    by_cases hrr : r' = r
    · subst hrr
      rw [hr] at h1; simp at h1; subst h1
      have hcid : rec.chunkIds = (rec.keyed cfg).map (·.2) := by cases rec <;> simp [Rec.chunkIds, Rec.keyed]
      rw [hcid, hk1]
      simp only [List.map_cons, List.nodup_cons]
      rcases hk2 with ⟨h2, _⟩ | ⟨rec0, h2, h3⟩
      · simp [h2]
      · have h4 := h.recNodup r' rec0 h2
        have hcid0 : rec0.chunkIds = (rec0.keyed cfg).map (·.2) := by
          cases rec0 <;> simp [Rec.chunkIds, Rec.keyed]
        rw [hcid0, h3] at h4
        refine ⟨?_, h4⟩
        intro hm
        have : s.chunks.length ∈ rec0.chunkIds := by rw [hcid0, h3]; exact hm
        have := hlt r' rec0 _ h2 this
        omega
    · rw [hother r' hrr] at h1
      exact h.recNodup r' rec' h1
  · intro c b hb
    rcases hchunk' c b hb with ⟨h1, h2⟩ | ⟨rfl, rfl⟩
    · obtain ⟨r', rec', h3, h4⟩ := h.chunkRec c b h1
      by_cases hrr : r' = r
      · subst hrr; exact ⟨r', rec, hr, hids0 rec' c h3 h4⟩
      · exact ⟨r', rec', by simpa [hother r' hrr] using h3, h4⟩
    · exact ⟨r, rec, hr, hmem⟩
  · intro r' rec' k' c h1 h2
    have hold : ∀ rec0, s.recs[r']? = some (some rec0) → (k', c) ∈ rec0.keyed cfg →
        upd bs s.chunks.length (cfg.itemOffset cfg.base + k) c = cfg.itemOffset cfg.base + k' ∧ 8 ≤ k' := by
      intro rec0 h3 h4
      have := hlt r' rec0 c h3 (Rec.mem_chunkIds.2 ⟨k', h4⟩)
      have hbs : upd bs s.chunks.length (cfg.itemOffset cfg.base + k) c = bs c := by
        simp only [upd]; rw [if_neg (by omega)]
      rw [hbs]; exact h.key r' rec0 k' c h3 h4
    by_cases hrr : r' = r
    · subst hrr
      rw [hr] at h1; simp at h1; subst h1
      rw [hk1] at h2
      rcases List.mem_cons.1 h2 with h3 | h3
      · simp at h3; obtain ⟨rfl, rfl⟩ := h3
        exact ⟨by simp [upd], hk⟩
      · rcases hk2 with ⟨h4, _⟩ | ⟨rec0, h4, h5⟩
        · simp [h4] at h3
        · exact hold rec0 h4 (h5 ▸ h3)
    · rw [hother r' hrr] at h1
      exact hold rec' h1 h2
  · intro i r' t p c hi hp
    obtain ⟨r2, t2, rec2, h1, h2, h3, h4⟩ := h.ptrs i p c hp
    have := hlt r2 rec2 c h2 h3
    have hbs : upd bs s.chunks.length (cfg.itemOffset cfg.base + k) c = bs c := by
      simp only [upd]; rw [if_neg (by omega)]
    rw [hbs]; exact h.lay i r' t p c hi hp
  · intro r' rec' h1
    by_cases hrr : r' = r
    · subst hrr
      rw [hr] at h1; simp at h1; subst h1
      rw [hk1, List.map_cons, List.nodup_cons]
      refine ⟨hk0, ?_⟩
      rcases hk2 with ⟨h2, _⟩ | ⟨rec0, h2, h3⟩
      · simp [h2]
      · rw [← h3]; exact h.keys r' rec0 h2
    · rw [hother r' hrr] at h1
      exact h.keys r' rec' h1
  · intro r' rec' h1
    by_cases hrr : r' = r
    · subst hrr
      rw [hr] at h1; simp at h1; subst h1
      exact hsz
    · rw [hother r' hrr] at h1
      exact h.sized r' rec' h1

theorem Inv.newMono {cfg lk s a fl bs} (h : Inv cfg lk s a fl bs) (h8 : 8 ≤ cfg.base.size) :
    ∃ bs', Inv cfg lk { s with chunks := s.chunks ++ [⟨true, none⟩],
                               recs := s.recs ++ [some (.mono s.chunks.length)] }
      { a with recs := a.recs ++ [some .mono] } fl bs' := by
  refine ⟨_, h.addChunk (r := s.recs.length) (k := cfg.base.size) (rec := .mono s.chunks.length) ?_ ?_ ?_ ?_ h8 trivial⟩
  · simp [h.kinds, Rec.kind]
  · simp
  · intro r' hr'
    simp only [List.getElem?_append, List.getElem?_singleton]
    split
    · rfl
    · rw [if_neg (by omega), List.getElem?_eq_none (by omega)]
  · exact ⟨[], rfl, by simp, .inl ⟨rfl, by simp⟩⟩

theorem mem_holders {n : Nat} : ∀ (ks : List Nat) (k : Nat), k ∈ ks ↔ k ∈ (holders n ks).map (·.1) := by
  intro ks
  induction ks with
  | nil => simp [holders]
  | cons x ks ih =>
    intro k
    simp only [holders]
    split
    · rw [← ih k, List.mem_cons]
      constructor
      · rintro (rfl | h)
        · assumption
        · exact h
      · exact .inr
    · simp only [List.map_cons, List.mem_cons, ih k]

theorem Inv.newFixed {cfg lk s a fl bs} (h : Inv cfg lk s a fl bs) : ∀ (ks : List Nat), (∀ k ∈ ks, 8 ≤ k) →
    ∃ bs', Inv cfg lk { s with chunks := s.chunks ++ List.replicate (holders s.chunks.length ks).length ⟨true, none⟩,
                               recs := s.recs ++ [some (.fixed ks (holders s.chunks.length ks))] }
      { a with recs := a.recs ++ [some (.fixed ks)] } fl bs' := by
  have hset : ∀ (x y : Option Rec), (s.recs ++ [x]).set s.recs.length y = s.recs ++ [y] := by
    intro x y; rw [List.set_append_right _ _ (Nat.le_refl _)]; simp
  have hseta : ∀ (x y : Option Kind), (a.recs ++ [x]).set s.recs.length y = a.recs ++ [y] := by
    intro x y
    have : s.recs.length = a.recs.length := by rw [← h.kinds]; simp
    rw [this, List.set_append_right _ _ (Nat.le_refl _)]; simp
  intro ks
  induction ks with
  | nil =>
    intro _
    refine ⟨bs, ?_⟩
    have := h.newEmpty (.fixed [] []) rfl rfl (by simp [Rec.sized])
    simpa [holders, Rec.kind] using this
  | cons k ks ih =>
    intro hk8
    obtain ⟨bs', h1⟩ := ih (fun k hk => hk8 k (by simp [hk]))
    have hlast : (s.recs ++ [some (Rec.fixed ks (holders s.chunks.length ks))])[s.recs.length]? =
        some (some (.fixed ks (holders s.chunks.length ks))) := by simp
    by_cases hk : k ∈ ks
    · have hh : holders s.chunks.length (k :: ks) = holders s.chunks.length ks := by simp [holders, hk]
      have h2 := h1.rekind (rec' := .fixed (k :: ks) (holders s.chunks.length ks)) hlast rfl (by
        intro x; rw [← mem_holders ks x, List.mem_cons]
        constructor
        · rintro (rfl | h)
          · exact hk
          · exact h
        · exact .inr)
      simp only [Rec.kind, hset, hseta] at h2
      rw [hh]
      exact ⟨bs', h2⟩
    · have hh : holders s.chunks.length (k :: ks) =
          (k, s.chunks.length + (holders s.chunks.length ks).length) :: holders s.chunks.length ks := by simp [holders, hk]
      have h2 := h1.addChunk (r := s.recs.length) (k := k) (rec := .fixed (k :: ks) (holders s.chunks.length (k :: ks)))
        (recs' := s.recs ++ [some (.fixed (k :: ks) (holders s.chunks.length (k :: ks)))])
        (arecs' := a.recs ++ [some (.fixed (k :: ks))]) (by simp [h.kinds, Rec.kind]) (by simp) ?_
        ⟨holders s.chunks.length ks, by simp [Rec.keyed, hh], by rw [← mem_holders]; exact hk,
          .inr ⟨_, hlast, rfl⟩⟩ (hk8 k (by simp)) (mem_holders (k :: ks))
      · rw [hh] at h2 ⊢
        simp only [List.length_cons, List.replicate_succ', ← List.append_assoc]
        exact ⟨_, h2⟩
      · intro r' hr'
        simp only [List.getElem?_append, List.getElem?_singleton]
        split
        · rfl
        · rw [if_neg (by omega), if_neg (by omega)]

theorem lookup_some {m : List (Nat × Nat)} {k : Nat} (h : k ∈ m.map (·.1)) : ∃ c, m.lookup k = some c := by
  cases hl : m.lookup k with
  | some c => exact ⟨c, rfl⟩
  | none => exact absurd h (lookup_none hl)

theorem Inv.getChunk {cfg lk s a fl bs} (h : Inv cfg lk s a fl bs) {r : Nat} {t : Ty} {k : Kind}
    (hk : a.recs[r]? = some (some k)) (hm : k.makes cfg.base t = true) (h8 : 8 ≤ t.size) :
    ∃ s' c rec bs', s.getChunk cfg r t = .ok (s', c) ∧ Inv cfg lk s' a fl bs' ∧
      s'.recs[r]? = some (some rec) ∧ (t.size, c) ∈ rec.keyed cfg := by
  obtain ⟨rec, h1, h2⟩ := h.kindAt hk
  cases rec with
  | mono c =>
    have : t = cfg.base := by simpa [← h2, Rec.kind, Kind.makes] using hm
    exact ⟨s, c, _, bs, by simp [State.getChunk, h1, this], h, h1, by simp [Rec.keyed, this]⟩
  | fixed ks m =>
    have h3 : t.size ∈ ks := by simpa [← h2, Rec.kind, Kind.makes] using hm
    obtain ⟨c, hl⟩ := lookup_some ((h.sized r _ h1 t.size).1 h3)
    exact ⟨s, c, _, bs, by simp [State.getChunk, h1, hl], h, h1, lookup_mem hl⟩
  | poly m =>
    cases hl : m.lookup t.size with
    | some c =>
      exact ⟨s, c, _, bs, by simp [State.getChunk, h1, hl], h, h1, lookup_mem hl⟩
    | none =>
      refine ⟨{ s with chunks := s.chunks ++ [⟨true, none⟩],
                       recs := s.recs.set r (some (.poly ((t.size, s.chunks.length) :: m))) },
        s.chunks.length, .poly ((t.size, s.chunks.length) :: m),
        upd bs s.chunks.length (cfg.itemOffset cfg.base + t.size),
        by simp [State.getChunk, h1, hl], ?_, by simp [lt_of_get h1], by simp [Rec.keyed]⟩
      have := h.addChunk (r := r) (k := t.size) (rec := .poly ((t.size, s.chunks.length) :: m))
        (recs' := s.recs.set r (some (.poly ((t.size, s.chunks.length) :: m)))) (arecs' := a.recs)
        ?_ (by simp [lt_of_get h1]) ?_ ⟨m, rfl, lookup_none hl, .inr ⟨_, h1, rfl⟩⟩ h8 trivial
      · exact this
      · rw [List.map_set, h.kinds]
        simp only [Option.map_some, Rec.kind]
        have : k = .poly := by simp [← h2, Rec.kind]
        subst this
        apply List.ext_getElem?
        intro j
        rw [List.getElem?_set]
        split
        · subst_vars; split
          · exact hk.symm
          · rename_i hh; exact absurd (lt_of_get hk) hh
        · rfl
      · intro r' hr'
        rw [List.getElem?_set_ne (fun e => hr' e.symm)]

theorem Inv.create {cfg lk s a fl bs} (h : Inv cfg lk s a fl bs) {r : Nat} {t : Ty} {k : Kind}
    (hk : a.recs[r]? = some (some k)) (hm : k.makes cfg.base t = true) (ht : Fits cfg t) :
    ∃ s' fl' bs', s.create cfg r t = .ok s' ∧
      Inv cfg lk s' { a with objs := a.objs ++ [some (r, t)] } fl' bs' := by
  obtain ⟨s1, c, rec, bs', h1, h2, h3, h4⟩ := h.getChunk hk hm ht.2
  obtain ⟨s2, fl', h5, h6⟩ := h2.chunkCreate h3 h4 ht
  exact ⟨s2, fl', bs', by simp [State.create, h1, h5], h6⟩

/-! ## destruction of an object -/

theorem Inv.delete {cfg lk s a fl bs} (h : Inv cfg lk s a fl bs) {i r : Nat} {t : Ty}
    (hi : a.objs[i]? = some (some (r, t))) :
    ∃ s' fl', s.delete cfg i t = .ok s' ∧ Inv cfg lk s' { a with objs := a.objs.set i none } fl' bs := by
  obtain ⟨hoff, p, c, hp⟩ := h.objs i r t hi
  obtain ⟨r', t', rec, h1, h2, h3, h4⟩ := h.ptrs i p c hp
  rw [hi] at h1; simp at h1; obtain ⟨rfl, rfl⟩ := h1
  obtain ⟨b, hb⟩ := h.recChunk r rec c h2 h3
  obtain ⟨k, hk⟩ := (Rec.mem_chunkIds (cfg := cfg)).1 h3
  obtain ⟨hbs, h8⟩ := h.key r rec k c h2 hk
  have hchain := h.chain c b hb
  have hclt := lt_of_get hb
  have hplt := lt_of_get h4
  have hilt := lt_of_get hp
  have hpn : ∀ c', p ∉ fl c' := by
    intro c' hc'
    obtain ⟨nxt, hn⟩ := h.fl_lt hc'
    rw [h4] at hn; simp at hn
  refine ⟨{ s with heap := s.heap.set p ⟨bs c, .link b⟩, chunks := s.chunks.set c ⟨true, some p⟩,
                   ptrs := s.ptrs.set i none }, upd fl c (p :: fl c), ?_, ?_⟩
  · have : ¬ (bs c < 8) := by omega
    simp [State.delete, hp, State.chunkAt, hb, h4, hoff, this]
  · constructor
    · exact h.kinds
    · simp [h.ptrLen]
    · intro j q c' hj
      by_cases hji : j = i
      · subst hji; simp [hilt] at hj
      · simp only [List.getElem?_set_ne (fun e => hji e.symm)] at hj ⊢
        obtain ⟨r', t', rec', h5, h6, h7, h8⟩ := h.ptrs j q c' hj
        refine ⟨r', t', rec', h5, h6, h7, ?_⟩
        rw [List.getElem?_set_ne]
        · exact h8
        · rintro rfl; rw [h4] at h8; simp at h8; exact hji h8.2.symm
    · intro j r' t' hj
      by_cases hji : j = i
      · subst hji; simp [lt_of_get hi] at hj
      · simp only [List.getElem?_set_ne (fun e => hji e.symm)] at hj ⊢
        exact h.objs j r' t' hj
    · intro q n hl hq
      by_cases hqp : q = p
      · subst hqp; simp [hplt] at hq
      · simp only [List.getElem?_set_ne (fun e => hqp e.symm)] at hq
        exact h.heapRaw q n hl hq
    · intro q n j hq
      by_cases hqp : q = p
      · subst hqp; simp [hplt] at hq
      · simp only [List.getElem?_set_ne (fun e => hqp e.symm)] at hq
        obtain ⟨c', hc'⟩ := h.heapObj q n j hq
        refine ⟨c', ?_⟩
        rw [List.getElem?_set_ne]
        · exact hc'
        · rintro rfl; rw [hp] at hc'; simp at hc'; exact hqp hc'.1.symm
    · intro q n b' hq hlk
      by_cases hqp : q = p
      · subst hqp; exact ⟨c, by simp [upd]⟩
      · simp only [List.getElem?_set_ne (fun e => hqp e.symm)] at hq
        obtain ⟨c', hc'⟩ := h.heapLink q n b' hq hlk
        refine ⟨c', ?_⟩
        simp only [upd]; split
        · subst_vars; simp [hc']
        · exact hc'
    · intro c' b' hc'
      by_cases hcc : c' = c
      · subst hcc
        simp [hclt] at hc'
        subst hc'
        simp only [upd, if_true]
        refine ⟨rfl, b, by simp [hplt], hchain.frame ?_⟩
        intro q hq
        rw [List.getElem?_set_ne]
        rintro rfl; exact hpn _ hq
      · simp only [List.getElem?_set_ne (fun e => hcc e.symm)] at hc'
        simp only [upd, if_neg hcc]
        refine (h.chain c' b' hc').frame ?_
        intro q hq
        rw [List.getElem?_set_ne]
        rintro rfl; exact hpn _ hq
    · intro c' hc'
      have hcc : c' ≠ c := by
        rintro rfl
        exact hc' (some p) (by simp [hclt])
      simp only [upd, if_neg hcc]
      apply h.dead
      intro b'
      have := hc' b'
      simp only [List.getElem?_set_ne (fun e => hcc e.symm)] at this
      exact this
    · intro c'
      simp only [upd]; split
      · exact List.nodup_cons.2 ⟨hpn c, h.nodup c⟩
      · exact h.nodup c'
    · intro c1 c2 q hq1 hq2
      have hsub : ∀ c', q ∈ upd fl c (p :: fl c) c' → q = p ∧ c' = c ∨ q ∈ fl c' := by
        intro c' hc'
        simp only [upd] at hc'
        split at hc'
        · rcases List.mem_cons.1 hc' with h | h
          · exact .inl ⟨h, by assumption⟩
          · subst_vars; exact .inr h
        · exact .inr hc'
      rcases hsub c1 hq1 with ⟨h5, h6⟩ | h5
      · rcases hsub c2 hq2 with ⟨_, h7⟩ | h7
        · rw [h6, h7]
        · subst h5; exact absurd h7 (hpn _)
      · rcases hsub c2 hq2 with ⟨h7, _⟩ | h7
        · subst h7; exact absurd h5 (hpn _)
        · exact h.disj c1 c2 q h5 h7
    · intro r' rec' c' h5 h6
      by_cases hcc : c' = c
      · exact ⟨some p, by simp [hcc, hclt]⟩
      · obtain ⟨b', hb'⟩ := h.recChunk r' rec' c' h5 h6
        exact ⟨b', by simpa only [List.getElem?_set_ne (fun e => hcc e.symm)] using hb'⟩
    · exact h.recDisj
    · exact h.recNodup
    · intro c' b' hc'
      by_cases hcc : c' = c
      · subst hcc; exact ⟨r, rec, h2, h3⟩
      · simp only [List.getElem?_set_ne (fun e => hcc e.symm)] at hc'
        exact h.chunkRec c' b' hc'
    · exact h.key
    · intro j r' t' p' c' hj hp'
      by_cases hji : j = i
      · subst hji; simp [lt_of_get hi] at hj
      · simp only [List.getElem?_set_ne (fun e => hji e.symm)] at hj hp'
        exact h.lay j r' t' p' c' hj hp'
    · exact h.keys
    · exact h.sized

/-! ## destruction of chunks -/

theorem freeChain_spec : ∀ (l : List Nat) (s : State) (n fuel : Nat) (b : Option Nat), Chain s.heap n b l → l.Nodup →
    l.length < fuel → ∃ heap', freeChain fuel s b = .ok { s with heap := heap' } ∧
      heap'.length = s.heap.length ∧
      (∀ p, p ∉ l → heap'[p]? = s.heap[p]?) ∧ (∀ p ∈ l, heap'[p]? = some ⟨n, .freed⟩) := by
  intro l
  induction l with
  | nil =>
    intro s n fuel b hc hn hf
    cases hc
    exact ⟨s.heap, by cases fuel <;> simp [freeChain], rfl, by simp, by simp⟩
  | cons p l ih =>
    intro s n fuel b hc hn hf
    obtain ⟨rfl, nxt, h1, h2⟩ := hc
    rw [List.nodup_cons] at hn
    cases fuel with
    | zero => simp at hf
    | succ fuel =>
      have h3 : Chain (s.heap.set p ⟨n, .freed⟩) n nxt l := h2.frame (by
        intro q hq; rw [List.getElem?_set_ne]; rintro rfl; exact hn.1 hq)
      obtain ⟨heap', h4, h5, h6, h7⟩ := ih { s with heap := s.heap.set p ⟨n, .freed⟩ } n fuel nxt h3 hn.2
        (by simp at hf; omega)
      refine ⟨heap', ?_, by simpa using h5, ?_, ?_⟩
      · simp [freeChain, State.readLink, h1, State.deallocate, h4]
      · intro q hq
        simp at hq
        rw [h6 q hq.2, List.getElem?_set_ne (fun e => hq.1 e.symm)]
      · intro q hq
        by_cases hql : q ∈ l
        · exact h7 q hql
        · rcases List.mem_cons.1 hq with rfl | hq
          · rw [h6 q hn.1]; simp [lt_of_get h1]
          · exact absurd hq hql

theorem destroyChunks_spec {fl : Nat → List Nat} {bs : Nat → Nat} (hnd : ∀ c, (fl c).Nodup)
    (hdj : ∀ c c' p, p ∈ fl c → p ∈ fl c' → c = c') : ∀ (cs : List Nat) (s : State), cs.Nodup →
    (∀ c ∈ cs, ∃ b, s.chunks[c]? = some ⟨true, b⟩ ∧ Chain s.heap (bs c) b (fl c)) →
    ∃ heap' chunks', destroyChunks s cs = .ok { s with heap := heap', chunks := chunks' } ∧
      (∀ p, (∀ c ∈ cs, p ∉ fl c) → heap'[p]? = s.heap[p]?) ∧
      (∀ p c, c ∈ cs → p ∈ fl c → heap'[p]? = some ⟨bs c, .freed⟩) ∧
      (∀ c, c ∉ cs → chunks'[c]? = s.chunks[c]?) ∧ (∀ c ∈ cs, chunks'[c]? = some ⟨false, none⟩) := by
  intro cs
  induction cs with
  | nil => intro s _ _; exact ⟨s.heap, s.chunks, by simp [destroyChunks], by simp⟩
  | cons c cs ih =>
    intro s hn hc
    rw [List.nodup_cons] at hn
    obtain ⟨b, hb, hch⟩ := hc c (by simp)
    have hlen : (fl c).length ≤ s.heap.length := nodup_length_le (hnd c) (fun p hp => by
      obtain ⟨_, h⟩ := hch.mem hp; exact lt_of_get h)
    obtain ⟨heap1, h1, h2, h3, h4⟩ := freeChain_spec (fl c) s (bs c) (s.heap.length + 1) b hch (hnd c) (by omega)
    have hclt := lt_of_get hb
    obtain ⟨heap', chunks', h5, h6, h7, h8, h9⟩ := ih { s with heap := heap1, chunks := s.chunks.set c ⟨false, none⟩ } hn.2 (by
      intro c' hc'
      have hcc : c' ≠ c := by rintro rfl; exact hn.1 hc'
      obtain ⟨b', hb', hch'⟩ := hc c' (by simp [hc'])
      refine ⟨b', ?_, hch'.frame ?_⟩
      · simpa only [List.getElem?_set_ne (fun e => hcc e.symm)] using hb'
      · intro p hp
        exact h3 p (fun hp' => hcc (hdj _ _ p hp hp')))
    refine ⟨heap', chunks', ?_, ?_, ?_, ?_, ?_⟩
    · simp [destroyChunks, State.destroyChunk, State.chunkAt, hb, h1, h5]
    · intro p hp
      rw [h6 p (fun c' hc' => hp c' (by simp [hc']))]
      exact h3 p (hp c (by simp))
    · intro p c' hc' hp
      by_cases hm : c' ∈ cs
      · exact h7 p c' hm hp
      · have : c' = c := by simpa [hm] using hc'
        subst this
        rw [h6 p (fun c'' hc'' hp'' => hm (hdj _ _ p hp hp'' ▸ hc''))]
        exact h4 p hp
    · intro c' hc'
      simp at hc'
      rw [h8 c' hc'.2, List.getElem?_set_ne (fun e => hc'.1 e.symm)]
    · intro c' hc'
      by_cases hm : c' ∈ cs
      · exact h9 c' hm
      · have : c' = c := by simpa [hm] using hc'
        subst this
        rw [h8 c' hm]; simp [hclt]

/-- General step for destroying a recycler and for move operations on polymorphic recyclers: the chunks
`cs` are destroyed, the recyclers become `recs'`, and owners are renamed by `f`. -/
theorem Inv.rearrange {cfg lk s a fl bs} (h : Inv cfg lk s a fl bs) {cs : List Nat} {recs' : List (Option Rec)}
    {heap' : List Block} {chunks' : List Chunk} {arecs' : List (Option Kind)} {f : Nat → Nat}
    (hkinds : recs'.map (Option.map Rec.kind) = arecs')
    (h1 : ∀ p : Nat, (∀ c ∈ cs, p ∉ fl c) → heap'[p]? = s.heap[p]?)
    (h2 : ∀ p c : Nat, c ∈ cs → p ∈ fl c → heap'[p]? = some ⟨bs c, .freed⟩)
    (h3 : ∀ c : Nat, c ∉ cs → chunks'[c]? = s.chunks[c]?) (h4 : ∀ c ∈ cs, chunks'[c]? = some ⟨false, none⟩)
    -- every new recycler is an old one (or empty), and no chunk is dropped or shared
    (hnew : ∀ (r' : Nat) (rec' : Rec) (c : Nat), recs'[r']? = some (some rec') → c ∈ rec'.chunkIds → ∃ r : Nat, s.recs[r]? = some (some rec') ∧ f r = r' ∧ c ∉ cs)
    (hempty : ∀ (r' : Nat) (rec' : Rec), recs'[r']? = some (some rec') → (rec'.chunkIds = [] ∧ rec'.sized) ∨ ∃ r : Nat, s.recs[r]? = some (some rec'))
    (hold : ∀ (r : Nat) (rec : Rec) (c : Nat), s.recs[r]? = some (some rec) → c ∈ rec.chunkIds → c ∉ cs →
      recs'[f r]? = some (some rec))
    (hcs : ∀ c ∈ cs, ∀ (i p : Nat), s.ptrs[i]? ≠ some (some (p, c))) :
    Inv cfg lk { s with heap := heap', chunks := chunks', recs := recs' }
      { recs := arecs', objs := a.objs.map fun o => o.map fun (r, t) => (f r, t) }
      (fun c => if c ∈ cs then [] else fl c) bs := by
  have hflsub : ∀ c p, p ∈ (if c ∈ cs then [] else fl c) → p ∈ fl c ∧ c ∉ cs := by
    intro c p hp; split at hp
    · simp at hp
    · exact ⟨hp, by assumption⟩
  have hback : ∀ (p n : Nat) (x : Content), x ≠ .freed → heap'[p]? = some ⟨n, x⟩ → s.heap[p]? = some ⟨n, x⟩ ∧ ∀ c ∈ cs, p ∉ fl c := by
    intro p n x hx hp
    by_cases hc : ∃ c ∈ cs, p ∈ fl c
    · obtain ⟨c, hc, hpc⟩ := hc
      rw [h2 p c hc hpc] at hp; simp at hp; exact absurd hp.2.symm hx
    · have hc' : ∀ c ∈ cs, p ∉ fl c := fun c hc1 hc2 => hc ⟨c, hc1, hc2⟩
      rw [h1 p hc'] at hp
      exact ⟨hp, hc'⟩
  constructor
  · exact hkinds
  · simp [h.ptrLen]
  · intro i p c hi
    obtain ⟨r, t, rec, h5, h6, h7, h8⟩ := h.ptrs i p c hi
    have hccs : c ∉ cs := fun hc => hcs c hc i p hi
    refine ⟨f r, t, rec, by simp [h5], hold r rec c h6 h7 hccs, h7, ?_⟩
    show heap'[p]? = _
    rw [h1 p]
    · exact h8
    · intro c' hc' hp
      obtain ⟨nxt, h9⟩ := h.fl_lt hp
      rw [h8] at h9; simp at h9
  · intro i r t hi
    simp only [List.getElem?_map, Option.map_eq_some_iff] at hi
    obtain ⟨o, h5, h6⟩ := hi
    cases o with
    | none => simp at h6
    | some x =>
      obtain ⟨r0, t0⟩ := x
      simp at h6
      obtain ⟨_, rfl⟩ := h6
      exact h.objs i r0 t0 h5
  · intro p n hl hp
    exact h.heapRaw p n hl (hback p n _ (by simp) hp).1
  · intro p n i hp
    exact h.heapObj p n i (hback p n _ (by simp) hp).1
  · intro p n b hp hlk
    obtain ⟨h5, h6⟩ := hback p n _ (by simp) hp
    obtain ⟨c, hc⟩ := h.heapLink p n b h5 hlk
    have : c ∉ cs := fun hcc => h6 c hcc hc
    exact ⟨c, by simpa [this] using hc⟩
  · intro c b hb
    have hccs : c ∉ cs := by
      intro hc; simp only [h4 c hc] at hb; simp at hb
    simp only [hccs, if_false]
    simp only [h3 c hccs] at hb
    refine (h.chain c b hb).frame ?_
    intro p hp
    apply h1
    intro c' hc' hp'
    exact hccs (h.disj _ _ p hp' hp ▸ hc')
  · intro c hc
    by_cases hccs : c ∈ cs
    · simp [hccs]
    · simp only [hccs, if_false]
      apply h.dead
      intro b hb
      apply hc b
      simp only [h3 c hccs]; exact hb
  · intro c; split
    · simp
    · exact h.nodup c
  · intro c c' p hp hp'
    exact h.disj c c' p (hflsub c p hp).1 (hflsub c' p hp').1
  · intro r' rec' c h5 h6
    obtain ⟨r, h7, h8, h9⟩ := hnew r' rec' c h5 h6
    obtain ⟨b, hb⟩ := h.recChunk r rec' c h7 h6
    exact ⟨b, by simp only [h3 c h9]; exact hb⟩
  · intro r1 r2 rec1 rec2 c h5 h6 h7 h8
    obtain ⟨q1, h9, h10, _⟩ := hnew r1 rec1 c h5 h7
    obtain ⟨q2, h11, h12, _⟩ := hnew r2 rec2 c h6 h8
    rw [← h10, ← h12, h.recDisj q1 q2 rec1 rec2 c h9 h11 h7 h8]
  · intro r' rec' h5
    rcases hempty r' rec' h5 with ⟨h6, _⟩ | ⟨r, h6⟩
    · simp [h6]
    · exact h.recNodup r rec' h6
  · intro c b hb
    have hccs : c ∉ cs := by
      intro hc; simp only [h4 c hc] at hb; simp at hb
    simp only [h3 c hccs] at hb
    obtain ⟨r, rec, h5, h6⟩ := h.chunkRec c b hb
    exact ⟨f r, rec, hold r rec c h5 h6 hccs, h6⟩
  · intro r' rec' k c h5 h6
    obtain ⟨r, h7, _, _⟩ := hnew r' rec' c h5 (Rec.mem_chunkIds.2 ⟨k, h6⟩)
    exact h.key r rec' k c h7 h6
  · intro i r' t p c hi hp
    simp only [List.getElem?_map, Option.map_eq_some_iff] at hi
    obtain ⟨o, h5, h6⟩ := hi
    cases o with
    | none => simp at h6
    | some x =>
      obtain ⟨r0, t0⟩ := x
      simp at h6
      obtain ⟨_, rfl⟩ := h6
      exact h.lay i r0 t0 p c h5 hp
  · intro r' rec' h5
    rcases hempty r' rec' h5 with ⟨h6, _⟩ | ⟨r, h6⟩
    · have : rec'.keyed cfg = [] := by
        cases rec' with
        | mono c => simp [Rec.chunkIds] at h6
        | poly m => simpa [Rec.chunkIds, Rec.keyed] using h6
        | fixed ks m => simpa [Rec.chunkIds, Rec.keyed] using h6
      simp [this]
    · exact h.keys r rec' h6
  · intro r' rec' h5
    rcases hempty r' rec' h5 with h6 | ⟨r, h6⟩
    · exact h6.2
    · exact h.sized r rec' h6

theorem Abs.unused_iff {a : Abs} {r : Nat} : a.unused r = true ↔
    ∀ (i r' : Nat) (t : Ty), a.objs[i]? = some (some (r', t)) → r' ≠ r := by
  simp only [Abs.unused, List.all_eq_true]
  constructor
  · intro h i r' t hi
    have := h _ (List.mem_of_getElem? hi)
    simpa using this
  · intro h o ho
    obtain ⟨i, hi⟩ := List.getElem?_of_mem ho
    cases o with
    | none => rfl
    | some x =>
      obtain ⟨r', t⟩ := x
      simpa using h i r' t hi

theorem Inv.unused_ptr {cfg lk s a fl bs} (h : Inv cfg lk s a fl bs) {r : Nat} {rec : Rec} (hu : a.unused r = true)
    (hr : s.recs[r]? = some (some rec)) : ∀ c ∈ rec.chunkIds, ∀ (i p : Nat), s.ptrs[i]? ≠ some (some (p, c)) := by
  intro c hc i p hi
  obtain ⟨r', t, rec', h1, h2, h3, _⟩ := h.ptrs i p c hi
  exact Abs.unused_iff.1 hu i r' t h1 (h.recDisj r' r rec' rec c h2 hr h3 hc)

theorem map_id_owner (l : List (Option (Nat × Ty))) :
    (l.map fun o => o.map fun (r, t) => (id r, t)) = l := by
  have : (fun o : Option (Nat × Ty) => o.map fun (r, t) => (id r, t)) = id := by
    funext o; cases o <;> rfl
  rw [this, List.map_id]

theorem Inv.destroyRec {cfg lk s a fl bs} (h : Inv cfg lk s a fl bs) {r : Nat} {k : Kind}
    (hk : a.recs[r]? = some (some k)) (hu : a.unused r = true) :
    ∃ s' fl', s.destroyRec r = .ok s' ∧ Inv cfg lk s' { a with recs := a.recs.set r none } fl' bs := by
  obtain ⟨rec, hr, _⟩ := h.kindAt hk
  have hch : ∀ c ∈ rec.chunkIds, ∃ b, s.chunks[c]? = some ⟨true, b⟩ ∧ Chain s.heap (bs c) b (fl c) := by
    intro c hc
    obtain ⟨b, hb⟩ := h.recChunk r rec c hr hc
    exact ⟨b, hb, h.chain c b hb⟩
  obtain ⟨heap', chunks', h1, h2, h3, h4, h5⟩ :=
    destroyChunks_spec h.nodup h.disj rec.chunkIds s (h.recNodup r rec hr) hch
  have hrlt := lt_of_get hr
  have := h.rearrange (cs := rec.chunkIds) (recs' := s.recs.set r none) (arecs' := a.recs.set r none) (f := id)
    (by rw [List.map_set, h.kinds]; rfl) h2 h3 h4 h5 ?_ ?_ ?_ (h.unused_ptr hu hr)
  · rw [map_id_owner] at this
    exact ⟨_, _, by simp only [State.destroyRec, hr, h1, Outcome.bind_ok, Outcome.pure_eq], this⟩
  · intro r' rec' c hr' hc
    by_cases hrr : r' = r
    · subst hrr; simp [hrlt] at hr'
    · rw [List.getElem?_set_ne (fun e => hrr e.symm)] at hr'
      exact ⟨r', hr', rfl, fun hcc => hrr (h.recDisj r' r rec' rec c hr' hr hc hcc)⟩
  · intro r' rec' hr'
    by_cases hrr : r' = r
    · subst hrr; simp [hrlt] at hr'
    · rw [List.getElem?_set_ne (fun e => hrr e.symm)] at hr'
      exact .inr ⟨r', hr'⟩
  · intro r' rec' c hr' hc hcc
    have hrr : r' ≠ r := by
      rintro rfl; rw [hr] at hr'; simp at hr'; subst hr'; exact hcc hc
    simp only [id]
    rw [List.getElem?_set_ne (fun e => hrr e.symm)]; exact hr'

theorem Inv.moveRec {cfg lk s a fl bs} (h : Inv cfg lk s a fl bs) {r : Nat}
    (hk : a.recs[r]? = some (some .poly)) :
    ∃ s' fl', s.moveRec r = .ok s' ∧
      Inv cfg lk s' { recs := a.recs ++ [some .poly], objs := a.reown r a.recs.length } fl' bs := by
  obtain ⟨rec, hr, hkk⟩ := h.kindAt hk
  cases rec with
  | mono c => simp [Rec.kind] at hkk
  | fixed ks m => simp [Rec.kind] at hkk
  | poly m =>
    have hrlt := lt_of_get hr
    have hlen : a.recs.length = s.recs.length := by rw [← h.kinds]; simp
    have := h.rearrange (cs := []) (recs' := s.recs.set r (some (.poly [])) ++ [some (.poly m)])
      (heap' := s.heap) (chunks' := s.chunks)
      (arecs' := a.recs ++ [some .poly]) (f := fun r' => if r' = r then a.recs.length else r')
      ?_ (by simp) (by simp) (by simp) (by simp) ?_ ?_ ?_ (by simp)
    · exact ⟨_, _, by simp only [State.moveRec, hr], this⟩
    · rw [List.map_append, List.map_set, h.kinds]
      simp only [Option.map_some, Rec.kind, List.map_cons, List.map_nil]
      congr 1
      apply List.ext_getElem?
      intro j
      rw [List.getElem?_set]
      split
      · subst_vars; split
        · exact hk.symm
        · rename_i hh; exact absurd (lt_of_get hk) hh
      · rfl
    · intro r' rec' c hr' hc
      simp only [List.getElem?_append, List.length_set, List.getElem?_singleton] at hr'
      split at hr'
      · by_cases hrr : r' = r
        · subst hrr; simp [hrlt] at hr'; subst hr'; simp [Rec.chunkIds] at hc
        · rw [List.getElem?_set_ne (fun e => hrr e.symm)] at hr'
          exact ⟨r', hr', by simp [hrr], by simp⟩
      · split at hr'
        · simp at hr'; subst hr'
          exact ⟨r, hr, by simp [hlen]; omega, by simp⟩
        · simp at hr'
    · intro r' rec' hr'
      simp only [List.getElem?_append, List.length_set, List.getElem?_singleton] at hr'
      split at hr'
      · by_cases hrr : r' = r
        · subst hrr; simp [hrlt] at hr'; subst hr'; exact .inl ⟨rfl, trivial⟩
        · rw [List.getElem?_set_ne (fun e => hrr e.symm)] at hr'
          exact .inr ⟨r', hr'⟩
      · split at hr'
        · simp at hr'; subst hr'
          exact .inr ⟨r, hr⟩
        · simp at hr'
    · intro r' rec' c hr' hc _
      by_cases hrr : r' = r
      · subst hrr
        rw [hr] at hr'; simp at hr'; subst hr'
        simp [hlen]
      · simp only [hrr, if_false]
        rw [List.getElem?_append_left (by simpa using lt_of_get hr'), List.getElem?_set_ne (fun e => hrr e.symm)]
        exact hr'

theorem Inv.moveAssign {cfg lk s a fl bs} (h : Inv cfg lk s a fl bs) {d r : Nat}
    (hd : a.recs[d]? = some (some .poly)) (hr : a.recs[r]? = some (some .poly)) (hne : d ≠ r)
    (hu : a.unused d = true) :
    ∃ s' fl', s.moveAssign d r = .ok s' ∧ Inv cfg lk s' { a with objs := a.reown r d } fl' bs := by
  obtain ⟨recd, hsd, hkd⟩ := h.kindAt hd
  obtain ⟨recr, hsr, hkr⟩ := h.kindAt hr
  cases recd with
  | mono c => simp [Rec.kind] at hkd
  | fixed ks m => simp [Rec.kind] at hkd
  | poly md =>
  cases recr with
  | mono c => simp [Rec.kind] at hkr
  | fixed ks m => simp [Rec.kind] at hkr
  | poly mr =>
    have hch : ∀ c ∈ (Rec.poly md).chunkIds, ∃ b, s.chunks[c]? = some ⟨true, b⟩ ∧ Chain s.heap (bs c) b (fl c) := by
      intro c hc
      obtain ⟨b, hb⟩ := h.recChunk d _ c hsd hc
      exact ⟨b, hb, h.chain c b hb⟩
    obtain ⟨heap', chunks', h1, h2, h3, h4, h5⟩ :=
      destroyChunks_spec h.nodup h.disj (Rec.poly md).chunkIds s (h.recNodup d _ hsd) hch
    have hdlt := lt_of_get hsd
    have hrlt := lt_of_get hsr
    have hnewrec : ∀ (r' : Nat) (rec' : Rec),
        ((s.recs.set d (some (.poly mr))).set r (some (.poly [])))[r']? = some (some rec') →
        (r' = r ∧ rec' = .poly []) ∨ (r' = d ∧ rec' = .poly mr) ∨ (r' ≠ r ∧ r' ≠ d ∧ s.recs[r']? = some (some rec')) := by
      intro r' rec' hr'
      by_cases hrr : r' = r
      · subst hrr; simp [hrlt] at hr'; exact .inl ⟨rfl, hr'.symm⟩
      · rw [List.getElem?_set_ne (fun e => hrr e.symm)] at hr'
        by_cases hrd : r' = d
        · subst hrd; simp [hdlt] at hr'; exact .inr (.inl ⟨rfl, hr'.symm⟩)
        · rw [List.getElem?_set_ne (fun e => hrd e.symm)] at hr'
          exact .inr (.inr ⟨hrr, hrd, hr'⟩)
    have := h.rearrange (cs := (Rec.poly md).chunkIds)
      (recs' := (s.recs.set d (some (.poly mr))).set r (some (.poly [])))
      (arecs' := a.recs) (f := fun r' => if r' = r then d else r')
      ?_ h2 h3 h4 h5 ?_ ?_ ?_ (h.unused_ptr hu hsd)
    · refine ⟨_, _, ?_, this⟩
      have h1' : destroyChunks s (md.map (·.2)) = .ok { s with heap := heap', chunks := chunks' } := h1
      simp only [State.moveAssign, hsd, hsr, h1', Outcome.bind_ok, Outcome.pure_eq]
    · rw [List.map_set, List.map_set, h.kinds]
      simp only [Option.map_some, Rec.kind]
      apply List.ext_getElem?
      intro j
      rw [List.getElem?_set]
      split
      · subst_vars; split
        · exact hr.symm
        · rename_i hh; exact absurd (by simpa using lt_of_get hr) hh
      · rw [List.getElem?_set]
        split
        · subst_vars; split
          · exact hd.symm
          · rename_i hh; exact absurd (lt_of_get hd) hh
        · rfl
    · intro r' rec' c hr' hc
      rcases hnewrec r' rec' hr' with ⟨rfl, rfl⟩ | ⟨rfl, rfl⟩ | ⟨h6, h7, h8⟩
      · simp [Rec.chunkIds] at hc
      · exact ⟨r, hsr, by simp, fun hcc => hne (h.recDisj _ r _ _ c hsd hsr hcc hc)⟩
      · exact ⟨r', h8, by simp [h6], fun hcc => h7 (h.recDisj r' d _ _ c h8 hsd hc hcc)⟩
    · intro r' rec' hr'
      rcases hnewrec r' rec' hr' with ⟨rfl, rfl⟩ | ⟨rfl, rfl⟩ | ⟨h6, h7, h8⟩
      · exact .inl ⟨rfl, trivial⟩
      · exact .inr ⟨r, hsr⟩
      · exact .inr ⟨r', h8⟩
    · intro r' rec' c hr' hc hcc
      by_cases hrr : r' = r
      · subst hrr
        rw [hsr] at hr'; simp at hr'; subst hr'
        simp only [if_true]
        rw [List.getElem?_set_ne (fun e => hne e.symm)]
        simp [hdlt]
      · have hrd : r' ≠ d := by
          rintro rfl; rw [hsd] at hr'; simp at hr'; subst hr'; exact hcc hc
        simp only [hrr, if_false]
        rw [List.getElem?_set_ne (fun e => hrr e.symm), List.getElem?_set_ne (fun e => hrd e.symm)]
        exact hr'

/-- Forgetting an object whose constructor threw: its block is lost. -/
theorem Inv.abandon {cfg lk s a fl bs} (h : Inv cfg lk s a fl bs) {i r p c : Nat} {t : Ty}
    (hi : a.objs[i]? = some (some (r, t))) (hp : s.ptrs[i]? = some (some (p, c))) :
    ∃ n, s.heap[p]? = some ⟨n, .obj i⟩ ∧
      Inv cfg true { s with heap := s.heap.set p ⟨n, .raw⟩, ptrs := s.ptrs.set i none }
        { a with objs := a.objs.set i none } fl bs := by
  obtain ⟨r', t', rec, h1, h2, h3, h4⟩ := h.ptrs i p c hp
  rw [hi] at h1; simp at h1; obtain ⟨rfl, rfl⟩ := h1
  have hplt := lt_of_get h4
  have hilt := lt_of_get hp
  have hpn : ∀ c', p ∉ fl c' := by
    intro c' hc'
    obtain ⟨nxt, hn⟩ := h.fl_lt hc'
    rw [h4] at hn; simp at hn
  refine ⟨bs c, h4, ?_⟩
  constructor
  · exact h.kinds
  · simp [h.ptrLen]
  · intro j q c' hj
    by_cases hji : j = i
    · subst hji; simp [hilt] at hj
    · simp only [List.getElem?_set_ne (fun e => hji e.symm)] at hj ⊢
      obtain ⟨r', t', rec', h5, h6, h7, h8⟩ := h.ptrs j q c' hj
      refine ⟨r', t', rec', h5, h6, h7, ?_⟩
      rw [List.getElem?_set_ne]
      · exact h8
      · rintro rfl; rw [h4] at h8; simp at h8; exact hji h8.2.symm
  · intro j r' t' hj
    by_cases hji : j = i
    · subst hji; simp [lt_of_get hi] at hj
    · simp only [List.getElem?_set_ne (fun e => hji e.symm)] at hj ⊢
      exact h.objs j r' t' hj
  · intro q n hl; simp at hl
  · intro q n j hq
    by_cases hqp : q = p
    · subst hqp; simp [hplt] at hq
    · simp only [List.getElem?_set_ne (fun e => hqp e.symm)] at hq
      obtain ⟨c', h5⟩ := h.heapObj q n j hq
      refine ⟨c', ?_⟩
      have hji : i ≠ j := by
        rintro rfl
        rw [hp] at h5; simp at h5; exact hqp h5.1.symm
      rw [List.getElem?_set_ne hji]; exact h5
  · intro q n b hq hl; simp at hl
  · intro c' b hb
    exact (h.chain c' b hb).frame (fun q hq => List.getElem?_set_ne (by rintro rfl; exact hpn c' hq))
  · exact h.dead
  · exact h.nodup
  · exact h.disj
  · exact h.recChunk
  · exact h.recDisj
  · exact h.recNodup
  · exact h.chunkRec
  · exact h.key
  · intro j r' t' q c' hj hq
    by_cases hji : j = i
    · subst hji; simp [lt_of_get hi] at hj
    · simp only [List.getElem?_set_ne (fun e => hji e.symm)] at hj hq
      exact h.lay j r' t' q c' hj hq
  · exact h.keys
  · exact h.sized

/-- Moving the free list of chunk `c` into chunk `c'`. What `c'` had before is lost. -/
theorem Inv.transfer {cfg lk lk' s a fl bs} (h : Inv cfg lk s a fl bs) {c c' : Nat} {b b' : Option Nat}
    (hc : s.chunks[c]? = some ⟨true, b⟩) (hc' : s.chunks[c']? = some ⟨true, b'⟩) (hbs : bs c = bs c')
    (hlk : lk' = false → lk = false ∧ c ≠ c' ∧ fl c' = []) :
    Inv cfg lk' { s with chunks := (s.chunks.set c' ⟨true, b⟩).set c ⟨true, none⟩ } a
      (upd (upd fl c' (fl c)) c []) bs := by
  have hlt := lt_of_get hc
  have hlt' := lt_of_get hc'
  have get : ∀ x : Nat, ((s.chunks.set c' (⟨true, b⟩ : Chunk)).set c ⟨true, none⟩)[x]? =
      if x = c then some ⟨true, none⟩ else if x = c' then some ⟨true, b⟩ else s.chunks[x]? := by
    intro x
    by_cases h1 : x = c
    · subst h1; simp [hlt]
    · rw [List.getElem?_set_ne (fun e => h1 e.symm), if_neg h1]
      by_cases h2 : x = c'
      · subst h2; simp [hlt']
      · rw [List.getElem?_set_ne (fun e => h2 e.symm), if_neg h2]
  have flc : upd (upd fl c' (fl c)) c [] c = [] := by simp [upd]
  have flc' : c' ≠ c → upd (upd fl c' (fl c)) c [] c' = fl c := by intro hne; simp [upd, hne]
  have flo : ∀ x, x ≠ c → x ≠ c' → upd (upd fl c' (fl c)) c [] x = fl x := by intro x h1 h2; simp [upd, h1, h2]
  constructor
  · exact h.kinds
  · exact h.ptrLen
  · exact h.ptrs
  · exact h.objs
  · exact fun p n hl => h.heapRaw p n (hlk hl).1
  · exact h.heapObj
  · intro p n l hp hl
    obtain ⟨h1, h2, h3⟩ := hlk hl
    obtain ⟨x, hx⟩ := h.heapLink p n l hp h1
    by_cases hxc : x = c
    · subst hxc; exact ⟨c', by rw [flc' (fun e => h2 e.symm)]; exact hx⟩
    · by_cases hxc' : x = c'
      · subst hxc'; rw [h3] at hx; simp at hx
      · exact ⟨x, by rw [flo x hxc hxc']; exact hx⟩
  · intro x l hx
    simp only [get] at hx
    split at hx
    · subst_vars; simp at hx; subst hx; rw [flc]; rfl
    · split at hx
      · rename_i hne he
        subst he; simp at hx; subst hx
        rw [flc' hne, ← hbs]; exact h.chain c _ hc
      · rename_i h1 h2
        rw [flo x h1 h2]; exact h.chain x l hx
  · intro x hx
    simp only [get] at hx
    have h1 : x ≠ c := by rintro rfl; exact hx none (by simp)
    have h2 : x ≠ c' := by rintro rfl; exact hx b (by simp [h1])
    rw [flo x h1 h2]
    exact h.dead x (by simpa [h1, h2] using hx)
  · intro x
    by_cases h1 : x = c
    · subst h1; rw [flc]; simp
    · by_cases h2 : x = c'
      · subst h2; rw [flc' h1]; exact h.nodup c
      · rw [flo x h1 h2]; exact h.nodup x
  · intro x y p hx hy
    by_cases h1 : x = c
    · subst h1; rw [flc] at hx; simp at hx
    · by_cases h2 : y = c
      · subst h2; rw [flc] at hy; simp at hy
      · by_cases h3 : x = c'
        · by_cases h4 : y = c'
          · rw [h3, h4]
          · subst h3; rw [flc' h1] at hx; rw [flo y h2 h4] at hy
            exact absurd (h.disj c y p hx hy).symm h2
        · rw [flo x h1 h3] at hx
          by_cases h4 : y = c'
          · subst h4; rw [flc' h2] at hy
            exact absurd (h.disj x c p hx hy) h1
          · rw [flo y h2 h4] at hy; exact h.disj x y p hx hy
  · intro r rec x hr hx
    simp only [get]
    split
    · exact ⟨_, rfl⟩
    · split
      · exact ⟨_, rfl⟩
      · exact h.recChunk r rec x hr hx
  · exact h.recDisj
  · exact h.recNodup
  · intro x l hx
    simp only [get] at hx
    split at hx
    · subst_vars; exact h.chunkRec _ _ hc
    · split at hx
      · subst_vars; exact h.chunkRec _ _ hc'
      · exact h.chunkRec x l hx
  · exact h.key
  · exact h.lay
  · exact h.keys
  · exact h.sized

end Verif.Recycler
