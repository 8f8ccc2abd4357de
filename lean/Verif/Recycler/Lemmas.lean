import Verif.Recycler.Spec
import Mathlib.Data.List.Perm.Subperm

/-! # Invariant of the recyclers and its preservation -/

namespace Verif.Recycler

open Verif

def Rec.kind : Rec → Kind
  | .mono _ => .mono
  | .poly _ => .poly
  | .fixed ks _ => .fixed ks

/-- Chunks of a recycler with the `sizeof` they serve. -/
def Rec.keyed (cfg : Cfg) : Rec → List (Nat × Nat)
  | .mono c => [(cfg.base.size, c)]
  | .poly m => m
  | .fixed _ m => m

/-- A storage with a fixed list of types has a chunk for each listed size and for no other. -/
def Rec.sized : Rec → Prop
  | .fixed ks m => ∀ k, k ∈ ks ↔ k ∈ m.map (·.1)
  | _ => True

theorem Rec.chunkIds_eq (cfg : Cfg) (rec : Rec) : rec.chunkIds = (rec.keyed cfg).map (·.2) := by
  cases rec <;> simp [Rec.chunkIds, Rec.keyed]

theorem Rec.mem_chunkIds {cfg : Cfg} {rec : Rec} {c : Nat} :
    c ∈ rec.chunkIds ↔ ∃ k, (k, c) ∈ rec.keyed cfg := by
  cases rec <;> simp [Rec.chunkIds, Rec.keyed]

/-- `l` is the free list starting at `b`; all its blocks have size `n`. -/
def Chain (heap : List Block) (n : Nat) : Option Nat → List Nat → Prop
  | b, [] => b = none
  | b, p :: l => b = some p ∧ ∃ nxt, heap[p]? = some ⟨n, .link nxt⟩ ∧ Chain heap n nxt l

theorem Chain.frame {heap heap' : List Block} {n : Nat} {b : Option Nat} {l : List Nat}
    (h : Chain heap n b l) (he : ∀ p ∈ l, heap'[p]? = heap[p]?) : Chain heap' n b l := by
  induction l generalizing b with
  | nil => exact h
  | cons p l ih =>
    obtain ⟨h1, nxt, h2, h3⟩ := h
    exact ⟨h1, nxt, by rw [he p (by simp)]; exact h2, ih h3 (fun q hq => he q (by simp [hq]))⟩

theorem Chain.mem {heap : List Block} {n : Nat} {b : Option Nat} {l : List Nat} {p : Nat}
    (h : Chain heap n b l) (hp : p ∈ l) : ∃ nxt, heap[p]? = some ⟨n, .link nxt⟩ := by
  induction l generalizing b with
  | nil => simp at hp
  | cons q l ih =>
    obtain ⟨h1, nxt, h2, h3⟩ := h
    rcases List.mem_cons.1 hp with rfl | hp
    · exact ⟨nxt, h2⟩
    · exact ih h3 hp

theorem Chain.head {heap : List Block} {n : Nat} {b : Option Nat} {l : List Nat}
    (h : Chain heap n b l) : b = l.head? := by
  cases l with
  | nil => exact h
  | cons p l => exact h.1

theorem nodup_length_le {l : List Nat} {n : Nat} (h : l.Nodup) (hl : ∀ p ∈ l, p < n) : l.length ≤ n := by
  have := (h.subperm (l₂ := List.range n) (fun p hp => by simpa using hl p hp)).length_le
  simpa using this

/-- The invariant: `fl c` is the free list of chunk `c`, `bs c` the size of its blocks. -/
structure Inv (cfg : Cfg) (lk : Bool) (s : State) (a : Abs) (fl : Nat → List Nat) (bs : Nat → Nat) : Prop where
  kinds : s.recs.map (Option.map Rec.kind) = a.recs
  ptrLen : s.ptrs.length = a.objs.length
  ptrs : ∀ (i p c : Nat), s.ptrs[i]? = some (some (p, c)) → ∃ (r : Nat) (t : Ty) (rec : Rec), a.objs[i]? = some (some (r, t)) ∧
    s.recs[r]? = some (some rec) ∧ c ∈ rec.chunkIds ∧ s.heap[p]? = some ⟨bs c, .obj i⟩
  objs : ∀ (i r : Nat) (t : Ty), a.objs[i]? = some (some (r, t)) →
    cfg.itemOffset t = cfg.itemOffset cfg.base ∧ ∃ (p c : Nat), s.ptrs[i]? = some (some (p, c))
  heapRaw : ∀ (p n : Nat), lk = false → s.heap[p]? ≠ some ⟨n, .raw⟩
  heapObj : ∀ (p n i : Nat), s.heap[p]? = some ⟨n, .obj i⟩ → ∃ (c : Nat), s.ptrs[i]? = some (some (p, c))
  heapLink : ∀ (p n : Nat) (b : Option Nat), s.heap[p]? = some ⟨n, .link b⟩ → lk = false → ∃ (c : Nat), p ∈ fl c
  chain : ∀ (c : Nat) (b : Option Nat), s.chunks[c]? = some ⟨true, b⟩ → Chain s.heap (bs c) b (fl c)
  dead : ∀ (c : Nat), (∀ (b : Option Nat), s.chunks[c]? ≠ some ⟨true, b⟩) → fl c = []
  nodup : ∀ (c : Nat), (fl c).Nodup
  disj : ∀ (c c' p : Nat), p ∈ fl c → p ∈ fl c' → c = c'
  recChunk : ∀ (r : Nat) (rec : Rec) (c : Nat), s.recs[r]? = some (some rec) → c ∈ rec.chunkIds →
    ∃ b : Option Nat, s.chunks[c]? = some ⟨true, b⟩
  recDisj : ∀ (r r' : Nat) (rec rec' : Rec) (c : Nat), s.recs[r]? = some (some rec) → s.recs[r']? = some (some rec') →
    c ∈ rec.chunkIds → c ∈ rec'.chunkIds → r = r'
  recNodup : ∀ (r : Nat) (rec : Rec), s.recs[r]? = some (some rec) → rec.chunkIds.Nodup
  chunkRec : ∀ (c : Nat) (b : Option Nat), s.chunks[c]? = some ⟨true, b⟩ →
    ∃ (r : Nat) (rec : Rec), s.recs[r]? = some (some rec) ∧ c ∈ rec.chunkIds
  key : ∀ (r : Nat) (rec : Rec) (k c : Nat), s.recs[r]? = some (some rec) → (k, c) ∈ rec.keyed cfg →
    bs c = cfg.itemOffset cfg.base + k ∧ 8 ≤ k
  lay : ∀ (i r : Nat) (t : Ty) (p c : Nat), a.objs[i]? = some (some (r, t)) →
    s.ptrs[i]? = some (some (p, c)) → cfg.layoutSize t = bs c
  keys : ∀ (r : Nat) (rec : Rec), s.recs[r]? = some (some rec) → ((rec.keyed cfg).map (·.1)).Nodup
  sized : ∀ (r : Nat) (rec : Rec), s.recs[r]? = some (some rec) → rec.sized

theorem Inv.init (cfg : Cfg) (lk : Bool) : Inv cfg lk State.init Abs.init (fun _ => []) (fun _ => 0) := by
  constructor <;> simp [State.init, Abs.init]

/-- Types that are handled correctly: the item is laid out where `TBase` would be, and it is at least
as big as a pointer. -/
def Fits (cfg : Cfg) (t : Ty) : Prop := cfg.itemOffset t = cfg.itemOffset cfg.base ∧ 8 ≤ t.size

def upd {α : Type} (f : Nat → α) (c : Nat) (x : α) : Nat → α := fun c' => if c' = c then x else f c'

theorem Inv.fl_lt {cfg lk s a fl bs} (h : Inv cfg lk s a fl bs) {c p : Nat} (hp : p ∈ fl c) :
    ∃ nxt, s.heap[p]? = some ⟨bs c, .link nxt⟩ := by
  by_cases hc : ∃ b, s.chunks[c]? = some ⟨true, b⟩
  · obtain ⟨b, hb⟩ := hc
    exact (h.chain c b hb).mem hp
  · have := h.dead c (by simpa using hc)
    rw [this] at hp; simp at hp

/-! ## `chunkCreate` -/

theorem Inv.chunkCreate {cfg lk s a fl bs} (h : Inv cfg lk s a fl bs) {r c : Nat} {t : Ty} {rec : Rec}
    (hr : s.recs[r]? = some (some rec)) (hc : (t.size, c) ∈ rec.keyed cfg) (ht : Fits cfg t) :
    ∃ s' fl', s.chunkCreate cfg c t = .ok s' ∧
      Inv cfg lk s' { a with objs := a.objs ++ [some (r, t)] } fl' bs := by
  have hcid : c ∈ rec.chunkIds := Rec.mem_chunkIds.2 ⟨_, hc⟩
  obtain ⟨b, hb⟩ := h.recChunk r rec c hr hcid
  obtain ⟨hbs, h8⟩ := h.key r rec _ c hr hc
  have hlay : cfg.layoutSize t = bs c := by rw [hbs, Cfg.layoutSize, ht.1]
  have hclt : c < s.chunks.length := by
    rcases Nat.lt_or_ge c s.chunks.length with h1 | h1
    · exact h1
    · rw [List.getElem?_eq_none h1] at hb; simp at hb
  have hchain := h.chain c b hb
  cases b with
  | none =>
    have hnil : fl c = [] := by
      have := hchain.head
      cases hfl : fl c with
      | nil => rfl
      | cons p l => rw [hfl] at this; simp at this
    refine ⟨{ s with heap := s.heap ++ [⟨bs c, .obj s.ptrs.length⟩],
                     ptrs := s.ptrs ++ [some (s.heap.length, c)] }, fl, ?_, ?_⟩
    · simp [State.chunkCreate, State.chunkAt, hb, State.allocate, State.construct, hlay]
    · have hold : ∀ p, p < s.heap.length → (s.heap ++ [(⟨bs c, .obj s.ptrs.length⟩ : Block)])[p]? = s.heap[p]? := by
        intro p hp; exact List.getElem?_append_left hp
      have hget : ∀ (p : Nat) (x : Block), s.heap[p]? = some x →
          (s.heap ++ [(⟨bs c, .obj s.ptrs.length⟩ : Block)])[p]? = some x := by
        intro p x hx
        rw [hold]
        · exact hx
        · rcases Nat.lt_or_ge p s.heap.length with h1 | h1
          · exact h1
          · rw [List.getElem?_eq_none h1] at hx; simp at hx
      constructor
      · exact h.kinds
      · simp [h.ptrLen]
      · intro i p c' hi
        simp only [List.getElem?_append, List.getElem?_singleton] at hi
        split at hi
        · obtain ⟨r', t', rec', h1, h2, h3, h4⟩ := h.ptrs i p c' hi
          refine ⟨r', t', rec', ?_, h2, h3, hget _ _ h4⟩
          simp only [List.getElem?_append, ← h.ptrLen]
          rw [if_pos (by assumption)]; exact h1
        · split at hi
          · simp only [Option.some.injEq, Prod.mk.injEq] at hi
            obtain ⟨rfl, rfl⟩ := hi
            have : i = s.ptrs.length := by omega
            refine ⟨r, t, rec, ?_, hr, hcid, ?_⟩
            · simp [this, h.ptrLen]
            · simp [this]
          · simp at hi
      · intro i r' t' hi
        simp only [List.getElem?_append, List.getElem?_singleton] at hi
        split at hi
        · obtain ⟨h1, p, c', h2⟩ := h.objs i r' t' hi
          refine ⟨h1, p, c', ?_⟩
          simp only [List.getElem?_append, h.ptrLen]
          rw [if_pos (by assumption)]; exact h2
        · split at hi
          · simp only [Option.some.injEq, Prod.mk.injEq] at hi
            obtain ⟨rfl, rfl⟩ := hi
            have : i = s.ptrs.length := by rw [h.ptrLen]; omega
            exact ⟨ht.1, s.heap.length, c, by simp [this]⟩
          · simp at hi
      · intro p n hl hp
        simp only [List.getElem?_append, List.getElem?_singleton] at hp
        split at hp
        · exact h.heapRaw p n hl hp
        · split at hp <;> simp at hp
      · intro p n i hp
        simp only [List.getElem?_append, List.getElem?_singleton] at hp
        split at hp
        · obtain ⟨c', h1⟩ := h.heapObj p n i hp
          refine ⟨c', ?_⟩
          have hlt : i < s.ptrs.length := by
            rcases Nat.lt_or_ge i s.ptrs.length with h2 | h2
            · exact h2
            · rw [List.getElem?_eq_none h2] at h1; simp at h1
          simp only [List.getElem?_append]
          rw [if_pos hlt]; exact h1
        · split at hp
          · simp only [Option.some.injEq, Block.mk.injEq, Content.obj.injEq] at hp
            obtain ⟨rfl, rfl⟩ := hp
            have : p = s.heap.length := by omega
            exact ⟨c, by simp [this]⟩
          · simp at hp
      · intro p n b hp
        simp only [List.getElem?_append, List.getElem?_singleton] at hp
        split at hp
        · exact h.heapLink p n b hp
        · split at hp <;> simp at hp
      · intro c' b' hc'
        refine (h.chain c' b' hc').frame ?_
        intro p hp
        obtain ⟨nxt, h1⟩ := h.fl_lt hp
        rw [hget _ _ h1, h1]
      · exact h.dead
      · exact h.nodup
      · exact h.disj
      · exact h.recChunk
      · exact h.recDisj
      · exact h.recNodup
      · exact h.chunkRec
      · exact h.key
      · intro i r' t' p' c' hi hp'
        simp only [List.getElem?_append, List.getElem?_singleton] at hi hp'
        rw [h.ptrLen] at hp'
        split at hi
        · rename_i hlt
          rw [if_pos hlt] at hp'
          exact h.lay i r' t' p' c' hi hp'
        · rename_i hlt
          rw [if_neg hlt] at hp'
          split at hi
          · rename_i h0
            rw [if_pos h0] at hp'
            simp at hi hp'
            obtain ⟨rfl, rfl⟩ := hi
            obtain ⟨rfl, rfl⟩ := hp'
            exact hlay
          · simp at hi
      · exact h.keys
      · exact h.sized
  | some p =>
    obtain ⟨l, hl⟩ : ∃ l, fl c = p :: l := by
      have := hchain.head
      cases hfl : fl c with
      | nil => rw [hfl] at this; simp at this
      | cons q l => rw [hfl] at this; simp at this; subst this; exact ⟨l, rfl⟩
    rw [hl] at hchain
    obtain ⟨_, nxt, hp, hrest⟩ := hchain
    have hplt : p < s.heap.length := by
      rcases Nat.lt_or_ge p s.heap.length with h1 | h1
      · exact h1
      · rw [List.getElem?_eq_none h1] at hp; simp at hp
    have hnd := h.nodup c
    rw [hl, List.nodup_cons] at hnd
    have hpfl : ∀ c', p ∈ fl c' → c' = c := fun c' hc' => h.disj c' c p hc' (by simp [hl])
    refine ⟨{ s with heap := s.heap.set p ⟨bs c, .obj s.ptrs.length⟩,
                     chunks := s.chunks.set c ⟨true, nxt⟩,
                     ptrs := s.ptrs ++ [some (p, c)] }, upd fl c l, ?_, ?_⟩
    · simp [State.chunkCreate, State.chunkAt, hb, State.readLink, hp, State.construct, hlay]
    · constructor
      · exact h.kinds
      · simp [h.ptrLen]
      · intro i q c' hi
        simp only [List.getElem?_append, List.getElem?_singleton] at hi
        split at hi
        · obtain ⟨r', t', rec', h1, h2, h3, h4⟩ := h.ptrs i q c' hi
          refine ⟨r', t', rec', ?_, h2, h3, ?_⟩
          · simp only [List.getElem?_append, ← h.ptrLen]
            rw [if_pos (by assumption)]; exact h1
          · rw [List.getElem?_set_ne]
            · exact h4
            · intro hpq; subst hpq; rw [h4] at hp; simp at hp
        · split at hi
          · simp only [Option.some.injEq, Prod.mk.injEq] at hi
            obtain ⟨rfl, rfl⟩ := hi
            have : i = s.ptrs.length := by omega
            refine ⟨r, t, rec, ?_, hr, hcid, ?_⟩
            · simp [this, h.ptrLen]
            · simp [this, hplt]
          · simp at hi
      · intro i r' t' hi
        simp only [List.getElem?_append, List.getElem?_singleton] at hi
        split at hi
        · obtain ⟨h1, p, c', h2⟩ := h.objs i r' t' hi
          refine ⟨h1, p, c', ?_⟩
          simp only [List.getElem?_append, h.ptrLen]
          rw [if_pos (by assumption)]; exact h2
        · split at hi
          · simp only [Option.some.injEq, Prod.mk.injEq] at hi
            obtain ⟨rfl, rfl⟩ := hi
            have : i = s.ptrs.length := by rw [h.ptrLen]; omega
            exact ⟨ht.1, p, c, by simp [this]⟩
          · simp at hi
      · intro q n hl hq
        simp only [List.getElem?_set] at hq
        split at hq
        · simp at hq
        · exact h.heapRaw q n hl hq
      · intro q n i hq
        simp only [List.getElem?_set] at hq
        split at hq
        · simp only [Option.some.injEq, Block.mk.injEq, Content.obj.injEq] at hq
          obtain ⟨rfl, rfl⟩ := hq
          subst_vars
          exact ⟨c, by simp⟩
        · obtain ⟨c', h1⟩ := h.heapObj q n i hq
          refine ⟨c', ?_⟩
          have hlt : i < s.ptrs.length := by
            rcases Nat.lt_or_ge i s.ptrs.length with h2 | h2
            · exact h2
            · rw [List.getElem?_eq_none h2] at h1; simp at h1
          simp only [List.getElem?_append]
          rw [if_pos hlt]; exact h1
      · intro q n b hq hlk
        simp only [List.getElem?_set] at hq
        split at hq
        · simp at hq
        · obtain ⟨c', h1⟩ := h.heapLink q n b hq hlk
          refine ⟨c', ?_⟩
          by_cases hcc : c' = c
          · subst hcc
            rw [hl] at h1
            rcases List.mem_cons.1 h1 with h1 | h1
            · exact absurd h1.symm (by assumption)
            · simp [upd, h1]
          · simp [upd, hcc, h1]
      · intro c' b' hc'
        simp only [List.getElem?_set] at hc'
        by_cases hcc : c' = c
        · subst hcc
          simp [hclt] at hc'
          subst hc'
          simp only [upd, if_true]
          refine hrest.frame ?_
          intro q hq
          rw [List.getElem?_set_ne]
          intro hpq; subst hpq; exact hnd.1 hq
        · rw [if_neg (fun e => hcc e.symm)] at hc'
          simp only [upd, if_neg hcc]
          refine (h.chain c' b' hc').frame ?_
          intro q hq
          rw [List.getElem?_set_ne]
          intro hpq; subst hpq; exact hcc (hpfl c' hq)
      · intro c' hc'
        have hcc : c' ≠ c := by
          rintro rfl
          exact hc' nxt (by simp [hclt])
        simp only [upd, if_neg hcc]
        apply h.dead
        intro b'
        have := hc' b'
        rw [List.getElem?_set_ne (fun e => hcc e.symm)] at this
        exact this
      · intro c'
        simp only [upd]
        split
        · exact hnd.2
        · exact h.nodup c'
      · intro c1 c2 q h1 h2
        have hsub : ∀ c', q ∈ upd fl c l c' → q ∈ fl c' := by
          intro c' hc'
          simp only [upd] at hc'
          split at hc'
          · subst_vars; simp [hl, hc']
          · exact hc'
        exact h.disj c1 c2 q (hsub _ h1) (hsub _ h2)
      · intro r' rec' c' h1 h2
        obtain ⟨b', hb'⟩ := h.recChunk r' rec' c' h1 h2
        by_cases hcc : c' = c
        · exact ⟨nxt, by simp [hcc, hclt]⟩
        · exact ⟨b', by simpa [List.getElem?_set_ne (fun e => hcc e.symm)] using hb'⟩
      · exact h.recDisj
      · exact h.recNodup
      · intro c' b' hc'
        by_cases hcc : c' = c
        · subst hcc; exact ⟨r, rec, hr, hcid⟩
        · simp only [List.getElem?_set_ne (fun e => hcc e.symm)] at hc'
          exact h.chunkRec c' b' hc'
      · exact h.key
      · intro i r' t' p' c' hi hp'
        simp only [List.getElem?_append, List.getElem?_singleton] at hi hp'
        rw [h.ptrLen] at hp'
        split at hi
        · rename_i hlt
          rw [if_pos hlt] at hp'
          exact h.lay i r' t' p' c' hi hp'
        · rename_i hlt
          rw [if_neg hlt] at hp'
          split at hi
          · rename_i h0
            rw [if_pos h0] at hp'
            simp at hi hp'
            obtain ⟨rfl, rfl⟩ := hi
            obtain ⟨rfl, rfl⟩ := hp'
            exact hlay
          · simp at hi
      · exact h.keys
      · exact h.sized

end Verif.Recycler
