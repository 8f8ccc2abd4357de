import Verif.Timeline.Lemmas

/-!
# Runs of timelines without jumps
-/

namespace Verif.Timeline

open Verif

variable {F : Type} (o : Ops F) (env : List Event → Nat → Bool)

theorem emits_reset (c : Cmd F) : c.reset.emits = c.emits := by cases c <;> rfl
theorem isDo_reset (c : Cmd F) : c.reset.isDo = c.isDo := by cases c <;> rfl
theorem simple_reset (c : Cmd F) : c.reset.Simple ↔ c.Simple := by cases c <;> exact Iff.rfl

/-- The same commands, up to how far they have got. -/
def Like (a b : List (Cmd F)) : Prop := a.map Cmd.reset = b.map Cmd.reset

theorem Like.length {a b : List (Cmd F)} (h : Like a b) : a.length = b.length := by
  have := congrArg List.length h; simpa using this

theorem Like.trans {a b c : List (Cmd F)} (h : Like a b) (h' : Like b c) : Like a c := Eq.trans h h'

theorem Like.emits {a b : List (Cmd F)} (h : Like a b) (k : Nat) :
    (a.take k).flatMap Cmd.emits = (b.take k).flatMap Cmd.emits := by
  have key : ∀ l : List (Cmd F), (l.take k).flatMap Cmd.emits = ((l.map Cmd.reset).take k).flatMap Cmd.emits := by
    intro l
    rw [← List.map_take, List.flatMap_map]
    congr 1
    funext c
    exact (emits_reset c).symm
  rw [key a, key b, h]

theorem Like.simple {a b : List (Cmd F)} (h : Like a b) (hb : ∀ c ∈ b, c.Simple) : ∀ c ∈ a, c.Simple := by
  intro c hc
  have : c.reset ∈ b.map Cmd.reset := by rw [← h]; exact List.mem_map_of_mem hc
  obtain ⟨d, hd, e⟩ := List.mem_map.1 this
  rw [← simple_reset, ← e, simple_reset]
  exact hb d hd

theorem like_set (l : List (Cmd F)) (k : Nat) (c d : Cmd F) (h : l[k]? = some c) (e : d.reset = c.reset) :
    Like (l.set k d) l := by
  unfold Like
  rw [List.map_set, e]
  apply List.ext_getElem?
  intro i
  rw [List.getElem?_set]
  split
  · subst_vars
    obtain ⟨hk, h⟩ := List.getElem?_eq_some_iff.1 h
    simp [h, hk]
  · rfl

theorem takeWhile_emits (l : List (Cmd F)) (k j : Nat) (hj : j = k + ((l.drop k).takeWhile Cmd.isDo).length) :
    (l.take j).flatMap Cmd.emits = (l.take k).flatMap Cmd.emits ++ ((l.drop k).takeWhile Cmd.isDo).flatMap Cmd.emits := by
  rw [← List.flatMap_append]
  congr 1
  have h1 := (List.takeWhile_append_dropWhile (p := Cmd.isDo) (l := l.drop k))
  rw [hj, List.take_add]
  congr 1
  generalize (l.drop k).takeWhile Cmd.isDo = a at h1 ⊢
  rw [← h1]
  simp

theorem take_succ_emits (l : List (Cmd F)) (j : Nat) (c : Cmd F) (h : l[j]? = some c) (hc : c.emits = []) :
    (l.take (j + 1)).flatMap Cmd.emits = (l.take j).flatMap Cmd.emits := by
  rw [List.take_add_one, h]
  simp [hc]

/-- One update of a timeline without jumps. -/
theorem update_simple (fuel : Nat) (t : TL F) (log : List Event) (ft : F) (k : Nat) (hs : ∀ c ∈ t.cmds, c.Simple)
    (hk : k ≤ t.cmds.length) (hi : t.cIdx = indexAt t.cmds.length k) (hz : t.remainder = o.zero) (hf : t.finished = false)
    (hfuel : t.cmds.length < fuel) (j : Nat) (hj : j = k + ((t.cmds.drop k).takeWhile Cmd.isDo).length) :
    ∃ t' l, update o env fuel t log ft = .ok (t', log ++ l) ∧
      emitted l = ((t.cmds.drop k).takeWhile Cmd.isDo).flatMap Cmd.emits ∧ Like t'.cmds t.cmds ∧ t'.remainder = o.zero ∧
      ((j = t.cmds.length ∧ t'.finished = true ∧ t'.cIdx = -1) ∨
        (j < t.cmds.length ∧ t'.finished = false ∧
          ((∃ time cur, t.cmds[j]? = some (.wait time cur) ∧
              t'.cmds = t.cmds.set j (.wait time
                (if o.pos (o.sub cur (o.add ft o.zero)) then o.sub cur (o.add ft o.zero) else time)) ∧
              t'.cIdx = indexAt t.cmds.length (if o.pos (o.sub cur (o.add ft o.zero)) then j else j + 1)) ∨
            (∃ w p, t.cmds[j]? = some (.waitLoop w p) ∧ t'.cmds = t.cmds ∧
              ∃ b : Bool, t'.cIdx = indexAt t.cmds.length (if b then j else j + 1))))) := by
  have hsplit : t.cmds.drop k = (t.cmds.drop k).takeWhile Cmd.isDo ++ (t.cmds.drop k).dropWhile Cmd.isDo :=
    (List.takeWhile_append_dropWhile).symm
  generalize hds : (t.cmds.drop k).takeWhile Cmd.isDo = ds at hsplit hj ⊢
  generalize hrs : (t.cmds.drop k).dropWhile Cmd.isDo = rest at hsplit
  have hlen : ds.length + rest.length + k = t.cmds.length := by
    have := congrArg List.length hsplit
    simp at this; omega
  have hmem : ∀ c ∈ ds, c.isDo = true ∧ c.Simple := by
    intro c hc
    refine ⟨?_, hs c (List.mem_of_mem_drop (hsplit ▸ List.mem_append_left _ hc))⟩
    rw [← hds] at hc
    exact List.all_eq_true.1 List.all_takeWhile c hc
  have hu : update o env fuel t log ft = loop o env fuel { t with ready := true } log ft := by
    unfold update; rw [if_neg (by simp [hf])]
  rw [hu]
  obtain ⟨l, e, g⟩ := loop_acts o env (fuel - ds.length) { t with ready := true } log ft k ds rest hsplit hmem hk hi rfl hz
  rw [Nat.sub_add_cancel (by omega)] at g
  rw [g]
  obtain ⟨fl, hfl⟩ : ∃ fl, fuel - ds.length = fl + 1 := ⟨fuel - ds.length - 1, by omega⟩
  rw [hfl]
  cases rest with
  | nil =>
    have hjn : j = t.cmds.length := by simp at hlen; omega
    rw [loop_end _ _ _ _ _ _ (by simp only; rw [← hj, hjn]; exact indexAt_self _)]
    refine ⟨_, l, rfl, e, rfl, hz, .inl ⟨hjn, rfl, ?_⟩⟩
    simp only [TL.stop]
    rw [← hj, hjn]; exact indexAt_self _
  | cons c rest =>
    have hjn : j < t.cmds.length := by simp at hlen; omega
    have hcj : t.cmds[j]? = some c := by
      have := congrArg (·[ds.length]?) hsplit
      simp only [List.getElem?_drop] at this
      rw [hj, this]; simp
    have hdo : c.isDo = false := by
      have := List.head?_dropWhile_not Cmd.isDo (t.cmds.drop k)
      rw [hrs] at this
      simpa using this
    have hsimple : c.Simple := hs c (List.mem_of_getElem? hcj)
    rw [← hj]
    cases c with
    | act as => simp [Cmd.isDo] at hdo
    | go a b c => exact absurd hsimple (by simp [Cmd.Simple])
    | wait time cur =>
      cases hp : o.pos (o.sub cur (o.add ft o.zero)) with
      | true =>
        rw [loop_wait_more o env fl ({ t with ready := true, cIdx := indexAt t.cmds.length j } : TL F) _ _ j time cur hcj rfl (by simpa [hz] using hp)]
        refine ⟨_, l, rfl, e, ?_, rfl, .inr ⟨hjn, hf, .inl ⟨time, cur, hcj, ?_, ?_⟩⟩⟩
        · exact like_set _ _ _ _ hcj rfl
        · simp [hz, hp]
        · simp [hp]
      | false =>
        rw [loop_wait_done o env fl ({ t with ready := true, cIdx := indexAt t.cmds.length j } : TL F) _ _ j time cur hcj rfl (by simpa [hz] using hp)]
        refine ⟨_, l, rfl, e, ?_, rfl, .inr ⟨hjn, hf, .inl ⟨time, cur, hcj, ?_, ?_⟩⟩⟩
        · exact like_set _ _ _ _ hcj rfl
        · simp [hp]
        · simp [hp]
    | waitLoop w p =>
      rw [loop_waitLoop o env fl ({ t with ready := true, cIdx := indexAt t.cmds.length j } : TL F) _ _ j w p hcj rfl, List.append_assoc]
      refine ⟨_, _, rfl, by simp [emitted_append, e]; rfl, rfl, rfl,
        .inr ⟨hjn, hf, .inr ⟨w, p, hcj, rfl, decide (env (log ++ l) p = w), ?_⟩⟩⟩
      simp

/-- The states a timeline without jumps goes through. -/
structure Reach (cmds : List (Cmd F)) (t : TL F) (log : List Event) (k : Nat) : Prop where
  like : Like t.cmds cmds
  le : k ≤ cmds.length
  idx : t.cIdx = indexAt cmds.length k
  zero : t.remainder = o.zero
  done : emitted log = (cmds.take k).flatMap Cmd.emits
  fin : t.finished = true → k = cmds.length

theorem reach_update {cmds : List (Cmd F)} (hs : ∀ c ∈ cmds, c.Simple) {fuel : Nat} (hfuel : cmds.length < fuel) {t : TL F}
    {log : List Event} {k : Nat} (h : Reach o cmds t log k) (ft : F) :
    ∃ t' log' k', update o env fuel t log ft = .ok (t', log') ∧ Reach o cmds t' log' k' := by
  cases hf : t.finished with
  | true => exact ⟨t, log, k, by simp [update, hf], h⟩
  | false =>
    have hl := h.like.length
    obtain ⟨t', l, e1, e2, e3, e4, e5⟩ := update_simple o env fuel t log ft k (h.like.simple hs) (by rw [hl]; exact h.le)
      (by rw [hl]; exact h.idx) h.zero hf (by omega) _ rfl
    generalize hj : k + ((t.cmds.drop k).takeWhile Cmd.isDo).length = j at e5
    have hem : emitted (log ++ l) = (cmds.take j).flatMap Cmd.emits := by
      rw [emitted_append, h.done, e2, ← h.like.emits k, ← takeWhile_emits t.cmds k j hj.symm, h.like.emits j]
    rcases e5 with ⟨e5, e6, e7⟩ | ⟨e5, e6, e7⟩
    · refine ⟨t', log ++ l, j, e1, ⟨e3.trans h.like, by omega, ?_, e4, hem, fun _ => by omega⟩⟩
      rw [e7, e5, hl, indexAt_self]
    · have hsucc : ∀ c, t.cmds[j]? = some c → c.emits = [] → (cmds.take (j + 1)).flatMap Cmd.emits = (cmds.take j).flatMap Cmd.emits := by
        intro c hc he
        rw [← h.like.emits, ← h.like.emits]
        exact take_succ_emits _ _ _ hc he
      have hfin : t'.finished = true → ∀ k', k' = cmds.length := fun hh => absurd hh (by simp [e6])
      rcases e7 with ⟨time, cur, hc, _, hi⟩ | ⟨w, p, hc, _, b, hi⟩
      · refine ⟨t', log ++ l, _, e1, ⟨e3.trans h.like, ?_, hl ▸ hi, e4, ?_, fun hh => hfin hh _⟩⟩
        · split <;> omega
        · rw [hem]; split
          · rfl
          · rw [hsucc _ hc rfl]
      · refine ⟨t', log ++ l, _, e1, ⟨e3.trans h.like, ?_, hl ▸ hi, e4, ?_, fun hh => hfin hh _⟩⟩
        · split <;> omega
        · rw [hem]; split
          · rfl
          · rw [hsucc _ hc rfl]

theorem reach_updates {cmds : List (Cmd F)} (hs : ∀ c ∈ cmds, c.Simple) {fuel : Nat} (hfuel : cmds.length < fuel)
    (fts : List F) {t : TL F} {log : List Event} {k : Nat} (h : Reach o cmds t log k) :
    ∃ t' log' k', updates o env fuel t log fts = .ok (t', log') ∧ Reach o cmds t' log' k' := by
  induction fts generalizing t log k with
  | nil => exact ⟨t, log, k, rfl, h⟩
  | cons ft fts ih =>
    obtain ⟨t1, log1, k1, e1, h1⟩ := reach_update o env hs hfuel h ft
    obtain ⟨t2, log2, k2, e2, h2⟩ := ih h1
    exact ⟨t2, log2, k2, by simp [updates, e1, e2], h2⟩

/-- Building a timeline. -/
theorem appends_init (cmds : List (Cmd F)) :
    (TL.init o true).appends cmds = .ok ⟨cmds, indexAt cmds.length 0, o.zero, true, false⟩ := by
  have key : ∀ cs pre : List (Cmd F), (⟨pre, indexAt pre.length 0, o.zero, true, false⟩ : TL F).appends cs =
      .ok ⟨pre ++ cs, indexAt (pre ++ cs).length 0, o.zero, true, false⟩ := by
    intro cs
    induction cs with
    | nil => intro pre; simp [TL.appends]
    | cons c cs ih =>
      intro pre
      have : (⟨pre, indexAt pre.length 0, o.zero, true, false⟩ : TL F).append c =
          .ok ⟨pre ++ [c], indexAt (pre ++ [c]).length 0, o.zero, true, false⟩ := by
        unfold TL.append TL.insert
        simp only
        rw [if_neg (by omega)]
        cases pre with
        | nil => simp [indexAt]
        | cons x pre => simp [indexAt]
      simp only [TL.appends, this, Outcome.bind_ok, ih (pre ++ [c]), List.append_assoc, List.singleton_append]
  exact key cmds []

theorem reach_init (cmds : List (Cmd F)) : Reach o cmds ⟨cmds, indexAt cmds.length 0, o.zero, true, false⟩ [] 0 :=
  ⟨rfl, Nat.zero_le _, rfl, rfl, by simp [emitted], by simp⟩

end Verif.Timeline
