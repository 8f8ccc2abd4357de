import Verif.RecVec.Ctor

/-!
# C158: constructors that use their recycling vector
-/

namespace Verif.RecVec.Ctor

open Verif Spec

/-- A `createAt` in progress: its position, and the size, the capacity and the number of events when it was computed. -/
structure Mark where
  i : Nat
  n : Nat
  c : Nat
  l : Nat

structure Rel (v : V) (s : Seq) (ks : List Mark) : Prop where
  items : v.items = s.items
  cap : v.cap = s.cap
  next : v.next = s.next
  gone : v.gone = s.gone
  room : s.items.length ≤ s.cap
  its : v.its = ks.map (fun k => if Survives k.i k.n k.c (s.log.drop k.l) then some k.i else none)
  good : ∀ k ∈ ks, k.l ≤ s.log.length ∧
    (Survives k.i k.n k.c (s.log.drop k.l) → s.items.length = k.n + (s.log.length - k.l) ∧ s.cap = k.c ∧ k.i ≤ k.n)

theorem survives_append {i n c : Nat} {es : List Ev} {e : Ev} (h : Survives i n c (es ++ [e])) :
    Survives i n c es ∧ i < n ∧ n + es.length < c ∧ ∃ p, e = .ins p ∧ i < p := by
  rcases h with h | ⟨h1, h2, h3⟩
  · simp at h
  · simp only [List.length_append, List.length_cons, List.length_nil] at h2
    exact ⟨.inr ⟨h1, by omega, fun e he => h3 e (by simp [he])⟩, h1, by omega, h3 e (by simp)⟩

theorem survives_ins {i n c p : Nat} {es : List Ev} (h : Survives i n c es) (h1 : i < n) (h2 : n + es.length < c) (h3 : i < p) :
    Survives i n c (es ++ [.ins p]) := by
  refine .inr ⟨h1, by simp; omega, ?_⟩
  intro e he
  rcases List.mem_append.1 he with he | he
  · rcases h with rfl | ⟨-, -, h⟩
    · cases he
    · exact h e he
  · rw [List.mem_singleton] at he; exact ⟨p, he, h3⟩

theorem insertIdx_eq {α : Type} (x : α) : ∀ (l : List α) (p : Nat), p ≤ l.length → l.insertIdx p x = l.take p ++ x :: l.drop p
  | l, 0, _ => by simp
  | [], p + 1, h => by simp at h
  | a :: l, p + 1, h => by
    simp only [List.length_cons, Nat.add_le_add_iff_right] at h
    simp [insertIdx_eq x l p h]

theorem Rel.emplace {grow : Nat → Nat} (hg : ∀ n, n < grow n) {v s ks} (h : Rel v s ks) {p : Nat} (hp : p ≤ s.items.length) (id : Nat) :
    ∃ v', v.emplace grow p id = .ok v' ∧ Rel v' (s.insert grow p id) ks := by
  refine ⟨_, by rw [V.emplace, if_neg (by rw [h.items]; omega)], ?_⟩
  have hlen : (s.items.take p ++ some id :: s.items.drop p).length = s.items.length + 1 := by simp; omega
  constructor
  · simp only [Seq.insert, h.items]; exact insertIdx_eq _ _ _ hp
  · simp only [Seq.insert, h.items, h.cap]
  · exact h.next
  · exact h.gone
  · simp only [Seq.insert, hlen]
    have := h.room
    split
    · omega
    · have := hg s.cap; omega
  · simp only [Seq.insert, h.items, h.cap, h.its, List.map_map]
    have key : ∀ k ∈ ks, (if Survives k.i k.n k.c ((s.log ++ [Ev.ins p]).drop k.l) then some k.i else none) =
        if s.items.length < s.cap then (if Survives k.i k.n k.c (s.log.drop k.l) then some k.i else none).bind
          (fun i => if p ≤ i then none else some i) else none := by
      intro k hk
      obtain ⟨g1, g2⟩ := h.good k hk
      rw [List.drop_append_of_le_length g1]
      by_cases hs : Survives k.i k.n k.c (s.log.drop k.l)
      · obtain ⟨g3, g4, g5⟩ := g2 hs
        rw [if_pos hs]
        by_cases hc : s.items.length < s.cap
        · rw [if_pos hc]
          by_cases hpi : p ≤ k.i
          · rw [if_neg]
            · simp [hpi]
            · intro hx
              obtain ⟨-, -, -, q, hq, hq'⟩ := survives_append hx
              cases hq; omega
          · rw [if_pos]
            · simp [hpi]
            · refine survives_ins (p := p) hs ?_ (by simp; omega) (by omega)
              rcases hs with he | ⟨hx, -, -⟩
              · have : (s.log.drop k.l).length = 0 := by rw [he]; rfl
                simp at this; omega
              · exact hx
        · rw [if_neg hc, if_neg]
          intro hx
          obtain ⟨-, -, h4, -⟩ := survives_append hx
          simp at h4; omega
      · rw [if_neg hs, if_neg (fun hx => hs (survives_append hx).1)]
        simp
    by_cases hc : s.items.length < s.cap
    · rw [if_pos hc]
      refine List.map_congr_left (fun k hk => ?_)
      have := key k hk
      rw [if_pos hc] at this
      exact this.symm
    · rw [if_neg hc]
      refine List.map_congr_left (fun k hk => ?_)
      have := key k hk
      rw [if_neg hc] at this
      exact this.symm
  · intro k hk
    obtain ⟨g1, g2⟩ := h.good k hk
    simp only [Seq.insert, hlen, List.length_append, List.length_cons, List.length_nil]
    refine ⟨by omega, fun hx => ?_⟩
    rw [List.drop_append_of_le_length g1] at hx
    obtain ⟨h1, h2, h3, -⟩ := survives_append hx
    obtain ⟨g3, g4, g5⟩ := g2 h1
    simp at h3
    rw [if_pos (by omega)]
    exact ⟨by omega, g4, g5⟩

/-- After an event that is no insertion no position can be used. -/
theorem Rel.other {v s ks} (h : Rel v s ks) (e : Ev) (he : ∀ p, e ≠ .ins p) {s' : Seq} {v' : V} (hi : v'.items = s'.items)
    (hc : v'.cap = s'.cap) (hn : v'.next = s'.next) (hd : v'.gone = s'.gone) (hr : s'.items.length ≤ s'.cap)
    (hl : s'.log = s.log ++ [e]) (ht : v'.its = v.its.map (fun _ => none)) : Rel v' s' ks := by
  have no : ∀ k ∈ ks, ¬ Survives k.i k.n k.c (s'.log.drop k.l) := by
    intro k hk hx
    rw [hl, List.drop_append_of_le_length (h.good k hk).1] at hx
    obtain ⟨-, -, -, q, hq, -⟩ := survives_append hx
    exact he q hq
  refine ⟨hi, hc, hn, hd, hr, ?_, ?_⟩
  · rw [ht, h.its, List.map_map]
    refine List.map_congr_left (fun k hk => ?_)
    rw [if_neg (no k hk)]; rfl
  · intro k hk
    refine ⟨?_, fun hx => absurd hx (no k hk)⟩
    have := (h.good k hk).1
    rw [hl]; simp; omega

/-- How the model's result belongs to that of the specification. -/
def Fits (s : Seq) (ks : List Mark) (o : Option (Seq × Bool)) (r : Outcome (V × Bool)) : Prop :=
  match o with
  | none => r = .ub
  | some (s', e) => ∃ v', r = .ok (v', e) ∧ Rel v' s' ks ∧ s.log.length ≤ s'.log.length

mutual
theorem act_fits {grow : Nat → Nat} (hg : ∀ n, n < grow n) (first : Bool) {v s ks} (h : Rel v s ks) :
    ∀ a, Fits s ks (Spec.act grow first s a) (act grow first v a)
  | .make none body throws caught => by
    have h0 : Rel { v with next := v.next + 1 } { s with next := s.next + 1 } ks :=
      ⟨h.items, h.cap, by simp [h.next], h.gone, h.room, h.its, h.good⟩
    have ih := acts_fits hg first h0 body
    rw [Spec.act, act]
    simp only [Option.any_none, Bool.false_eq_true, and_false, if_false]
    revert ih
    cases Spec.acts grow first { s with next := s.next + 1 } body with
    | none => intro ih; simp only [Fits] at ih ⊢; rw [ih]; rfl
    | some r =>
      obtain ⟨s', e⟩ := r
      rintro ⟨v', e1, h1, hlog⟩
      simp only [e1, Outcome.bind_ok]
      by_cases hx : (e || throws) = true
      · rw [if_pos hx, if_pos hx]; exact ⟨v', rfl, h1, hlog⟩
      · rw [if_neg hx, if_neg hx]
        obtain ⟨v2, e2, h2⟩ := h1.emplace hg (Nat.le_refl _) s.next
        rw [h1.items, h.next, e2]
        refine ⟨v2, rfl, h2, ?_⟩
        have : s.log.length ≤ s'.log.length := hlog
        simp [Seq.insert]; omega
  | .make (some i) body throws caught => by
    cases first with
    | false =>
      have h0 : Rel { v with next := v.next + 1 } { s with next := s.next + 1 } ks :=
        ⟨h.items, h.cap, by simp [h.next], h.gone, h.room, h.its, h.good⟩
      have ih := acts_fits hg false h0 body
      rw [Spec.act, act]
      simp only [Bool.false_eq_true, false_and, if_false]
      revert ih
      cases Spec.acts grow false { s with next := s.next + 1 } body with
      | none => intro ih; simp only [Fits] at ih ⊢; rw [ih]; rfl
      | some r =>
        obtain ⟨s', e⟩ := r
        rintro ⟨v', e1, h1, hlog⟩
        simp only [e1, Outcome.bind_ok]
        by_cases hx : (e || throws) = true
        · rw [if_pos hx, if_pos hx]; exact ⟨v', rfl, h1, hlog⟩
        · rw [if_neg hx, if_neg hx]
          by_cases hi : i ≤ s'.items.length
          · obtain ⟨v2, e2, h2⟩ := h1.emplace hg hi s.next
            rw [if_pos ⟨hi, by simp⟩, h.next, e2]
            refine ⟨v2, rfl, h2, ?_⟩
            have : s.log.length ≤ s'.log.length := hlog
            simp [Seq.insert]; omega
          · rw [if_neg (fun hc => hi hc.1), V.emplace, if_pos (by rw [h1.items]; omega)]
            rfl
    | true =>
      obtain ⟨items, cap, its, next, gone⟩ := v
      obtain rfl : items = s.items := h.items
      obtain rfl : next = s.next := h.next
      rw [Spec.act, act]
      simp only [Option.any_some, decide_eq_true_eq, true_and, if_true]
      by_cases hi : s.items.length < i
      · rw [if_pos hi, if_pos hi]; rfl
      · rw [if_neg hi, if_neg hi]
        have h0 : Rel { items := s.items, cap := cap, its := some i :: its, next := s.next + 1, gone := gone } { s with next := s.next + 1 }
            (⟨i, s.items.length, s.cap, s.log.length⟩ :: ks) := by
          refine ⟨rfl, h.cap, rfl, h.gone, h.room, ?_, ?_⟩
          · have := h.its
            simp only at this
            simp [this, Survives]
          · intro k hk
            rcases List.mem_cons.1 hk with rfl | hk
            · exact ⟨Nat.le_refl _, fun _ => ⟨by simp, rfl, by simp; omega⟩⟩
            · exact h.good k hk
        have ih := acts_fits hg true h0 body
        revert ih
        cases Spec.acts grow true { s with next := s.next + 1 } body with
        | none => intro ih; simp only [Fits] at ih ⊢; rw [ih]; rfl
        | some r =>
          obtain ⟨s', e⟩ := r
          rintro ⟨v', e1, h1, hlog⟩
          simp only [e1, Outcome.bind_ok]
          have h1' : Rel { v' with its := v'.its.tail } s' ks := by
            refine ⟨h1.items, h1.cap, h1.next, h1.gone, h1.room, by simp [h1.its], fun k hk => h1.good k (by simp [hk])⟩
          by_cases hx : (e || throws) = true
          · rw [if_pos hx, if_pos hx]; exact ⟨_, rfl, h1', hlog⟩
          · rw [if_neg hx, if_neg hx]
            by_cases hs : Survives i s.items.length s.cap (s'.log.drop s.log.length)
            · obtain ⟨g3, g4, g5⟩ := (h1.good _ List.mem_cons_self).2 hs
              simp only at g3 g4 g5
              have hi' : i ≤ s'.items.length := by omega
              obtain ⟨v2, e2, h2⟩ := h1'.emplace hg hi' s.next
              rw [if_pos ⟨hi', fun _ => hs⟩]
              simp only [h1.its, List.map_cons, List.head?_cons, if_pos hs, List.tail_cons]
              simp only [h1.its, List.map_cons, List.tail_cons] at e2
              rw [e2]
              refine ⟨v2, rfl, h2, ?_⟩
              have : s.log.length ≤ s'.log.length := hlog
              simp [Seq.insert]; omega
            · rw [if_neg (fun hc => hs (hc.2 trivial))]
              simp only [h1.its, List.map_cons, List.head?_cons, if_neg hs]
              rfl
  | .reset i => by
    rw [Spec.act, act, h.items]
    cases hi : s.items[i]? with
    | none => rfl
    | some o =>
      cases o with
      | none => exact ⟨v, rfl, h, Nat.le_refl _⟩
      | some id =>
        refine ⟨_, rfl, ⟨rfl, h.cap, h.next, by simp [h.gone], by simpa using h.room, h.its, ?_⟩, Nat.le_refl _⟩
        intro k hk
        simpa using h.good k hk
  | .clear => by
    rw [Spec.act, act]
    refine ⟨_, rfl, h.other .wipe (by simp) rfl h.cap h.next (by simp [h.items, h.gone]) (by simp) rfl rfl, by simp⟩
  | .reserve n => by
    rw [Spec.act, act]
    by_cases hn : s.cap < n
    · have hn' : v.cap < n := by rw [h.cap]; exact hn
      rw [if_pos hn, if_pos hn']
      refine ⟨_, rfl, h.other .moved (by simp) h.items rfl h.next h.gone ?_ rfl rfl, by simp⟩
      have := h.room
      simp; omega
    · have hn' : ¬ v.cap < n := by rw [h.cap]; exact hn
      rw [if_neg hn, if_neg hn']
      exact ⟨v, rfl, h, Nat.le_refl _⟩

theorem acts_fits {grow : Nat → Nat} (hg : ∀ n, n < grow n) (first : Bool) {v s ks} (h : Rel v s ks) :
    ∀ as, Fits s ks (Spec.acts grow first s as) (acts grow first v as)
  | [] => by rw [Spec.acts, acts]; exact ⟨v, rfl, h, Nat.le_refl _⟩
  | a :: as => by
    have ih := act_fits hg first h a
    rw [Spec.acts, acts]
    revert ih
    cases Spec.act grow first s a with
    | none => intro ih; simp only [Fits] at ih ⊢; rw [ih]; rfl
    | some r =>
      obtain ⟨s', e⟩ := r
      rintro ⟨v', e1, h1, hlog⟩
      cases e with
      | true => simp only [e1, Outcome.bind_ok, if_true]; exact ⟨v', rfl, h1, hlog⟩
      | false =>
        simp only [e1, Outcome.bind_ok, Bool.false_eq_true, if_false]
        have ih2 := acts_fits hg first h1 as
        revert ih2
        cases Spec.acts grow first s' as with
        | none => exact id
        | some r =>
          rintro ⟨v2, e2, h2, hlog2⟩
          exact ⟨v2, e2, h2, Nat.le_trans hlog hlog2⟩
end

theorem rel_init : Rel V.init Seq.init [] := ⟨rfl, rfl, rfl, rfl, by simp [Seq.init], rfl, by simp⟩

/-! ## The two orders -/

mutual
theorem act_orders {grow : Nat → Nat} : ∀ (a : Act) {s r}, Spec.act grow true s a = some r → Spec.act grow false s a = some r
  | .make pos body throws caught, s, r, h => by
    rw [Spec.act] at h ⊢
    simp only [Bool.false_eq_true, false_and, if_false]
    split at h
    · cases h
    · revert h
      cases hb : Spec.acts grow true { s with next := s.next + 1 } body with
      | none => intro h; cases h
      | some x =>
        obtain ⟨s', e⟩ := x
        rw [acts_orders body hb]
        intro h
        by_cases hx : (e || throws) = true
        · simp only [if_pos hx] at h ⊢; exact h
        · simp only [if_neg hx] at h ⊢
          cases pos with
          | none => exact h
          | some i =>
            simp only at h ⊢
            split at h
            · rename_i hc
              rw [if_pos ⟨hc.1, fun hf => hf.elim⟩]; exact h
            · cases h
  | .reset i, s, r, h => by rw [Spec.act] at h ⊢; exact h
  | .clear, s, r, h => by rw [Spec.act] at h ⊢; exact h
  | .reserve n, s, r, h => by rw [Spec.act] at h ⊢; exact h

theorem acts_orders {grow : Nat → Nat} : ∀ (as : List Act) {s r}, Spec.acts grow true s as = some r → Spec.acts grow false s as = some r
  | [], s, r, h => by rw [Spec.acts] at h ⊢; exact h
  | a :: as, s, r, h => by
    rw [Spec.acts] at h ⊢
    revert h
    cases ha : Spec.act grow true s a with
    | none => intro h; cases h
    | some x =>
      obtain ⟨s', e⟩ := x
      rw [act_orders a ha]
      cases e with
      | true => exact id
      | false => exact fun h => acts_orders as h
end

/-! ## Ownership -/

mutual
/-- No constructor in the statement throws. -/
def Quiet : Act → Prop
  | .make _ body throws _ => throws = false ∧ AllQuiet body
  | _ => True

def AllQuiet : List Act → Prop
  | [] => True
  | a :: as => Quiet a ∧ AllQuiet as
end

/-- Every object begun is once in the vector, destroyed, under construction, or lost to an exception. -/
def Own (s : Seq) (making lost : List Nat) : Prop :=
  ∀ x, s.items.count (some x) + s.gone.count x + making.count x + lost.count x = if x < s.next then 1 else 0

theorem Own.insert {grow s making lost id p} (h : Own s (id :: making) lost) : Own (s.insert grow p id) making lost := by
  intro x
  have := h x
  have e : s.items.count (some x) = (s.items.take p).count (some x) + (s.items.drop p).count (some x) := by
    rw [← List.count_append, List.take_append_drop]
  change (s.items.take p ++ some id :: s.items.drop p).count (some x) + s.gone.count x + making.count x + lost.count x =
    if x < s.next then 1 else 0
  simp only [List.count_append, List.count_cons] at this ⊢
  by_cases hx : id = x
  · subst hx; simp at this ⊢; omega
  · simp [hx] at this ⊢; omega

theorem count_filterMap (l : List (Option Nat)) (x : Nat) : (l.filterMap id).count x = l.count (some x) := by
  induction l with
  | nil => rfl
  | cons a l ih =>
    cases a with
    | none => simp [ih]
    | some y => simp [List.count_cons, ih]

theorem count_reset : ∀ (l : List (Option Nat)) {i id : Nat}, l[i]? = some (some id) → ∀ x,
    l.count (some x) = (l.set i none).count (some x) + if id = x then 1 else 0
  | [], i, id, h, x => by simp at h
  | a :: l, 0, id, h, x => by
    simp at h; subst h
    simp [List.count_cons]
  | a :: l, i + 1, id, h, x => by
    have := count_reset l (i := i) (id := id) (by simpa using h) x
    simp only [List.set_cons_succ, List.count_cons]
    omega

mutual
theorem act_own {grow : Nat → Nat} {first : Bool} : ∀ (a : Act) {s making lost s' e}, Own s making lost →
    Spec.act grow first s a = some (s', e) → ∃ lost', Own s' making lost' ∧ (Quiet a → lost' = lost ∧ e = false)
  | .make pos body throws caught, s, making, lost, s', e, h, hs => by
    rw [Spec.act] at hs
    split at hs
    · cases hs
    · revert hs
      have h0 : Own { s with next := s.next + 1 } (s.next :: making) lost := by
        intro x
        have := h x
        simp only [List.count_cons, beq_iff_eq]
        by_cases hx : s.next = x
        · subst hx; simp at this ⊢; omega
        · simp only [if_neg hx]
          by_cases hl : x < s.next
          · rw [if_pos hl] at this; rw [if_pos (by omega)]; omega
          · rw [if_neg hl] at this; rw [if_neg (by omega)]; omega
      cases hb : Spec.acts grow first { s with next := s.next + 1 } body with
      | none => intro hs; cases hs
      | some x =>
        obtain ⟨s1, e1⟩ := x
        obtain ⟨lost1, h1, hq⟩ := acts_own body h0 hb
        intro hs
        by_cases hx : (e1 || throws) = true
        · simp only [if_pos hx, Option.some.injEq, Prod.mk.injEq] at hs
          obtain ⟨rfl, rfl⟩ := hs
          refine ⟨s.next :: lost1, ?_, ?_⟩
          · intro x
            have := h1 x
            simp only [List.count_cons] at this ⊢
            omega
          · rintro ⟨q1, q2⟩
            rw [(hq q2).2, q1] at hx
            cases hx
        · simp only [if_neg hx] at hs
          cases pos with
          | none =>
            simp only [Option.some.injEq, Prod.mk.injEq] at hs
            obtain ⟨rfl, rfl⟩ := hs
            exact ⟨lost1, h1.insert, fun q => ⟨(hq q.2).1, rfl⟩⟩
          | some i =>
            simp only at hs
            split at hs
            · simp only [Option.some.injEq, Prod.mk.injEq] at hs
              obtain ⟨rfl, rfl⟩ := hs
              exact ⟨lost1, h1.insert, fun q => ⟨(hq q.2).1, rfl⟩⟩
            · cases hs
  | .reset i, s, making, lost, s', e, h, hs => by
    rw [Spec.act] at hs
    cases hi : s.items[i]? with
    | none => rw [hi] at hs; cases hs
    | some o =>
      cases o with
      | none => rw [hi] at hs; cases hs; exact ⟨lost, h, fun _ => ⟨rfl, rfl⟩⟩
      | some id =>
        rw [hi] at hs; cases hs
        refine ⟨lost, ?_, fun _ => ⟨rfl, rfl⟩⟩
        intro x
        have := h x
        have c := count_reset s.items hi x
        simp only [List.count_cons, beq_iff_eq]
        omega
  | .clear, s, making, lost, s', e, h, hs => by
    rw [Spec.act] at hs; cases hs
    refine ⟨lost, ?_, fun _ => ⟨rfl, rfl⟩⟩
    intro x
    have := h x
    simp only [List.count_append, List.count_reverse, count_filterMap, List.count_nil]
    omega
  | .reserve n, s, making, lost, s', e, h, hs => by
    rw [Spec.act] at hs
    refine ⟨lost, ?_, fun _ => ⟨rfl, ?_⟩⟩
    · split at hs <;> (cases hs; exact h)
    · cases hs; rfl

theorem acts_own {grow : Nat → Nat} {first : Bool} : ∀ (as : List Act) {s making lost s' e}, Own s making lost →
    Spec.acts grow first s as = some (s', e) → ∃ lost', Own s' making lost' ∧ (AllQuiet as → lost' = lost ∧ e = false)
  | [], s, making, lost, s', e, h, hs => by rw [Spec.acts] at hs; cases hs; exact ⟨lost, h, fun _ => ⟨rfl, rfl⟩⟩
  | a :: as, s, making, lost, s', e, h, hs => by
    rw [Spec.acts] at hs
    revert hs
    cases ha : Spec.act grow first s a with
    | none => intro hs; cases hs
    | some x =>
      obtain ⟨s1, e1⟩ := x
      obtain ⟨lost1, h1, hq⟩ := act_own a h ha
      cases e1 with
      | true =>
        intro hs; cases hs
        exact ⟨lost1, h1, fun q => absurd (hq q.1).2 (by simp)⟩
      | false =>
        intro hs
        obtain ⟨lost2, h2, hq2⟩ := acts_own as h1 hs
        exact ⟨lost2, h2, fun q => ⟨(hq2 q.2).1.trans (hq q.1).1, (hq2 q.2).2⟩⟩
end

/-! ## The theorems -/

/-- **C158 (exactly).** Whatever the constructors do with their vector, at any depth, and whichever argument of `emplace` is computed first:
the program is defined if and only if it is for the specification, and then ends with the items, the destroyed objects, the capacity and the
exception of the specification, for every growth policy. -/
theorem C158_exactly (grow : Nat → Nat) (hg : ∀ n, n < grow n) (first : Bool) (as : List Act) :
    match Spec.acts grow first Seq.init as with
    | none => runFresh grow first as = .ub
    | some (s, e) => runFresh grow first as = .ok (⟨s.items, s.cap, [], s.next, s.gone⟩, e) := by
  have h := acts_fits hg first rel_init as
  revert h
  rw [runFresh]
  cases Spec.acts grow first Seq.init as with
  | none => exact id
  | some r =>
    rintro ⟨⟨items, cap, its, next, gone⟩, e, h, -⟩
    obtain rfl := h.items
    obtain rfl := h.cap
    obtain rfl := h.next
    obtain rfl := h.gone
    obtain rfl : its = [] := h.its
    exact e

/-- **C158 (the order matters only for definedness).** A program that is defined when positions are computed first is defined, with the
same result, when they are computed last. -/
theorem C158_orders_agree (grow : Nat → Nat) (hg : ∀ n, n < grow n) (as : List Act) (r : V × Bool)
    (h : runFresh grow true as = .ok r) : runFresh grow false as = .ok r := by
  have h1 := C158_exactly grow hg true as
  have h2 := C158_exactly grow hg false as
  revert h1
  cases hs : Spec.acts grow true Seq.init as with
  | none => intro h1; rw [h1] at h; cases h
  | some x =>
    intro h1
    rw [acts_orders as hs] at h2
    rw [h2, ← h, h1]

/-- **C158 (ownership).** After every defined program each object is in the vector or destroyed at most once, none that was not begun is, and if
no constructor throws every object begun is in the vector or destroyed, exactly once. -/
theorem C158_owned_once (grow : Nat → Nat) (hg : ∀ n, n < grow n) (first : Bool) (as : List Act) (v : V) (e : Bool)
    (h : runFresh grow first as = .ok (v, e)) (id : Nat) :
    v.items.count (some id) + v.gone.count id ≤ (if id < v.next then 1 else 0) ∧
      (AllQuiet as → e = false ∧ v.items.count (some id) + v.gone.count id = if id < v.next then 1 else 0) := by
  have h1 := C158_exactly grow hg first as
  revert h1
  cases hs : Spec.acts grow first Seq.init as with
  | none => intro h1; rw [h1] at h; cases h
  | some x =>
    obtain ⟨s, e'⟩ := x
    intro h1
    simp only at h1
    rw [h1] at h; cases h
    obtain ⟨lost, ho, hq⟩ := acts_own as (making := []) (lost := []) (fun x => by simp [Seq.init]) hs
    have := ho id
    refine ⟨by simp at this ⊢; omega, fun q => ⟨(hq q).2, ?_⟩⟩
    rw [(hq q).1] at this
    simpa using this

theorem acts_append {grow : Nat → Nat} {first : Bool} : ∀ (as bs : List Act) {v w : V}, acts grow first v as = .ok (w, false) →
    acts grow first v (as ++ bs) = acts grow first w bs
  | [], bs, v, w, h => by rw [acts] at h; cases h; rfl
  | a :: as, bs, v, w, h => by
    rw [acts] at h
    obtain ⟨⟨u, e⟩, h1, h⟩ := Outcome.bind_eq_ok.1 h
    rw [List.cons_append, acts, h1, Outcome.bind_ok]
    cases e with
    | true => cases h
    | false => exact acts_append as bs h

theorem ready {grow : Nat → Nat} (hg : ∀ n, n < grow n) {first : Bool} {as : List Act} {v : V}
    (h : runFresh grow first as = .ok (v, false)) : v.items.length ≤ v.cap ∧ v.its = [] := by
  have h1 := acts_fits hg first rel_init as
  revert h1
  cases hs : Spec.acts grow first Seq.init as with
  | none => intro h1; rw [runFresh] at h; simp only [Fits] at h1; rw [h1] at h; cases h
  | some x =>
    obtain ⟨s, e'⟩ := x
    rintro ⟨w, e, r, -⟩
    rw [runFresh, e] at h; cases h
    exact ⟨by rw [r.items, r.cap]; exact r.room, r.its⟩

/-- **C158 (an object that makes another one).** After any history, `createAt(i)` of an object whose constructor makes another object in the
same vector: with the position computed last it always puts the object at `i` and the other one at the end. With the position computed
first it does so exactly if `i` is not the end and the vector is not full; otherwise the behaviour is undefined. -/
theorem C158_makes_another (grow : Nat → Nat) (hg : ∀ n, n < grow n) (first : Bool) (as : List Act) (v : V) (i : Nat) (c c' : Bool)
    (h : runFresh grow first as = .ok (v, false)) (hi : i ≤ v.items.length) :
    (first = true ∧ (i = v.items.length ∨ v.items.length = v.cap) →
      runFresh grow first (as ++ [.make (some i) [.make none [] false c'] false c]) = .ub) ∧
    (¬ (first = true ∧ (i = v.items.length ∨ v.items.length = v.cap)) →
      ∃ w, runFresh grow first (as ++ [.make (some i) [.make none [] false c'] false c]) = .ok (w, false) ∧
        w.items = v.items.take i ++ some v.next :: v.items.drop i ++ [some (v.next + 1)] ∧ w.gone = v.gone) := by
  obtain ⟨hr, ht⟩ := ready hg h
  rw [runFresh] at h
  rw [runFresh, acts_append as _ h]
  have hit : v.items.insertIdx v.items.length (some (v.next + 1)) = v.items ++ [some (v.next + 1)] := by
    rw [insertIdx_eq _ _ _ (Nat.le_refl _)]; simp
  have hin : (v.items ++ [some (v.next + 1)]).insertIdx i (some v.next) =
      v.items.take i ++ some v.next :: v.items.drop i ++ [some (v.next + 1)] := by
    rw [insertIdx_eq _ _ _ (by simp; omega), List.take_append_of_le_length hi, List.drop_append_of_le_length hi]; simp
  cases first with
  | false =>
    refine ⟨by simp, fun _ => ?_⟩
    simp only [acts, act, V.emplace, Outcome.bind_ok, Bool.or_self, Bool.false_eq_true, if_false, Nat.lt_irrefl, Outcome.pure_eq, hit]
    rw [if_neg (by simp; omega)]
    simp only [Outcome.bind_ok, Bool.false_eq_true, if_false, hin]
    exact ⟨_, rfl, rfl, rfl⟩
  | true =>
    simp only [acts, act, V.emplace, Outcome.bind_ok, Bool.or_self, Bool.false_eq_true, if_false, Nat.lt_irrefl, Outcome.pure_eq, hit,
      if_true, if_neg (Nat.not_lt.2 hi), ht, List.map_cons, List.map_nil, true_and, Option.bind_some]
    constructor
    · rintro (rfl | hc)
      · by_cases hc : v.items.length < v.cap <;> simp [hc]
      · rw [if_neg (by omega)]; simp
    · intro hn
      rw [if_pos (by omega), if_neg (by omega)]
      simp only [List.head?_cons]
      rw [if_neg (by simp; omega)]
      simp only [Outcome.bind_ok, Bool.false_eq_true, if_false, hin]
      exact ⟨_, rfl, rfl, rfl⟩

/-- A vector of three, then an object put in front whose constructor makes another: the theorems apply, the condition can be met and missed. -/
example : runFresh (· * 2 + 1) true [.make none [] false false, .make none [] false false, .make (some 0) [.make none [] false false] false false]
      = .ok (⟨[some 2, some 0, some 1, some 3], 25, [], 4, []⟩, false) ∧
    runFresh (· * 2 + 1) true [.make none [] false false, .make (some 1) [.make none [] false false] false false] = .ub ∧
    runFresh (· * 2 + 1) false [.make none [] false false, .make (some 1) [.make none [] false false] false false]
      = .ok (⟨[some 0, some 1, some 2], 25, [], 3, []⟩, false) := by
  refine ⟨?_, ?_, ?_⟩ <;> simp [runFresh, acts, act, V.emplace, V.init]

end Verif.RecVec.Ctor
