import Verif.Manager.Iter
import Verif.Manager.Theorems

/-!
# Theorems: loops over a manager whose body uses the manager (C139)
-/

namespace Verif.Manager

open Verif Spec

theorem abs_run_append (a : Abs) (xs ys : List Op) : a.run (xs ++ ys) = (a.run xs).bind (·.run ys) := by
  induction xs generalizing a with
  | nil => rfl
  | cons o xs ih =>
    simp only [List.cons_append, Abs.run]
    cases a.step o with
    | none => rfl
    | some b => simp [ih]

theorem run_append (m : Mgr) (xs ys : List Op) : run m (xs ++ ys) = (run m xs >>= fun m => run m ys) := by
  induction xs generalizing m with
  | nil => rfl
  | cons o xs ih =>
    simp only [List.cons_append, run]
    cases step m o <;> simp [ih]

theorem cap_mono_step {a b : Abs} {o : Op} (h : a.step o = some b) : a.cap ≤ b.cap := by
  cases o with
  | create => simp only [Abs.step, Option.some.injEq] at h; subst h; simp only; split <;> omega
  | del id => simp only [Abs.step] at h; split at h <;> simp_all; subst h; simp
  | refresh => simp only [Abs.step, Option.some.injEq] at h; subst h; simp
  | clear => simp only [Abs.step, Option.some.injEq] at h; subst h; simp
  | reserve n => simp only [Abs.step] at h; split at h <;> simp_all; subst h; simp only; omega

/-- One round: either some use is stale and the round is undefined, or it does what the calls do. -/
theorem bsteps_spec {vis : List Nat} {i id : Nat} (hi : vis[i]? = some id) : ∀ (ss : List BStep) (m : Mgr) (b a a' : Abs)
    (g : Bool), Rel m a vis → a.run (calls ss) = some a' → b.cap ≤ a.cap → g = decide (a.cap ≠ b.cap) →
    ((∃ pre post c, ss = pre ++ .use :: post ∧ a.run (calls pre) = some c ∧ c.cap ≠ b.cap) ∧ bsteps i m g ss = .ub) ∨
    ((¬ ∃ pre post c, ss = pre ++ .use :: post ∧ a.run (calls pre) = some c ∧ c.cap ≠ b.cap) ∧
      ∃ m', bsteps i m g ss = .ok m' ∧ run m (calls ss) = .ok m' ∧ Rel m' a' vis) := by
  intro ss
  induction ss with
  | nil =>
    intro m b a a' g hr ha hb hg
    simp only [calls, Abs.run, Option.some.injEq] at ha
    subst ha
    right
    exact ⟨by rintro ⟨pre, post, c, h, _⟩; simp at h, m, rfl, rfl, hr⟩
  | cons s ss ih =>
    intro m b a a' g hr ha hb hg
    cases s with
    | use =>
      by_cases hc : a.cap = b.cap
      · have hg' : g = false := by simp [hg, hc]
        have hsl : m.slots[i]? = some (some id) := by
          obtain ⟨k, hk⟩ := hr.slots
          rw [hk]; apply slotsOf_get
          rw [List.getElem?_append_left (List.getElem?_eq_some_iff.1 hi).1, hi]
        have hfl := hr.flag (id := id) (by simp [List.mem_of_getElem? hi])
        have e : bsteps i m g (.use :: ss) = bsteps i m g ss := by
          unfold HasFlag at hfl
          simp [bsteps, bstep, hg', slotAt_of hsl, Mgr.getBool, hfl]
        rw [e]
        rcases ih m b a a' g hr ha hb hg with ⟨⟨pre, post, c, h1, h2, h3⟩, h4⟩ | ⟨h1, h2⟩
        · exact Or.inl ⟨⟨.use :: pre, post, c, by simp [h1], by simpa [calls] using h2, h3⟩, h4⟩
        · refine Or.inr ⟨?_, h2⟩
          rintro ⟨pre, post, c, h3, h4, h5⟩
          cases pre with
          | nil => simp only [calls, Abs.run, Option.some.injEq] at h4; subst h4; exact h5 hc
          | cons p pre =>
            simp only [List.cons_append, List.cons.injEq] at h3
            obtain ⟨rfl, h3⟩ := h3
            exact h1 ⟨pre, post, c, h3, by simpa [calls] using h4, h5⟩
      · left
        refine ⟨⟨[], ss, a, rfl, rfl, hc⟩, ?_⟩
        simp [bsteps, bstep, hg, hc]
    | create =>
      obtain ⟨m1, a1, h1, h2, h3⟩ := rel_create hr
      simp only [calls, Abs.run, h2, Option.bind_some] at ha
      have hm := cap_mono_step h2
      have hgr : (g || decide (m.capacity ≤ m.sizeNext)) = decide (a1.cap ≠ b.cap) := by
        have hfull : (m.capacity ≤ m.sizeNext) ↔ a1.cap ≠ a.cap := by
          simp only [Abs.step, Option.some.injEq] at h2
          rw [hr.cap, hr.sizeNext, hr.lenEx, ← h2]
          have := hr.pos
          simp only
          split <;> constructor <;> intro _ <;> omega
        rw [hg]
        by_cases h4 : a.cap = b.cap
        · simp [h4, hfull]
        · have : a1.cap ≠ b.cap := by omega
          simp [h4, this]
      have e : bsteps i m g (.create :: ss) = bsteps i m1 (g || decide (m.capacity ≤ m.sizeNext)) ss := by
        simp [bsteps, bstep, h1]
      have er : run m (calls (.create :: ss)) = run m1 (calls ss) := by simp [calls, run, step, h1]
      rw [e, er, hgr]
      rcases ih m1 b a1 a' _ h3 ha (by omega) rfl with ⟨⟨pre, post, c, h5, h6, h7⟩, h8⟩ | ⟨h5, h6⟩
      · exact Or.inl ⟨⟨.create :: pre, post, c, by simp [h5], by simp [calls, Abs.run, h2, h6], h7⟩, h8⟩
      · refine Or.inr ⟨?_, h6⟩
        rintro ⟨pre, post, c, h7, h8, h9⟩
        cases pre with
        | nil => simp at h7
        | cons p pre =>
          simp only [List.cons_append, List.cons.injEq] at h7
          obtain ⟨rfl, h7⟩ := h7
          simp only [calls, Abs.run, h2, Option.bind_some] at h8
          exact h5 ⟨pre, post, c, h7, h8, h9⟩
    | del x =>
      simp only [calls, Abs.run, Option.bind_eq_some_iff] at ha
      obtain ⟨a1, h2, ha⟩ := ha
      have hx : x ∈ a.existing := by
        simp only [Abs.step] at h2; split at h2
        · assumption
        · simp at h2
      have ha1 : a1 = { a with dead := x :: a.dead } := by
        simp only [Abs.step, if_pos hx, Option.some.injEq] at h2; exact h2.symm
      obtain ⟨m1, h1, h3⟩ := rel_del hr hx
      rw [← ha1] at h3
      have hcap : a1.cap = a.cap := by rw [ha1]
      have e : bsteps i m g (.del x :: ss) = bsteps i m1 g ss := by simp [bsteps, bstep, h1]
      have er : run m (calls (.del x :: ss)) = run m1 (calls ss) := by simp [calls, run, step, h1]
      rw [e, er]
      rcases ih m1 b a1 a' g h3 ha (by omega) (by rw [hcap]; exact hg) with ⟨⟨pre, post, c, h5, h6, h7⟩, h8⟩ | ⟨h5, h6⟩
      · exact Or.inl ⟨⟨.del x :: pre, post, c, by simp [h5], by simp [calls, Abs.run, h2, h6], h7⟩, h8⟩
      · refine Or.inr ⟨?_, h6⟩
        rintro ⟨pre, post, c, h7, h8, h9⟩
        cases pre with
        | nil => simp at h7
        | cons p pre =>
          simp only [List.cons_append, List.cons.injEq] at h7
          obtain ⟨rfl, h7⟩ := h7
          simp only [calls, Abs.run, h2, Option.bind_some] at h8
          exact h5 ⟨pre, post, c, h7, h8, h9⟩

theorem forFrom_spec (body : Nat → List BStep) {vis : List Nat} : ∀ (rest done : List Nat) (m : Mgr) (a a' : Abs),
    vis = done ++ rest → Rel m a vis → a.run (rest.flatMap (fun id => calls (body id))) = some a' →
    (Stale body a rest ∧ forFrom body m done.length rest.length = .ub) ∨
    (¬ Stale body a rest ∧ ∃ m', forFrom body m done.length rest.length = .ok (m', rest) ∧
      run m (rest.flatMap (fun id => calls (body id))) = .ok m' ∧ Rel m' a' vis) := by
  intro rest
  induction rest with
  | nil =>
    intro done m a a' hv hr ha
    simp only [List.flatMap_nil, Abs.run, Option.some.injEq] at ha
    subst ha
    right
    refine ⟨?_, m, rfl, rfl, hr⟩
    rintro ⟨before, id, after, _, _, _, _, h, _⟩
    simp at h
  | cons x rest ih =>
    intro done m a a' hv hr ha
    rw [List.flatMap_cons, abs_run_append, Option.bind_eq_some_iff] at ha
    obtain ⟨a1, h1, h2⟩ := ha
    have hi : vis[done.length]? = some x := by simp [hv]
    have hsl : m.slotAt done.length = .ok x := by
      obtain ⟨k, hk⟩ := hr.slots
      apply slotAt_of
      rw [hk]; apply slotsOf_get
      rw [List.getElem?_append_left (List.getElem?_eq_some_iff.1 hi).1, hi]
    rcases bsteps_spec hi (body x) m a a a1 false hr h1 (Nat.le_refl _) (by simp) with
      ⟨⟨pre, post, c, h3, h4, h5⟩, h6⟩ | ⟨hn, m1, h3, h4, h5⟩
    · left
      refine ⟨⟨[], x, rest, pre, post, a, c, rfl, h3, rfl, h4, h5⟩, ?_⟩
      simp [forFrom, hsl, h6]
    · have e : forFrom body m done.length (x :: rest).length =
          (forFrom body m1 (done ++ [x]).length rest.length >>= fun r => .ok (r.1, x :: r.2)) := by
        simp [forFrom, hsl, h3]
      have hst : Stale body a (x :: rest) ↔ Stale body a1 rest := by
        constructor
        · rintro ⟨before, id, after, pre, post, b, c, e1, e2, e3, e4, e5⟩
          cases before with
          | nil =>
            simp only [List.nil_append, List.cons.injEq] at e1
            obtain ⟨rfl, rfl⟩ := e1
            simp only [List.flatMap_nil, Abs.run, Option.some.injEq] at e3
            subst e3
            exact absurd ⟨pre, post, c, e2, e4, e5⟩ hn
          | cons y before =>
            simp only [List.cons_append, List.cons.injEq] at e1
            obtain ⟨rfl, e1⟩ := e1
            rw [List.flatMap_cons, abs_run_append, h1, Option.bind_some] at e3
            exact ⟨before, id, after, pre, post, b, c, e1, e2, e3, e4, e5⟩
        · rintro ⟨before, id, after, pre, post, b, c, e1, e2, e3, e4, e5⟩
          refine ⟨x :: before, id, after, pre, post, b, c, by simp [e1], e2, ?_, e4, e5⟩
          rw [List.flatMap_cons, abs_run_append, h1, Option.bind_some, e3]
      rw [e, hst]
      rcases ih (done ++ [x]) m1 a1 a' (by simp [hv]) h5 h2 with ⟨h6, h7⟩ | ⟨h6, m', h7, h8, h9⟩
      · left; exact ⟨h6, by rw [h7, Outcome.bind_ub]⟩
      · right
        refine ⟨h6, m', by rw [h7]; rfl, ?_, h9⟩
        rw [List.flatMap_cons, run_append, h4]; exact h8

/-- **C139 (looping while creating and deleting).** A loop over a manager, after any legal history, whose body
creates and deletes objects: if the loop variable is never used after the storage has grown in the same round, the
loop visits exactly the objects visible at its start, in order and once each, and leaves the manager as if the
calls had been made one after the other without a loop. -/
theorem C139_loop (os : List Op) (a : Abs) (h : Legal os a) (body : Nat → List BStep) :
    ∃ m visible, runFresh os = .ok m ∧ m.iter = .ok visible ∧
      ∀ a', a.run (visible.flatMap (fun id => calls (body id))) = some a' → ¬ Stale body a visible →
        ∃ m', m.forEach body = .ok (m', visible) ∧
          runFresh (os ++ visible.flatMap (fun id => calls (body id))) = .ok m' ∧ m'.iter = .ok visible := by
  obtain ⟨m, vis, h1, h2⟩ := rel_legal h
  refine ⟨m, vis, h1, h2.iter, fun a' ha hn => ?_⟩
  rcases forFrom_spec body vis [] m a a' rfl h2 ha with ⟨hs, _⟩ | ⟨_, m', h3, h4, h5⟩
  · exact absurd hs hn
  · refine ⟨m', ?_, ?_, h5.iter⟩
    · rw [Mgr.forEach, h2.msize]; exact h3
    · rw [runFresh_append, h1]; exact h4

/-- **C139 (the loop variable dangles).** If in some round the loop variable is used after creations of that round
made the storage grow, the behaviour is undefined. -/
theorem C139_stale (os : List Op) (a : Abs) (h : Legal os a) (body : Nat → List BStep) :
    ∃ m visible, runFresh os = .ok m ∧ m.iter = .ok visible ∧
      ∀ a', a.run (visible.flatMap (fun id => calls (body id))) = some a' → Stale body a visible →
        m.forEach body = .ub := by
  obtain ⟨m, vis, h1, h2⟩ := rel_legal h
  refine ⟨m, vis, h1, h2.iter, fun a' ha hn => ?_⟩
  rcases forFrom_spec body vis [] m a a' rfl h2 ha with ⟨_, h3⟩ | ⟨hs, _⟩
  · rw [Mgr.forEach, h2.msize]; exact h3
  · exact absurd hn hs

/-- **C139 (bodies that look first).** If every body uses the loop variable only before its first creation, no loop
is stale. -/
theorem C139_look_first (body : Nat → List BStep) (hb : ∀ id, ∃ uses rest, body id = uses ++ rest ∧
    (∀ s ∈ uses, s ≠ .create) ∧ (∀ s ∈ rest, s ≠ .use)) (a : Abs) (visited : List Nat) : ¬ Stale body a visited := by
  rintro ⟨before, id, after, pre, post, b, c, _, h2, _, h4, h5⟩
  obtain ⟨uses, rest, h6, h7, h8⟩ := hb id
  rw [h6] at h2
  have hpre : ∀ s ∈ pre, s ≠ .create := by
    rcases List.append_eq_append_iff.1 h2 with ⟨t, e1, e2⟩ | ⟨t, e1, e2⟩
    · exact absurd rfl (h8 .use (by rw [e2]; simp))
    · intro s hs; exact h7 s (by rw [e1]; simp [hs])
  have : ∀ (l : List BStep) (x y : Abs), (∀ s ∈ l, s ≠ BStep.create) → x.run (calls l) = some y → y.cap = x.cap := by
    intro l
    induction l with
    | nil => intro x y _ h; simp only [calls, Abs.run, Option.some.injEq] at h; rw [h]
    | cons s l ih =>
      intro x y hl h
      cases s with
      | use => exact ih x y (fun s hs => hl s (by simp [hs])) h
      | create => exact absurd rfl (hl .create (by simp))
      | del z =>
        simp only [calls, Abs.run, Option.bind_eq_some_iff] at h
        obtain ⟨w, h9, h10⟩ := h
        rw [ih w y (fun s hs => hl s (by simp [hs])) h10]
        simp only [Abs.step] at h9
        split at h9
        · simp only [Option.some.injEq] at h9; rw [← h9]
        · simp at h9
  exact h5 (this pre b c hpre h4)

/-- **C139 (timeline managers).** In `TimelineManager::update` the loop variable is used (`update`), the actions of
the timeline run, which may create timelines, and it is used again (`isFinished`). With one visible timeline
whose actions create `k` timelines, the update is undefined exactly if the storage has to grow. -/
theorem C139_timeline_manager (os : List Op) (a : Abs) (h : Legal os a) (t k : Nat) (hv : a.visible = [t]) :
    ∃ m, runFresh os = .ok m ∧
      let update := m.forEach (fun _ => .use :: (List.replicate k .create ++ [.use]))
      if a.existing.length + k ≤ a.cap then ∃ m', update = .ok (m', [t]) ∧ m'.iter = .ok [t] else update = .ub := by
  obtain ⟨m, vis, h1, h2⟩ := rel_legal h
  have hvis : vis = [t] := by rw [← List.perm_singleton, ← hv]; exact h2.perm
  subst hvis
  have hcalls : ∀ n, calls (List.replicate n .create) = List.replicate n .create := by
    intro n; induction n with
    | zero => rfl
    | succ n ih => rw [List.replicate_succ, calls, ih]; rfl
  have hcapp : ∀ (x y : List BStep), calls (x ++ y) = calls x ++ calls y := by
    intro x y
    induction x with
    | nil => rfl
    | cons s x ih => cases s <;> simp [calls, ih]
  have hrun : ∀ (n : Nat) (x : Abs), 0 < x.cap → x.existing.length ≤ x.cap →
      ∃ y, x.run (List.replicate n .create) = some y ∧ (y.cap = x.cap ↔ x.existing.length + n ≤ x.cap) ∧ x.cap ≤ y.cap := by
    intro n
    induction n with
    | zero => intro x _ hx; exact ⟨x, rfl, by simp [hx], Nat.le_refl _⟩
    | succ n ih =>
      intro x hp hx
      rw [List.replicate_succ, Abs.run]
      simp only [Abs.step, Option.bind_some]
      by_cases hf : x.cap ≤ x.existing.length
      · simp only [if_pos hf]
        obtain ⟨y, h3, h4, h5⟩ := ih { x with next := x.next + 1, pending := x.pending ++ [x.next], cap := x.cap * 3 }
          (by simp; omega) (by simp [Abs.existing] at *; omega)
        simp only at h5
        refine ⟨y, h3, ?_, by omega⟩
        constructor
        · intro; omega
        · intro; omega
      · simp only [if_neg hf]
        obtain ⟨y, h3, h4, h5⟩ := ih { x with next := x.next + 1, pending := x.pending ++ [x.next] }
          hp (by simp [Abs.existing] at *; omega)
        refine ⟨y, h3, h4.trans ?_, h5⟩
        simp [Abs.existing]; omega
  obtain ⟨y, h3, h4, h5⟩ := hrun k a h2.pos (by
    rw [← h2.lenEx, ← h2.sizeNext, ← h2.cap]; exact h2.sizeNext_le)
  have hall : calls (.use :: (List.replicate k .create ++ [.use])) = List.replicate k .create := by
    rw [calls, hcapp, hcalls]; simp [calls]
  have hflat : a.run ([t].flatMap (fun _ => calls (.use :: (List.replicate k .create ++ [.use])))) = some y := by
    rw [List.flatMap_cons, List.flatMap_nil, List.append_nil, hall, h3]
  refine ⟨m, h1, ?_⟩
  intro update
  have hst : Stale (fun _ => .use :: (List.replicate k .create ++ [.use])) a [t] ↔ ¬ a.existing.length + k ≤ a.cap := by
    rw [← h4]
    constructor
    · rintro ⟨before, id, after, pre, post, b, c, e1, e2, e3, e4, e5⟩
      have hb0 : before = [] := by
        cases before with
        | nil => rfl
        | cons z zs => simp at e1
      subst hb0
      simp only [List.flatMap_nil, Abs.run, Option.some.injEq] at e3
      subst e3
      -- capacities only grow
      have hmono : ∀ (l : List Op) (x z : Abs), x.run l = some z → x.cap ≤ z.cap := by
        intro l
        induction l with
        | nil => intro x z h; simp only [Abs.run, Option.some.injEq] at h; exact h ▸ Nat.le_refl _
        | cons o l ih =>
          intro x z h
          simp only [Abs.run, Option.bind_eq_some_iff] at h
          obtain ⟨w, h6, h7⟩ := h
          have := cap_mono_step h6
          have := ih _ _ h7
          omega
      have h6 : a.run (calls pre ++ calls (.use :: post)) = some y := by
        rw [← hcapp, ← e2, hall, h3]
      rw [abs_run_append, e4, Option.bind_some] at h6
      have := hmono _ _ _ h6
      have := hmono _ _ _ e4
      omega
    · intro hne
      refine ⟨[], t, [], .use :: List.replicate k .create, [], a, y, rfl, by simp, rfl, ?_, hne⟩
      rw [calls, hcalls, h3]
  rcases forFrom_spec (fun _ => .use :: (List.replicate k .create ++ [.use])) [t] [] m a y rfl h2 hflat with
    ⟨hs, e⟩ | ⟨hs, m', e, _, r⟩
  · rw [if_neg (hst.1 hs)]
    simp only [update, Mgr.forEach, h2.msize]
    exact e
  · rw [if_pos (by rw [hst, not_not] at hs; exact hs)]
    refine ⟨m', ?_, r.iter⟩
    simp only [update, Mgr.forEach, h2.msize]
    exact e

/-! ### Examples -/

/-- Three visible objects; the loop deletes each one after looking at it and creates two new ones. -/
example : ∃ a a', Legal [.create, .create, .create, .refresh] a ∧ a.visible = [0, 1, 2] ∧
    a.run ([0, 1, 2].flatMap (fun id => calls [.use, .del id, .create, .create])) = some a' ∧
    a'.existing.length = 9 :=
  ⟨{ next := 3, visible := [0, 1, 2], pending := [], dead := [], cap := 25 }, _, by unfold Legal; decide, rfl, rfl, rfl⟩

/-- A full manager: creating one object and looking again is undefined. -/
example : ∃ m, runFresh (List.replicate 25 .create ++ [.refresh]) = .ok m ∧
    m.forEach (fun id => if id = 7 then [.use, .create, .use] else []) = .ub ∧
    ∃ r, m.forEach (fun id => if id = 7 then [.use, .create] else []) = .ok r :=
  ⟨_, rfl, by decide +kernel, _, rfl⟩

end Verif.Manager
