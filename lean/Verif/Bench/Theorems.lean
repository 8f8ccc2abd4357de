import Verif.Bench.Spec
import Mathlib.Tactic.Linarith
import Mathlib.Tactic.NormNum
import Mathlib.Tactic.Ring
import Mathlib.Algebra.Order.Field.Rat
import Mathlib.Algebra.Order.Field.Basic

/-! # C109-C111: nested benchmarks, groups, durations -/

namespace Verif.Bench

open Verif

/-! ## C109: nested benchmarks -/

theorem dashes_eq (n : Nat) (s : Str) : dashes n s = s ++ List.replicate (4 * n) '-' := by
  induction n generalizing s with
  | zero => simp [dashes]
  | succ n ih =>
    rw [dashes, ih, show 4 * (n + 1) = 4 + 4 * n by omega, ← List.replicate_append_replicate, List.append_assoc]
    rfl

theorem logTitle_eq (d : Nat) (n : Str) : logTitle d ++ n = title d n := by
  unfold logTitle title
  by_cases h : d = 0
  · subst h
    simp only [Nat.lt_irrefl, if_false, if_true, List.append_assoc]
    rfl
  · rw [if_pos (by omega), if_neg h, dashes_eq]
    rfl

theorem run_append (dbg : Bool) (cs ds : List (Int × Call)) (st : St) :
    run dbg (cs ++ ds) st = (run dbg cs st).bind (run dbg ds) := by
  induction cs generalizing st with
  | nil => rfl
  | cons c cs ih =>
    obtain ⟨t, c⟩ := c
    simp only [List.cons_append, run]
    cases step dbg t st c with
    | ok st' => exact ih st'
    | _ => rfl

/-- **C109**, inside of other benchmarks: what a properly nested program logs, at any depth, whatever else is on the stack. -/
theorem C109_inside (dbg : Bool) (p : Prog) (st : St) (h : st.stack ≠ []) :
    run dbg p.calls st = .ok { st with
      hadNested := st.hadNested || !p.isNil
      log := st.log ++ p.lines st.stack.length } := by
  induction p generalizing st with
  | nil => simp [Prog.calls, run, Prog.isNil, Prog.lines]
  | node n s e lg inner next ih1 ih2 =>
    obtain ⟨stack, had, groups, log⟩ := st
    simp only at h
    have hlen : 0 < stack.length := List.length_pos_iff.mpr h
    have hne : ¬ stack.length = 0 := by omega
    have hemp : stack.isEmpty = false := by cases stack <;> simp_all
    simp only [Prog.calls, run, step, Outcome.bind_ok, start, List.length_cons, show 1 < stack.length + 1 by omega, if_true,
      run_append]
    rw [ih1 _ (by simp)]
    simp only [Outcome.bind, run, Bool.true_or]
    cases lg with
    | true =>
      simp only [if_true, step, endLo, getEndData, Outcome.bind_ok, hemp, Bool.false_and, Bool.false_eq_true, if_false,
        Outcome.pure_eq, logTitle_eq, Data.getDuration]
      rw [ih2 _ h]
      simp [Prog.isNil, Prog.lines, hne]
    | false =>
      simp only [Bool.false_eq_true, if_false, step, getEndData, Outcome.bind_ok, Outcome.pure_eq]
      rw [ih2 _ h]
      simp [Prog.isNil, Prog.lines, hne]

/-- **C109**: what a properly nested program logs, if the outermost benchmarks are ended by `endLo` (those inside may be
ended by `getEndData`). At the end nothing is left over for the next benchmarks. -/
theorem C109_nested_partial (dbg : Bool) (p : Prog) (hp : p.TopLogged) (st : St) (h : st.stack = []) (hn : st.hadNested = false) :
    run dbg p.calls st = .ok { st with log := st.log ++ p.lines 0 } := by
  induction p generalizing st with
  | nil => simp [Prog.calls, run, Prog.lines]
  | node n s e lg inner next _ ih2 =>
    obtain ⟨rfl, hp⟩ := hp
    obtain ⟨stack, had, groups, log⟩ := st
    simp only at h hn
    subst h hn
    simp only [Prog.calls, run, step, Outcome.bind_ok, start, List.length_cons, List.length_nil, Nat.lt_irrefl, if_false,
      run_append, Nat.zero_add, if_true]
    rw [C109_inside dbg inner _ (by simp)]
    simp only [Outcome.bind, run, step, endLo, getEndData, Outcome.bind_ok, List.length_cons, List.length_nil, Nat.zero_add,
      logTitle_eq, Data.getDuration, List.isEmpty_nil, Bool.true_and, Bool.false_or]
    cases hi : inner.isNil with
    | true =>
      simp only [Bool.not_true, Bool.false_eq_true, if_false, Outcome.pure_eq, Outcome.bind_ok]
      rw [ih2 hp _ rfl rfl]
      simp [Prog.lines, hi]
    | false =>
      simp only [Bool.not_false, if_true, Outcome.pure_eq, Outcome.bind_ok]
      rw [ih2 hp _ rfl rfl]
      simp [Prog.lines, hi]

/-- Two benchmarks, the first with two others inside. -/
def demo : Prog :=
  .node ['a'] 0 100 true (.node ['b'] 10 40 true .nil (.node ['c'] 50 60 true .nil .nil)) (.node ['d'] 200 205 true .nil .nil)

example : demo.TopLogged := ⟨rfl, rfl, trivial⟩
example : demo.lines 0 =
    [.bench "Benchmark #----> b".toList 30, .bench "Benchmark #----> c".toList 10, .bench "Benchmark #^ a".toList 100, .blank,
      .bench "Benchmark #^ d".toList 5] := by decide

/-- **C109** for a whole program: the log then has exactly the specified lines, and no benchmark is left running. -/
theorem C109_program_partial (dbg : Bool) (p : Prog) (hp : p.TopLogged) :
    ∃ st, run dbg p.calls St.init = .ok st ∧ st.log = p.lines 0 ∧ st.stack = [] :=
  ⟨_, C109_nested_partial dbg p hp St.init rfl rfl, rfl, rfl⟩

/-- If the outermost benchmark is ended by `getEndData`, the empty line for it comes after a later benchmark that has
nothing inside. -/
theorem C109_late_blank (dbg : Bool) (a b c : Str) (s1 s2 e2 e1 s3 e3 : Int) :
    ∃ st, run dbg (Prog.calls (.node a s1 e1 false (.node b s2 e2 true .nil .nil) (.node c s3 e3 true .nil .nil))) St.init = .ok st ∧
      st.log = [.bench (title 1 b) (e2 - s2), .bench (title 0 c) (e3 - s3), .blank] ∧
      Prog.lines 0 (.node a s1 e1 false (.node b s2 e2 true .nil .nil) (.node c s3 e3 true .nil .nil)) =
        [.bench (title 1 b) (e2 - s2), .bench (title 0 c) (e3 - s3)] := by
  refine ⟨_, rfl, ?_, rfl⟩
  simp [St.init, start, logTitle_eq, Data.getDuration]

/-- Ending a benchmark when none is running: an assertion fails, or the behaviour is undefined. -/
theorem C109_none_running (dbg : Bool) (t : Int) (st : St) (h : st.stack = []) :
    step dbg t st .endLo = (if dbg then .assertFail else .ub) ∧
    step dbg t st .getEnd = (if dbg then .assertFail else .ub) := by
  constructor <;> (simp only [step, endLo, getEndData, h]; cases dbg <;> rfl)

/-- **C109**, groups do not matter: with the calls on groups left out, the stack is the same and so are the lines of
benchmarks. -/
theorem C109_without_groups (dbg : Bool) (cs : List (Int × Call)) (st st' : St) (h : run dbg cs st = .ok st') :
    ∃ st'', run dbg (cs.filter fun c => c.2.onStack) st = .ok st'' ∧ st''.stack = st'.stack ∧
      st''.hadNested = st'.hadNested ∧ st''.log.filter Ev.notGroup = st'.log.filter Ev.notGroup := by
  suffices key : ∀ (cs : List (Int × Call)) (a b a' : St), a.stack = b.stack → a.hadNested = b.hadNested →
      a.log.filter Ev.notGroup = b.log.filter Ev.notGroup → run dbg cs a = .ok a' →
      ∃ b', run dbg (cs.filter fun c => c.2.onStack) b = .ok b' ∧ b'.stack = a'.stack ∧ b'.hadNested = a'.hadNested ∧
        b'.log.filter Ev.notGroup = a'.log.filter Ev.notGroup from key cs st st st' rfl rfl rfl h
  intro cs
  induction cs with
  | nil =>
    intro a b a' h1 h2 h3 h
    simp only [run, Outcome.ok.injEq] at h
    subst h
    exact ⟨b, rfl, h1.symm, h2.symm, h3.symm⟩
  | cons c cs ih =>
    obtain ⟨t, c⟩ := c
    intro a b a' h1 h2 h3 h
    obtain ⟨sa, na, ga, la⟩ := a
    obtain ⟨sb, nb, gb, lb⟩ := b
    simp only at h1 h2 h3
    subst h1 h2
    obtain ⟨a1, ha1, h'⟩ := Outcome.bind_eq_ok.mp h
    clear h
    have h := h'
    clear h'
    cases c with
    | start n =>
      simp only [step, Outcome.ok.injEq] at ha1
      obtain ⟨b', hb'⟩ := ih a1 (start t n ⟨sa, na, gb, lb⟩) a' (by
          subst ha1; simp only [start]; split <;> rfl) (by subst ha1; simp only [start]; split <;> rfl)
        (by subst ha1; simp only [start]; split <;> exact h3) h
      exact ⟨b', hb'⟩
    | getEnd =>
      cases sa with
      | nil => cases dbg <;> simp [step, getEndData] at ha1
      | cons d ds =>
        simp only [step, getEndData, Outcome.bind_ok, Outcome.pure_eq, Outcome.ok.injEq] at ha1
        obtain ⟨b', hb'⟩ := ih a1 ⟨ds, na, gb, lb⟩ a' (by subst ha1; rfl) (by subst ha1; rfl) (by subst ha1; exact h3) h
        exact ⟨b', hb'⟩
    | endLo =>
      cases sa with
      | nil => cases dbg <;> simp [step, endLo, getEndData] at ha1
      | cons d ds =>
        simp only [step, endLo, getEndData, Outcome.bind_ok, Outcome.pure_eq] at ha1
        by_cases hc : (ds.isEmpty && na) = true
        · rw [if_pos hc] at ha1
          simp only [Outcome.ok.injEq] at ha1
          obtain ⟨b', hb'⟩ := ih a1
            ⟨ds, false, gb, lb ++ [.bench (logTitle ds.length ++ d.name) (d.getDuration t)] ++ [.blank]⟩ a' (by subst ha1; rfl)
            (by subst ha1; rfl) (by subst ha1; simp [h3]) h
          refine ⟨b', ?_, hb'.2⟩
          rw [← hb'.1]
          simp [Call.onStack, run, step, endLo, getEndData, hc]
          rw [if_pos (by simpa using hc)]
          rfl
        · rw [if_neg hc] at ha1
          simp only [Outcome.ok.injEq] at ha1
          obtain ⟨b', hb'⟩ := ih a1
            ⟨ds, na, gb, lb ++ [.bench (logTitle ds.length ++ d.name) (d.getDuration t)]⟩ a' (by subst ha1; rfl)
            (by subst ha1; rfl) (by subst ha1; simp [h3]) h
          refine ⟨b', ?_, hb'.2⟩
          rw [← hb'.1]
          simp [Call.onStack, run, step, endLo, getEndData, hc]
          rw [if_neg (by simpa using hc)]
          rfl
    | groupReset g =>
      simp only [step, Outcome.ok.injEq] at ha1
      exact ih a1 ⟨sa, na, gb, lb⟩ a' (by subst ha1; rfl) (by subst ha1; rfl) (by subst ha1; exact h3) h
    | groupResume g =>
      simp only [step, Outcome.ok.injEq] at ha1
      exact ih a1 ⟨sa, na, gb, lb⟩ a' (by subst ha1; rfl) (by subst ha1; rfl) (by subst ha1; exact h3) h
    | groupPause g =>
      simp only [step, Outcome.ok.injEq] at ha1
      exact ih a1 ⟨sa, na, gb, lb⟩ a' (by subst ha1; rfl) (by subst ha1; rfl) (by subst ha1; exact h3) h
    | groupEndLo g =>
      simp only [step, Outcome.ok.injEq] at ha1
      exact ih a1 ⟨sa, na, gb, lb⟩ a' (by subst ha1; rfl) (by subst ha1; rfl)
        (by subst ha1; simp [groupEndLo, St.onGroup, h3, Ev.notGroup]) h

/-! ## C110: groups -/

/-- What a call does to its group. -/
theorem step_group (dbg : Bool) (t : Int) (st st' : St) (c : Call) (g : Str) (h : step dbg t st c = .ok st') :
    (c.on g = false → st'.groups g = st.groups g) := by
  intro hc
  cases c with
  | start n =>
    simp only [step, start, Outcome.ok.injEq] at h
    subst h
    split <;> rfl
  | getEnd =>
    obtain ⟨stack, had, groups, log⟩ := st
    cases stack with
    | nil => cases dbg <;> simp [step, getEndData] at h
    | cons d ds =>
      simp only [step, getEndData, Outcome.bind_ok, Outcome.pure_eq, Outcome.ok.injEq] at h
      subst h; rfl
  | endLo =>
    obtain ⟨stack, had, groups, log⟩ := st
    cases stack with
    | nil => cases dbg <;> simp [step, endLo, getEndData] at h
    | cons d ds =>
      simp only [step, endLo, getEndData, Outcome.bind_ok, Outcome.pure_eq] at h
      split at h <;> (simp only [Outcome.ok.injEq] at h; subst h; rfl)
  | groupReset k =>
    simp only [Call.on, beq_eq_false_iff_ne] at hc
    simp only [step, Outcome.ok.injEq] at h; subst h
    simp [St.onGroup, Ne.symm hc]
  | groupResume k =>
    simp only [Call.on, beq_eq_false_iff_ne] at hc
    simp only [step, Outcome.ok.injEq] at h; subst h
    simp [St.onGroup, Ne.symm hc]
  | groupPause k =>
    simp only [Call.on, beq_eq_false_iff_ne] at hc
    simp only [step, Outcome.ok.injEq] at h; subst h
    simp [St.onGroup, Ne.symm hc]
  | groupEndLo k =>
    simp only [Call.on, beq_eq_false_iff_ne] at hc
    simp only [step, Outcome.ok.injEq] at h; subst h
    simp [groupEndLo, St.onGroup, Ne.symm hc]

/-- A call on `g` changes it in the same way in every state. -/
theorem step_on (dbg : Bool) (t : Int) (c : Call) (g : Str) (hc : c.on g = true) :
    ∃ f : Grp → Grp, ∀ st, ∃ st', step dbg t st c = .ok st' ∧ st'.groups g = f (st.groups g) := by
  cases c <;> simp only [Call.on, Bool.false_eq_true, beq_iff_eq] at hc <;> subst hc
  · exact ⟨Grp.reset t, fun st => ⟨_, rfl, by simp [St.onGroup]⟩⟩
  · exact ⟨Grp.resume t, fun st => ⟨_, rfl, by simp [St.onGroup]⟩⟩
  · exact ⟨Grp.pause t, fun st => ⟨_, rfl, by simp [St.onGroup]⟩⟩
  · exact ⟨Grp.reset t, fun st => ⟨_, rfl, by simp [groupEndLo, St.onGroup]⟩⟩

/-- **C110**, groups do not disturb each other, nor do benchmarks disturb them: what a group holds depends on the calls on
it alone. -/
theorem C110_independent (dbg : Bool) (g : Str) (cs : List (Int × Call)) (st st' : St) (h : run dbg cs st = .ok st') :
    ∃ st'', run dbg (cs.filter fun c => c.2.on g) st = .ok st'' ∧ st''.groups g = st'.groups g := by
  suffices key : ∀ (cs : List (Int × Call)) (a b a' : St), b.groups g = a.groups g → run dbg cs a = .ok a' →
      ∃ b', run dbg (cs.filter fun c => c.2.on g) b = .ok b' ∧ b'.groups g = a'.groups g from key cs st st st' rfl h
  intro cs
  induction cs with
  | nil =>
    intro a b a' hab h
    simp only [run, Outcome.ok.injEq] at h
    subst h
    exact ⟨b, rfl, hab⟩
  | cons c cs ih =>
    obtain ⟨t, c⟩ := c
    intro a b a' hab h0
    obtain ⟨a1, ha1, h⟩ := Outcome.bind_eq_ok.mp h0
    cases hc : c.on g with
    | false =>
      rw [List.filter_cons_of_neg (by simp [hc])]
      exact ih a1 b a' (hab.trans (step_group dbg t a a1 c g ha1 hc).symm) h
    | true =>
      rw [List.filter_cons_of_pos (by simpa using hc)]
      obtain ⟨f, hf⟩ := step_on dbg t c g hc
      obtain ⟨a2, h2, h3⟩ := hf a
      obtain ⟨b1, h4, h5⟩ := hf b
      rw [h2] at ha1
      cases ha1
      obtain ⟨b', hb', hb''⟩ := ih a1 b1 a' (by rw [h5, h3, hab]) h
      exact ⟨b', by rw [run, h4]; exact hb', hb''⟩

theorem run_intervals (dbg : Bool) (g : Str) (l : List (Int × Int)) (st : St) :
    ∃ st', run dbg (intervals g l) st = .ok st' ∧ (st'.groups g).duration = (st.groups g).duration + lengths l := by
  induction l generalizing st with
  | nil => exact ⟨st, rfl, by simp [lengths]⟩
  | cons i l ih =>
    obtain ⟨a, b⟩ := i
    obtain ⟨st', h1, h2⟩ := ih ((st.onGroup g (Grp.resume a)).onGroup g (Grp.pause b))
    refine ⟨st', by simpa only [intervals, run, step, Outcome.bind_ok] using h1, ?_⟩
    rw [h2]
    simp [St.onGroup, Grp.resume, Grp.pause, lengths, add_assoc]

/-- **C110**: the time a group shows is the total of the intervals it ran, from a reset (or the last `groupEndLo`) on. The
program may do whatever else in between: `cs` are all its calls, those on `g` are, after anything at all, a reset and then
`resume` and `pause` in turn. -/
theorem C110_total_partial (dbg : Bool) (g : Str) (cs hist : List (Int × Call)) (t0 t1 : Int) (c0 : Call)
    (h0 : c0 = .groupReset g ∨ c0 = .groupEndLo g) (l : List (Int × Int)) (st st' : St)
    (hcs : cs.filter (fun c => c.2.on g) = hist ++ (t0, c0) :: intervals g l)
    (h : run dbg (cs ++ [(t1, .groupEndLo g)]) st = .ok st') :
    st'.log.getLast? = some (.group ("BenchmarkGroup #".toList ++ g) (lengths l)) ∧ (st'.groups g).duration = 0 := by
  rw [run_append] at h
  obtain ⟨st1, h1, h2⟩ := Outcome.bind_eq_ok.mp h
  obtain ⟨st2, h3, h4⟩ := C110_independent dbg g cs st st1 h1
  rw [hcs, run_append] at h3
  obtain ⟨st3, -, h5⟩ := Outcome.bind_eq_ok.mp h3
  have hd : (st1.groups g).duration = lengths l := by
    rw [← h4]
    rcases h0 with rfl | rfl
    · obtain ⟨st4, h6, h7⟩ := run_intervals dbg g l (st3.onGroup g (Grp.reset t0))
      have h8 : run dbg (intervals g l) (st3.onGroup g (Grp.reset t0)) = .ok st2 := h5
      rw [h6] at h8
      cases h8
      rw [h7]
      simp [St.onGroup, Grp.reset]
    · obtain ⟨st4, h6, h7⟩ := run_intervals dbg g l (groupEndLo t0 g st3)
      have h8 : run dbg (intervals g l) (groupEndLo t0 g st3) = .ok st2 := h5
      rw [h6] at h8
      cases h8
      rw [h7]
      simp [groupEndLo, St.onGroup, Grp.reset]
  simp only [run, step, Outcome.bind_ok, Outcome.ok.injEq] at h2
  subst h2
  constructor
  · simp only [groupEndLo, St.onGroup, List.getLast?_append, List.getLast?_singleton, hd]
    rfl
  · simp [groupEndLo, St.onGroup, Grp.reset]

/-- Another group and a benchmark in between. -/
def demoCalls : List (Int × Call) :=
  [(0, .groupReset ['g']), (1, .groupResume ['g']), (2, .start ['b']), (3, .groupPause ['h']), (5, .groupPause ['g']),
    (6, .endLo), (7, .groupResume ['g']), (17, .groupPause ['g'])]

example : demoCalls.filter (fun c => c.2.on ['g']) = [] ++ (0, .groupReset ['g']) :: intervals ['g'] [(1, 5), (7, 17)] := rfl
example : ∃ st', run true (demoCalls ++ [(20, .groupEndLo ['g'])]) St.init = .ok st' ∧
    st'.log.getLast? = some (.group "BenchmarkGroup #g".toList 14) := ⟨_, rfl, rfl⟩

/-- Calls out of turn: pausing twice counts the time up to the first pause twice; running a group inside of itself (as two
nested scopes do) counts the inner part twice and loses the part before it; a pause without `resume` counts from the
reset; a group never reset or resumed counts from the epoch of the clock. -/
theorem C110_out_of_turn (dbg : Bool) (g : Str) (a b c d : Int) (st : St) (hg : st.groups g = ⟨0, 0⟩) :
    (∃ st', run dbg [(a, .groupResume g), (b, .groupPause g), (c, .groupPause g)] st = .ok st' ∧
      (st'.groups g).duration = (c - a) + (b - a)) ∧
    (∃ st', run dbg [(a, .groupResume g), (b, .groupResume g), (c, .groupPause g), (d, .groupPause g)] st = .ok st' ∧
      (st'.groups g).duration = (d - b) + (c - b)) ∧
    (∃ st', run dbg [(a, .groupReset g), (b, .groupPause g)] st = .ok st' ∧ (st'.groups g).duration = b - a) ∧
    (∃ st', run dbg [(b, .groupPause g)] st = .ok st' ∧ (st'.groups g).duration = b) := by
  refine ⟨⟨_, rfl, ?_⟩, ⟨_, rfl, ?_⟩, ⟨_, rfl, ?_⟩, ⟨_, rfl, ?_⟩⟩
  · simp [St.onGroup, Grp.resume, Grp.pause, hg]; ring
  · simp [St.onGroup, Grp.resume, Grp.pause, hg]; ring
  · simp [St.onGroup, Grp.reset, Grp.pause]
  · simp [St.onGroup, Grp.pause, hg]

/-! ## C111: durations -/

/-- The duration of what `getEndData` returns should be the time between start and end. It is the time up to the call of
`getDuration`: right only if that is made at once. (`p` are the calls in between, which are properly nested.) -/
theorem C111_end_data (dbg : Bool) (p : Prog) (n : Str) (s e t : Int) (st : St) :
    ∃ st1 st2 d, run dbg ((s, .start n) :: p.calls) st = .ok st1 ∧ getEndData dbg st1 = .ok (d, st2) ∧ d.name = n ∧
      st2.stack = st.stack ∧ d.getDuration t = t - s ∧ (d.getDuration t = e - s ↔ t = e) := by
  have hs : (start s n st).stack = ⟨s, n⟩ :: st.stack := by
    simp only [start]; split <;> rfl
  have h := C109_inside dbg p (start s n st) (by simp [hs])
  refine ⟨_, { st with
    hadNested := (start s n st).hadNested || !p.isNil
    log := (start s n st).log ++ p.lines (start s n st).stack.length }, ⟨s, n⟩, by rw [run, step, Outcome.bind_ok, h], ?_, rfl, rfl, rfl, ?_⟩
  rotate_left 2
  · simp only [getEndData, hs]
    have hg : (start s n st).groups = st.groups := by simp only [start]; split <;> rfl
    rw [hg]
  · simp [Data.getDuration]

theorem text_eq (rnd : ℚ → ℚ) (hr : ToDouble rnd) (nearest : ℚ → ℤ) (hn : ∀ x : ℚ, |(nearest x : ℚ) - x| ≤ 1 / 2)
    (ns : ℕ) (h : ns < 2 ^ 52) :
    getString rnd nearest (ns : ℤ) =
      Nat.toDigits 10 (ns / 1000000) ++ ['.'] ++ lastDigits 6 (ns % 1000000) ++ " ms".toList ∧
    getString rnd nearest (-(ns : ℤ)) =
      (if ns = 0 then [] else ['-']) ++ Nat.toDigits 10 (ns / 1000000) ++ ['.'] ++ lastDigits 6 (ns % 1000000) ++ " ms".toList := by
  have key : ∀ z : ℤ, |z| < 2 ^ 52 → nearest (rnd (rnd (z : ℚ) / 1000000) * 1000000) = z := by
    intro z hz
    have h1 : rnd (z : ℚ) = z := hr.ints z (by
      have : (2 : ℤ) ^ 52 ≤ 2 ^ 53 := by norm_num
      omega)
    rw [h1]
    have h2 := hr.error ((z : ℚ) / 1000000)
    have hzq : |(z : ℚ)| < 2 ^ 52 := by exact_mod_cast hz
    rw [abs_div, abs_of_pos (show (0 : ℚ) < 1000000 by norm_num)] at h2
    generalize rnd ((z : ℚ) / 1000000) = y at *
    have h3 := hn (y * 1000000)
    generalize nearest (y * 1000000) = m at *
    have h4 : |y - (z : ℚ) / 1000000| < 1 / 2 / 1000000 := by
      refine lt_of_le_of_lt h2 ?_
      rw [div_div, div_lt_iff₀ (by norm_num)]
      norm_num at hzq ⊢
      linarith
    rw [abs_lt] at h4
    rw [abs_le] at h3
    have h5 : ((m : ℚ) - z) < 1 := by
      have := h4.2
      have := h3.2
      linarith
    have h6 : (-1 : ℚ) < (m : ℚ) - z := by
      have := h4.1
      have := h3.1
      linarith
    have h7 : m - z < 1 := by exact_mod_cast h5
    have h8 : -1 < m - z := by exact_mod_cast h6
    omega
  have habs : |(ns : ℤ)| < 2 ^ 52 := by
    rw [abs_of_nonneg (by positivity)]; exact_mod_cast h
  constructor
  · simp only [getString, key (ns : ℤ) habs, fixed]
    simp
  · simp only [getString, key (-(ns : ℤ)) (by rw [abs_neg]; exact habs), fixed]
    by_cases h0 : ns = 0
    · subst h0; simp
    · simp [h0, show 0 < ns by omega]

theorem digitChar_digit (n : ℕ) (h : n < 10) : (Nat.digitChar n).isDigit = true := by
  have : ∀ m : Fin 10, (Nat.digitChar m.val).isDigit = true := by decide
  exact this ⟨n, h⟩

theorem lastDigits_spec (k n : ℕ) (h : n < 10 ^ k) :
    (lastDigits k n).length = k ∧ (∀ c ∈ lastDigits k n, c.isDigit = true) ∧ Nat.ofDigitChars 10 (lastDigits k n) 0 = n := by
  induction k generalizing n with
  | zero => simp [lastDigits] at h ⊢; omega
  | succ k ih =>
    obtain ⟨h1, h2, h3⟩ := ih (n / 10) (by rw [Nat.pow_succ] at h; omega)
    refine ⟨by simp [lastDigits, h1], ?_, ?_⟩
    · intro c hc
      rw [lastDigits, List.mem_append, List.mem_singleton] at hc
      rcases hc with hc | rfl
      · exact h2 c hc
      · exact digitChar_digit _ (Nat.mod_lt _ (by norm_num))
    · rw [lastDigits, Nat.ofDigitChars_append, h3,
        Nat.ofDigitChars_cons_digitChar_of_lt_ten (Nat.mod_lt _ (by norm_num)), Nat.ofDigitChars_nil]
      omega

/-- **C111**, text: below 2⁵² nanoseconds (52 days) the text shows the nanoseconds exactly, as milliseconds with six digits
after the point; after a minus sign if the clock went backwards. -/
theorem C111_text_partial (rnd : ℚ → ℚ) (hr : ToDouble rnd) (nearest : ℚ → ℤ) (hn : ∀ x : ℚ, |(nearest x : ℚ) - x| ≤ 1 / 2)
    (ns : ℕ) (h : ns < 2 ^ 52) :
    ∃ whole frac : Str, Nat.ofDigitChars 10 whole 0 = ns / 1000000 ∧ (∀ c ∈ whole ++ frac, c.isDigit = true) ∧
      frac.length = 6 ∧ Nat.ofDigitChars 10 frac 0 = ns % 1000000 ∧
      getString rnd nearest (ns : ℤ) = whole ++ ['.'] ++ frac ++ " ms".toList ∧
      (0 < ns → getString rnd nearest (-(ns : ℤ)) = ['-'] ++ whole ++ ['.'] ++ frac ++ " ms".toList) := by
  obtain ⟨h1, h2⟩ := text_eq rnd hr nearest hn ns h
  obtain ⟨h3, h4, h5⟩ := lastDigits_spec 6 (ns % 1000000) (Nat.mod_lt _ (by norm_num))
  refine ⟨_, _, Nat.ofDigitChars_ten_toDigits, ?_, h3, h5, h1, fun h0 => ?_⟩
  · intro c hc
    rw [List.mem_append] at hc
    rcases hc with hc | hc
    · exact Nat.isDigit_of_mem_toDigits (by norm_num) (by norm_num) hc
    · exact h4 c hc
  · rw [h2, if_neg (by omega)]

/-- Exact arithmetic meets the assumptions. -/
example : ToDouble id := ⟨fun _ _ => rfl, fun x => by simp; positivity⟩

example : fixed 12345678 = "12.345678".toList := by decide +kernel
example : fixed (-42) = "-0.000042".toList := by decide +kernel

end Verif.Bench
