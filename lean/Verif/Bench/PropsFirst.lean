import Verif.Bench.Theorems

/-! # Groups that are used for the first time (C110) -/

namespace Verif.Bench

open Verif

/-- **C110 (violated).** Whatever was benchmarked since the start of the program: if a group is paused that has never been mentioned, its
time is counted from the epoch of the clock. -/
theorem C110_first_pause (dbg : Bool) (g : Str) (cs : List (Int × Call)) (t : Int) (st' : St)
    (hcs : ∀ c ∈ cs, c.2 ≠ .groupReset g ∧ c.2 ≠ .groupResume g ∧ c.2 ≠ .groupPause g ∧ c.2 ≠ .groupEndLo g)
    (h : run dbg (cs ++ [(t, .groupPause g)]) St.init = .ok st') : (st'.groups g).duration = t := by
  obtain ⟨st'', h1, h2⟩ := C110_independent dbg g _ _ _ h
  have hf : cs.filter (fun c => c.2.on g) = [] := by
    rw [List.filter_eq_nil_iff]
    rintro ⟨t', c⟩ hc
    have := hcs _ hc
    cases c <;> simp_all [Call.on]
  have hp : (Call.groupPause g).on g = true := by simp [Call.on]
  rw [List.filter_append, hf, List.nil_append, List.filter_cons_of_pos (by exact hp), List.filter_nil] at h1
  rw [← h2]
  simp only [run, step, Outcome.bind_ok, Outcome.ok.injEq] at h1
  rw [← h1]
  simp [St.onGroup, Grp.pause, St.init]

/-- **C110.** From the start of the program the first intervals of a group need no reset: the time logged is their sum. -/
theorem C110_first_total (dbg : Bool) (g : Str) (cs : List (Int × Call)) (l : List (Int × Int)) (t1 : Int) (st' : St)
    (hcs : cs.filter (fun c => c.2.on g) = intervals g l)
    (h : run dbg (cs ++ [(t1, .groupEndLo g)]) St.init = .ok st') :
    st'.log.getLast? = some (.group ("BenchmarkGroup #".toList ++ g) (lengths l)) := by
  rw [run_append] at h
  obtain ⟨st1, h1, h2⟩ := Outcome.bind_eq_ok.mp h
  obtain ⟨st2, h3, h4⟩ := C110_independent dbg g cs _ st1 h1
  rw [hcs] at h3
  obtain ⟨st3, h5, h6⟩ := run_intervals dbg g l St.init
  rw [h3] at h5
  cases h5
  have hd : (st1.groups g).duration = lengths l := by rw [← h4, h6]; simp [St.init]
  simp only [run, step, Outcome.bind_ok, Outcome.ok.injEq] at h2
  subst h2
  simp only [groupEndLo, St.onGroup, List.getLast?_append, List.getLast?_singleton, hd]
  rfl

/-- A benchmark, another group, then a group that was never mentioned is paused at time 50. -/
example : ∃ st', run true ([(1, .start ['b']), (2, .groupResume ['h']), (5, .endLo)] ++ [(50, .groupPause ['g'])]) St.init = .ok st' ∧
    (st'.groups ['g']).duration = 50 := ⟨_, rfl, rfl⟩
example : [(1, Call.start ['b']), (2, .groupResume ['g']), (5, .groupPause ['g'])].filter (fun c => c.2.on ['g']) = intervals ['g'] [(2, 5)] := rfl

end Verif.Bench
