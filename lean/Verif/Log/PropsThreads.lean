import Verif.Log.LemmasThreads
import Verif.Log.Theorems

/-!
# Theorems about the log used by several threads
-/

namespace Verif.Log.Threads

open Verif.Stringify

/-- Threads that log values, titles and line breaks (no manipulators, no `setLogSuppressed`). -/
def Plain : Op → Prop
  | .suppress _ => False
  | .manip _ => False
  | _ => True

/-- **C135**, atomicity: whatever the schedule, when the threads have ended the console, the log and
everything else are as if a single thread had performed their operations one after the other, in an
order that keeps the order of each thread. -/
theorem C135_atomic (con : Con) (lit : List Char) (ops : List (List Op)) (s0 : LogSt)
    (hp : ∀ l ∈ ops, ∀ o ∈ l, Plain o) (sched : List Nat) (s : Sys)
    (hs : runs sched (startLog con lit s0 ops) = some s) (hf : s.finished) :
    ∃ h, Spec.Interleaving ops h ∧ s.sh = exec con lit h s0 := by
  have hok : ∀ l ∈ ops, ∀ o ∈ l,
      Pre (view false) s0.suppressed (fun s => step con lit s o) (progOf con lit o) := by
    intro l hl o ho
    refine pre_progOf false con lit _ o ?_
    have := hp l hl o ho
    cases o <;> simp_all [Plain, Allowed]
  have hv : ∀ s s' : LogSt, view false s = view false s' → s.suppressed = s'.suppressed :=
    fun s s' => view_supp
  obtain ⟨h, rem, hI⟩ := inv_runs hv (inv_start s0 rfl hok) hs
  exact atomic_end hv hI hf

/-- The same at any moment at which no call holds the mutex: the operations performed so far are some
of each thread, from its first one on. -/
theorem C135_atomic_moment (con : Con) (lit : List Char) (ops : List (List Op)) (s0 : LogSt)
    (hp : ∀ l ∈ ops, ∀ o ∈ l, Plain o) (sched : List Nat) (s : Sys)
    (hs : runs sched (startLog con lit s0 ops) = some s) (ho : s.owner = none) :
    ∃ h rest, Spec.Merge ops h rest ∧ s.sh = exec con lit h s0 := by
  have hok : ∀ l ∈ ops, ∀ o ∈ l,
      Pre (view false) s0.suppressed (fun s => step con lit s o) (progOf con lit o) := by
    intro l hl o ho
    refine pre_progOf false con lit _ o ?_
    have := hp l hl o ho
    cases o <;> simp_all [Plain, Allowed]
  have hv : ∀ s s' : LogSt, view false s = view false s' → s.suppressed = s'.suppressed :=
    fun s s' => view_supp
  obtain ⟨h, rem, hI⟩ := inv_runs hv (inv_start s0 rfl hok) hs
  exact atomic_free hv hI ho

/-- Threads that do not call `setLogSuppressed`, but may use manipulators. -/
def NoSuppress : Op → Prop
  | .suppress _ => False
  | _ => True

/-- With manipulators (which do not lock the mutex) the same holds for the log, though not for the
console (`C135_manip_torn`). -/
theorem C135_log_atomic (con : Con) (lit : List Char) (ops : List (List Op)) (s0 : LogSt)
    (hp : ∀ l ∈ ops, ∀ o ∈ l, NoSuppress o) (sched : List Nat) (s : Sys)
    (hs : runs sched (startLog con lit s0 ops) = some s) (hf : s.finished) :
    ∃ h, Spec.Interleaving ops h ∧ s.sh.log = (exec con lit h s0).log ∧
      s.sh.title = (exec con lit h s0).title := by
  have hok : ∀ l ∈ ops, ∀ o ∈ l,
      Pre (view true) s0.suppressed (fun s => step con lit s o) (progOf con lit o) := by
    intro l hl o ho
    refine pre_progOf true con lit _ o ?_
    have := hp l hl o ho
    cases o <;> simp_all [NoSuppress, Allowed]
  have hv : ∀ s s' : LogSt, view true s = view true s' → s.suppressed = s'.suppressed :=
    fun s s' => view_supp
  obtain ⟨h, rem, hI⟩ := inv_runs hv (inv_start s0 rfl hok) hs
  obtain ⟨h, hi, e⟩ := atomic_end hv hI hf
  have := (view_iff true _ _).mp e
  exact ⟨h, hi, this.2.2.1, this.2.2.2.1⟩

/-- Something written to the log without a title: a value or a line break. -/
inductive Item where
  | val (v : Val) | newline | manip (t : List Char)

/-- The operation. -/
def Item.op : Item → Op
  | .val v => .val v
  | .newline => .endl
  | .manip t => .manip t

/-- What it adds to the log (`w` encloses the elements of containers, see `Stringify.text`). -/
def Item.text (w null : List Char) : Item → List Char
  | .val v => Stringify.text w null v
  | .newline => ['\n']
  | .manip _ => []

theorem items_log (con : Con) (lit : List Char) (h : List Item) (s : LogSt) (ht : s.title = [])
    (hs : s.suppressed = false) :
    (exec con lit (h.map Item.op) s).log =
      s.log ++ (h.map (Item.text (resetText con) lit)).flatten := by
  induction h generalizing s with
  | nil => simp [exec]
  | cons x xs ih =>
    show (exec con lit (xs.map Item.op) (step con lit s x.op)).log = _
    cases x with
    | val v =>
      have hi := putVal_idle con lit v s hs
      have hl : (putVal con lit v s).log = s.log ++ Stringify.text (resetText con) lit v := by
        rw [putVal, if_neg (by simp [hs]), putTitle_nil con s ht]
        exact emits_stringify con lit v _
      show (exec con lit (xs.map Item.op) (putVal con lit v s)).log = _
      rw [ih _ hi.1 hi.2, hl]
      simp [Item.text]
    | newline =>
      show (exec con lit (xs.map Item.op) (endl s)).log = _
      rw [ih (endl s) ht hs]
      simp [Item.text, endl]
    | manip t =>
      show (exec con lit (xs.map Item.op) (putManip t s)).log = _
      rw [ih (putManip t s) ht hs]
      simp [Item.text, putManip]

theorem merge_map {α β : Type} (f : α → β) {ls : List (List β)} {h : List β} {rest : List (List β)}
    (hm : Spec.Merge ls h rest) : ∀ {ls' : List (List α)}, ls = ls'.map (List.map f) →
      ∃ h' rest', h = h'.map f ∧ rest = rest'.map (List.map f) ∧ Spec.Merge ls' h' rest' := by
  induction hm with
  | nil ls => rintro ls' rfl; exact ⟨[], ls', rfl, rfl, .nil _⟩
  | @cons ls h rest i x xs hx _ ih =>
    rintro ls' rfl
    rw [List.getElem?_map, Option.map_eq_some_iff] at hx
    obtain ⟨l, hl, he⟩ := hx
    cases l with
    | nil => cases he
    | cons y ys =>
      simp only [List.map_cons, List.cons.injEq] at he
      obtain ⟨rfl, rfl⟩ := he
      obtain ⟨h', rest', rfl, rfl, hm'⟩ := ih (ls' := ls'.set i ys) (by rw [List.map_set])
      exact ⟨y :: h', rest', rfl, rfl, .cons i y ys hl hm'⟩

/-- **C135**, the text: threads that log values and line breaks (and manipulators) without titles.
When they have ended, the log consists of whole texts of the values, those of each thread in the
order of the thread: no value is torn, lost or doubled. -/
theorem C135_text (con : Con) (lit : List Char) (items : List (List Item)) (s0 : LogSt)
    (ht : s0.title = []) (h0 : s0.suppressed = false) (sched : List Nat) (s : Sys)
    (hs : runs sched (startLog con lit s0 (items.map (List.map Item.op))) = some s)
    (hf : s.finished) :
    ∃ h, Spec.Interleaving items h ∧
      s.sh.log = s0.log ++ (h.map (Item.text (resetText con) lit)).flatten := by
  obtain ⟨h, ⟨rest, hm, hr⟩, hl, _⟩ := C135_log_atomic con lit _ s0 (by
    intro l hl o ho
    obtain ⟨l', _, rfl⟩ := List.mem_map.mp hl
    obtain ⟨x, _, rfl⟩ := List.mem_map.mp ho
    cases x <;> trivial) sched s hs hf
  obtain ⟨h', rest', rfl, rfl, hm'⟩ := merge_map Item.op hm rfl
  refine ⟨h', ⟨rest', hm', fun l hl => ?_⟩, by rw [hl, items_log con lit h' s0 ht h0]⟩
  have := hr (l.map Item.op) (List.mem_map.mpr ⟨l, hl, rfl⟩)
  simpa using this

/-- **C135**, no deadlock: whatever the threads do with the log (all operations, manipulators and
`setLogSuppressed` included), as long as they have not all ended some thread can take a step. -/
theorem C135_no_deadlock (con : Con) (lit : List Char) (ops : List (List Op)) (s0 : LogSt)
    (sched : List Nat) (s : Sys) (hs : runs sched (startLog con lit s0 ops) = some s)
    (hf : ¬ s.finished) : ∃ i s', stepThread i s = some s' := by
  refine orderly_progress (orderly_runs (orderly_start s0 _ ?_) hs) hf
  intro l hl p hp
  obtain ⟨l', _, rfl⟩ := List.mem_map.mp hl
  obtain ⟨o, _, rfl⟩ := List.mem_map.mp hp
  exact disc_progOf false con lit o

/-- ... and no schedule goes on for ever: so every way of running the threads ends. -/
theorem C135_ends (con : Con) (lit : List Char) (ops : List (List Op)) (s0 : LogSt)
    (f : Nat → Sys) (_ : f 0 = startLog con lit s0 ops) :
    ¬ ∀ n, ∃ i, stepThread i (f n) = some (f (n + 1)) := by
  intro h
  have key : ∀ l, Acc SmallerL l → ∀ n, (f n).ths ≠ l := by
    intro l hl
    induction hl with
    | intro l _ ih =>
      intro n hn
      obtain ⟨i, hi⟩ := h n
      exact ih _ (hn ▸ step_smaller hi) (n + 1) rfl
  exact key _ (acc_list _) 0 rfl

/-- **C135**, the other way round: every interleaving of the operations happens under some schedule,
so nothing more can be promised about the order. -/
theorem C135_every_order (con : Con) (lit : List Char) (ops : List (List Op)) (s0 : LogSt)
    (h : List Op) (hi : Spec.Interleaving ops h) :
    ∃ sched s, runs sched (startLog con lit s0 ops) = some s ∧ s.finished ∧
      s.sh = exec con lit h s0 := by
  obtain ⟨rest, hm, hr⟩ := hi
  obtain ⟨is, his⟩ := runs_merge (con := con) (lit := lit) hm s0
  refine ⟨is, _, his, ?_, rfl⟩
  intro t ht
  simp only [startLog, start, List.mem_map] at ht
  obtain ⟨_, ⟨l, hl, rfl⟩, rfl⟩ := ht
  rw [hr l hl]
  exact ⟨rfl, rfl⟩

/-- A piece of text, as a value. -/
def str (c : Char) : Val := .leaf .other [c]

/-- The statements `lo("A") << '1';` and `lo("B") << '2';` of two threads. -/
def twoTitles : List (List Op) :=
  [[.title (.leaf .other ['A']), .val (str '1')], [.title (.leaf .other ['B']), .val (str '2')]]

/-- The full property about titles — a title is printed before the value it was given for — is
false: there is a schedule after which the log is `[B]` and `12`, the title `A` being lost and the
value `1` being logged under the title `B` of the other thread. -/
theorem C135_title_stolen :
    ∃ sched s, runs sched (startLog .null [] LogSt.init twoTitles) = some s ∧ s.finished ∧
      s.sh.log = Spec.column ['B'] ++ ['1', '2'] := by
  have hi : Spec.Interleaving twoTitles [.title (.leaf .other ['A']), .title (.leaf .other ['B']),
      .val (str '1'), .val (str '2')] :=
    ⟨[[], []], .cons 0 _ _ rfl (.cons 1 _ _ rfl (.cons 0 _ _ rfl (.cons 1 _ _ rfl (.nil _)))),
      by simp⟩
  obtain ⟨sched, s, h1, h2, h3⟩ := C135_every_order .null [] twoTitles LogSt.init _ hi
  exact ⟨sched, s, h1, h2, by rw [h3]; decide⟩

/-- The thread has ended. -/
def Thread.ended : Thread → Bool
  | ⟨.done, []⟩ => true
  | _ => false

theorem finished_of {s : Sys} (h : s.ths.all (fun t => t.ended) = true) : s.finished := by
  intro t ht
  have := List.all_eq_true.mp h t ht
  obtain ⟨cur, todo⟩ := t
  cases cur <;> cases todo <;> first | exact ⟨rfl, rfl⟩ | cases this

/-- Manipulators do not lock the mutex: the console can show one in the middle of the text of another
thread's value, which no order of the operations can explain. -/
theorem C135_manip_torn :
    ∃ sched s, runs sched (startLog .null [] LogSt.init
        [[.val (.leaf .other ['a', 'b'])], [.manip ['X']]]) = some s ∧ s.finished ∧
      s.sh.cout.out = ['a', 'X', 'b'] ∧
      ∀ h, Spec.Interleaving [[Op.val (.leaf .other ['a', 'b'])], [.manip ['X']]] h →
        (exec .null [] h LogSt.init).cout.out ≠ ['a', 'X', 'b'] := by
  have hrun : (runs [0, 0, 0, 0, 0, 0, 0, 0, 1, 1, 0, 0, 0, 0, 0, 0, 0, 0, 0]
      (startLog .null [] LogSt.init [[.val (.leaf .other ['a', 'b'])], [.manip ['X']]])).map
      (fun s => (s.sh.cout.out, s.ths.all (fun t => t.ended))) = some (['a', 'X', 'b'], true) := by
    decide +kernel
  rw [Option.map_eq_some_iff] at hrun
  obtain ⟨s, hs, he⟩ := hrun
  simp only [Prod.mk.injEq] at he
  refine ⟨_, s, hs, finished_of he.2, he.1, ?_⟩
  · rintro h ⟨rest, hm, hr⟩
    cases hm with
    | nil => simp at hr
    | cons i x xs hx hm =>
      match i, hx with
      | 0, hx =>
        cases hx
        cases hm with
        | nil => simp at hr
        | cons i x xs hx hm =>
          match i, hx with
          | 0, hx => cases hx
          | 1, hx =>
            cases hx
            cases hm with
            | nil => decide
            | cons i x xs hx hm =>
              match i, hx with
              | 0, hx => cases hx
              | 1, hx => cases hx
              | n + 2, hx => cases hx
          | n + 2, hx => cases hx
      | 1, hx =>
        cases hx
        cases hm with
        | nil => simp at hr
        | cons i x xs hx hm =>
          match i, hx with
          | 0, hx =>
            cases hx
            cases hm with
            | nil => decide
            | cons i x xs hx hm =>
              match i, hx with
              | 0, hx => cases hx
              | 1, hx => cases hx
              | n + 2, hx => cases hx
          | 1, hx => cases hx
          | n + 2, hx => cases hx
      | n + 2, hx => cases hx

/-- **C135**, a value whose stringifier logs: once a thread logs such a value, the program never
ends, whatever the other threads log and whatever the schedule. -/
theorem C135_nested_never_ends (con : Con) (lit : List Char) (before after : List (List Op))
    (first : List Op) (last : List Prog) (v w : Val) (s0 : LogSt) (sched : List Nat) (s : Sys)
    (hlast : ∀ p ∈ last, ∃ o, p = progOf con lit o)
    (hs : runs sched (start s0 (before.map (List.map (progOf con lit)) ++
      [first.map (progOf con lit) ++ loggingVal con lit v w :: last] ++
      after.map (List.map (progOf con lit)))) = some s) : ¬ s.finished := by
  have hd : ∀ p, (∃ o, p = progOf con lit o) → Disc true false p := by
    rintro p ⟨o, rfl⟩; exact disc_progOf true con lit o
  have hm : ∀ (ops : List Op) (p : Prog), p ∈ ops.map (progOf con lit) →
      ∃ o, p = progOf con lit o := by
    intro ops p hp
    obtain ⟨o, _, rfl⟩ := List.mem_map.mp hp
    exact ⟨o, rfl⟩
  refine hopeless_unfinished (hopeless_runs (i := before.length) (orderly_start s0 _ ?_) ?_ hs)
  · intro l hl p hp
    simp only [List.mem_append, List.mem_singleton] at hl
    rcases hl with (hl | rfl) | hl
    · obtain ⟨l', _, rfl⟩ := List.mem_map.mp hl
      exact hd p (hm _ p hp)
    · rcases List.mem_append.mp hp with hp | hp
      · exact hd p (hm _ p hp)
      · rcases List.mem_cons.mp hp with rfl | hp
        · exact disc_of_twice (loggingVal_twice con lit v w)
        · exact hd p (hlast p hp)
    · obtain ⟨l', _, rfl⟩ := List.mem_map.mp hl
      exact hd p (hm _ p hp)
  · refine ⟨⟨.done, first.map (progOf con lit) ++ loggingVal con lit v w :: last⟩, ?_,
      .inl ⟨_, by simp, loggingVal_twice con lit v w⟩⟩
    simp [start]

end Verif.Log.Threads
