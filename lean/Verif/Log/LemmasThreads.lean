import Verif.Log.Threads
import Verif.Log.SpecThreads
import Verif.Stringify.Theorems
import Mathlib.Order.GameAdd

/-!
# Lemmas about the log used by several threads
-/

namespace Verif.Log.Threads

open Verif.Stringify

/-! ### Stringifiers only append -/

/-- What a printer streams depends on the cache only, not on what is in the stream already. -/
def Frame (p : St → St) : Prop :=
  ∀ s, p s = ⟨s.out ++ (p ⟨[], s.cache⟩).out, (p ⟨[], s.cache⟩).cache⟩

/-- `Frame` as a relation of the kind that the lemmas on loops want. -/
def FrameR (p : St → St) (_ : List Unit) : Prop := Frame p

theorem Frame.comp {p q : St → St} (hp : Frame p) (hq : Frame q) : Frame (fun s => q (p s)) := by
  intro s
  show q (p s) = _
  rw [hq (p s), hp s]
  show _ = (⟨s.out ++ (q (p ⟨[], s.cache⟩)).out, (q (p ⟨[], s.cache⟩)).cache⟩ : St)
  rw [hq (p ⟨[], s.cache⟩)]
  simp only [List.append_assoc]

theorem frame_closed : Closed FrameR := fun _ _ _ _ hp hq => Frame.comp hp hq

theorem frame_put (t : List Char) : Frame (put t) := by
  intro s; simp [put]

theorem frame_reset (con : Con) : Frame (resetFmt con) := by
  intro s; cases con <;> simp [resetFmt]

theorem frame_style (con : Con) (y : Style) : Frame (setStyle con y) := by
  intro s; cases con <;> simp [setStyle]

theorem frame_color (con : Con) (k : Color) : Frame (setColorFG con k) := by
  intro s; cases con <;> simp [setColorFG]

theorem frame_printFmt (con : Con) (fmt : Bool) (t : List Char) (k : Color) (y : Style) :
    Frame (printFmt con fmt t k y) := by
  cases fmt with
  | false => exact frame_put t
  | true =>
    exact (((frame_reset con).comp (frame_color con k)).comp (frame_style con y)).comp (frame_put t)

theorem frame_bold (con : Con) (fmt : Bool) (t : List Char) (_ : '\x1b' ∉ t) :
    FrameR (printBold con fmt t .default) ((fun _ => []) t) := frame_printFmt con fmt t _ _

theorem frame_call {con : Con} {p : St → St} (h : Frame p) :
    Frame (callStringifyImpl con true p) := ((frame_reset con).comp h).comp (frame_reset con)

theorem frame_leaf (con : Con) (fmt : Bool) (l : Leaf) (t : List Char) :
    Frame (strLeaf con fmt l t) := by
  cases h : baseOf l with
  | none =>
    have : strLeaf con fmt l t = put t := by funext s; simp [strLeaf, h]
    rw [this]; exact frame_put t
  | some a =>
    rcases a with ⟨k, y, post⟩
    cases fmt with
    | false =>
      have : strLeaf con false l t = put t := by funext s; simp [strLeaf, h]
      rw [this]; exact frame_put t
    | true =>
      have : strLeaf con true l t =
          fun s => put post (put t (setColorFG con k (setStyle con y s))) := by
        funext s; simp [strLeaf, h]
      rw [this]
      exact (((frame_style con y).comp (frame_color con k)).comp (frame_put t)).comp
        (frame_put post)

theorem frame_ptr (con : Con) (fmt : Bool) (lit : List Char) (a : Option (List Char)) :
    Frame (strPtr con fmt lit a) :=
  ((frame_printFmt con fmt ['['] .blue .bold).comp
    (frame_printFmt con fmt (match a with | some t => t | none => lit) .cyan .underline)).comp
    (frame_printFmt con fmt [']'] .blue .bold)

mutual
theorem frame_stringify (con : Con) (fmt : Bool) (lit : List Char) : ∀ v : Val,
    Frame (stringify con fmt lit v)
  | .leaf l t => by rw [stringify]; exact frame_leaf con fmt l t
  | .ptr a => by rw [stringify]; exact frame_ptr con fmt lit a
  | .seq b vs => by
    rw [stringify]
    obtain ⟨ts, h⟩ := frame_callAll con fmt lit vs
    revert h
    generalize callAll con fmt lit vs = ps
    intro h
    cases h with
    | nil => exact rep_seq_nil frame_closed (frame_bold con fmt) b
    | cons h h' => exact rep_seq frame_closed (frame_bold con fmt) b h h'
  | .tuple v vs => by
    rw [stringify]
    obtain ⟨ts, h⟩ := frame_callAll con fmt lit vs
    exact rep_tuple (t := []) frame_closed (frame_bold con fmt)
      (frame_call (frame_stringify con fmt lit v)) h
  | .map b es => by
    rw [stringify]
    obtain ⟨ts, h⟩ := frame_callEntries con fmt lit [' ', '-', '>', ' '] es
    revert h
    generalize callEntries con fmt lit es = ps
    intro h
    cases h with
    | nil => exact frame_printFmt con fmt _ _ _
    | cons h h' => exact rep_map frame_closed (frame_bold con fmt) b _ _ (by decide) (by decide) h h'
  | .bimap es => by
    rw [stringify]
    obtain ⟨ts, h⟩ := frame_callEntries con fmt lit [' ', '<', '-', '>', ' '] es
    revert h
    generalize callEntries con fmt lit es = ps
    intro h
    cases h with
    | nil => exact frame_printFmt con fmt _ _ _
    | cons h h' =>
      exact rep_map frame_closed (frame_bold con fmt) true _ _ (by decide) (by decide) h h'
theorem frame_callAll (con : Con) (fmt : Bool) (lit : List Char) : ∀ vs : List Val,
    ∃ ts, List.Forall₂ FrameR (callAll con fmt lit vs) ts
  | [] => by rw [callAll]; exact ⟨[], .nil⟩
  | v :: vs => by
    rw [callAll]
    obtain ⟨ts, h⟩ := frame_callAll con fmt lit vs
    exact ⟨[] :: ts, .cons (frame_call (frame_stringify con fmt lit v)) h⟩
theorem frame_callEntries (con : Con) (fmt : Bool) (lit sep : List Char) :
    ∀ es : List (Val × Val),
      ∃ ts, List.Forall₂ (EntryR FrameR (fun _ => []) sep) (callEntries con fmt lit es) ts
  | [] => by rw [callEntries]; exact ⟨[], .nil⟩
  | (k, v) :: es => by
    rw [callEntries]
    obtain ⟨ts, h⟩ := frame_callEntries con fmt lit sep es
    exact ⟨_ :: ts, .cons ⟨[], [], frame_call (frame_stringify con fmt lit k),
      frame_call (frame_stringify con fmt lit v), rfl⟩ h⟩
end

/-! ### Running a call without interruption -/

/-- All the steps of a call, one after the other. -/
def run : Prog → LogSt → LogSt
  | .done, s => s
  | .act u k, s => run (k s) (u s)
  | .acquire k, s => run k s
  | .release k, s => run k s

theorem run_coutPut (t : List Char) (k : Prog) (s : LogSt) :
    run (coutPut t k) s = run k { s with cout := put t s.cout } := by
  induction t generalizing s with
  | nil => simp [coutPut, put]
  | cons c cs ih => rw [coutPut, run, ih]; simp [put]

theorem run_logPut (t : List Char) (k : Prog) (s : LogSt) :
    run (logPut t k) s = run k { s with log := s.log ++ t } := by
  induction t generalizing s with
  | nil => simp [logPut]
  | cons c cs ih => rw [logPut, run, ih]; simp

theorem run_coutDo {p : St → St} (hp : Frame p) (k : Prog) (s : LogSt) :
    run (coutDo p k) s = run k { s with cout := p s.cout } := by
  rw [coutDo, run, id, run_coutPut, setCache, run, hp s.cout]
  rfl

theorem run_logDo {p : St → St} (hp : Frame p) (k : Prog) (s : LogSt) :
    run (logDo p k) s = run k { s with
      cout := ⟨s.cout.out, (p ⟨s.log, s.cout.cache⟩).cache⟩, log := (p ⟨s.log, s.cout.cache⟩).out } := by
  rw [logDo, run, id, run_logPut, setCache, run, hp ⟨s.log, s.cout.cache⟩]

theorem run_uniqueColor (con : Con) (t : List Char) (k : Prog) (s : LogSt) :
    run (uniqueColorSteps con t k) s = run k (getUniqueColor con t s) := by
  rw [uniqueColorSteps, run, getUniqueColor, id]
  cases findColor t s.colors with
  | some c => exact run_coutDo (frame_color con c) k s
  | none =>
    show run (coutDo _ k) _ = _
    rw [run_coutDo (frame_color con _)]

theorem run_titleSteps (con : Con) (k : Prog) (s : LogSt) :
    run (titleSteps con k) s = run k (putTitle con s) := by
  rw [titleSteps, run, putTitle, id]
  cases h : s.title with
  | nil => rfl
  | cons c cs =>
    show run (uniqueColorSteps con _ _) s = _
    rw [run_uniqueColor, run_coutDo (frame_style con .bold), run_coutPut, run_logPut, run]

theorem run_valSteps (con : Con) (lit : List Char) (v : Val) (k : Prog) (s : LogSt) :
    run (valSteps con lit v k) s = run k (putVal con lit v s) := by
  rw [valSteps, run, putVal, id]
  by_cases h : s.suppressed = true
  · rw [if_pos h, if_pos h]
  · rw [if_neg h, if_neg h, run_titleSteps, run_coutDo (frame_reset con),
      run_coutDo (frame_stringify con true lit v), run_coutDo (frame_reset con),
      run_logDo (frame_stringify con false lit v)]

theorem run_setTitleSteps (con : Con) (lit : List Char) (v : Val) (k : Prog) (s : LogSt)
    (h : s.suppressed = false) :
    run (setTitleSteps con lit v k) s = run k (setTitle con lit v s) := by
  rw [setTitleSteps, run, setTitle, if_neg (by simp [h]), id, setCache, run, run]

theorem run_progOf (con : Con) (lit : List Char) (o : Op) (s : LogSt) :
    run (progOf con lit o) s = step con lit s o := by
  cases o with
  | title v =>
    rw [progOf, run, step, id]
    by_cases h : s.suppressed = true
    · rw [if_pos h, run, setTitle, if_pos h]
    · rw [if_neg h, lockGuard, run, run_setTitleSteps _ _ _ _ _ (by simpa using h), run, run]
  | val v => rw [progOf, lockGuard, run, run_valSteps, run, run, step]
  | endl => rw [progOf, lockGuard, run, run_coutPut, run_logPut, run, run, step, endl]
  | manip t => rw [progOf, run_coutPut, run, step, putManip]
  | suppress b => rw [progOf, run, run, step, setSuppressed]

/-! ### Locking discipline -/

/-- The call locks the mutex only when it does not hold it (or, if `n`, tries to lock it again),
unlocks it only when it holds it, and does not hold it at the end; `b` says whether it holds it
now. -/
inductive Disc (n : Bool) : Bool → Prog → Prop
  | done : Disc n false .done
  | act {b u k} : (∀ s, Disc n b (k s)) → Disc n b (.act u k)
  | acquire {k} : Disc n true k → Disc n false (.acquire k)
  | release {k} : Disc n false k → Disc n true (.release k)
  | again {k} : n = true → Disc n true (.acquire k)

theorem disc_coutPut {n b : Bool} {k : Prog} (h : Disc n b k) (t : List Char) : Disc n b (coutPut t k) := by
  induction t with
  | nil => exact h
  | cons c cs ih => exact .act fun _ => ih

theorem disc_logPut {n b : Bool} {k : Prog} (h : Disc n b k) (t : List Char) : Disc n b (logPut t k) := by
  induction t with
  | nil => exact h
  | cons c cs ih => exact .act fun _ => ih

theorem disc_setCache {n b : Bool} {k : Prog} (h : Disc n b k) (c : Cache) : Disc n b (setCache c k) :=
  .act fun _ => h

theorem disc_coutDo {n b : Bool} {k : Prog} (h : Disc n b k) (p : St → St) : Disc n b (coutDo p k) :=
  .act fun _ => disc_coutPut (disc_setCache h _) _

theorem disc_logDo {n b : Bool} {k : Prog} (h : Disc n b k) (p : St → St) : Disc n b (logDo p k) :=
  .act fun _ => disc_logPut (disc_setCache h _) _

theorem disc_uniqueColor {n b : Bool} {k : Prog} (h : Disc n b k) (con : Con) (t : List Char) :
    Disc n b (uniqueColorSteps con t k) := by
  refine .act fun s => ?_
  cases findColor t s.colors with
  | some c => exact disc_coutDo h _
  | none => exact .act fun _ => .act fun _ => disc_coutDo h _

theorem disc_titleSteps {n b : Bool} {k : Prog} (h : Disc n b k) (con : Con) :
    Disc n b (titleSteps con k) := by
  refine .act fun s => ?_
  cases s.title with
  | nil => exact h
  | cons c cs =>
    exact disc_uniqueColor (disc_coutDo (disc_coutPut (disc_logPut (.act fun _ => h) _) _) _) _ _

theorem disc_valSteps {n b : Bool} {k : Prog} (h : Disc n b k) (con : Con) (lit : List Char) (v : Val) :
    Disc n b (valSteps con lit v k) := by
  refine .act fun s => ?_
  by_cases hs : s.suppressed = true
  · simp only [if_pos hs]; exact h
  · simp only [if_neg hs]
    exact disc_titleSteps (disc_coutDo (disc_coutDo (disc_coutDo (disc_logDo h _) _) _) _) _

theorem disc_setTitleSteps {n b : Bool} {k : Prog} (h : Disc n b k) (con : Con) (lit : List Char)
    (v : Val) : Disc n b (setTitleSteps con lit v k) :=
  .act fun _ => disc_setCache (.act fun _ => h) _

theorem disc_progOf (n : Bool) (con : Con) (lit : List Char) (o : Op) : Disc n false (progOf con lit o) := by
  cases o with
  | title v =>
    refine .act fun s => ?_
    by_cases hs : s.suppressed = true
    · simp only [if_pos hs]; exact .done
    · simp only [if_neg hs]; exact .acquire (disc_setTitleSteps (.release .done) con lit v)
  | val v => exact .acquire (disc_valSteps (.release .done) con lit v)
  | endl => exact .acquire (disc_coutPut (disc_logPut (.release .done) _) _)
  | manip t => exact disc_coutPut .done t
  | suppress b => exact .act fun _ => .done

/-- The threads keep to the discipline, and the owner of the mutex is one of them. -/
def Orderly (n : Bool) (s : Sys) : Prop :=
  (∀ i, s.owner = some i → i < s.ths.length) ∧
  ∀ i t, s.ths[i]? = some t → Disc n (decide (s.owner = some i)) t.cur ∧ ∀ p ∈ t.todo, Disc n false p

theorem get_set {α : Type} {l : List α} {i j : Nat} {x y : α} (h : (l.set i x)[j]? = some y) :
    (i = j ∧ x = y ∧ i < l.length) ∨ (i ≠ j ∧ l[j]? = some y) := by
  rw [List.getElem?_set] at h
  by_cases hij : i = j
  · subst hij
    by_cases hl : i < l.length
    · simp [hl] at h; exact .inl ⟨rfl, h, hl⟩
    · simp [hl] at h
  · rw [if_neg hij] at h; exact .inr ⟨hij, h⟩

theorem orderly_step {n : Bool} {i : Nat} {s s' : Sys} (h : Orderly n s) (hs : stepThread i s = some s') :
    Orderly n s' := by
  obtain ⟨h1, h2⟩ := h
  unfold stepThread at hs
  split at hs
  · cases hs
  · cases hs
  · rename_i p ps ht
    cases hs
    refine ⟨fun j hj => by simpa using h1 j hj, fun j t hj => ?_⟩
    rcases get_set hj with ⟨rfl, rfl, hl⟩ | ⟨_, hj⟩
    · have := h2 i _ ht
      refine ⟨?_, fun q hq => this.2 q (by simp [hq])⟩
      have hd := this.1
      cases ho : decide (s.owner = some i) with
      | false => exact this.2 p (by simp)
      | true => rw [ho] at hd; cases hd
    · exact h2 j t hj
  · rename_i u k ps ht
    cases hs
    refine ⟨fun j hj => by simpa using h1 j hj, fun j t hj => ?_⟩
    rcases get_set hj with ⟨rfl, rfl, hl⟩ | ⟨_, hj⟩
    · have := h2 i _ ht
      refine ⟨?_, this.2⟩
      have hd := this.1
      revert hd
      show Disc n (decide (s.owner = some i)) _ → Disc n (decide (s.owner = some i)) _
      generalize decide (s.owner = some i) = b
      intro hd
      cases hd with
      | act hd => exact hd _
    · exact h2 j t hj
  · rename_i k ps ht
    split at hs
    · rename_i ho
      cases hs
      have hl : i < s.ths.length := (List.getElem?_eq_some_iff.mp ht).1
      refine ⟨fun j hj => by cases hj; simpa using hl, fun j t hj => ?_⟩
      have := h2 i _ ht
      rcases get_set hj with ⟨rfl, rfl, hl⟩ | ⟨hij, hj⟩
      · refine ⟨?_, this.2⟩
        have hd := this.1
        rw [ho] at hd
        have : decide ((some i : Option Nat) = some i) = true := by simp
        rw [this]
        cases hd with
        | acquire hd => exact hd
      · have := h2 j t hj
        rw [ho] at this
        have e : decide ((some i : Option Nat) = some j) = false := by simp [hij]
        rw [e]
        simpa using this
    · cases hs
  · rename_i k ps ht
    cases hs
    refine ⟨fun j hj => (nomatch hj), fun j t hj => ?_⟩
    have hi := h2 i _ ht
    have ho : s.owner = some i := by
      have hd := hi.1
      cases e : decide (s.owner = some i) with
      | false => rw [e] at hd; cases hd
      | true => simpa using e
    rcases get_set hj with ⟨rfl, rfl, hl⟩ | ⟨hij, hj⟩
    · refine ⟨?_, hi.2⟩
      have hd := hi.1
      have : decide ((none : Option Nat) = some i) = false := by simp
      rw [this]
      generalize decide (s.owner = some i) = b at hd
      cases hd with
      | release hd => exact hd
    · have := h2 j t hj
      rw [ho] at this
      have e : decide ((some i : Option Nat) = some j) = false := by simp [hij]
      rw [e] at this
      simpa using this

theorem orderly_runs {n : Bool} {is : List Nat} {s s' : Sys} (h : Orderly n s) (hs : runs is s = some s') :
    Orderly n s' := by
  induction is generalizing s with
  | nil => cases hs; exact h
  | cons i is ih =>
    rw [runs] at hs
    split at hs
    · cases hs
    · rename_i s1 h1; exact ih (orderly_step h h1) hs

theorem orderly_start {n : Bool} (s : LogSt) (ps : List (List Prog)) (h : ∀ l ∈ ps, ∀ p ∈ l, Disc n false p) :
    Orderly n (start s ps) := by
  refine ⟨fun i hi => (nomatch hi), fun i t ht => ?_⟩
  simp only [start, List.getElem?_map, Option.map_eq_some_iff] at ht
  obtain ⟨l, hl, rfl⟩ := ht
  exact ⟨by simpa [start] using Disc.done, h l (List.mem_of_getElem? hl)⟩

theorem orderly_progress {s : Sys} (h : Orderly false s) (hn : ¬ s.finished) :
    ∃ i s', stepThread i s = some s' := by
  cases ho : s.owner with
  | some i =>
    have hl := h.1 i ho
    have ht : s.ths[i]? = some s.ths[i] := List.getElem?_eq_getElem hl
    have hd := (h.2 i _ ht).1
    rw [ho] at hd
    have e : decide ((some i : Option Nat) = some i) = true := by simp
    rw [e] at hd
    refine ⟨i, ?_⟩
    unfold stepThread
    rw [ht]
    generalize s.ths[i] = t at hd
    obtain ⟨cur, todo⟩ := t
    cases hd with
    | act _ => exact ⟨_, rfl⟩
    | release _ => exact ⟨_, rfl⟩
    | again h => cases h
  | none =>
    simp only [Sys.finished, not_forall] at hn
    obtain ⟨t, hm, hf⟩ := hn
    obtain ⟨i, hl, hi⟩ := List.getElem_of_mem hm
    have ht : s.ths[i]? = some t := by rw [List.getElem?_eq_getElem hl, hi]
    refine ⟨i, ?_⟩
    unfold stepThread
    rw [ht, ho]
    obtain ⟨cur, todo⟩ := t
    cases cur with
    | done =>
      cases todo with
      | nil => exact absurd ⟨rfl, rfl⟩ hf
      | cons p ps => exact ⟨_, rfl⟩
    | act u k => exact ⟨_, rfl⟩
    | acquire k => exact ⟨_, rfl⟩
    | release k => exact ⟨_, rfl⟩

/-! ### Every schedule ends -/

/-- One step of a thread, whatever the shared state. -/
inductive Smaller : Thread → Thread → Prop
  | begin (p ps) : Smaller ⟨p, ps⟩ ⟨.done, p :: ps⟩
  | act (u k s ps) : Smaller ⟨k s, ps⟩ ⟨.act u k, ps⟩
  | acquire (k ps) : Smaller ⟨k, ps⟩ ⟨.acquire k, ps⟩
  | release (k ps) : Smaller ⟨k, ps⟩ ⟨.release k, ps⟩

theorem acc_thread (cur : Prog) (ps : List Prog) : Acc Smaller ⟨cur, ps⟩ := by
  induction ps generalizing cur with
  | nil =>
    induction cur with
    | done => exact ⟨_, fun t h => by cases h⟩
    | act u k ih => exact ⟨_, fun t h => by cases h; exact ih _⟩
    | acquire k ih => exact ⟨_, fun t h => by cases h; exact ih⟩
    | release k ih => exact ⟨_, fun t h => by cases h; exact ih⟩
  | cons p ps ihp =>
    induction cur with
    | done => exact ⟨_, fun t h => by cases h; exact ihp _⟩
    | act u k ih => exact ⟨_, fun t h => by cases h; exact ih _⟩
    | acquire k ih => exact ⟨_, fun t h => by cases h; exact ih⟩
    | release k ih => exact ⟨_, fun t h => by cases h; exact ih⟩

/-- One thread of the list takes a step. -/
inductive SmallerL : List Thread → List Thread → Prop
  | head {t t' : Thread} (l) : Smaller t' t → SmallerL (t' :: l) (t :: l)
  | tail {l l' : List Thread} (t) : SmallerL l' l → SmallerL (t :: l') (t :: l)

theorem acc_list (l : List Thread) : Acc SmallerL l := by
  induction l with
  | nil => exact ⟨_, fun l h => by cases h⟩
  | cons t l ih =>
    have h := Acc.prod_gameAdd (acc_thread t.cur t.todo) ih
    have key : ∀ x : Thread × List Thread, Acc (Prod.GameAdd Smaller SmallerL) x →
        Acc SmallerL (x.1 :: x.2) := by
      intro x hx
      induction hx with
      | intro x _ ih =>
        refine ⟨_, fun l' hl => ?_⟩
        obtain ⟨a, b⟩ := x
        cases hl with
        | head _ h => exact ih (_, b) (Prod.GameAdd.fst h)
        | tail _ h => exact ih (a, _) (Prod.GameAdd.snd h)
    exact key _ h

theorem smallerL_set {l : List Thread} {i : Nat} {t t' : Thread} (h : l[i]? = some t)
    (hs : Smaller t' t) : SmallerL (l.set i t') l := by
  induction l generalizing i with
  | nil => simp at h
  | cons a l ih =>
    cases i with
    | zero => simp at h; subst h; exact .head l hs
    | succ i => exact .tail a (ih (by simpa using h))

theorem step_smaller {i : Nat} {s s' : Sys} (hs : stepThread i s = some s') :
    SmallerL s'.ths s.ths := by
  unfold stepThread at hs
  split at hs
  · cases hs
  · cases hs
  · rename_i p ps ht; cases hs; exact smallerL_set ht (.begin p ps)
  · rename_i u k ps ht; cases hs; exact smallerL_set ht (.act u k s.sh ps)
  · rename_i k ps ht
    split at hs
    · cases hs; exact smallerL_set ht (.acquire k ps)
    · cases hs
  · rename_i k ps ht; cases hs; exact smallerL_set ht (.release k ps)

/-! ### Atomicity -/

section atomic
variable {τ : Type} (π : LogSt → τ)

/-- A call that does nothing any more that can be seen through `π`, and does not lock. -/
inductive Quiet : Prog → Prop
  | done : Quiet .done
  | act {u k} : (∀ s, π (u s) = π s ∧ (u s).suppressed = s.suppressed) → (∀ s, Quiet (k s)) →
      Quiet (.act u k)

/-- A call that holds the mutex; all it does depends only on what can be seen through `π`. -/
inductive CS : Prog → Prop
  | release {k} : Quiet π k → CS (.release k)
  | act {u k} : (∀ s, (u s).suppressed = s.suppressed) →
      (∀ s s', π s = π s' → π (u s) = π (u s') ∧ k s = k s') → (∀ s, CS (k s)) → CS (.act u k)

/-- A call that has done nothing yet: it is going to lock the mutex and then do what `f` says, or
nothing that can be seen. -/
inductive Pre (b : Bool) (f : LogSt → LogSt) : Prog → Prop
  | acquire {k} : CS π k → (∀ s, s.suppressed = b → π (run k s) = π (f s)) → Pre b f (.acquire k)
  | check {k} : (∀ s, s.suppressed = b → Pre b f (k s)) → Pre b f (.act id k)
  | quiet {p} : Quiet π p → (∀ s, s.suppressed = b → π (f s) = π s) → Pre b f p

variable {π}

theorem quiet_run {p : Prog} (h : Quiet π p) (s : LogSt) : π (run p s) = π s := by
  induction h generalizing s with
  | done => rfl
  | act hu _ ih => rw [run, ih, (hu s).1]

theorem cs_run {p : Prog} (h : CS π p) {s s' : LogSt} (e : π s = π s') :
    π (run p s) = π (run p s') := by
  induction h generalizing s s' with
  | release hq => rw [run, run, quiet_run hq, quiet_run hq, e]
  | act _ hu _ ih => rw [run, run, (hu s s' e).2, ih _ (hu s s' e).1]

variable {α : Type} (prog : α → Prog) (sem : LogSt → α → LogSt) (b : Bool)

variable (π) in
/-- A thread that does not hold the mutex; `r` is what it still has to do. -/
def Out (t : Thread) (r : List α) : Prop :=
  (Quiet π t.cur ∧ t.todo = r.map prog) ∨
  ∃ o r', r = o :: r' ∧ Pre π b (fun s => sem s o) t.cur ∧ t.todo = r'.map prog

variable (π) in
/-- After the operations `h`, with `rem` still to be done. -/
structure Inv (orig : List (List α)) (s0 : LogSt) (h : List α) (rem : List (List α)) (s : Sys) :
    Prop where
  merge : ∃ ls : List (List α), ls = orig ∧ Spec.Merge ls h rem
  len : rem.length = s.ths.length
  ok : ∀ l ∈ rem, ∀ o ∈ l, Pre π b (fun s => sem s o) (prog o)
  supp : s.sh.suppressed = b
  out : ∀ i t r, s.ths[i]? = some t → rem[i]? = some r → s.owner ≠ some i →
    Out π prog sem b t r
  free : s.owner = none → π s.sh = π (h.foldl sem s0)
  held : ∀ i, s.owner = some i → ∃ t r, s.ths[i]? = some t ∧ rem[i]? = some r ∧
    CS π t.cur ∧ t.todo = r.map prog ∧ π (run t.cur s.sh) = π (h.foldl sem s0)

theorem merge_snoc {ls : List (List α)} {h : List α} {rem : List (List α)} (hm : Spec.Merge ls h rem)
    {i : Nat} {o : α} {r : List α} (hr : rem[i]? = some (o :: r)) :
    Spec.Merge ls (h ++ [o]) (rem.set i r) := by
  induction hm with
  | nil ls => exact .cons i o r hr (.nil _)
  | cons j x xs hx _ ih => exact .cons j x xs hx (ih hr)

theorem mem_set {rem : List (List α)} {i : Nat} {o : α} {r l : List α}
    (hr : rem[i]? = some (o :: r)) (hl : l ∈ rem.set i r) {x : α} (hx : x ∈ l) :
    ∃ l' ∈ rem, x ∈ l' := by
  rcases List.mem_or_eq_of_mem_set hl with h | h
  · exact ⟨l, h, hx⟩
  · subst h; exact ⟨_, List.mem_of_getElem? hr, by simp [hx]⟩

variable {prog sem b}

theorem set_get {β : Type} {l : List β} {i j : Nat} {x : β} (h : i ≠ j) :
    (l.set i x)[j]? = l[j]? := by simp [List.getElem?_set, h]

theorem set_get_self {β : Type} {l : List β} {i : Nat} {x y : β} (h : l[i]? = some y) :
    (l.set i x)[i]? = some x := by
  have := (List.getElem?_eq_some_iff.mp h).1
  simp [List.getElem?_set, this]

variable (hπ : ∀ s s' : LogSt, π s = π s' → s.suppressed = s'.suppressed)
include hπ

theorem cs_supp {p : Prog} (h : CS π p) (s : LogSt) : (run p s).suppressed = s.suppressed := by
  induction h generalizing s with
  | release hq => rw [run]; exact hπ _ _ (quiet_run hq s)
  | act hu _ _ ih => rw [run, ih, hu]

theorem inv_supp {orig : List (List α)} {s0 : LogSt} {h : List α} {rem : List (List α)} {s : Sys}
    (hI : Inv π prog sem b orig s0 h rem s) : (h.foldl sem s0).suppressed = b := by
  cases ho : s.owner with
  | none => rw [← hπ _ _ (hI.free ho)]; exact hI.supp
  | some i =>
    obtain ⟨t, r, _, _, hc, _, he⟩ := hI.held i ho
    rw [← hπ _ _ he, cs_supp hπ hc]; exact hI.supp

/-- An operation that cannot be seen can be counted as done as soon as it has begun. -/
theorem inv_settle {orig : List (List α)} {s0 : LogSt} {h : List α} {rem : List (List α)} {s : Sys}
    (hI : Inv π prog sem b orig s0 h rem s) {i : Nat} {t : Thread} (ht : s.ths[i]? = some t)
    (hi : s.owner ≠ some i) :
    ∃ h' rem' r, Inv π prog sem b orig s0 h' rem' s ∧ rem'[i]? = some r ∧
      (∀ j, j ≠ i → rem'[j]? = rem[j]?) ∧
      ((Quiet π t.cur ∧ t.todo = r.map prog) ∨
       ∃ o r', r = o :: r' ∧ t.todo = r'.map prog ∧
        ((∃ k, t.cur = .acquire k ∧ CS π k ∧ ∀ s, s.suppressed = b → π (run k s) = π (sem s o)) ∨
         ∃ k, t.cur = .act id k ∧ ∀ s, s.suppressed = b → Pre π b (fun s => sem s o) (k s))) := by
  have hl : i < rem.length := by rw [hI.len]; exact (List.getElem?_eq_some_iff.mp ht).1
  have hr : rem[i]? = some rem[i] := List.getElem?_eq_getElem hl
  rcases hI.out i t _ ht hr hi with hq | ⟨o, r', hor, hp, htodo⟩
  · exact ⟨h, rem, _, hI, hr, fun _ _ => rfl, .inl hq⟩
  · generalize hcur : t.cur = cur at hp
    cases hp with
    | acquire hc hf =>
      exact ⟨h, rem, _, hI, hr, fun _ _ => rfl, .inr ⟨o, r', hor, htodo, .inl ⟨_, hcur ▸ rfl, hc, hf⟩⟩⟩
    | check hk =>
      exact ⟨h, rem, _, hI, hr, fun _ _ => rfl, .inr ⟨o, r', hor, htodo, .inr ⟨_, hcur ▸ rfl, hk⟩⟩⟩
    | quiet hq hf =>
      rw [hor] at hr
      have hs := inv_supp hπ hI
      have hfold : π ((h ++ [o]).foldl sem s0) = π (h.foldl sem s0) := by
        rw [List.foldl_append]; exact hf _ hs
      refine ⟨h ++ [o], rem.set i r', r', ?_, set_get_self hr, fun j hj => set_get (Ne.symm hj),
        .inl ⟨by simpa [hcur] using hq, htodo⟩⟩
      obtain ⟨ls, rfl, hm⟩ := hI.merge
      refine ⟨⟨ls, rfl, merge_snoc hm hr⟩, by simpa using hI.len, ?_, hI.supp, ?_, ?_, ?_⟩
      · intro l hl x hx
        obtain ⟨l', hl', hx'⟩ := mem_set hr hl hx
        exact hI.ok l' hl' x hx'
      · intro j t' r ht' hr' hj
        rcases get_set hr' with ⟨rfl, rfl, _⟩ | ⟨hij, hr'⟩
        · rw [ht] at ht'; cases ht'
          exact .inl ⟨by simpa [hcur] using hq, htodo⟩
        · exact hI.out j t' r ht' hr' hj
      · intro ho; rw [hfold]; exact hI.free ho
      · intro j hj
        obtain ⟨t', r, h1, h2, h3, h4, h5⟩ := hI.held j hj
        have hij : i ≠ j := by rintro rfl; exact hi hj
        exact ⟨t', r, h1, by rw [set_get hij]; exact h2, h3, h4, by rw [hfold]; exact h5⟩

theorem inv_step {orig : List (List α)} {s0 : LogSt} {h : List α} {rem : List (List α)} {s s' : Sys}
    (hI : Inv π prog sem b orig s0 h rem s) {i : Nat} (hs : stepThread i s = some s') :
    ∃ h' rem', Inv π prog sem b orig s0 h' rem' s' := by
  by_cases hi : s.owner = some i
  · -- the owner of the mutex
    obtain ⟨t, r, ht, hr, hc, htodo, he⟩ := hI.held i hi
    unfold stepThread at hs
    rw [ht] at hs
    obtain ⟨cur, todo⟩ := t
    cases hc with
    | @release k hq =>
      cases hs
      refine ⟨h, rem, hI.merge, by simpa using hI.len, hI.ok, hI.supp, ?_, ?_, ?_⟩
      · intro j t' r' ht' hr' _
        rcases get_set ht' with ⟨rfl, rfl, _⟩ | ⟨hij, ht'⟩
        · rw [hr] at hr'; cases hr'
          exact .inl ⟨hq, htodo⟩
        · exact hI.out j t' r' ht' hr' (by rw [hi]; simpa using hij)
      · intro _
        rw [← he]
        show π s.sh = π (run (.release k) s.sh)
        rw [run, quiet_run hq]
      · intro j hj; cases hj
    | @act u k hsu hu hk =>
      cases hs
      refine ⟨h, rem, hI.merge, by simpa using hI.len, hI.ok, (hsu _).trans hI.supp, ?_, ?_, ?_⟩
      · intro j t' r' ht' hr' hj
        rcases get_set ht' with ⟨rfl, rfl, _⟩ | ⟨hij, ht'⟩
        · exact absurd hi hj
        · exact hI.out j t' r' ht' hr' hj
      · intro ho
        have ho : s.owner = none := ho
        rw [hi] at ho; cases ho
      · intro j hj
        have hj : s.owner = some j := hj
        rw [hi] at hj; cases hj
        exact ⟨_, r, set_get_self ht, hr, hk _, htodo, he⟩
  · -- another thread
    cases ht : s.ths[i]? with
    | none => unfold stepThread at hs; rw [ht] at hs; cases hs
    | some t =>
    obtain ⟨h, rem, r, hI, hr, _, hcase⟩ := inv_settle hπ hI ht hi
    unfold stepThread at hs
    rw [ht] at hs
    obtain ⟨cur, todo⟩ := t
    rcases hcase with ⟨hq, htodo⟩ | ⟨o, r', rfl, htodo, hp⟩
    · cases hq with
      | done =>
        cases r with
        | nil =>
          have : todo = [] := htodo
          subst this
          cases hs
        | cons o r' =>
          have : todo = prog o :: r'.map prog := htodo
          subst this
          cases hs
          refine ⟨h, rem, hI.merge, by simpa using hI.len, hI.ok, hI.supp, ?_, hI.free, ?_⟩
          · intro j t' r' ht' hr' hj
            rcases get_set ht' with ⟨rfl, rfl, _⟩ | ⟨hij, ht'⟩
            · rw [hr] at hr'; cases hr'
              exact .inr ⟨o, _, rfl, hI.ok _ (List.mem_of_getElem? hr) o (by simp), rfl⟩
            · exact hI.out j t' r' ht' hr' hj
          · intro j hj
            obtain ⟨t', r, h1, h2, h3, h4, h5⟩ := hI.held j hj
            have hij : i ≠ j := by rintro rfl; exact hi hj
            exact ⟨t', r, by rw [set_get hij]; exact h1, h2, h3, h4, h5⟩
      | @act u k hu hk =>
        cases hs
        refine ⟨h, rem, hI.merge, by simpa using hI.len, hI.ok, ((hu _).2).trans hI.supp, ?_, ?_, ?_⟩
        · intro j t' r' ht' hr' hj
          rcases get_set ht' with ⟨rfl, rfl, _⟩ | ⟨hij, ht'⟩
          · rw [hr] at hr'; cases hr'
            exact .inl ⟨hk _, htodo⟩
          · exact hI.out j t' r' ht' hr' hj
        · intro ho; exact ((hu _).1).trans (hI.free ho)
        · intro j hj
          obtain ⟨t', r, h1, h2, h3, h4, h5⟩ := hI.held j hj
          have hij : i ≠ j := by rintro rfl; exact hi hj
          exact ⟨t', r, by rw [set_get hij]; exact h1, h2, h3, h4, (cs_run h3 (hu _).1).trans h5⟩
    · rcases hp with ⟨k, rfl, hc, hf⟩ | ⟨k, rfl, hk⟩
      · -- locks the mutex
        cases ho : s.owner with
        | some j => simp only [ho] at hs; cases hs
        | none =>
          simp only [ho] at hs
          cases hs
          obtain ⟨ls, rfl, hm⟩ := hI.merge
          refine ⟨h ++ [o], rem.set i r', ⟨ls, rfl, merge_snoc hm hr⟩, by simpa using hI.len, ?_,
            hI.supp, ?_, ?_, ?_⟩
          · intro l hl x hx
            obtain ⟨l', hl', hx'⟩ := mem_set hr hl hx
            exact hI.ok l' hl' x hx'
          · intro j t' r'' ht' hr'' hj
            have hij : i ≠ j := by rintro rfl; exact hj rfl
            simp only at ht'
            rw [set_get hij] at ht'
            rw [set_get hij] at hr''
            exact hI.out j t' r'' ht' hr'' (by rw [ho]; simp)
          · intro h; cases h
          · intro j hj
            cases hj
            refine ⟨_, r', set_get_self ht, set_get_self hr, hc, htodo, ?_⟩
            rw [List.foldl_append]
            exact (cs_run hc (hI.free ho)).trans (hf _ (inv_supp hπ hI))
      · cases hs
        refine ⟨h, rem, hI.merge, by simpa using hI.len, hI.ok, hI.supp, ?_, hI.free, ?_⟩
        · intro j t' r'' ht' hr'' hj
          rcases get_set ht' with ⟨rfl, rfl, _⟩ | ⟨hij, ht'⟩
          · rw [hr] at hr''; cases hr''
            exact .inr ⟨o, _, rfl, hk _ hI.supp, htodo⟩
          · exact hI.out j t' r'' ht' hr'' hj
        · intro j hj
          obtain ⟨t', r, h1, h2, h3, h4, h5⟩ := hI.held j hj
          have hij : i ≠ j := by rintro rfl; exact hi hj
          exact ⟨t', r, by rw [set_get hij]; exact h1, h2, h3, h4, h5⟩

theorem inv_runs {orig : List (List α)} {s0 : LogSt} {h : List α} {rem : List (List α)} {s s' : Sys}
    (hI : Inv π prog sem b orig s0 h rem s) {is : List Nat} (hs : runs is s = some s') :
    ∃ h' rem', Inv π prog sem b orig s0 h' rem' s' := by
  induction is generalizing s h rem with
  | nil => cases hs; exact ⟨h, rem, hI⟩
  | cons i is ih =>
    rw [runs] at hs
    split at hs
    · cases hs
    · rename_i s1 h1
      obtain ⟨h', rem', hI'⟩ := inv_step hπ hI h1
      exact ih hI' hs

omit hπ in
theorem inv_start {orig : List (List α)} (s0 : LogSt) (hb : s0.suppressed = b)
    (hok : ∀ l ∈ orig, ∀ o ∈ l, Pre π b (fun s => sem s o) (prog o)) :
    Inv π prog sem b orig s0 [] orig (start s0 (orig.map (List.map prog))) := by
  refine ⟨⟨orig, rfl, .nil _⟩, by simp [start], hok, hb, ?_, fun _ => rfl, fun i hi => (nomatch hi)⟩
  intro i t r ht hr _
  simp only [start, List.getElem?_map, Option.map_eq_some_iff] at ht
  obtain ⟨l, ⟨l', hl', rfl⟩, rfl⟩ := ht
  rw [hl'] at hr; cases hr
  exact .inl ⟨.done, rfl⟩

/-- When nobody holds the mutex, the state is that of some merge of the threads; at the end, of an
interleaving. -/
theorem atomic_free {orig : List (List α)} {s0 : LogSt} {h : List α} {rem : List (List α)} {s : Sys}
    (hI : Inv π prog sem b orig s0 h rem s) (ho : s.owner = none) :
    ∃ h rest, Spec.Merge orig h rest ∧ π s.sh = π (h.foldl sem s0) := by
  obtain ⟨ls, rfl, hm⟩ := hI.merge
  exact ⟨h, rem, hm, hI.free ho⟩

theorem finished_free {orig : List (List α)} {s0 : LogSt} {h : List α} {rem : List (List α)}
    {s : Sys} (hI : Inv π prog sem b orig s0 h rem s) (hf : s.finished) : s.owner = none := by
  cases ho : s.owner with
  | none => rfl
  | some i =>
    obtain ⟨t, r, ht, _, hc, _⟩ := hI.held i ho
    rw [(hf t (List.mem_of_getElem? ht)).1] at hc
    cases hc

/-- All operations begun by the threads can be counted as done when the threads have ended. -/
theorem atomic_settled {orig : List (List α)} {s0 : LogSt} {h : List α} {rem : List (List α)}
    {s : Sys} (hI : Inv π prog sem b orig s0 h rem s) (hf : s.finished) (n : Nat)
    (hn : n ≤ s.ths.length) :
    ∃ h rem, Inv π prog sem b orig s0 h rem s ∧ ∀ i < n, rem[i]? = some [] := by
  induction n with
  | zero => exact ⟨h, rem, hI, fun i hi => by omega⟩
  | succ n ih =>
    obtain ⟨h, rem, hI, hd⟩ := ih (by omega)
    have ht : s.ths[n]? = some s.ths[n] := List.getElem?_eq_getElem (by omega)
    have hfn := hf _ (List.mem_of_getElem? ht)
    obtain ⟨h', rem', r, hI', hr, hoth, hcase⟩ := inv_settle hπ hI ht (by
      rw [finished_free hπ hI hf]; simp)
    refine ⟨h', rem', hI', fun i hi => ?_⟩
    rcases Nat.lt_or_ge i n with h1 | h1
    · rw [hoth i (by omega)]; exact hd i h1
    · obtain rfl : i = n := by omega
      rcases hcase with ⟨_, htodo⟩ | ⟨o, r', _, _, ⟨k, hk, _⟩ | ⟨k, hk, _⟩⟩
      · rw [hfn.2] at htodo
        rw [hr]
        cases r with
        | nil => rfl
        | cons o r => simp at htodo
      · rw [hfn.1] at hk; cases hk
      · rw [hfn.1] at hk; cases hk

/-- At the end the state is that of an interleaving. -/
theorem atomic_end {orig : List (List α)} {s0 : LogSt} {h : List α} {rem : List (List α)} {s : Sys}
    (hI : Inv π prog sem b orig s0 h rem s) (hf : s.finished) :
    ∃ h, Spec.Interleaving orig h ∧ π s.sh = π (h.foldl sem s0) := by
  obtain ⟨h, rem, hI, hd⟩ := atomic_settled hπ hI hf s.ths.length (Nat.le_refl _)
  obtain ⟨ls, rfl, hm⟩ := hI.merge
  refine ⟨h, ⟨rem, hm, fun l hl => ?_⟩, hI.free (finished_free hπ hI hf)⟩
  obtain ⟨i, hlt, rfl⟩ := List.getElem_of_mem hl
  have := hd i (by rw [← hI.len]; exact hlt)
  rw [List.getElem?_eq_getElem hlt] at this
  exact Option.some.inj this

end atomic

/-! ### The operations on the log -/

/-- The state, or the state without the characters on the console. -/
def view (e : Bool) (s : LogSt) : LogSt :=
  { s with cout := ⟨if e then [] else s.cout.out, s.cout.cache⟩ }

theorem view_false (s : LogSt) : view false s = s := rfl

theorem view_iff (e : Bool) (s s' : LogSt) : view e s = view e s' ↔
    (e = false → s.cout.out = s'.cout.out) ∧ s.cout.cache = s'.cout.cache ∧ s.log = s'.log ∧
    s.title = s'.title ∧ s.suppressed = s'.suppressed ∧ s.colors = s'.colors ∧
    s.lastColorIdx = s'.lastColorIdx := by
  obtain ⟨⟨_, _⟩, _, _, _, _, _⟩ := s
  obtain ⟨⟨_, _⟩, _, _, _, _, _⟩ := s'
  cases e <;> simp [view, and_assoc]

theorem view_supp {e : Bool} {s s' : LogSt} (h : view e s = view e s') :
    s.suppressed = s'.suppressed := ((view_iff e s s').mp h).2.2.2.2.1

section cs
variable {e : Bool} {k : Prog}

theorem cs_coutPut (h : CS (view e) k) (t : List Char) : CS (view e) (coutPut t k) := by
  induction t with
  | nil => exact h
  | cons c cs ih =>
    refine .act (fun _ => rfl) (fun s s' hs => ⟨?_, rfl⟩) fun _ => ih
    rw [view_iff] at hs ⊢
    simp only [put]
    exact ⟨fun he => by rw [hs.1 he], hs.2⟩

theorem cs_logPut (h : CS (view e) k) (t : List Char) : CS (view e) (logPut t k) := by
  induction t with
  | nil => exact h
  | cons c cs ih =>
    refine .act (fun _ => rfl) (fun s s' hs => ⟨?_, rfl⟩) fun _ => ih
    rw [view_iff] at hs ⊢
    exact ⟨hs.1, hs.2.1, by simp only [hs.2.2.1], hs.2.2.2⟩

theorem cs_setCache (h : CS (view e) k) (c : Cache) : CS (view e) (setCache c k) := by
  refine .act (fun _ => rfl) (fun s s' hs => ⟨?_, rfl⟩) fun _ => h
  rw [view_iff] at hs ⊢
  exact ⟨hs.1, rfl, hs.2.2⟩

theorem cs_coutDo (h : CS (view e) k) (p : St → St) : CS (view e) (coutDo p k) := by
  refine .act (fun _ => rfl) (fun s s' hs => ⟨hs, ?_⟩) fun _ => cs_coutPut (cs_setCache h _) _
  rw [((view_iff e s s').mp hs).2.1]

theorem cs_logDo (h : CS (view e) k) (p : St → St) : CS (view e) (logDo p k) := by
  refine .act (fun _ => rfl) (fun s s' hs => ⟨hs, ?_⟩) fun _ => cs_logPut (cs_setCache h _) _
  rw [((view_iff e s s').mp hs).2.1]

theorem cs_uniqueColor (h : CS (view e) k) (con : Con) (t : List Char) :
    CS (view e) (uniqueColorSteps con t k) := by
  refine .act (fun _ => rfl) (fun s s' hs => ⟨hs, ?_⟩) fun s => ?_
  · have := (view_iff e s s').mp hs
    rw [this.2.2.2.2.2.1, this.2.2.2.2.2.2]
  · cases findColor t s.colors with
    | some c => exact cs_coutDo h _
    | none =>
      refine .act (fun _ => rfl) (fun s s' hs => ⟨?_, rfl⟩) fun _ =>
        .act (fun _ => rfl) (fun s s' hs => ⟨?_, rfl⟩) fun _ => cs_coutDo h _
      · rw [view_iff] at hs ⊢
        obtain ⟨h1, h2, h3, h4, h5, h6, h7⟩ := hs
        exact ⟨h1, h2, h3, h4, h5, by simp only [h6, h7], h7⟩
      · rw [view_iff] at hs ⊢
        obtain ⟨h1, h2, h3, h4, h5, h6, h7⟩ := hs
        exact ⟨h1, h2, h3, h4, h5, h6, by simp only [h7]⟩

theorem cs_titleSteps (h : CS (view e) k) (con : Con) : CS (view e) (titleSteps con k) := by
  refine .act (fun _ => rfl) (fun s s' hs => ⟨hs, ?_⟩) fun s => ?_
  · rw [((view_iff e s s').mp hs).2.2.2.1]
  · cases s.title with
    | nil => exact h
    | cons c cs =>
      have h' : CS (view e) (.act (fun s => { s with title := [] }) (fun _ => k)) := by
        refine .act (fun _ => rfl) (fun s s' hs => ⟨?_, rfl⟩) fun _ => h
        rw [view_iff] at hs ⊢
        exact ⟨hs.1, hs.2.1, hs.2.2.1, rfl, hs.2.2.2.2⟩
      exact cs_uniqueColor (cs_coutDo (cs_coutPut (cs_logPut h' _) _) _) _ _

theorem cs_valSteps (h : CS (view e) k) (con : Con) (lit : List Char) (v : Val) :
    CS (view e) (valSteps con lit v k) := by
  refine .act (fun _ => rfl) (fun s s' hs => ⟨hs, ?_⟩) fun s => ?_
  · rw [view_supp hs]
  · by_cases hs : s.suppressed = true
    · simp only [if_pos hs]; exact h
    · simp only [if_neg hs]
      exact cs_titleSteps (cs_coutDo (cs_coutDo (cs_coutDo (cs_logDo h _) _) _) _) _

theorem cs_setTitleSteps (h : CS (view e) k) (con : Con) (lit : List Char) (v : Val) :
    CS (view e) (setTitleSteps con lit v k) := by
  have h' : ∀ t, CS (view e) (.act (fun s => { s with title := t }) (fun _ => k)) := by
    intro t
    refine .act (fun _ => rfl) (fun s s' hs => ⟨?_, rfl⟩) fun _ => h
    rw [view_iff] at hs ⊢
    exact ⟨hs.1, hs.2.1, hs.2.2.1, rfl, hs.2.2.2.2⟩
  refine .act (fun _ => rfl) (fun s s' hs => ⟨hs, ?_⟩) fun s => cs_setCache (h' _) _
  rw [((view_iff e s s').mp hs).2.1]

end cs

theorem cs_release (e : Bool) : CS (view e) (.release .done) := .release .done

/-- The operations that threads may use together: not `setLogSuppressed`, and manipulators only if
the characters on the console do not matter. -/
def Allowed (e : Bool) : Op → Prop
  | .suppress _ => False
  | .manip _ => e = true
  | _ => True

theorem pre_progOf (e : Bool) (con : Con) (lit : List Char) (b : Bool) (o : Op) (h : Allowed e o) :
    Pre (view e) b (fun s => step con lit s o) (progOf con lit o) := by
  have hrun := run_progOf con lit o
  cases o with
  | val v =>
    exact .acquire (cs_valSteps (cs_release e) con lit v) fun s _ => by rw [← hrun]; rfl
  | endl =>
    exact .acquire (cs_coutPut (cs_logPut (cs_release e) _) _) fun s _ => by rw [← hrun]; rfl
  | title v =>
    refine .check fun s hs => ?_
    cases b with
    | true =>
      rw [if_pos hs]
      refine .quiet .done fun s hs => ?_
      show view e (setTitle con lit v s) = _
      rw [setTitle, if_pos hs]
    | false =>
      rw [if_neg (by simp [hs])]
      refine .acquire (cs_setTitleSteps (cs_release e) con lit v) fun s hs => ?_
      rw [run_setTitleSteps _ _ _ _ _ hs]; rfl
  | manip t =>
    have h : e = true := h
    subst h
    refine .quiet ?_ fun s _ => rfl
    clear hrun h
    rw [progOf]
    induction t with
    | nil => exact .done
    | cons c cs ih => exact .act (fun _ => ⟨rfl, rfl⟩) fun _ => ih
  | suppress b => exact h.elim

/-! ### Every order happens -/

/-- A call that keeps to the discipline can be run without interruption. -/
theorem runs_alone {i : Nat} {ps : List Prog} {d : Bool} {p : Prog} (hd : Disc false d p) :
    ∀ {s : Sys}, s.ths[i]? = some ⟨p, ps⟩ → s.owner = (if d then some i else none) →
      ∃ n, runs (List.replicate n i) s = some ⟨run p s.sh, none, s.ths.set i ⟨.done, ps⟩⟩ := by
  induction hd with
  | done =>
    intro s ht ho
    have hl := (List.getElem?_eq_some_iff.mp ht)
    refine ⟨0, ?_⟩
    have : s.ths.set i ⟨.done, ps⟩ = s.ths := by rw [← hl.2]; simp
    obtain ⟨sh, owner, ths⟩ := s
    simp only [Bool.false_eq_true, if_false] at ho
    subst ho
    simp only [List.replicate, runs, run]
    rw [this]
  | @act d u k _ ih =>
    intro s ht ho
    obtain ⟨n, hn⟩ := @ih s.sh ⟨u s.sh, s.owner, s.ths.set i ⟨k s.sh, ps⟩⟩ (set_get_self ht) ho
    refine ⟨n + 1, ?_⟩
    have e : stepThread i s = some ⟨u s.sh, s.owner, s.ths.set i ⟨k s.sh, ps⟩⟩ := by
      unfold stepThread; rw [ht]
    rw [List.replicate_succ, runs, e]
    simp only [hn, List.set_set, run]
  | @acquire k _ ih =>
    intro s ht ho
    obtain ⟨n, hn⟩ := ih (s := ⟨s.sh, some i, s.ths.set i ⟨k, ps⟩⟩) (set_get_self ht) rfl
    refine ⟨n + 1, ?_⟩
    have e : stepThread i s = some ⟨s.sh, some i, s.ths.set i ⟨k, ps⟩⟩ := by
      unfold stepThread; rw [ht]
      have ho : s.owner = none := ho
      rw [ho]
    rw [List.replicate_succ, runs, e]
    simp only [hn, List.set_set, run]
  | @release k _ ih =>
    intro s ht ho
    obtain ⟨n, hn⟩ := ih (s := ⟨s.sh, none, s.ths.set i ⟨k, ps⟩⟩) (set_get_self ht) rfl
    refine ⟨n + 1, ?_⟩
    have e : stepThread i s = some ⟨s.sh, none, s.ths.set i ⟨k, ps⟩⟩ := by
      unfold stepThread; rw [ht]
    rw [List.replicate_succ, runs, e]
    simp only [hn, List.set_set, run]
  | again h => cases h

theorem runs_append (is js : List Nat) (s : Sys) :
    runs (is ++ js) s = (runs is s).bind (runs js) := by
  induction is generalizing s with
  | nil => rfl
  | cons i is ih =>
    rw [List.cons_append, runs, runs]
    cases stepThread i s with
    | none => rfl
    | some s' => exact ih s'

theorem runs_op {i : Nat} {p : Prog} {ps : List Prog} (hd : Disc false false p) {s : Sys}
    (ht : s.ths[i]? = some ⟨.done, p :: ps⟩) (ho : s.owner = none) :
    ∃ is, runs is s = some ⟨run p s.sh, none, s.ths.set i ⟨.done, ps⟩⟩ := by
  obtain ⟨n, hn⟩ := runs_alone hd (s := ⟨s.sh, s.owner, s.ths.set i ⟨p, ps⟩⟩) (set_get_self ht) ho
  refine ⟨i :: List.replicate n i, ?_⟩
  have e : stepThread i s = some ⟨s.sh, s.owner, s.ths.set i ⟨p, ps⟩⟩ := by
    unfold stepThread; rw [ht]
  rw [runs, e]
  simp only [hn, List.set_set]

theorem runs_merge {con : Con} {lit : List Char} {ls : List (List Op)} {h : List Op}
    {rest : List (List Op)} (hm : Spec.Merge ls h rest) (s : LogSt) :
    ∃ is, runs is (startLog con lit s ls) = some (startLog con lit (exec con lit h s) rest) := by
  induction hm generalizing s with
  | nil ls => exact ⟨[], rfl⟩
  | @cons ls h rest i x xs hx _ ih =>
    have ht : (startLog con lit s ls).ths[i]? =
        some ⟨.done, progOf con lit x :: xs.map (progOf con lit)⟩ := by
      simp [startLog, start, hx]
    obtain ⟨is, his⟩ := runs_op (disc_progOf false con lit x) ht rfl
    obtain ⟨js, hjs⟩ := ih (step con lit s x)
    refine ⟨is ++ js, ?_⟩
    rw [runs_append, his, Option.bind_some]
    have e : (⟨run (progOf con lit x) (startLog con lit s ls).sh, none,
        (startLog con lit s ls).ths.set i ⟨.done, xs.map (progOf con lit)⟩⟩ : Sys) =
        startLog con lit (step con lit s x) (ls.set i xs) := by
      simp only [startLog, start, List.map_set, run_progOf]
    rw [e, hjs]
    rfl

/-! ### A stringifier that logs -/

/-- A call that holds the mutex and is going to lock it again. -/
inductive Doom : Prog → Prop
  | again (k) : Doom (.acquire k)
  | act {u k} : (∀ s, Doom (k s)) → Doom (.act u k)

theorem doom_coutPut {k : Prog} (h : Doom k) (t : List Char) : Doom (coutPut t k) := by
  induction t with
  | nil => exact h
  | cons c cs ih => exact .act fun _ => ih

theorem doom_logPut {k : Prog} (h : Doom k) (t : List Char) : Doom (logPut t k) := by
  induction t with
  | nil => exact h
  | cons c cs ih => exact .act fun _ => ih

theorem doom_coutDo {k : Prog} (h : Doom k) (p : St → St) : Doom (coutDo p k) :=
  .act fun _ => doom_coutPut (.act fun _ => h) _

theorem doom_titleSteps {k : Prog} (h : Doom k) (con : Con) : Doom (titleSteps con k) := by
  refine .act fun s => ?_
  cases s.title with
  | nil => exact h
  | cons c cs =>
    refine .act fun s => ?_
    have h' : Doom (.act (fun s => { s with title := [] }) (fun _ => k)) := .act fun _ => h
    have := doom_coutDo (doom_coutPut (doom_logPut h'
      (padded (['['] ++ c :: cs ++ [']', ' ']))) (padded (['['] ++ c :: cs ++ [']', ' '])))
      (setStyle con .bold)
    cases findColor (['['] ++ c :: cs ++ [']', ' ']) s.colors with
    | some c => exact doom_coutDo this _
    | none => exact .act fun _ => .act fun _ => doom_coutDo this _

/-- A call that locks the mutex and then tries to lock it again. -/
def Twice (p : Prog) : Prop := ∃ k, p = .acquire k ∧ Doom k

theorem disc_of_doom {p : Prog} (h : Doom p) : Disc true true p := by
  induction h with
  | again k => exact .again rfl
  | act _ ih => exact .act ih

theorem disc_of_twice {p : Prog} (h : Twice p) : Disc true false p := by
  obtain ⟨k, rfl, hk⟩ := h
  exact .acquire (disc_of_doom hk)

theorem loggingVal_twice (con : Con) (lit : List Char) (v w : Val) :
    Twice (loggingVal con lit v w) :=
  ⟨_, rfl, doom_titleSteps (doom_coutDo (.again _) _) con⟩

/-- Thread `i` will never end. -/
def Hopeless (i : Nat) (s : Sys) : Prop :=
  ∃ t, s.ths[i]? = some t ∧
    ((∃ p ∈ t.todo, Twice p) ∨ Twice t.cur ∨ (s.owner = some i ∧ Doom t.cur))

theorem hopeless_step {i j : Nat} {s s' : Sys} (ho : Orderly true s) (h : Hopeless i s)
    (hs : stepThread j s = some s') : Hopeless i s' := by
  obtain ⟨t, ht, hc⟩ := h
  unfold stepThread at hs
  by_cases hij : j = i
  · subst hij
    rw [ht] at hs
    obtain ⟨cur, todo⟩ := t
    cases cur with
    | done =>
      cases todo with
      | nil => cases hs
      | cons p ps =>
        cases hs
        refine ⟨_, set_get_self ht, ?_⟩
        rcases hc with ⟨q, hq, hd⟩ | ⟨k, hk, _⟩ | ⟨_, hd⟩
        · rcases List.mem_cons.mp hq with rfl | hq
          · exact .inr (.inl hd)
          · exact .inl ⟨q, hq, hd⟩
        · cases hk
        · cases hd
    | act u k =>
      cases hs
      refine ⟨_, set_get_self ht, ?_⟩
      rcases hc with h | ⟨k, hk, _⟩ | ⟨h1, hd⟩
      · exact .inl h
      · cases hk
      · cases hd with
        | act hd => exact .inr (.inr ⟨h1, hd _⟩)
    | acquire k =>
      cases how : s.owner with
      | some _ => simp only [how] at hs; cases hs
      | none =>
        simp only [how] at hs
        cases hs
        refine ⟨_, set_get_self ht, ?_⟩
        rcases hc with h | ⟨k, hk, hd⟩ | ⟨h1, hd⟩
        · exact .inl h
        · cases hk; exact .inr (.inr ⟨rfl, hd⟩)
        · rw [how] at h1; cases h1
    | release k =>
      cases hs
      refine ⟨_, set_get_self ht, ?_⟩
      rcases hc with h | ⟨k, hk, hd⟩ | ⟨h1, hd⟩
      · exact .inl h
      · cases hk
      · cases hd
  · split at hs
    · cases hs
    · cases hs
    · cases hs; exact ⟨t, by rw [set_get hij]; exact ht, hc⟩
    · cases hs; exact ⟨t, by rw [set_get hij]; exact ht, hc⟩
    · split at hs
      · rename_i how
        cases hs
        refine ⟨t, by rw [set_get hij]; exact ht, ?_⟩
        rcases hc with h | h | ⟨h1, _⟩
        · exact .inl h
        · exact .inr (.inl h)
        · rw [how] at h1; cases h1
      · cases hs
    · rename_i k ps htj
      cases hs
      refine ⟨t, by rw [set_get hij]; exact ht, ?_⟩
      rcases hc with h | h | ⟨h1, _⟩
      · exact .inl h
      · exact .inr (.inl h)
      · have hd := (ho.2 j _ htj).1
        rw [h1] at hd
        have e : decide ((some i : Option Nat) = some j) = false := by simp [Ne.symm hij]
        rw [e] at hd
        cases hd

theorem hopeless_runs {i : Nat} {is : List Nat} {s s' : Sys} (ho : Orderly true s)
    (h : Hopeless i s) (hs : runs is s = some s') : Hopeless i s' := by
  induction is generalizing s with
  | nil => cases hs; exact h
  | cons j is ih =>
    rw [runs] at hs
    split at hs
    · cases hs
    · rename_i s1 h1; exact ih (orderly_step ho h1) (hopeless_step ho h h1) hs

theorem hopeless_unfinished {i : Nat} {s : Sys} (h : Hopeless i s) : ¬ s.finished := by
  intro hf
  obtain ⟨t, ht, hc⟩ := h
  obtain ⟨h1, h2⟩ := hf t (List.mem_of_getElem? ht)
  rcases hc with ⟨p, hp, _⟩ | ⟨k, hk, _⟩ | ⟨_, hd⟩
  · rw [h2] at hp; cases hp
  · rw [h1] at hk; cases hk
  · rw [h1] at hd; cases hd

end Verif.Log.Threads
