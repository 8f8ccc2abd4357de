import Verif.Log.Spec
import Verif.Stringify.PropsFmt

/-!
# Theorems about the log
-/

namespace Verif.Log

open Verif.Stringify
open Spec (Line)

theorem exec_append (con : Con) (lit : List Char) (xs ys : List Op) (s : LogSt) :
    exec con lit (xs ++ ys) s = exec con lit ys (exec con lit xs s) := List.foldl_append ..

/-! ### The log stream -/

theorem putVal_log (con : Con) (lit : List Char) (v : Val) (s : LogSt) (hs : s.suppressed = false) :
    (putVal con lit v s).log = (putTitle con s).log ++ text (resetText con) lit v := by
  have h := emits_stringify con lit v
  simp only [putVal, hs, Bool.false_eq_true, if_false]
  exact h _

theorem putTitle_title (con : Con) (s : LogSt) : (putTitle con s).title = [] := by
  unfold putTitle
  split
  · assumption
  · rfl

theorem getUniqueColor_frame (con : Con) (t : List Char) (s : LogSt) :
    (getUniqueColor con t s).suppressed = s.suppressed ∧ (getUniqueColor con t s).log = s.log := by
  unfold getUniqueColor
  split <;> exact ⟨rfl, rfl⟩

theorem putTitle_suppressed (con : Con) (s : LogSt) :
    (putTitle con s).suppressed = s.suppressed := by
  unfold putTitle
  split
  · rfl
  · exact (getUniqueColor_frame con _ s).1

theorem padded_eq (t : List Char) : padded (['['] ++ t ++ [']', ' ']) = Spec.column t := by
  simp only [padded, Spec.column]
  split
  · rfl
  · have : 38 - (['['] ++ t ++ [']', ' ']).length = 0 := by omega
    rw [this]; simp

theorem putTitle_log (con : Con) (c : Char) (cs : List Char) (s : LogSt) (h : s.title = c :: cs) :
    (putTitle con s).log = s.log ++ Spec.column (c :: cs) := by
  have e : putTitle con s =
      (let tStr := ['['] ++ s.title ++ [']', ' ']
       let s1 := getUniqueColor con tStr s
       let s2 := { s1 with cout := put (padded tStr) (setStyle con .bold s1.cout) }
       let s3 := { s2 with log := s2.log ++ padded tStr }
       { s3 with title := [] }) := by
    unfold putTitle; rw [h]
  rw [e, h]
  show (getUniqueColor con _ s).log ++ padded _ = _
  rw [(getUniqueColor_frame con _ s).2, padded_eq]

theorem putTitle_nil (con : Con) (s : LogSt) (h : s.title = []) : putTitle con s = s := by
  unfold putTitle; rw [h]

/-- The state between two values: no title waiting, not suppressed. -/
def Idle (s : LogSt) : Prop := s.title = [] ∧ s.suppressed = false

theorem putVal_idle (con : Con) (lit : List Char) (v : Val) (s : LogSt)
    (hs : s.suppressed = false) : Idle (putVal con lit v s) := by
  simp only [putVal, hs, Bool.false_eq_true, if_false]
  exact ⟨putTitle_title con s, by rw [← hs]; exact putTitle_suppressed con s⟩

theorem vals_log (con : Con) (lit : List Char) (vs : List Val) (s : LogSt) (hs : Idle s) :
    (exec con lit (vs.map Op.val) s).log =
      s.log ++ (vs.map (text (resetText con) lit)).flatten ∧
    Idle (exec con lit (vs.map Op.val) s) := by
  induction vs generalizing s with
  | nil => exact ⟨by simp [exec], hs⟩
  | cons v vs ih =>
    obtain ⟨h1, h2⟩ := ih _ (putVal_idle con lit v s hs.2)
    refine ⟨?_, h2⟩
    have e : exec con lit ((v :: vs).map Op.val) s =
      exec con lit (vs.map Op.val) (putVal con lit v s) := rfl
    rw [e, h1, putVal_log con lit v s hs.2, putTitle_nil con s hs.1]
    simp

/-- The state in which the values of a line are written. -/
theorem title_state (con : Con) (lit : List Char) (t : List Char) (s : LogSt) (hs : Idle s) :
    step con lit s (.title (.leaf .string t)) = { s with title := t } := by
  obtain ⟨⟨o, c⟩, l, ti, su, co, la⟩ := s
  obtain ⟨h1, h2⟩ := hs
  simp only at h1 h2
  subst h1; subst h2
  simp [step, setTitle, toStr, callStringifyImpl, stringify, strLeaf, baseOf, put]

theorem putVal_titled_log (con : Con) (lit : List Char) (v : Val) (s : LogSt) (hs : Idle s)
    (t : List Char) :
    (putVal con lit v { s with title := t }).log =
      s.log ++ (match t with | [] => [] | c :: cs => Spec.column (c :: cs)) ++
        text (resetText con) lit v := by
  have h := putVal_log con lit v { s with title := t } hs.2
  rw [h]
  cases t with
  | nil => rw [putTitle_nil con _ rfl]; simp
  | cons c cs => rw [putTitle_log con c cs _ rfl]

theorem line_log (con : Con) (lit : List Char) (l : Line) (s : LogSt) (hs : Idle s) :
    (exec con lit l.ops s).log = s.log ++ l.text (resetText con) lit ∧
    Idle (exec con lit l.ops s) := by
  obtain ⟨t, v, vs⟩ := l
  have hend : ∀ s', (exec con lit [Op.endl] s').log = s'.log ++ ['\n'] := fun _ => rfl
  have hend' : ∀ s', Idle s' → Idle (exec con lit [Op.endl] s') := fun _ h => h
  cases t with
  | none =>
    have e : (Line.mk none v vs).ops = (v :: vs).map Op.val ++ [Op.endl] := rfl
    obtain ⟨h1, h2⟩ := vals_log con lit (v :: vs) s hs
    rw [e, exec_append]
    refine ⟨?_, hend' _ h2⟩
    rw [hend, h1]
    simp [Line.text, Line.column]
  | some t =>
    have e : (Line.mk (some t) v vs).ops =
      (Op.title (.leaf .string t) :: Op.val v :: vs.map Op.val) ++ [Op.endl] := rfl
    have e2 : exec con lit (Op.title (.leaf .string t) :: Op.val v :: vs.map Op.val) s =
        exec con lit (vs.map Op.val) (putVal con lit v { s with title := t }) := by
      show exec con lit (vs.map Op.val)
        (putVal con lit v (step con lit s (.title (.leaf .string t)))) = _
      rw [title_state con lit t s hs]
    obtain ⟨h1, h2⟩ := vals_log con lit vs _ (putVal_idle con lit v { s with title := t } hs.2)
    rw [e, exec_append, e2]
    refine ⟨?_, hend' _ h2⟩
    rw [hend, h1, putVal_titled_log con lit v s hs t]
    cases t with
    | nil => simp [Line.text, Line.column]
    | cons c cs => simp [Line.text, Line.column]

/-- Log lines one after the other. -/
theorem lines_log (con : Con) (lit : List Char) (ls : List Line) (s : LogSt) (hs : Idle s) :
    (exec con lit (ls.map Line.ops).flatten s).log =
      s.log ++ (ls.map (Line.text (resetText con) lit)).flatten := by
  induction ls generalizing s with
  | nil => simp [exec]
  | cons l ls ih =>
    obtain ⟨h1, h2⟩ := line_log con lit l s hs
    rw [List.map_cons, List.flatten_cons, exec_append, ih _ h2, h1]
    simp

/-- **C84.** The log holds the lines in the order in which they were written, each with its title in
the first 38 columns and then its values; where the console has no formatting the values have
exactly the text of C62. -/
theorem C84_log_partial (lit : List Char) (ls : List Line) :
    (exec .null lit (ls.map Line.ops).flatten LogSt.init).log =
      (ls.map (Line.text [] lit)).flatten := by
  have := lines_log .null lit ls LogSt.init ⟨rfl, rfl⟩
  simpa [LogSt.init, resetText] using this

/-- **C84.** On Linux the elements of containers are enclosed in reset sequences, see C62. -/
theorem C84_log_linux (lit : List Char) (ls : List Line) :
    (exec .unix lit (ls.map Line.ops).flatten LogSt.init).log =
      (ls.map (Line.text resetSeq lit)).flatten := by
  have := lines_log .unix lit ls LogSt.init ⟨rfl, rfl⟩
  simpa [LogSt.init, resetText] using this

/-- So what is written to the log on Linux is not the text of C62 as soon as a container with an
element is logged. -/
theorem C84_log_linux_wrong (lit : List Char) (v : Val) (hv : HasElems v) (t : Option (List Char)) :
    (exec .unix lit (Line.mk t v []).ops LogSt.init).log ≠ (Line.mk t v []).text [] lit := by
  have h := (line_log .unix lit (Line.mk t v []) LogSt.init ⟨rfl, rfl⟩).1
  rw [h]
  intro e
  have hl := text_length_lt resetSeq lit (by decide) v hv
  have := congrArg List.length e
  simp [Line.text, LogSt.init, resetText] at this
  omega

/-! ### Suppression -/

/-- An operation other than a manipulator. -/
def Spec.Quiet : Op → Prop
  | .title _ => True
  | .val _ => True
  | .suppress b => b = true
  | .endl => False
  | .manip _ => False

/-- **C85, partial.** While the log is suppressed, titles and values leave everything as it is. What
is missing: line breaks and console manipulators, see below. -/
theorem C85_suppressed_partial (con : Con) (lit : List Char) (ops : List Op)
    (h : ∀ o ∈ ops, Spec.Quiet o) (s : LogSt) (hs : s.suppressed = true) :
    exec con lit ops s = s := by
  induction ops with
  | nil => rfl
  | cons o os ih =>
    have e : step con lit s o = s := by
      have := h o (by simp)
      cases o with
      | title v => simp [step, setTitle, hs]
      | val v => simp [step, putVal, hs]
      | endl => exact this.elim
      | manip t => exact this.elim
      | suppress b =>
        have : b = true := this
        subst this
        show setSuppressed true s = s
        rw [setSuppressed, ← hs]
    show exec con lit os (step con lit s o) = s
    rw [e]
    exact ih (fun o ho => h o (List.mem_cons_of_mem _ ho))

/-- **C85 fails**: line breaks are written to the console and to the log even while the log is
suppressed. -/
theorem C85_endl (con : Con) (lit : List Char) (s : LogSt) :
    (exec con lit [.suppress true, .endl] s).log = s.log ++ ['\n'] ∧
    (exec con lit [.suppress true, .endl] s).cout.out = s.cout.out ++ ['\n'] ∧
    (exec con lit [.suppress true, .endl] s).log ≠ s.log := by
  refine ⟨rfl, rfl, ?_⟩
  show s.log ++ ['\n'] ≠ s.log
  intro e
  have := congrArg List.length e
  simp at this

/-- **C85.** Manipulators are still written to the console. -/
theorem C85_manip (con : Con) (lit t : List Char) (s : LogSt) :
    (exec con lit [.suppress true, .manip t] s).cout.out = s.cout.out ++ t := rfl

/-- **C85.** The log goes on as before after it: suppressing a number of titles and values is the
same as leaving them out. -/
theorem C85_resume (con : Con) (lit : List Char) (ops : List Op)
    (h : ∀ o ∈ ops, Spec.Quiet o) (s : LogSt) (hs : s.suppressed = false) :
    exec con lit ([.suppress true] ++ ops ++ [.suppress false]) s = s := by
  rw [exec_append, exec_append]
  have := C85_suppressed_partial con lit ops h (setSuppressed true s) rfl
  show setSuppressed false (exec con lit ops (setSuppressed true s)) = s
  rw [this]
  obtain ⟨c, l, t, su, co, la⟩ := s
  simp only at hs
  subst hs
  rfl

/-! ### The console -/

theorem keeps_closed (β : Type) : Closed (β := β)
    (fun p _ => ∀ s : St, s.cache = Cache.init → (p s).cache = Cache.init) :=
  fun p q _ _ hp hq s hs => hq _ (hp s hs)

/-- Printing without formatting leaves the format cache as it is if it is the initial one. -/
def Keeps (p : St → St) (_ : List Unit) : Prop :=
  ∀ s : St, s.cache = Cache.init → (p s).cache = Cache.init

theorem keeps_bold (t : List Char) (_ : '\x1b' ∉ t) :
    Keeps (printBold .unix false t .default) ((fun _ => []) t) := fun _ hs => hs

theorem keeps_call {p : St → St} : Keeps (callStringifyImpl .unix true p) [] := fun _ _ => rfl

theorem keeps_all (lit : List Char) : ∀ vs : List Val, ∃ us,
    List.Forall₂ Keeps (callAll .unix false lit vs) us
  | [] => ⟨[], by rw [callAll]; exact .nil⟩
  | v :: vs => by
    obtain ⟨us, h⟩ := keeps_all lit vs
    exact ⟨[] :: us, by rw [callAll]; exact .cons keeps_call h⟩

theorem keeps_entries (lit sep : List Char) : ∀ es : List (Val × Val), ∃ us,
    List.Forall₂ (EntryR Keeps (fun _ => []) sep) (callEntries .unix false lit es) us
  | [] => ⟨[], by rw [callEntries]; exact .nil⟩
  | (k, v) :: es => by
    obtain ⟨us, h⟩ := keeps_entries lit sep es
    exact ⟨[] :: us, by rw [callEntries]; exact .cons ⟨[], [], keeps_call, keeps_call, rfl⟩ h⟩

theorem keeps_val (lit : List Char) (v : Val) : Keeps (stringify .unix false lit v) [] := by
  have hc : Closed Keeps := keeps_closed Unit
  cases v with
  | leaf l t =>
    intro s hs
    rw [stringify, strLeaf]
    rcases baseOf l with _ | ⟨k, y, post⟩ <;> exact hs
  | ptr a => intro s hs; rw [stringify]; exact hs
  | seq b vs =>
    obtain ⟨us, h⟩ := keeps_all lit vs
    rw [stringify]
    cases h' : callAll .unix false lit vs with
    | nil => exact rep_seq_nil hc keeps_bold b
    | cons p ps =>
      rw [h'] at h
      cases h with
      | cons h1 h2 => exact rep_seq hc keeps_bold b h1 h2
  | tuple v vs =>
    obtain ⟨us, h⟩ := keeps_all lit vs
    rw [stringify]
    exact rep_tuple hc keeps_bold (t := []) keeps_call h
  | map b es =>
    obtain ⟨us, h⟩ := keeps_entries lit [' ', '-', '>', ' '] es
    rw [stringify]
    cases h' : callEntries .unix false lit es with
    | nil => exact fun s hs => hs
    | cons p ps =>
      rw [h'] at h
      cases h with
      | cons h1 h2 => exact rep_map hc keeps_bold b _ _ (by decide) (by decide) h1 h2
  | bimap es =>
    obtain ⟨us, h⟩ := keeps_entries lit [' ', '<', '-', '>', ' '] es
    rw [stringify]
    cases h' : callEntries .unix false lit es with
    | nil => exact fun s hs => hs
    | cons p ps =>
      rw [h'] at h
      cases h with
      | cons h1 h2 => exact rep_map hc keeps_bold true _ _ (by decide) (by decide) h1 h2

/-- The title as the log writes it. -/
def bracket (t : List Char) : List Char := ['['] ++ t ++ [']', ' ']

theorem bracket_inj {t u : List Char} (h : bracket t = bracket u) : t = u := by
  simpa [bracket] using h

/-- The colours of the titles `ks`. -/
def colorsFrom : Nat → List (List Char) → List (List Char × Color)
  | _, [] => []
  | i, k :: ks => (bracket k, colorOfIdx (2 + i)) :: colorsFrom (i + 1) ks

theorem colorsFrom_append (i : Nat) (ks : List (List Char)) (t : List Char) :
    colorsFrom i (ks ++ [t]) = colorsFrom i ks ++ [(bracket t, colorOfIdx (2 + (i + ks.length)))] := by
  induction ks generalizing i with
  | nil => simp [colorsFrom]
  | cons k ks ih =>
    have e : i + 1 + ks.length = i + (ks.length + 1) := by omega
    simp only [List.cons_append, colorsFrom, ih, List.length_cons, e]

theorem find_colors (i : Nat) (ks : List (List Char)) (t : List Char) :
    findColor (bracket t) (colorsFrom i ks) =
      if t ∈ ks then some (colorOfIdx (2 + (i + ks.idxOf t))) else none := by
  induction ks generalizing i with
  | nil => simp [colorsFrom, findColor]
  | cons k ks ih =>
    by_cases hk : k = t
    · subst hk
      simp [colorsFrom, findColor]
    · have hb : bracket k ≠ bracket t := fun e => hk (bracket_inj e)
      simp only [colorsFrom, findColor, if_neg hb, ih, List.mem_cons]
      have hk' : ¬ t = k := fun e => hk e.symm
      simp only [hk', false_or]
      split
      · have : (k :: ks).idxOf t = ks.idxOf t + 1 := by
          exact List.idxOf_cons_ne _ hk
        rw [this]
        have : i + 1 + ks.idxOf t = i + (ks.idxOf t + 1) := by omega
        rw [this]
      · rfl

theorem fg_colorOfIdx (i : Nat) : fgCode (colorOfIdx (2 + i)) = 31 + i % 5 := by
  have h : 2 + i - 2 = i := by omega
  have hlt : i % 5 < 5 := Nat.mod_lt _ (by omega)
  unfold colorOfIdx
  rw [h]
  generalize i % 5 = r at *
  have : r = 0 ∨ r = 1 ∨ r = 2 ∨ r = 3 ∨ r = 4 := by omega
  rcases this with rfl | rfl | rfl | rfl | rfl <;> rfl

/-- The state between two statements, on Linux, after the titles `ks`. -/
structure Inv (ks : List (List Char)) (s : LogSt) : Prop where
  idle : Idle s
  cache : s.cout.cache = Cache.init
  colors : s.colors = colorsFrom 0 ks
  last : s.lastColorIdx = 2 + ks.length

/-- The titles after one more. -/
def addTitle (ks : List (List Char)) (t : List Char) : List (List Char) :=
  if t ∈ ks then ks else ks ++ [t]

theorem mem_addTitle (ks : List (List Char)) (t : List Char) : t ∈ addTitle ks t := by
  unfold addTitle; split
  · assumption
  · simp

/-- A piece of text that leaves the terminal as it is between two statements. -/
def Shows (s s' : LogSt) (ds : List (Char × Attr)) : Prop :=
  ∃ x, s'.cout.out = s.cout.out ++ x ∧ run .plain {} x = (ds, .plain, {})

theorem Shows.trans {s s' s'' : LogSt} {ds es : List (Char × Attr)} (h : Shows s s' ds)
    (h' : Shows s' s'' es) : Shows s s'' (ds ++ es) := by
  obtain ⟨x, e1, e2⟩ := h
  obtain ⟨y, e3, e4⟩ := h'
  refine ⟨x ++ y, by rw [e3, e1, List.append_assoc], ?_⟩
  rw [run_append, e2]; simp only [e4]

theorem putVal_shows {lit : List Char} (hl : NoEsc lit) {v : Val} (hv : Clean v)
    {ks : List (List Char)} {s : LogSt} (hs : Inv ks s) :
    Shows s (putVal .unix lit v s) (styled lit v) ∧ Inv ks (putVal .unix lit v s) := by
  have e : putVal .unix lit v s =
      (let c3 := resetFmt .unix (stringify .unix true lit v (resetFmt .unix s.cout))
       let l := stringify .unix false lit v ⟨s.log, c3.cache⟩
       { s with cout := ⟨c3.out, l.cache⟩, log := l.out }) := by
    have := hs.idle.2
    unfold putVal
    simp only [this, Bool.false_eq_true, if_false, putTitle_nil .unix s hs.idle.1]
  obtain ⟨t, h1, h2, h3⟩ := C82_element lit hl v hv s.cout {}
  rw [e]
  refine ⟨⟨t, ?_, h2⟩, ⟨hs.idle, ?_, hs.colors, hs.last⟩⟩
  · exact h1
  · exact keeps_val lit v _ rfl

theorem vals_shows {lit : List Char} (hl : NoEsc lit) {vs : List Val} (hv : ∀ v ∈ vs, Clean v)
    {ks : List (List Char)} {s : LogSt} (hs : Inv ks s) :
    Shows s (exec .unix lit (vs.map Op.val) s) ((vs.map (styled lit)).flatten) ∧
      Inv ks (exec .unix lit (vs.map Op.val) s) := by
  induction vs generalizing s with
  | nil => exact ⟨⟨[], by simp [exec], rfl⟩, hs⟩
  | cons v vs ih =>
    obtain ⟨h1, h2⟩ := putVal_shows hl (hv v (by simp)) hs
    obtain ⟨h3, h4⟩ := ih (fun w hw => hv w (List.mem_cons_of_mem _ hw)) h2
    exact ⟨h1.trans h3, h4⟩

theorem endl_shows {lit : List Char} {ks : List (List Char)} {s : LogSt} (hs : Inv ks s) :
    Shows s (exec .unix lit [Op.endl] s) (paint {} ['\n']) ∧ Inv ks (exec .unix lit [Op.endl] s) :=
  ⟨⟨['\n'], rfl, rfl⟩, ⟨hs.idle, hs.cache, hs.colors, hs.last⟩⟩

/-- The title column: shown in its colour, followed by a reset sequence when the value comes. -/
theorem title_shows {ks : List (List Char)} {s : LogSt} (hs : Inv ks s) (c : Char)
    (cs : List Char) (hc : NoEsc (c :: cs)) :
    ∃ x, (putTitle .unix { s with title := c :: cs }).cout.out = s.cout.out ++ x ∧
      run .plain {} (x ++ resetSeq) =
        (paint { bold := true, fg := 31 + (addTitle ks (c :: cs)).idxOf (c :: cs) % 5 }
          (Spec.column (c :: cs)), .plain, {}) ∧
      (putTitle .unix { s with title := c :: cs }).colors = colorsFrom 0 (addTitle ks (c :: cs)) ∧
      (putTitle .unix { s with title := c :: cs }).lastColorIdx =
        2 + (addTitle ks (c :: cs)).length ∧
      Idle (putTitle .unix { s with title := c :: cs }) := by
  set t := c :: cs with ht
  have hfind := find_colors 0 ks t
  have hpad : padded (bracket t) = Spec.column t := padded_eq t
  have hcol : NoEsc (Spec.column t) := by
    intro h
    rw [← padded_eq] at h
    simp only [padded, List.mem_append, List.mem_replicate] at h
    rcases h with ((h | h) | h) | h
    · simp at h
    · exact hc h
    · simp at h
    · exact absurd h.2 (by decide)
  -- what is drawn, for a colour `k`
  have draw : ∀ k : Color, run .plain {}
      ((fmtStr ⟨.none, k, .default⟩ ++ (fmtStr ⟨.bold, k, .default⟩ ++ Spec.column t)) ++ resetSeq) =
        (paint { bold := true, fg := fgCode k } (Spec.column t), .plain, {}) := by
    intro k
    rw [run_append, run_append, run_fmtStr, run_append, run_fmtStr, run_text _ _ hcol]
    simp only [sgr_fg, sgr_bg, run_reset]
    simp only [List.nil_append, List.append_nil]
    rfl
  have hcache := hs.cache
  have e : putTitle .unix { s with title := t } =
      (let s1 := getUniqueColor .unix (bracket t) { s with title := t }
       let s2 := { s1 with cout := put (padded (bracket t)) (setStyle .unix .bold s1.cout) }
       let s3 := { s2 with log := s2.log ++ padded (bracket t) }
       { s3 with title := [] }) := rfl
  by_cases hmem : t ∈ ks
  · rw [if_pos hmem] at hfind
    have hg : getUniqueColor .unix (bracket t) { s with title := t } =
        { s with title := t, cout := setColorFG .unix (colorOfIdx (2 + (0 + ks.idxOf t))) s.cout } := by
      unfold getUniqueColor
      simp only [hs.colors, hfind]
    have ha : addTitle ks t = ks := if_pos hmem
    rw [e, hg, ha]
    refine ⟨fmtStr ⟨.none, colorOfIdx (2 + ks.idxOf t), .default⟩ ++
        (fmtStr ⟨.bold, colorOfIdx (2 + ks.idxOf t), .default⟩ ++ Spec.column t), ?_, ?_,
      hs.colors, hs.last, rfl, hs.idle.2⟩
    · simp only [put, setStyle, setColorFG, hcache, Cache.init, Nat.zero_add, hpad,
        List.append_assoc]
    · rw [draw, fg_colorOfIdx]
  · rw [if_neg hmem] at hfind
    have hg : getUniqueColor .unix (bracket t) { s with title := t } =
        { s with title := t, cout := setColorFG .unix (colorOfIdx s.lastColorIdx) s.cout,
                 colors := s.colors ++ [(bracket t, colorOfIdx s.lastColorIdx)],
                 lastColorIdx := s.lastColorIdx + 1 } := by
      unfold getUniqueColor
      simp only [hs.colors, hfind]
    have ha : addTitle ks t = ks ++ [t] := if_neg hmem
    have hi : (ks ++ [t]).idxOf t = ks.length := by
      rw [List.idxOf_append_of_notMem hmem]; simp
    rw [e, hg, ha, hi]
    refine ⟨fmtStr ⟨.none, colorOfIdx (2 + ks.length), .default⟩ ++
        (fmtStr ⟨.bold, colorOfIdx (2 + ks.length), .default⟩ ++ Spec.column t), ?_, ?_, ?_, ?_,
      rfl, hs.idle.2⟩
    · simp only [put, setStyle, setColorFG, hcache, Cache.init, hpad,
        List.append_assoc, hs.last]
    · rw [draw, fg_colorOfIdx]
    · simp only [hs.colors, hs.last, colorsFrom_append, Nat.zero_add]
    · simp only [hs.last, List.length_append, List.length_singleton]; omega

/-- The titles after a line. -/
def addLine (ks : List (List Char)) (l : Line) : List (List Char) :=
  match l.title with
  | none => ks
  | some [] => ks
  | some (c :: cs) => addTitle ks (c :: cs)

theorem line_shows {lit : List Char} (hl : NoEsc lit) (l : Line) (hc : l.Clean)
    {ks : List (List Char)} {s : LogSt} (hs : Inv ks s) (γ : List Char → Nat)
    (hγ : ∀ t, t ∈ addLine ks l → γ t = 31 + (addLine ks l).idxOf t % 5) :
    Shows s (exec .unix lit l.ops s) (l.shown γ lit) ∧
      Inv (addLine ks l) (exec .unix lit l.ops s) := by
  obtain ⟨t, v, vs⟩ := l
  obtain ⟨hc1, hc2⟩ := hc
  have notitle : ∀ s : LogSt, Inv ks s →
      Shows s (exec .unix lit ((v :: vs).map Op.val ++ [Op.endl]) s)
        (((v :: vs).map (styled lit)).flatten ++ paint {} ['\n']) ∧
      Inv ks (exec .unix lit ((v :: vs).map Op.val ++ [Op.endl]) s) := by
    intro s hs
    obtain ⟨h1, h2⟩ := vals_shows hl (vs := v :: vs) hc2 hs
    obtain ⟨h3, h4⟩ := endl_shows (lit := lit) h2
    rw [exec_append]
    exact ⟨h1.trans h3, h4⟩
  cases t with
  | none =>
    have := notitle s hs
    exact this
  | some t =>
    have e : exec .unix lit (Line.mk (some t) v vs).ops s =
        exec .unix lit ((v :: vs).map Op.val ++ [Op.endl]) { s with title := t } := by
      show exec .unix lit ((v :: vs).map Op.val ++ [Op.endl])
        (step .unix lit s (.title (.leaf .string t))) = _
      rw [title_state .unix lit t s hs.idle]
    cases t with
    | nil =>
      have e0 : ({ s with title := [] } : LogSt) = s := by
        have := hs.idle.1
        obtain ⟨c, l, t, su, co, la⟩ := s
        simp only at this; subst this; rfl
      rw [e, e0]
      exact notitle s hs
    | cons c cs =>
      obtain ⟨x, h1, h2, h3, h4, h5⟩ := title_shows hs c cs (hc1 _ rfl)
      have hv := hc2 v (by simp)
      -- the first value
      set s0 := putTitle .unix { s with title := c :: cs } with hs0
      have ep : putVal .unix lit v { s with title := c :: cs } =
          (let c3 := resetFmt .unix (stringify .unix true lit v (resetFmt .unix s0.cout))
           let l := stringify .unix false lit v ⟨s0.log, c3.cache⟩
           { s0 with cout := ⟨c3.out, l.cache⟩, log := l.out }) := by
        have hsup : ({ s with title := c :: cs } : LogSt).suppressed = false := hs.idle.2
        unfold putVal
        rw [if_neg (by rw [hsup]; decide)]
      obtain ⟨y, a, g1, g2⟩ := C82_shown lit hl v hv (resetFmt .unix s0.cout) rfl
      have i1 : Inv (addTitle ks (c :: cs)) (putVal .unix lit v { s with title := c :: cs }) := by
        rw [ep]
        exact ⟨h5, keeps_val lit v _ rfl, h3, h4⟩
      have w1 : Shows s (putVal .unix lit v { s with title := c :: cs })
          (paint { bold := true, fg := γ (c :: cs) } (Spec.column (c :: cs)) ++ styled lit v) := by
        refine ⟨(x ++ resetSeq) ++ (y ++ resetSeq), ?_, ?_⟩
        · rw [ep]
          show (stringify .unix true lit v (resetFmt .unix s0.cout)).out ++ resetSeq = _
          rw [g1]
          show ((s0.cout.out ++ resetSeq) ++ y) ++ resetSeq = _
          rw [h1]
          simp only [List.append_assoc]
        · rw [run_append, h2, run_append, g2, run_reset]
          have := hγ (c :: cs) (mem_addTitle ks (c :: cs))
          rw [this]
          simp only [List.append_nil]
          rfl
      obtain ⟨h6, h7⟩ := vals_shows hl (vs := vs)
        (fun w hw => hc2 w (List.mem_cons_of_mem _ hw)) i1
      obtain ⟨h8, h9⟩ := endl_shows (lit := lit) h7
      have e3 : exec .unix lit ((v :: vs).map Op.val ++ [Op.endl]) { s with title := c :: cs } =
          exec .unix lit [Op.endl] (exec .unix lit (vs.map Op.val)
            (putVal .unix lit v { s with title := c :: cs })) := by
        rw [exec_append]; rfl
      rw [e, e3]
      refine ⟨?_, h9⟩
      have := (w1.trans h6).trans h8
      simpa only [Line.shown, List.map_cons, List.flatten_cons, List.append_assoc] using this

theorem firsts_titles (ks : List (List Char)) (l : Line) (ls : List Line) :
    Spec.firsts ks (Spec.titles (l :: ls)) = Spec.firsts (addLine ks l) (Spec.titles ls) := by
  obtain ⟨t, v, vs⟩ := l
  rcases t with _ | _ | ⟨c, cs⟩
  · rfl
  · rfl
  · simp only [Spec.titles, Spec.firsts, addLine, addTitle]
    split <;> rfl

/-- Later titles come after the earlier ones. -/
theorem firsts_prefix (ks ts : List (List Char)) : ∃ more, Spec.firsts ks ts = ks ++ more := by
  induction ts generalizing ks with
  | nil => exact ⟨[], by simp [Spec.firsts]⟩
  | cons t ts ih =>
    simp only [Spec.firsts]
    split
    · exact ih ks
    · obtain ⟨m, hm⟩ := ih (ks ++ [t])
      exact ⟨[t] ++ m, by rw [hm, List.append_assoc]⟩

theorem lines_shows {lit : List Char} (hl : NoEsc lit) (ls : List Line) (hc : ∀ l ∈ ls, l.Clean)
    {ks : List (List Char)} {s : LogSt} (hs : Inv ks s) (γ : List Char → Nat)
    (hγ : ∀ t, γ t = 31 + (Spec.firsts ks (Spec.titles ls)).idxOf t % 5) :
    Shows s (exec .unix lit (ls.map Line.ops).flatten s)
      ((ls.map (Line.shown γ lit)).flatten) := by
  induction ls generalizing s ks with
  | nil => exact ⟨[], by simp [exec], rfl⟩
  | cons l ls ih =>
    have hγ' : ∀ t, γ t = 31 + (Spec.firsts (addLine ks l) (Spec.titles ls)).idxOf t % 5 := by
      intro t; rw [hγ, firsts_titles]
    obtain ⟨more, hm⟩ := firsts_prefix (addLine ks l) (Spec.titles ls)
    obtain ⟨h1, h2⟩ := line_shows hl l (hc l (by simp)) hs γ (by
      intro t ht
      rw [hγ', hm, List.idxOf_append_of_mem ht])
    have := ih (fun l hl => hc l (List.mem_cons_of_mem _ hl)) h2 hγ'
    rw [List.map_cons, List.flatten_cons, exec_append, List.map_cons, List.flatten_cons]
    exact h1.trans this

/-- **C86.** What the log writes to the console on Linux is shown by the terminal as it should: every
line with its title — bold, in the colour of the title — in the first 38 columns and then its values
with their own formatting; the same title always has the same colour, the colours are given in turn,
and the formatting is reset at the end. -/
theorem C86_console (lit : List Char) (hl : NoEsc lit) (ls : List Line) (hc : ∀ l ∈ ls, l.Clean) :
    run .plain {} (exec .unix lit (ls.map Line.ops).flatten LogSt.init).cout.out =
      ((ls.map (Line.shown (Spec.colour (Spec.titles ls)) lit)).flatten, .plain, {}) := by
  obtain ⟨x, h1, h2⟩ := lines_shows hl ls hc (ks := []) (s := LogSt.init)
    ⟨⟨rfl, rfl⟩, rfl, rfl, rfl⟩ (Spec.colour (Spec.titles ls)) (fun t => rfl)
  have : (exec .unix lit (ls.map Line.ops).flatten LogSt.init).cout.out = x := by
    rw [h1]; rfl
  rw [this, h2]

/-- **C86.** Two of the first five titles have different colours. -/
theorem C86_distinct (ts : List (List Char)) (t u : List Char)
    (ht : t ∈ (Spec.firsts [] ts).take 5) (hu : u ∈ (Spec.firsts [] ts).take 5) (h : t ≠ u) :
    Spec.colour ts t ≠ Spec.colour ts u := by
  set fs := Spec.firsts [] ts with hfs
  have lt5 : ∀ t, t ∈ fs.take 5 → fs.idxOf t < 5 ∧ t ∈ fs := by
    intro t ht
    have h1 : t ∈ fs := List.mem_of_mem_take ht
    refine ⟨?_, h1⟩
    have : (fs.take 5 ++ fs.drop 5).idxOf t = (fs.take 5).idxOf t := List.idxOf_append_of_mem ht
    rw [List.take_append_drop] at this
    rw [this]
    have := List.idxOf_lt_length_of_mem ht
    simp at this
    omega
  obtain ⟨a1, a2⟩ := lt5 t ht
  obtain ⟨b1, b2⟩ := lt5 u hu
  intro e
  have e' : 31 + fs.idxOf t % 5 = 31 + fs.idxOf u % 5 := e
  rw [Nat.mod_eq_of_lt a1, Nat.mod_eq_of_lt b1] at e'
  have : fs.idxOf t = fs.idxOf u := by omega
  exact h ((List.idxOf_inj a2).1 this)

/-- Lines for which C84 and C86 say something. -/
theorem C86_witness :
    (∀ l ∈ [Line.mk (some ['a']) (.leaf .int ['1']) [.leaf .string ['x', 'y']],
        Line.mk none (.seq true [.leaf .long ['2']]) [],
        Line.mk (some ['b']) (.leaf .other ['z']) []], l.Clean) ∧
    Spec.colour [['a'], ['b']] ['b'] = 32 := by
  constructor
  · intro l hl
    simp only [List.mem_cons, List.not_mem_nil, or_false] at hl
    rcases hl with rfl | rfl | rfl <;> simp [Line.Clean, Clean, Cleans, NoEsc]
  · decide

end Verif.Log
