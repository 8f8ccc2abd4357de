import Verif.CmdLine.LemmasParse

/-! # Sorting the words -/

namespace Verif.CmdLine

open Verif Spec

/-- The part of a word before the first `=`. -/
def nameOf (w : Str) : Str := w.takeWhile (· != '=')

/-- The part after it. -/
def valueOf (w : Str) : Str := (w.dropWhile (· != '=')).drop 1

theorem findIdx?_eq (w : Str) : (w.contains '=' = false ∧ w.findIdx? (· == '=') = none) ∨
    (w.contains '=' = true ∧ ∃ pos, w.findIdx? (· == '=') = some pos ∧ w.take pos = nameOf w ∧ w.drop (pos + 1) = valueOf w) := by
  induction w with
  | nil => exact .inl ⟨rfl, rfl⟩
  | cons c w ih =>
    by_cases hc : c = '='
    · subst hc
      exact .inr ⟨by simp, 0, by simp [List.findIdx?_cons], by simp [nameOf], by simp [valueOf]⟩
    · rcases ih with ⟨h1, h2⟩ | ⟨h1, pos, h2, h3, h4⟩
      · left
        refine ⟨?_, ?_⟩
        · simp only [List.contains_cons, h1, Bool.or_false, beq_eq_false_iff_ne]; exact Ne.symm hc
        · simp [List.findIdx?_cons, hc, h2]
      · right
        refine ⟨by simp only [List.contains_cons, h1, Bool.or_true], pos + 1, ?_, ?_, ?_⟩
        · simp [List.findIdx?_cons, hc, h2]
        · simp [nameOf, hc]; simpa [nameOf] using h3
        · simp [valueOf, hc]; simpa [valueOf] using h4

theorem assigns_of (w : Str) (h : w.contains '=' = true) : Assigns w (nameOf w) (valueOf w) := by
  constructor
  · induction w with
    | nil => simp at h
    | cons c w ih =>
      by_cases hc : c = '='
      · subst hc; simp [nameOf, valueOf]
      · have : w.contains '=' = true := by
          simp only [List.contains_cons, Bool.or_eq_true, beq_iff_eq] at h
          rcases h with h | h
          · exact absurd h.symm hc
          · exact h
        have := ih this
        simp only [nameOf, valueOf] at this ⊢
        simp [hc]
        simpa using this
  · intro hm
    have := List.all_eq_true.1 (List.all_takeWhile (p := (· != '=')) (l := w)) _ hm
    simp at this

theorem assigns_unique {w n v : Str} (h : Assigns w n v) : nameOf w = n ∧ valueOf w = v := by
  obtain ⟨rfl, hn⟩ := h
  induction n with
  | nil => simp [nameOf, valueOf]
  | cons c n ih =>
    have hc : c ≠ '=' := fun e => hn (by simp [e])
    obtain ⟨h1, h2⟩ := ih (fun hm => hn (by simp [hm]))
    simp only [nameOf, valueOf] at h1 h2 ⊢
    simp [hc]
    exact ⟨h1, by simpa using h2⟩

/-- The word names an optional flag value. -/
def isOpt (cmd : Cmd) (w : Str) : Bool := cmd.flagValuesOpt.any (fun f => hasName f.short f.long (nameOf w))

/-- The entered words with a value that are not optional flag values. -/
def reqFlags (cmd : Cmd) (ws : List Str) : List Str := (valuedFlags ws).filter (fun w => !isOpt cmd w)

/-- Those that are. -/
def optFlags (cmd : Cmd) (ws : List Str) : List Str := (valuedFlags ws).filter (isOpt cmd)

theorem scanWord_eq (cmd : Cmd) (sc : Scan) (w : Str) : scanWord cmd sc w =
    if isFlagWord w then
      if w.contains '=' then
        if isOpt cmd w then
          if cmd.flagValuesOpt.length < sc.fvos.length + 1 then .error (.threw (.mismatch .optionalFlagValues cmd.flagValuesOpt.length))
          else .ok { sc with fvos := sc.fvos ++ [w], fvoValues := sc.fvoValues ++ [valueOf w] }
        else .ok { sc with fvs := sc.fvs ++ [w], fvValues := sc.fvValues ++ [valueOf w] }
      else if cmd.flags.length < sc.flags.length + 1 then .error (.threw (.mismatch .flags cmd.flags.length))
      else .ok { sc with flags := sc.flags ++ [w] }
    else .ok sc := by
  unfold scanWord
  rw [beginsAsFlag_eq]
  simp only [bind, Except.bind]
  cases isFlagWord w with
  | false => simp [pure, Except.pure]
  | true =>
    simp only [if_true]
    rcases findIdx?_eq w with ⟨h1, h2⟩ | ⟨h1, pos, h2, h3, h4⟩
    · rw [h1, h2]
      simp [pure, Except.pure]
    · rw [h1, h2]
      simp only [h3, h4, if_true]
      unfold isOpt
      split
      · rename_i h; simp [pure, Except.pure]
      · rename_i h; simp [pure, Except.pure]

theorem scan_eq (cmd : Cmd) (ws : List Str) : ∀ (sc : Scan), 
    (sc.flags.length ≤ cmd.flags.length) → (sc.fvos.length ≤ cmd.flagValuesOpt.length) →
    (sc.flags.length + (bareFlags ws).length ≤ cmd.flags.length ∧ sc.fvos.length + (optFlags cmd ws).length ≤ cmd.flagValuesOpt.length ∧
      scan cmd ws sc = .ok ⟨sc.flags ++ bareFlags ws, sc.fvs ++ reqFlags cmd ws, sc.fvValues ++ (reqFlags cmd ws).map valueOf,
        sc.fvos ++ optFlags cmd ws, sc.fvoValues ++ (optFlags cmd ws).map valueOf⟩) ∨
    (cmd.flags.length < sc.flags.length + (bareFlags ws).length ∧ scan cmd ws sc = .error (.threw (.mismatch .flags cmd.flags.length))) ∨
    (cmd.flagValuesOpt.length < sc.fvos.length + (optFlags cmd ws).length ∧
      scan cmd ws sc = .error (.threw (.mismatch .optionalFlagValues cmd.flagValuesOpt.length))) := by
  induction ws with
  | nil => intro sc h1 h2; left; simp [bareFlags, optFlags, reqFlags, valuedFlags, scan, h1, h2]
  | cons w ws ih =>
    intro sc h1 h2
    have hs : scan cmd (w :: ws) sc = (scanWord cmd sc w).bind (scan cmd ws) := rfl
    rw [hs, scanWord_eq]
    by_cases hf : isFlagWord w = true
    · by_cases he : w.contains '=' = true
      · have eb : bareFlags (w :: ws) = bareFlags ws := by simp only [bareFlags, hf, he, List.filter_cons]; simp
        have ev : valuedFlags (w :: ws) = w :: valuedFlags ws := by simp only [valuedFlags, hf, he, List.filter_cons]; simp
        by_cases ho : isOpt cmd w = true
        · have eo : optFlags cmd (w :: ws) = w :: optFlags cmd ws := by simp [optFlags, ev, ho]
          have er : reqFlags cmd (w :: ws) = reqFlags cmd ws := by simp [reqFlags, ev, ho]
          simp only [hf, he, ho, if_true, eb, eo, er, List.length_cons]
          by_cases hl : cmd.flagValuesOpt.length < sc.fvos.length + 1
          · rw [if_pos hl]
            exact .inr (.inr ⟨by omega, rfl⟩)
          · rw [if_neg hl]
            rcases ih { sc with fvos := sc.fvos ++ [w], fvoValues := sc.fvoValues ++ [valueOf w] } h1 (by simp; omega) with ⟨a, b, c⟩ | ⟨a, c⟩ | ⟨a, c⟩
            · left
              refine ⟨a, by simp at b; omega, ?_⟩
              rw [Except.bind, c]; simp
            · exact .inr (.inl ⟨a, by rw [Except.bind]; exact c⟩)
            · refine .inr (.inr ⟨?_, by rw [Except.bind]; exact c⟩)
              simp at a
              omega
        · have ho' : isOpt cmd w = false := by simpa using ho
          have eo : optFlags cmd (w :: ws) = optFlags cmd ws := by simp [optFlags, ev, ho']
          have er : reqFlags cmd (w :: ws) = w :: reqFlags cmd ws := by simp [reqFlags, ev, ho']
          simp only [hf, he, ho', if_true, eb, eo, er, Bool.false_eq_true, if_false]
          rcases ih { sc with fvs := sc.fvs ++ [w], fvValues := sc.fvValues ++ [valueOf w] } h1 h2 with ⟨a, b, c⟩ | ⟨a, c⟩ | ⟨a, c⟩
          · left
            refine ⟨a, b, ?_⟩
            rw [Except.bind, c]; simp
          · exact .inr (.inl ⟨a, by rw [Except.bind]; exact c⟩)
          · exact .inr (.inr ⟨a, by rw [Except.bind]; exact c⟩)
      · have he' : w.contains '=' = false := by simpa using he
        have eb : bareFlags (w :: ws) = w :: bareFlags ws := by simp only [bareFlags, hf, he', List.filter_cons]; simp
        have ev : valuedFlags (w :: ws) = valuedFlags ws := by simp only [valuedFlags, hf, he', List.filter_cons]; simp
        have eo : optFlags cmd (w :: ws) = optFlags cmd ws := by simp [optFlags, ev]
        have er : reqFlags cmd (w :: ws) = reqFlags cmd ws := by simp [reqFlags, ev]
        simp only [hf, he', if_true, eb, eo, er, Bool.false_eq_true, if_false, List.length_cons]
        by_cases hl : cmd.flags.length < sc.flags.length + 1
        · rw [if_pos hl]
          exact .inr (.inl ⟨by omega, rfl⟩)
        · rw [if_neg hl]
          rcases ih { sc with flags := sc.flags ++ [w] } (by simp; omega) h2 with ⟨a, b, c⟩ | ⟨a, c⟩ | ⟨a, c⟩
          · left
            refine ⟨by simp at a; omega, b, ?_⟩
            rw [Except.bind, c]; simp
          · refine .inr (.inl ⟨?_, by rw [Except.bind]; exact c⟩)
            simp at a
            omega
          · exact .inr (.inr ⟨a, by rw [Except.bind]; exact c⟩)
    · have hf' : isFlagWord w = false := by simpa using hf
      have eb : bareFlags (w :: ws) = bareFlags ws := by simp [bareFlags, hf']
      have ev : valuedFlags (w :: ws) = valuedFlags ws := by simp [valuedFlags, hf']
      have eo : optFlags cmd (w :: ws) = optFlags cmd ws := by simp [optFlags, ev]
      have er : reqFlags cmd (w :: ws) = reqFlags cmd ws := by simp [reqFlags, ev]
      simp only [hf', eb, eo, er, Bool.false_eq_true, if_false]
      exact ih sc h1 h2

theorem foldl_erase (fs : List Str) : ∀ (ws : List Str), fs.foldl eraseRemove ws = ws.filter (fun w => !fs.contains w) := by
  induction fs with
  | nil => intro ws; simp
  | cons f fs ih =>
    intro ws
    rw [List.foldl_cons, ih, eraseRemove, List.filter_filter]
    congr 1
    funext w
    by_cases h : w = f <;> simp [h]

theorem erase_all (cmd : Cmd) (ws : List Str) :
    (optFlags cmd ws).foldl eraseRemove ((reqFlags cmd ws).foldl eraseRemove ((bareFlags ws).foldl eraseRemove ws)) = plain ws := by
  rw [foldl_erase, foldl_erase, foldl_erase, List.filter_filter, List.filter_filter, plain]
  apply List.filter_congr
  intro w hw
  rw [Bool.eq_iff_iff]
  simp only [Bool.and_eq_true, Bool.not_eq_true', List.contains_eq_mem, decide_eq_false_iff_not]
  constructor
  · rintro ⟨⟨h1, h2⟩, h3⟩
    rw [Bool.eq_false_iff]
    intro hf
    by_cases he : w.contains '=' = true
    · have hv : w ∈ valuedFlags ws := List.mem_filter.2 ⟨hw, by simp [hf]; simpa using he⟩
      by_cases ho : isOpt cmd w = true
      · exact h1 (List.mem_filter.2 ⟨hv, ho⟩)
      · exact h2 (List.mem_filter.2 ⟨hv, by simpa using ho⟩)
    · exact h3 (List.mem_filter.2 ⟨hw, by simp [hf]; simpa using he⟩)
  · intro hf
    refine ⟨⟨?_, ?_⟩, ?_⟩
    · intro h; have := (List.mem_filter.1 (List.mem_filter.1 h).1).2; simp [hf] at this
    · intro h; have := (List.mem_filter.1 (List.mem_filter.1 h).1).2; simp [hf] at this
    · intro h; have := (List.mem_filter.1 h).2; simp [hf] at this

theorem takeArgs_eq (count n : Nat) : ∀ ws : List Str, takeArgs count n ws =
    if n ≤ ws.length then .ok (ws.take n, ws.drop n) else .error (.threw (.mismatch .args count)) := by
  induction n with
  | zero => intro ws; simp [takeArgs]
  | succ n ih =>
    intro ws
    cases ws with
    | nil => simp [takeArgs]
    | cons w ws =>
      rw [takeArgs, ih]
      by_cases h : n ≤ ws.length
      · simp [h, bind, Except.bind, pure, Except.pure]
      · simp [h, bind, Except.bind]

theorem takeOpt_eq (n : Nat) : ∀ ws : List Str, takeOpt n ws = (ws.take n, ws.drop n) := by
  induction n with
  | zero => intro ws; simp [takeOpt]
  | succ n ih =>
    intro ws
    cases ws with
    | nil => simp [takeOpt]
    | cons w ws => simp [takeOpt, ih]

/-- The counts that are checked before a value is set. -/
def CountsOk (cmd : Cmd) (ws : List Str) : Prop :=
  (bareFlags ws).length ≤ cmd.flags.length ∧ (optFlags cmd ws).length ≤ cmd.flagValuesOpt.length ∧
  (reqFlags cmd ws).length = cmd.flagValues.length ∧ cmd.args.length ≤ (plain ws).length

/-- A wrong number. -/
inductive Miscount (cmd : Cmd) (ws : List Str) : Err → Prop where
  | flags (h : cmd.flags.length < (bareFlags ws).length) : Miscount cmd ws (.mismatch .flags cmd.flags.length)
  | opts (h : cmd.flagValuesOpt.length < (optFlags cmd ws).length) : Miscount cmd ws (.mismatch .optionalFlagValues cmd.flagValuesOpt.length)
  | reqs (h : (reqFlags cmd ws).length ≠ cmd.flagValues.length) : Miscount cmd ws (.mismatch .requiredFlagValues cmd.flagValues.length)
  | args (h : (plain ws).length < cmd.args.length) : Miscount cmd ws (.mismatch .args cmd.args.length)

theorem Miscount.not_ok {cmd : Cmd} {ws : List Str} {e : Err} (h : Miscount cmd ws e) : ¬ CountsOk cmd ws := by
  rintro ⟨h1, h2, h3, h4⟩
  cases h <;> omega

theorem Miscount.mismatch {cmd : Cmd} {ws : List Str} {e : Err} (h : Miscount cmd ws e) : ∃ w n, e = .mismatch w n := by
  cases h <;> exact ⟨_, _, rfl⟩

theorem sortWords_cases (cmd : Cmd) (ws : List Str) :
    (CountsOk cmd ws ∧ sortWords cmd ws = .ok (⟨bareFlags ws, reqFlags cmd ws, (reqFlags cmd ws).map valueOf, optFlags cmd ws,
        (optFlags cmd ws).map valueOf⟩, (plain ws).take cmd.args.length, ((plain ws).drop cmd.args.length).take cmd.argsOpt.length,
        ((plain ws).drop cmd.args.length).drop cmd.argsOpt.length)) ∨
    ∃ e, Miscount cmd ws e ∧ sortWords cmd ws = .error (.threw e) := by
  unfold sortWords CountsOk
  rcases scan_eq cmd ws ⟨[], [], [], [], []⟩ (by simp) (by simp) with ⟨a, b, c⟩ | ⟨a, c⟩ | ⟨a, c⟩
  · simp only [List.length_nil, Nat.zero_add, List.nil_append] at a b c
    rw [c]
    simp only [bind, Except.bind]
    by_cases hl : (reqFlags cmd ws).length = cmd.flagValues.length
    · rw [if_neg (by simp [hl]), erase_all, takeArgs_eq]
      by_cases ha : cmd.args.length ≤ (plain ws).length
      · left
        refine ⟨⟨a, b, hl, ha⟩, ?_⟩
        rw [if_pos ha]
        simp only [takeOpt_eq, pure, Except.pure]
      · right
        refine ⟨_, .args (by omega), ?_⟩
        rw [if_neg ha]
    · right
      refine ⟨_, .reqs hl, ?_⟩
      rw [if_pos hl]
  · right
    simp only [List.length_nil, Nat.zero_add] at a
    exact ⟨_, .flags a, by rw [c]; rfl⟩
  · right
    simp only [List.length_nil, Nat.zero_add] at a
    exact ⟨_, .opts a, by rw [c]; rfl⟩

end Verif.CmdLine
