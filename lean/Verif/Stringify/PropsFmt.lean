import Verif.Stringify.Theorems

/-!
# What a terminal shows

The text printed with formatting, drawn by a terminal, is `styled`; the text printed without
formatting on Linux, which contains reset sequences, is drawn as promised by C62.
-/

namespace Verif.Stringify

/-! ### The terminal -/

theorem run_append (m : Mode) (a : Attr) (t u : List Char) :
    run m a (t ++ u) =
      ((run m a t).1 ++ (run (run m a t).2.1 (run m a t).2.2 u).1,
        (run (run m a t).2.1 (run m a t).2.2 u).2) := by
  induction t generalizing m a with
  | nil => rfl
  | cons c cs ih =>
    simp only [List.cons_append, run, ih]
    split <;> rfl

theorem run_text (a : Attr) (t : List Char) (h : NoEsc t) :
    run .plain a t = (paint a t, .plain, a) := by
  induction t with
  | nil => rfl
  | cons c cs ih =>
    have hc : c ≠ '\x1b' := fun e => h (by simp [e])
    have hcs : NoEsc cs := fun e => h (List.mem_cons_of_mem _ e)
    simp only [run, feed, if_neg hc, ih hcs, if_true, paint, List.map_cons]

theorem paint_append (a : Attr) (t u : List Char) : paint a (t ++ u) = paint a t ++ paint a u :=
  List.map_append ..

/-- The codes of the styles. -/
def styleCode : Style → Nat
  | .none => 0 | .bold => 1 | .dim => 2 | .underline => 4 | .blink => 5 | .reverseFGBG => 7
  | .hidden => 8 | .resetBold => 21 | .resetDim => 22 | .resetUnderline => 24 | .resetBlink => 25
  | .resetReverse => 27 | .resetHidden => 28

/-- The codes of the foreground colours. -/
def fgCode : Color → Nat
  | .default => 39 | .black => 30 | .red => 31 | .green => 32 | .yellow => 33 | .blue => 34
  | .magenta => 35 | .cyan => 36 | .lightGray => 37 | .darkGray => 90 | .lightRed => 91
  | .lightGreen => 92 | .lightYellow => 93 | .lightBlue => 94 | .lightMagenta => 95
  | .lightCyan => 96 | .lightWhite => 97

/-- The codes of the background colours. -/
def bgCode (k : Color) : Nat := fgCode k + 10

theorem run_style (ps : List Nat) (a : Attr) (y : Style) :
    run (.csi ps 0) a (styleStr y) = ([], .csi ps (styleCode y), a) := by cases y <;> rfl

theorem run_fg (ps : List Nat) (a : Attr) (k : Color) :
    run (.csi ps 0) a (colorFGStr k) = ([], .csi ps (fgCode k), a) := by cases k <;> rfl

theorem run_bg (ps : List Nat) (a : Attr) (k : Color) :
    run (.csi ps 0) a (colorBGStr k) = ([], .csi ps (bgCode k), a) := by cases k <;> rfl

/-- A format string draws nothing and sets the style, then the two colours. -/
theorem run_fmtStr (a : Attr) (c : Cache) :
    run .plain a (fmtStr c) =
      ([], .plain, sgr (sgr (sgr a (styleCode c.style)) (fgCode c.fg)) (bgCode c.bg)) := by
  have h1 : run .plain a ['\x1b', '['] = ([], .csi [] 0, a) := rfl
  have h2 : ∀ ps n, run (.csi ps n) a [';'] = ([], .csi (ps ++ [n]) 0, a) := fun _ _ => rfl
  have h3 : ∀ ps n, run (.csi ps n) a ['m'] = ([], .plain, (ps ++ [n]).foldl sgr a) :=
    fun _ _ => rfl
  simp only [fmtStr, run_append, h1, h2, h3, run_style, run_fg, run_bg]
  rfl

theorem sgr_fg (a : Attr) (k : Color) : sgr a (fgCode k) = { a with fg := fgCode k } := by
  cases k <;> rfl

theorem sgr_bg (a : Attr) (k : Color) : sgr a (bgCode k) = { a with bg := bgCode k } := by
  cases k <;> rfl

theorem run_reset (a : Attr) : run .plain a resetSeq = ([], .plain, {}) := rfl

/-! ### C62 on a terminal -/

/-- A text that a terminal with no attributes set draws as `u`, leaving it as it was. -/
def Looks (t u : List Char) : Prop := run .plain {} t = (paint {} u, .plain, {})

theorem Looks.append {t u t' u' : List Char} (h : Looks t u) (h' : Looks t' u') :
    Looks (t ++ t') (u ++ u') := by
  unfold Looks at *
  rw [run_append, h]
  simp only [h', paint_append]

theorem looks_text {t : List Char} (h : NoEsc t) : Looks t t := run_text {} t h

theorem looks_reset : Looks resetSeq [] := rfl

theorem looks_wrap {t u : List Char} (h : Looks t u) :
    Looks (resetSeq ++ t ++ resetSeq) ([] ++ u ++ []) :=
  (looks_reset.append h).append looks_reset

theorem looks_joined {sep : List Char} (hs : NoEsc sep) {ts us : List (List Char)}
    (h : List.Forall₂ Looks ts us) : Looks (joined sep ts) (joined sep us) := by
  induction h with
  | nil => rfl
  | cons h1 h2 ih =>
    cases h2 with
    | nil => exact h1
    | cons => exact (h1.append (looks_text hs)).append ih

theorem looks_braces {sep : List Char} (hs : NoEsc sep) {ts us : List (List Char)}
    (h : List.Forall₂ Looks ts us) : Looks (braces sep ts) (braces sep us) := by
  have h' := h
  cases h with
  | nil => rw [braces]; exact looks_text (by simp [NoEsc])
  | cons h1 h2 =>
    rw [braces, braces]
    exact ((looks_text (by simp [NoEsc])).append (looks_joined hs h')).append
      (looks_text (by simp [NoEsc]))

mutual
theorem looks_val {null : List Char} (hn : NoEsc null) : ∀ v : Val, Clean v →
    Looks (text resetSeq null v) (text [] null v)
  | .leaf _ t, h => by
    rw [Clean] at h; rw [text, text]; exact looks_text h
  | .ptr a, h => by
    rw [Clean] at h; rw [text, text]
    refine ((looks_text (by simp [NoEsc])).append (looks_text ?_)).append
      (looks_text (by simp [NoEsc]))
    cases a with
    | none => exact hn
    | some t => exact h t rfl
  | .seq _ vs, h => by
    rw [Clean] at h; rw [text, text]
    exact looks_braces (by simp [NoEsc]) (looks_vals hn vs h)
  | .tuple v vs, h => by
    rw [Clean] at h; rw [text, text]
    exact looks_braces (by simp [NoEsc])
      (.cons (looks_wrap (looks_val hn v h.1)) (looks_vals hn vs h.2))
  | .map _ es, h => by
    rw [Clean] at h; rw [text, text]
    exact looks_braces (by simp [NoEsc]) (looks_entries hn (by simp [NoEsc]) es h)
  | .bimap es, h => by
    rw [Clean] at h; rw [text, text]
    exact looks_braces (by simp [NoEsc]) (looks_entries hn (by simp [NoEsc]) es h)
theorem looks_vals {null : List Char} (hn : NoEsc null) : ∀ vs : List Val, Cleans vs →
    List.Forall₂ Looks (texts resetSeq null vs) (texts [] null vs)
  | [], _ => by rw [texts, texts]; exact .nil
  | v :: vs, h => by
    rw [Cleans] at h; rw [texts, texts]
    exact .cons (looks_wrap (looks_val hn v h.1)) (looks_vals hn vs h.2)
theorem looks_entries {null sep : List Char} (hn : NoEsc null) (hs : NoEsc sep) :
    ∀ es : List (Val × Val), CleanEntries es →
    List.Forall₂ Looks (entryTexts resetSeq null sep es) (entryTexts [] null sep es)
  | [], _ => by rw [entryTexts, entryTexts]; exact .nil
  | (k, v) :: es, h => by
    rw [CleanEntries] at h; rw [entryTexts, entryTexts]
    exact .cons (((looks_wrap (looks_val hn k h.1)).append (looks_text hs)).append
      (looks_wrap (looks_val hn v h.2.1))) (looks_entries hn hs es h.2.2)
end

/-- **C62 on Linux, as seen on a terminal**: what is streamed without formatting is drawn as the
promised text, with no attributes, by a terminal that had none set. -/
theorem C62_shown_linux (lit : List Char) (hl : NoEsc lit) (v : Val) (hv : Clean v) (s : St) :
    ∃ t, (stringify .unix false lit v s).out = s.out ++ t ∧
      run .plain {} t = (paint {} (text [] lit v), .plain, {}) :=
  ⟨_, C62_text_linux lit v s, looks_val hl v hv⟩

/-! ### With formatting -/

/-- From any state and whatever the attributes of the terminal: the printer draws `ds`. -/
def Draws (p : St → St) (ds : List (Char × Attr)) : Prop :=
  ∀ s a, ∃ t a', (p s).out = s.out ++ t ∧ run .plain a t = (ds, .plain, a')

/-- The same from the reset state only. -/
def Draws0 (p : St → St) (ds : List (Char × Attr)) : Prop :=
  ∀ s, s.cache = ⟨.none, .default, .default⟩ →
    ∃ t a', (p s).out = s.out ++ t ∧ run .plain {} t = (ds, .plain, a')

theorem draws_closed : Closed Draws := by
  intro p q t u hp hq s a
  obtain ⟨x, b, e1, e2⟩ := hp s a
  obtain ⟨y, c, e3, e4⟩ := hq (p s) b
  refine ⟨x ++ y, c, ?_, ?_⟩
  · simp only [e3, e1, List.append_assoc]
  · rw [run_append, e2]; simp only [e4]

theorem draws_fmt (t : List Char) (ht : NoEsc t) (k : Color) (y : Style)
    {b : Attr} (hb : sgr {} (styleCode y) = b) :
    Draws (printFmt .unix true t k y) (paint { b with fg := fgCode k, bg := 49 } t) := by
  intro s a
  refine ⟨fmtStr ⟨.none, .default, .default⟩ ++ (fmtStr ⟨.none, k, .default⟩ ++
    (fmtStr ⟨y, k, .default⟩ ++ t)), { b with fg := fgCode k, bg := 49 }, ?_, ?_⟩
  · simp [printFmt, setStyle, setColorFG, resetFmt, put]
  · simp only [run_append, run_fmtStr, sgr_fg, sgr_bg]
    have e1 : ∀ x : Attr, sgr x (styleCode .none) = {} := fun _ => rfl
    have e2 : sgr { ({} : Attr) with fg := fgCode k, bg := bgCode .default } (styleCode y) =
        { b with fg := if styleCode y = 0 then 39 else fgCode k, bg := 49 } := by
      subst hb; cases y <;> rfl
    simp only [e1]
    rw [e2, run_text _ _ ht]
    rfl

theorem draws_bold (t : List Char) (ht : NoEsc t) :
    Draws (printBold .unix true t .default) (paint punct t) :=
  draws_fmt t ht .default .bold rfl

theorem draws_ptr (a : Option (List Char)) (lit : List Char) (h : NoEsc (a.getD lit)) :
    Draws (strPtr .unix true lit a) (styledPtr (a.getD lit)) := by
  have := draws_closed _ _ _ _ (draws_closed _ _ _ _
    (draws_fmt ['['] (by simp [NoEsc]) .blue .bold rfl)
    (draws_fmt (a.getD lit) h .cyan .underline rfl))
    (draws_fmt [']'] (by simp [NoEsc]) .blue .bold rfl)
  cases a <;> exact this

theorem Draws.draws0 {p ds} (h : Draws p ds) : Draws0 p ds := fun s _ => h s {}

theorem draws_leaf (l : Leaf) (t : List Char) (ht : NoEsc t) :
    Draws0 (strLeaf .unix true l t) (styledLeaf t l) := by
  intro s hs
  have key : ∀ k y post (_ : NoEsc post) (b : Attr), sgr {} (styleCode y) = b →
      ∃ u a', (put post (put t (setColorFG .unix k (setStyle .unix y s)))).out = s.out ++ u ∧
        run .plain {} u = (paint { b with fg := fgCode k, bg := 49 } (t ++ post), .plain, a') := by
    intro k y post hpost b hb
    have hn : NoEsc (t ++ post) := by
      intro h; rcases List.mem_append.1 h with h | h
      · exact ht h
      · exact hpost h
    refine ⟨fmtStr ⟨y, .default, .default⟩ ++ (fmtStr ⟨y, k, .default⟩ ++ (t ++ post)),
      { b with fg := fgCode k, bg := 49 }, ?_, ?_⟩
    · simp [setStyle, setColorFG, put, hs]
    · rw [run_append, run_fmtStr, run_append, run_fmtStr, run_text _ _ hn]
      simp only [sgr_fg, sgr_bg, hb]
      have e2 : sgr { b with fg := fgCode .default, bg := bgCode .default } (styleCode y) =
          { b with fg := 39, bg := 49 } := by
        subst hb; cases y <;> rfl
      rw [e2]
      rfl
  have e : NoEsc [] := by simp [NoEsc]
  cases l with
  | int =>
    have h := key .lightBlue .bold [] e _ rfl
    rw [List.append_nil] at h
    exact h
  | long => exact key .lightBlue .bold ['l'] (by simp [NoEsc]) _ rfl
  | uint => exact key .lightBlue .bold ['u'] (by simp [NoEsc]) _ rfl
  | ulong => exact key .lightBlue .bold ['u', 'l'] (by simp [NoEsc]) _ rfl
  | float => exact key .lightRed .bold ['f'] (by simp [NoEsc]) _ rfl
  | double => exact key .lightRed .bold ['d'] (by simp [NoEsc]) _ rfl
  | string =>
    have h := key .lightYellow .none [] e _ rfl
    rw [List.append_nil] at h
    exact h
  | other => exact ⟨t, {}, rfl, run_text {} t ht⟩

/-- The state after an element is the reset one, whatever was before. -/
theorem draws_call {p : St → St} {ds : List (Char × Attr)} (h : Draws0 p ds) :
    Draws (callStringifyImpl .unix true p) ds := by
  intro s a
  obtain ⟨t, a', e1, e2⟩ := h (resetFmt .unix s) rfl
  refine ⟨resetSeq ++ (t ++ resetSeq), {}, ?_, ?_⟩
  · have : (callStringifyImpl .unix true p s).out = (p (resetFmt .unix s)).out ++ resetSeq := rfl
    rw [this, e1]
    have : (resetFmt .unix s).out = s.out ++ resetSeq := rfl
    rw [this]; simp only [List.append_assoc]
  · rw [run_append, run_reset, run_append, e2, run_reset]; simp

theorem draws_bold' (t : List Char) (ht : '\x1b' ∉ t) :
    Draws (printBold .unix true t .default) (paint punct t) := draws_bold t ht

mutual
theorem draws_val {lit : List Char} (hl : NoEsc lit) : ∀ v : Val, Clean v →
    Draws0 (stringify .unix true lit v) (styled lit v)
  | .leaf l t, h => by
    rw [Clean] at h; rw [stringify, styled]; exact draws_leaf l t h
  | .ptr a, h => by
    rw [Clean] at h; rw [stringify, styled]
    refine (draws_ptr a lit ?_).draws0
    cases a with
    | none => exact hl
    | some t => exact h t rfl
  | .seq b vs, h => by
    rw [Clean] at h; rw [stringify, styled]
    have h := draws_vals hl vs h
    revert h
    generalize callAll .unix true lit vs = ps
    generalize styleds lit vs = ts
    intro h
    cases h with
    | nil => rw [bracesP]; exact (rep_seq_nil draws_closed draws_bold' b).draws0
    | cons h h' => rw [bracesP]; exact (rep_seq draws_closed draws_bold' b h h').draws0
  | .tuple v vs, h => by
    rw [Clean] at h; rw [stringify, styled, bracesP]
    exact (rep_tuple draws_closed draws_bold' (draws_call (draws_val hl v h.1))
      (draws_vals hl vs h.2)).draws0
  | .map b es, h => by
    rw [Clean] at h; rw [stringify, styled]
    have h := draws_entries hl (sep := [' ', '-', '>', ' ']) es h
    revert h
    generalize callEntries .unix true lit es = ps
    generalize styledEntries lit [' ', '-', '>', ' '] es = ts
    intro h
    cases h with
    | nil => rw [bracesP]; exact (draws_bold _ (by simp [NoEsc])).draws0
    | cons h h' =>
      rw [bracesP]
      exact (rep_map draws_closed draws_bold' b _ _ (by decide) (by decide) h h').draws0
  | .bimap es, h => by
    rw [Clean] at h; rw [stringify, styled]
    have h := draws_entries hl (sep := [' ', '<', '-', '>', ' ']) es h
    revert h
    generalize callEntries .unix true lit es = ps
    generalize styledEntries lit [' ', '<', '-', '>', ' '] es = ts
    intro h
    cases h with
    | nil => rw [bracesP]; exact (draws_bold _ (by simp [NoEsc])).draws0
    | cons h h' =>
      rw [bracesP]
      exact (rep_map draws_closed draws_bold' true _ _ (by decide) (by decide) h h').draws0
theorem draws_vals {lit : List Char} (hl : NoEsc lit) : ∀ vs : List Val, Cleans vs →
    List.Forall₂ Draws (callAll .unix true lit vs) (styleds lit vs)
  | [], _ => by rw [callAll, styleds]; exact .nil
  | v :: vs, h => by
    rw [Cleans] at h; rw [callAll, styleds]
    exact .cons (draws_call (draws_val hl v h.1)) (draws_vals hl vs h.2)
theorem draws_entries {lit sep : List Char} (hl : NoEsc lit) :
    ∀ es : List (Val × Val), CleanEntries es →
    List.Forall₂ (EntryR Draws (paint punct) sep) (callEntries .unix true lit es)
      (styledEntries lit sep es)
  | [], _ => by rw [callEntries, styledEntries]; exact .nil
  | (k, v) :: es, h => by
    rw [CleanEntries] at h; rw [callEntries, styledEntries]
    exact .cons ⟨_, _, draws_call (draws_val hl k h.1), draws_call (draws_val hl v h.2.1), rfl⟩
      (draws_entries hl es h.2.2)
end

/-- **C82.** A value stringified with formatting on Linux, starting with the formatting reset, is
shown by the terminal as it should: the text of C62 with a letter after numbers that are not `int`s,
every part in its colour and style whatever it is nested in. -/
theorem C82_shown (lit : List Char) (hl : NoEsc lit) (v : Val) (hv : Clean v) (s : St)
    (hs : s.cache = ⟨.none, .default, .default⟩) :
    ∃ t a, (stringify .unix true lit v s).out = s.out ++ t ∧
      run .plain {} t = (styled lit v, .plain, a) :=
  draws_val hl v hv s hs

/-- **C82.** For an element of a container — or a value in the log — nothing has to be known about
the formatting before, and the formatting is reset afterwards. -/
theorem C82_element (lit : List Char) (hl : NoEsc lit) (v : Val) (hv : Clean v) (s : St)
    (a : Attr) :
    ∃ t, (callStringifyImpl .unix true (stringify .unix true lit v) s).out = s.out ++ t ∧
      run .plain a t = (styled lit v, .plain, {}) ∧
      (callStringifyImpl .unix true (stringify .unix true lit v) s).cache =
        ⟨.none, .default, .default⟩ := by
  obtain ⟨t, a', e1, e2⟩ := draws_val hl v hv (resetFmt .unix s) rfl
  refine ⟨resetSeq ++ (t ++ resetSeq), ?_, ?_, rfl⟩
  · have : (callStringifyImpl .unix true (stringify .unix true lit v) s).out =
        (stringify .unix true lit v (resetFmt .unix s)).out ++ resetSeq := rfl
    rw [this, e1]
    have : (resetFmt .unix s).out = s.out ++ resetSeq := rfl
    rw [this]; simp only [List.append_assoc]
  · rw [run_append, run_reset, run_append, e2, run_reset]; simp

/-- A value for which C82 says something: `std::map<int, std::vector<double>>`. -/
theorem C82_witness : Clean (.map true [(.leaf .int ['1'],
      .seq true [.leaf .double ['2', '.', '5'], .leaf .double ['3']]),
      (.leaf .int ['4'], .seq true [])]) ∧
    (styled [] (.map true [(.leaf .int ['1'],
      .seq true [.leaf .double ['2', '.', '5'], .leaf .double ['3']]),
      (.leaf .int ['4'], .seq true [])])).map Prod.fst =
      "{1 -> {2.5d, 3d}, 4 -> { EMPTY }}".toList := by
  constructor
  · simp [Clean, Cleans, CleanEntries, NoEsc]
  · decide +kernel

/-! ### Null pointers -/

/-- **C83 fails**: a null pointer is printed as an address — that of the text `nullptr` in the
program — and not as `[nullptr]`. -/
theorem C83_null_pointer (con : Con) (lit : List Char) (s : St) :
    (stringify con false lit (.ptr none) s).out = s.out ++ ['['] ++ lit ++ [']'] := by
  rw [emits_stringify con lit (.ptr none) s, text]
  simp

/-- It is not `[nullptr]` unless addresses look like this. -/
theorem C83_null_pointer_wrong (con : Con) (lit : List Char)
    (h : lit ≠ ['n', 'u', 'l', 'l', 'p', 't', 'r']) (s : St) :
    (stringify con false lit (.ptr none) s).out ≠
      s.out ++ ['[', 'n', 'u', 'l', 'l', 'p', 't', 'r', ']'] := by
  rw [C83_null_pointer]
  intro e
  rw [List.append_assoc, List.append_assoc] at e
  have e := List.append_cancel_left e
  have e : lit ++ [']'] = ['n', 'u', 'l', 'l', 'p', 't', 'r'] ++ [']'] := by simpa using e
  exact h (List.append_cancel_right e)

/-- **C83, partial**: other pointers are printed as their address in brackets. -/
theorem C83_pointer_partial (con : Con) (lit t : List Char) (s : St) :
    (stringify con false lit (.ptr (some t)) s).out = s.out ++ ['['] ++ t ++ [']'] := by
  rw [emits_stringify con lit (.ptr (some t)) s, text]
  simp

end Verif.Stringify
