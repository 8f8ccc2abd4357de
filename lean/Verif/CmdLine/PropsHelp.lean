import Verif.CmdLine.Help
import Verif.CmdLine.SpecHelp
import Verif.IntStr.Theorems

/-! # C115: help texts -/

namespace Verif.CmdLine

open Verif Spec

theorem ofKind_iff (k : EType) (es : List Elem) : ofKind k es = es.filter (fun e => decide (k = e.info.etype)) := by
  unfold ofKind
  congr 1
  funext e
  cases he : e.info <;> cases k <;> simp [EInfo.etype]

theorem created_eq (es : List Elem) : ∀ (g : Groups) (k : EType), created es g k = g k ++ ofKind k es := by
  induction es with
  | nil => intro g k; simp [created, ofKind]
  | cons e es ih =>
    intro g k
    rw [created, ih, ofKind_iff, ofKind_iff, Groups.create]
    by_cases h : k = e.info.etype
    · simp [h]
    · simp [h]

theorem toStr_size (buf : Str) (hb : buf.length = 19) (n : Nat) (h : n < 10 ^ 18) :
    IntStr.toStr .ulong buf n = .ok (IntStr.natText n) := by
  rw [IntStr.C37_toStr_partial .ulong buf hb n (by simp [IntStr.IntType.InRange, IntStr.IntType.signed, IntStr.IntType.bits]; omega)]
  rw [if_pos (by simp [IntStr.safeLo, IntStr.safeHi]; omega)]
  simp [IntStr.intText]

theorem usageStr_eq (buf : Str) (hb : buf.length = 19) (e : Elem) (h : SafeSizes e) : usageStr buf e = .ok (usage e) := by
  unfold usageStr usage
  split
  · rename_i he; simp [he]
  · rename_i he; simp [he]
  · rename_i min max he
    obtain ⟨h1, h2⟩ := h min max he
    rw [toStr_size buf hb min h1, Outcome.bind_ok]
    by_cases hz : min = 0 ∧ max = 0
    · simp [hz, he]
    · rw [if_neg (by simpa using hz), toStr_size buf hb max h2, Outcome.bind_ok]
      simp [he, hz]
  · rename_i he; simp [he]
  · rename_i he; simp [he]
  · rename_i he; simp [he]

theorem usage_ne_nil (e : Elem) : usage e ≠ [] := by
  unfold usage; split <;> simp

theorem elemHelp_eq (buf : Str) (hb : buf.length = 19) (e : Elem) (h : SafeSizes e) : elemHelp buf e = .ok (entry e) := by
  unfold elemHelp entry
  rw [usageStr_eq buf hb e h, Outcome.bind_ok]
  have hu : (usage e).isEmpty = false := by simp [usage_ne_nil]
  have hd : ∀ t : Str, t.isEmpty = false → t ≠ [] := by intro t h; simpa using h
  cases h1 : e.name.isEmpty <;> cases h2 : e.brief.isEmpty <;> cases h3 : e.desc.isEmpty <;>
    simp_all

theorem addHelps_eq (buf : Str) (hb : buf.length = 19) (es : List Elem) (h : ∀ e ∈ es, SafeSizes e) :
    ∀ r, addHelps buf es r = .ok (r ++ (es.map entry).flatten) := by
  induction es with
  | nil => intro r; simp [addHelps]
  | cons e es ih =>
    intro r
    rw [addHelps, elemHelp_eq buf hb e (h e List.mem_cons_self), Outcome.bind_ok, ih (fun x hx => h x (List.mem_cons_of_mem _ hx))]
    simp

theorem helpFor_eq (buf : Str) (hb : buf.length = 19) (g : Groups) (r : Str) (k : EType) (title : Str) (s : String)
    (ht : title = s.toList) (h : ∀ e ∈ g k, SafeSizes e) : helpFor buf g r k title = .ok (r ++ sect s (g k)) := by
  subst ht
  unfold helpFor sect
  by_cases he : g k = []
  · simp [he]
  · rw [if_neg (by simpa using he), if_neg he]
    dsimp only
    rw [addHelps_eq buf hb _ h]
    simp

/-- **C115 (help text), partial: bounds of argument packs below `10^18`.** For every sequence of `create` calls the help text of
the command is its description and one section for each kind of element in use, each with the elements of that kind in order of
creation. -/
theorem C115_help_text_partial (buf : Str) (hb : buf.length = 19) (desc : Str) (es : List Elem) (h : ∀ e ∈ es, SafeSizes e) :
    helpStr buf desc (created es (fun _ => [])) = .ok (help desc es) := by
  have hs : ∀ k, ∀ e ∈ created es (fun _ => []) k, SafeSizes e := by
    intro k e he
    rw [created_eq] at he
    simp only [List.nil_append, ofKind, List.mem_filter] at he
    exact h e he.1
  unfold helpStr
  dsimp only
  rw [helpFor_eq buf hb _ _ .arg tArg "Required arguments" (by decide) (hs _), Outcome.bind_ok,
    helpFor_eq buf hb _ _ .argOpt tArgOpt "Optional arguments" (by decide) (hs _), Outcome.bind_ok,
    helpFor_eq buf hb _ _ .argPack tPack "Argument packs" (by decide) (hs _), Outcome.bind_ok,
    helpFor_eq buf hb _ _ .flag tFlag "Flags" (by decide) (hs _), Outcome.bind_ok,
    helpFor_eq buf hb _ _ .flagValue tFlagValue "Flag values" (by decide) (hs _), Outcome.bind_ok,
    helpFor_eq buf hb _ _ .flagValueOpt tFlagValueOpt "Optional flag values" (by decide) (hs _)]
  simp only [created_eq, List.nil_append, help]
  by_cases hd : desc = []
  · simp [hd]
  · have : desc.isEmpty = false := by simpa using hd
    simp [hd, this]

theorem sect_infix (title : String) {es : List Elem} {e : Elem} (h : e ∈ es) : entry e <:+: sect title es := by
  unfold sect
  rw [if_neg (List.ne_nil_of_mem h)]
  obtain ⟨a, b, rfl⟩ := List.append_of_mem h
  refine ⟨"\t".toList ++ title.toList ++ ":\n".toList ++ (a.map entry).flatten, (b.map entry).flatten ++ "\n".toList, ?_⟩
  simp

theorem infL {a b x : Str} (h : x <:+: a) : x <:+: a ++ b := by
  obtain ⟨p, q, rfl⟩ := h
  exact ⟨p, q ++ b, by simp⟩

theorem infR {a b x : Str} (h : x <:+: b) : x <:+: a ++ b := by
  obtain ⟨p, q, rfl⟩ := h
  exact ⟨a ++ p, q, by simp⟩

/-- **C115 (complete).** Every element has its entry in the help text. -/
theorem C115_every_element_partial (buf : Str) (hb : buf.length = 19) (desc : Str) (es : List Elem)
    (h : ∀ e ∈ es, SafeSizes e) (e : Elem) (he : e ∈ es) :
    ∃ t, helpStr buf desc (created es (fun _ => [])) = .ok t ∧ ∃ a b, t = a ++ entry e ++ b := by
  refine ⟨_, C115_help_text_partial buf hb desc es h, ?_⟩
  have hm : e ∈ ofKind e.info.etype es := by rw [ofKind_iff]; simp [he]
  have key : entry e <:+: help desc es := by
    unfold help
    cases hk : e.info.etype <;> rw [hk] at hm
    · exact infL (infL (infL (infL (infL (infR (sect_infix _ hm))))))
    · exact infL (infL (infL (infL (infR (sect_infix _ hm)))))
    · exact infL (infL (infL (infR (sect_infix _ hm))))
    · exact infL (infL (infR (sect_infix _ hm)))
    · exact infL (infR (sect_infix _ hm))
    · exact infR (sect_infix _ hm)
  obtain ⟨a, b, e'⟩ := key
  exact ⟨a, b, e'.symm⟩

/-- **C115 (only the order within a kind matters).** -/
theorem C115_interleaving (buf : Str) (desc : Str) (es es' : List Elem) (h : ∀ k, ofKind k es = ofKind k es') :
    helpStr buf desc (created es (fun _ => [])) = helpStr buf desc (created es' (fun _ => [])) := by
  congr 1
  funext k
  rw [created_eq, created_eq, h]

/-- An argument pack with a large bound (such as the largest `std::size_t` for "no limit"): composing the help text writes
outside the buffer of the number conversion. -/
theorem C115_large_pack_fails (buf : Str) (hb : buf.length = 19) (desc : Str) (e : Elem) (min max : Nat)
    (he : e.info = .argPack min max) (h1 : min < 10 ^ 18) (h2 : 10 ^ 18 ≤ max) (h3 : max < 2 ^ 64) :
    helpStr buf desc (created [e] (fun _ => [])) = .ub := by
  have hu : usageStr buf e = .ub := by
    unfold usageStr
    rw [he]
    simp only
    rw [toStr_size buf hb min h1, Outcome.bind_ok, if_neg (by simp; omega),
      IntStr.C37_toStr_partial .ulong buf hb max (by simp [IntStr.IntType.InRange, IntStr.IntType.signed, IntStr.IntType.bits]; omega),
      if_neg (by simp [IntStr.safeLo, IntStr.safeHi]; omega)]
    rfl
  have hg : ∀ k, created [e] (fun _ => []) k = if k = .argPack then [e] else [] := by
    intro k
    rw [created_eq, ofKind_iff]
    by_cases hk : k = .argPack <;> simp [hk, he, EInfo.etype]
  unfold helpStr
  dsimp only
  have h0 : ∀ r t k, k ≠ .argPack → helpFor buf (created [e] (fun _ => [])) r k t = .ok r := by
    intro r t k hk; unfold helpFor; rw [hg, if_neg hk]; rfl
  rw [h0 _ _ _ (by decide), Outcome.bind_ok, h0 _ _ _ (by decide), Outcome.bind_ok]
  have h4 : ∀ r, helpFor buf (created [e] (fun _ => [])) r .argPack tPack = .ub := by
    intro r
    unfold helpFor
    rw [hg, if_pos rfl]
    simp [addHelps, elemHelp, hu]
  rw [h4]
  rfl

theorem buildLoop_eq {α : Type} (f : α → Outcome Str) (g : α → Str) (sep : Str) (c : List α) (hf : ∀ x ∈ c, f x = .ok (g x)) :
    ∀ (b a : List α) (r : Str), c = a ++ b → buildLoop f sep c a.length r = .ok (r ++ joined sep (b.map g)) := by
  intro b
  induction b with
  | nil =>
    intro a r h
    rw [buildLoop]
    split
    · simp [joined]
    · rename_i x hx; simp [h] at hx
  | cons y b ih =>
    intro a r h
    have hy : c[a.length]? = some y := by simp [h]
    rw [buildLoop]
    split
    · rename_i hx; rw [hy] at hx; cases hx
    · rename_i x hx
      rw [hy] at hx
      cases hx
      rw [hf y (by simp [h]), Outcome.bind_ok]
      have := ih (a ++ [y])
      simp only [List.length_append, List.length_cons, List.length_nil, Nat.zero_add, List.append_assoc, List.cons_append,
        List.nil_append] at this
      rw [this _ h]
      cases b with
      | nil => simp [h, joined]
      | cons z b => rw [if_pos (by simp [h])]; simp [joined]

/-- **C115 (names).** The names of a command are written between angle brackets, with ` || ` between them. -/
theorem C115_names (names : List Str) :
    namesStr names = .ok ("<".toList ++ joined " || ".toList names ++ ">".toList) := by
  have := buildLoop_eq .ok id [' ', '|', '|', ' '] names (fun _ _ => rfl) names [] ['<'] rfl
  simp only [List.length_nil, List.map_id] at this
  simp [namesStr, buildCmdStr, this]

/-- **C115 (usage of a kind).** -/
theorem C115_group_partial (buf : Str) (hb : buf.length = 19) (es : List Elem) (h : ∀ e ∈ es, SafeSizes e) (k : EType) :
    groupStr buf (created es (fun _ => [])) k = .ok (joined " ".toList ((ofKind k es).map usage)) := by
  have := buildLoop_eq (usageStr buf) usage [' '] (ofKind k es)
    (fun x hx => usageStr_eq buf hb x (h x (by simp only [ofKind, List.mem_filter] at hx; exact hx.1))) (ofKind k es) [] [] rfl
  simp only [List.length_nil] at this
  simp [groupStr, buildCmdStr, created_eq, this]

/-- A command with a flag, an argument pack and two arguments. -/
def demoElems : List Elem :=
  [⟨.flag ['v'] ['v', 'e', 'r'], [], ['b'], []⟩, ⟨.arg, ['i', 'n'], [], []⟩, ⟨.argPack 1 3, ['p'], [], ['d']⟩,
    ⟨.arg, ['o'], [], []⟩]

example : helpStr (List.replicate 19 ' ') ['c'] (created demoElems (fun _ => [])) =
    .ok (">>c\n\n\tRequired arguments:\n* (ARG in)\n  --in\n\n* (ARG o)\n  --o\n\n\n\tArgument packs:\n* (PACK p [1/3])\n  --p\n  --d\n\n\n\tFlags:\n* [-v || --ver]\n  --b\n\n\n".toList) := by
  rw [C115_help_text_partial _ rfl _ _ (by simp [demoElems, SafeSizes])]
  decide +kernel

end Verif.CmdLine
