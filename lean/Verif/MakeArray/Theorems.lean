import Verif.MakeArray.Model

/-! # Arrays from arguments (C168) -/

namespace Verif.MakeArray

variable {R : Type}

/-! ## Specification -/

/-- The argument has a value of its type. `toFloat` is the identity exactly on the `float` values. -/
def Typed (k : Conv R) : Ar × Val R → Prop
  | (.char, .int z) | (.schar, .int z) => -128 ≤ z ∧ z ≤ 127
  | (.uchar, .int z) => 0 ≤ z ∧ z ≤ 255
  | (.short, .int z) => -32768 ≤ z ∧ z ≤ 32767
  | (.ushort, .int z) => 0 ≤ z ∧ z ≤ 65535
  | (.int, .int z) => -2147483648 ≤ z ∧ z ≤ 2147483647
  | (.uint, .int z) => 0 ≤ z ∧ z ≤ 4294967295
  | (.long, .int z) => -9223372036854775808 ≤ z ∧ z ≤ 9223372036854775807
  | (.ulong, .int z) => 0 ≤ z ∧ z ≤ 18446744073709551615
  | (.float, .real x) => k.toFloat x = x
  | (.double, .real _) => True
  | _ => False

/-- The unsigned types. -/
def Unsigned (t : Ar) : Prop := t = .uchar ∨ t = .ushort ∨ t = .uint ∨ t = .ulong

/-- Arguments of which an array can be made: all of one type; all real; or all integers, and these are all unsigned, or none is
larger than `int`, or one is a `long` and none an `unsigned long`. -/
def Mixes (ts : List Ar) : Prop :=
  (∀ a ∈ ts, ∀ b ∈ ts, a = b) ∨ (∀ a ∈ ts, a = .float ∨ a = .double) ∨
    ((∀ a ∈ ts, a ≠ .float ∧ a ≠ .double) ∧
      ((∀ a ∈ ts, Unsigned a) ∨ (∀ a ∈ ts, a ≠ .uint ∧ a ≠ .long ∧ a ≠ .ulong) ∨ (.long ∈ ts ∧ .ulong ∉ ts)))

/-! ## Common types -/

def rank : Ar → Nat
  | .uint => 1 | .long => 2 | .ulong => 3 | .float => 4 | .double => 5 | _ => 0

def big : Nat → Ar
  | 0 => .int | 1 => .uint | 2 => .long | 3 => .ulong | 4 => .float | _ => .double

theorem common2_eq (a b : Ar) : common2 a b = if a = b then a else big (max (rank a) (rank b)) := by
  cases a <;> cases b <;> rfl

theorem rank_le (a : Ar) : rank a ≤ 5 := by cases a <;> decide
theorem rank_big : ∀ {m}, m ≤ 5 → rank (big m) = m
  | 0, _ | 1, _ | 2, _ | 3, _ | 4, _ | 5, _ => rfl
  | n + 6, h => by omega

def top (ts : List Ar) : Nat := ts.foldr (fun a m => max (rank a) m) 0

theorem top_le (ts : List Ar) : top ts ≤ 5 := by
  induction ts with
  | nil => exact Nat.zero_le _
  | cons t ts ih => exact Nat.max_le.2 ⟨rank_le t, ih⟩

theorem le_top {ts : List Ar} {a} (h : a ∈ ts) : rank a ≤ top ts := by
  induction ts with
  | nil => cases h
  | cons t ts ih =>
    rcases List.mem_cons.1 h with rfl | h
    · exact Nat.le_max_left _ _
    · exact Nat.le_trans (ih h) (Nat.le_max_right _ _)

theorem top_mem {ts : List Ar} (h : ts ≠ []) : ∃ a ∈ ts, rank a = top ts := by
  induction ts with
  | nil => exact absurd rfl h
  | cons t ts ih =>
    by_cases hr : top ts ≤ rank t
    · exact ⟨t, List.mem_cons_self, (Nat.max_eq_left hr).symm⟩
    · have hn : ts ≠ [] := by rintro rfl; exact hr (Nat.zero_le _)
      obtain ⟨a, ha, he⟩ := ih hn
      exact ⟨a, List.mem_cons_of_mem _ ha, he.trans (Nat.max_eq_right (by omega)).symm⟩

theorem foldl_big (ts : List Ar) : ∀ m, m ≤ 5 → ts.foldl common2 (big m) = big (max m (top ts)) := by
  induction ts with
  | nil => intro m _; simp [top]
  | cons t ts ih =>
    intro m hm
    have h1 : common2 (big m) t = big (max m (rank t)) := by
      rw [common2_eq, rank_big hm]
      by_cases h : big m = t
      · rw [if_pos h, ← h, rank_big hm, Nat.max_self]
      · rw [if_neg h]
    rw [List.foldl_cons, h1, ih _ (Nat.max_le.2 ⟨hm, rank_le t⟩)]
    show _ = big (max m (max (rank t) (top ts)))
    rw [Nat.max_assoc]

theorem foldl_common (t : Ar) (ts : List Ar) :
    (∀ x ∈ ts, x = t) ∧ ts.foldl common2 t = t ∨ (¬ ∀ x ∈ ts, x = t) ∧ ts.foldl common2 t = big (top (t :: ts)) := by
  induction ts with
  | nil => exact .inl ⟨by simp, rfl⟩
  | cons x xs ih =>
    by_cases hx : x = t
    · subst hx
      have hself : common2 x x = x := if_pos rfl
      rcases ih with ⟨h1, h2⟩ | ⟨h1, h2⟩
      · exact .inl ⟨by simpa using h1, by rw [List.foldl_cons, hself, h2]⟩
      · refine .inr ⟨by simpa using h1, ?_⟩
        rw [List.foldl_cons, hself, h2]
        show big (max _ (top xs)) = big (max _ (max _ (top xs)))
        rw [← Nat.max_assoc, Nat.max_self]
    · refine .inr ⟨fun h => hx (h x List.mem_cons_self), ?_⟩
      rw [List.foldl_cons, common2_eq, if_neg (fun h => hx h.symm),
        foldl_big _ _ (Nat.max_le.2 ⟨rank_le _, rank_le _⟩)]
      show big (max (max _ _) (top xs)) = big (max _ (max _ (top xs)))
      rw [Nat.max_assoc]

theorem narrowing_self (t : Ar) : narrowing t t = false := by cases t <;> decide

theorem convert_typed (k : Conv R) (a t : Ar) (v : Val R) (hv : Typed k (a, v)) (hn : narrowing a t = false) : convert k t v = v := by
  cases v with
  | int z =>
    have key : isReal t = false → lo t ≤ z → z ≤ hi t → convert k t (.int z) = .int z := by
      intro h1 h2 h3
      simp only [convert, h1]
      rw [Int.emod_eq_of_lt (by omega) (by omega)]
      simp only [Bool.false_eq_true, if_false]
      congr 1; omega
    have hr : isReal a = false := by cases a <;> first | rfl | exact hv.elim
    have hb : lo a ≤ z ∧ z ≤ hi a := by
      cases a <;> simp only [Typed] at hv <;> first | exact hv | (simp only [lo, hi]; omega)
    simp only [narrowing, hr, Bool.false_eq_true, if_false, Bool.or_eq_false_iff, Bool.not_eq_false', Bool.and_eq_true,
      decide_eq_true_eq] at hn
    exact key hn.1 (by omega) (by omega)
  | real x =>
    cases a <;> simp only [Typed] at hv <;> cases t <;>
      first | rfl | (exfalso; revert hn; decide) | (simp only [convert, isReal, if_true, hv])

theorem typed_widened (k : Conv R) (a t : Ar) (v : Val R) (hv : Typed k (a, v)) (hn : narrowing a t = false) : Typed k (t, v) := by
  cases v with
  | int z =>
    cases a <;> simp only [Typed] at hv <;> cases t <;>
      first | (exfalso; revert hn; decide) | (simp only [Typed]; omega)
  | real x =>
    cases a <;> simp only [Typed] at hv <;> cases t <;>
      first | (exfalso; revert hn; decide) | exact hv | trivial

theorem mkArray_some {k : Conv R} {args : List (Ar × Val R)} {t vs} (h : mkArray k args = some (t, vs)) :
    common (args.map (·.1)) = some t ∧ (∀ a ∈ args, narrowing a.1 t = false) ∧ vs = args.map fun a => convert k t a.2 := by
  unfold mkArray at h
  split at h
  · cases h
  · rename_i t' hc
    split at h
    · cases h
    · rename_i hn
      simp only [Option.some.injEq, Prod.mk.injEq] at h
      obtain ⟨rfl, rfl⟩ := h
      exact ⟨hc, by simpa using hn, rfl⟩

/-- **C168.** If a call of `mkArray` compiles, the array has the values of the arguments, in order, and they are values of the type
that was chosen for it: nothing wraps around and nothing is rounded. -/
theorem C168_kept (k : Conv R) (args : List (Ar × Val R)) (ht : ∀ a ∈ args, Typed k a) (t : Ar) (vs : List (Val R))
    (h : mkArray k args = some (t, vs)) : vs = args.map Prod.snd ∧ ∀ v ∈ vs, Typed k (t, v) := by
  obtain ⟨_, hn, rfl⟩ := mkArray_some h
  have he : (args.map fun a => convert k t a.2) = args.map Prod.snd :=
    List.map_congr_left fun a ha => convert_typed k a.1 t a.2 (ht a ha) (hn a ha)
  refine ⟨he, fun v hv => ?_⟩
  rw [he, List.mem_map] at hv
  obtain ⟨a, ha, rfl⟩ := hv
  exact typed_widened k a.1 t a.2 (ht a ha) (hn a ha)

/-- Which conversions to the common type narrow. -/
theorem narrowing_big (a : Ar) (m : Nat) (hm : m ≤ 5) (ha : rank a ≤ m) : narrowing a (big m) = false ↔
    (m ≤ 3 ∧ (m = 1 ∨ m = 3 → Unsigned a)) ∨ (4 ≤ m ∧ (a = .float ∨ a = .double)) := by
  have : m = 0 ∨ m = 1 ∨ m = 2 ∨ m = 3 ∨ m = 4 ∨ m = 5 := by omega
  rcases this with rfl | rfl | rfl | rfl | rfl | rfl <;> cases a <;>
    first
    | (exfalso; revert ha; decide)
    | (simp only [Unsigned]; decide)

theorem mixes_iff (ts : List Ar) (hne : ts ≠ []) (hd : ¬ ∀ a ∈ ts, ∀ b ∈ ts, a = b) :
    (∀ a ∈ ts, narrowing a (big (top ts)) = false) ↔ Mixes ts := by
  obtain ⟨w, hw, hwt⟩ := top_mem hne
  have hall : (∀ a ∈ ts, narrowing a (big (top ts)) = false) ↔ ∀ a ∈ ts,
      ((top ts ≤ 3 ∧ (top ts = 1 ∨ top ts = 3 → Unsigned a)) ∨ (4 ≤ top ts ∧ (a = .float ∨ a = .double))) :=
    forall_congr' fun a => imp_congr_right fun ha => narrowing_big a _ (top_le ts) (le_top ha)
  rw [hall]
  have hle : ∀ a ∈ ts, rank a ≤ top ts := fun a ha => le_top ha
  constructor
  · intro h
    right
    by_cases h4 : 4 ≤ top ts
    · left
      intro a ha
      rcases h a ha with ⟨h3, _⟩ | ⟨_, h⟩
      · omega
      · exact h
    · right
      refine ⟨fun a ha => ?_, ?_⟩
      · have := hle a ha
        constructor <;> rintro rfl <;> simp only [rank] at this <;> omega
      · by_cases ho : top ts = 1 ∨ top ts = 3
        · left
          intro a ha
          rcases h a ha with ⟨_, hu⟩ | ⟨h4', _⟩
          · exact hu ho
          · omega
        · by_cases h0 : top ts = 0
          · right; left
            intro a ha
            have := hle a ha
            refine ⟨?_, ?_, ?_⟩ <;> rintro rfl <;> simp only [rank] at this <;> omega
          · right; right
            have h2 : top ts = 2 := by omega
            constructor
            · rw [h2] at hwt
              cases w <;> simp only [rank] at hwt <;> first | exact hw | omega
            · intro hu
              have := hle _ hu
              simp only [rank] at this; omega
  · rintro (h | h | ⟨hi, h⟩) a ha
    · exact absurd h hd
    · right
      refine ⟨?_, h a ha⟩
      have := hle a ha
      rcases h a ha with rfl | rfl <;> simp only [rank] at this <;> omega
    · left
      have h3 : top ts ≤ 3 := by
        rw [← hwt]
        have := hi w hw
        clear hwt hall
        cases w <;> simp only [rank] <;> first | omega | exact absurd rfl this.1 | exact absurd rfl this.2
      refine ⟨h3, fun ho => ?_⟩
      rcases h with h | h | ⟨hl, hu⟩
      · exact h a ha
      · have h1 := h w hw
        have h2 := hi w hw
        rw [← hwt] at ho
        exfalso
        cases w <;> simp only [rank] at ho <;> first | omega | exact h1.1 rfl | exact h1.2.2 rfl
      · have h2 := hle _ hl
        simp only [rank] at h2
        have : top ts = 3 := by omega
        rw [this] at hwt
        cases w <;> simp only [rank] at hwt <;> first | exact absurd hw hu | omega

/-- **C168.** A call of `mkArray` compiles exactly if there is an argument and the types go together: all of one type; all real; or all
integers that are all unsigned, or none larger than `int`, or with a `long` and without an `unsigned long`. In particular an
`int` goes with neither an `unsigned int` nor a `double`. -/
theorem C168_compiles (k : Conv R) (args : List (Ar × Val R)) :
    (mkArray k args).isSome = true ↔ args ≠ [] ∧ Mixes (args.map Prod.fst) := by
  have hc : (mkArray k args).isSome = true ↔ ∃ t, common (args.map (·.1)) = some t ∧ ∀ a ∈ args.map Prod.fst, narrowing a t = false := by
    constructor
    · intro h
      obtain ⟨⟨t, vs⟩, h⟩ := Option.isSome_iff_exists.1 h
      obtain ⟨h1, h2, _⟩ := mkArray_some h
      exact ⟨t, h1, by simpa using h2⟩
    · rintro ⟨t, h1, h2⟩
      have : args.any (fun a => narrowing a.1 t) = false := by
        rw [List.any_eq_false]
        intro a ha
        rw [h2 a.1 (List.mem_map_of_mem ha)]; decide
      simp only [mkArray, h1, this, Bool.false_eq_true, if_false, Option.isSome_some]
  rw [hc]
  cases args with
  | nil => simp [common]
  | cons a args =>
    generalize hts : (a :: args).map Prod.fst = ts
    have hcons : ts = a.1 :: args.map Prod.fst := by rw [← hts]; rfl
    have hct : common ts = some ((args.map Prod.fst).foldl common2 a.1) := by rw [hcons]; rfl
    rw [hct]
    simp only [Option.some.injEq, exists_eq_left', ne_eq, reduceCtorEq, not_false_eq_true, true_and]
    rcases foldl_common a.1 (args.map Prod.fst) with ⟨h1, h2⟩ | ⟨h1, h2⟩
    · rw [h2]
      have hall : ∀ x ∈ ts, x = a.1 := by
        intro x hx
        rw [hcons] at hx
        rcases List.mem_cons.1 hx with h | h
        · exact h
        · exact h1 x h
      exact ⟨fun _ => .inl fun x hx y hy => (hall x hx).trans (hall y hy).symm, fun _ x hx => by rw [hall x hx]; exact narrowing_self _⟩
    · rw [h2, ← hcons]
      refine mixes_iff ts (by rw [hcons]; simp) fun h => h1 fun x hx => ?_
      exact h x (by rw [hcons]; exact List.mem_cons_of_mem _ hx) a.1 (by rw [hcons]; exact List.mem_cons_self)

/-- **C168.** The type of the elements does not depend on the order of the arguments. -/
theorem C168_order (k : Conv R) (args args' : List (Ar × Val R)) (hp : ∀ t, t ∈ args.map Prod.fst ↔ t ∈ args'.map Prod.fst)
    (t t' : Ar) (vs vs' : List (Val R)) (h : mkArray k args = some (t, vs)) (h' : mkArray k args' = some (t', vs')) : t = t' := by
  have h1 := (mkArray_some h).1
  have h2 := (mkArray_some h').1
  revert h1 h2 hp
  show (∀ t, t ∈ args.map Prod.fst ↔ t ∈ args'.map Prod.fst) → common (args.map Prod.fst) = _ → common (args'.map Prod.fst) = _ → _
  generalize args.map Prod.fst = l
  generalize args'.map Prod.fst = l'
  intro hp h1 h2
  have htop : top l = top l' := by
    have aux : ∀ l l' : List Ar, (∀ t, t ∈ l → t ∈ l') → top l ≤ top l' := by
      intro l l' hs
      by_cases hn : l = []
      · subst hn; exact Nat.zero_le _
      · obtain ⟨w, hw, he⟩ := top_mem hn
        rw [← he]; exact le_top (hs w hw)
    exact Nat.le_antisymm (aux _ _ fun t => (hp t).1) (aux _ _ fun t => (hp t).2)
  cases l with
  | nil => cases h1
  | cons a l =>
    cases l' with
    | nil => cases h2
    | cons b l' =>
      simp only [common, Option.some.injEq] at h1 h2
      rcases foldl_common a l with ⟨ha, he⟩ | ⟨ha, he⟩ <;> rcases foldl_common b l' with ⟨hb, he'⟩ | ⟨hb, he'⟩
      · rw [← h1, ← h2, he, he']
        rcases List.mem_cons.1 ((hp a).1 List.mem_cons_self) with h | h
        · exact h
        · exact hb a h
      · exfalso
        apply hb
        have hx : ∀ x ∈ b :: l', x = a := fun x hx => by
          rcases List.mem_cons.1 ((hp x).2 hx) with h | h
          · exact h
          · exact ha x h
        intro x hxm
        rw [hx x (List.mem_cons_of_mem _ hxm), hx b List.mem_cons_self]
      · exfalso
        apply ha
        have hx : ∀ x ∈ a :: l, x = b := fun x hx => by
          rcases List.mem_cons.1 ((hp x).1 hx) with h | h
          · exact h
          · exact hb x h
        intro x hxm
        rw [hx x (List.mem_cons_of_mem _ hxm), hx a List.mem_cons_self]
      · rw [← h1, ← h2, he, he', htop]

/-- The type of an array made of arguments of these types (not all the same): the largest of them, at least `int`. -/
def Largest (ts : List Ar) (t : Ar) : Prop :=
  (t ∈ ts ∨ t = .int) ∧ (.double ∈ ts → t = .double) ∧ (.float ∈ ts → t = .float ∨ t = .double) ∧
  (.ulong ∈ ts → t ∈ [.ulong, .float, .double]) ∧ (.long ∈ ts → t ∈ [.long, .ulong, .float, .double]) ∧
  t ∈ [.int, .uint, .long, .ulong, .float, .double] ∧ (.uint ∈ ts → t ≠ .int)

/-- **C168.** Arguments of one type make an array of that type; others one of the largest type that occurs, at least `int`. -/
theorem C168_type (k : Conv R) (args : List (Ar × Val R)) (t : Ar) (vs : List (Val R)) (h : mkArray k args = some (t, vs)) :
    (∀ T, (∀ a ∈ args.map Prod.fst, a = T) → t = T) ∧
    ((¬ ∃ T, ∀ a ∈ args.map Prod.fst, a = T) → Largest (args.map Prod.fst) t) := by
  have h1 : common (args.map Prod.fst) = some t := (mkArray_some h).1
  revert h1
  generalize args.map Prod.fst = ts
  intro h1
  cases ts with
  | nil => cases h1
  | cons a ts =>
    simp only [common, Option.some.injEq] at h1
    rcases foldl_common a ts with ⟨ha, he⟩ | ⟨ha, he⟩
    · refine ⟨fun T hT => ?_, fun hn => absurd ⟨a, ?_⟩ hn⟩
      · rw [← h1, he]; exact hT a List.mem_cons_self
      · intro x hx
        rcases List.mem_cons.1 hx with h | h
        · exact h
        · exact ha x h
    · refine ⟨fun T hT => absurd (fun x hx => ?_) ha, fun _ => ?_⟩
      · rw [hT x (List.mem_cons_of_mem _ hx), hT a List.mem_cons_self]
      · rw [← h1, he]
        have hle : ∀ x ∈ a :: ts, rank x ≤ top (a :: ts) := fun x hx => le_top hx
        obtain ⟨w, hw, hwt⟩ := top_mem (ts := a :: ts) (by simp)
        rw [← hwt] at hle ⊢
        generalize a :: ts = l at hle hw
        have big' : ∀ x, x ∈ l → rank x ≤ rank w := hle
        refine ⟨?_, ?_, ?_, ?_, ?_, ?_, ?_⟩
        · cases w <;> first | exact .inl hw | exact .inr rfl
        all_goals first
          | (intro hx; have := big' _ hx; clear big' hle hwt; revert this; cases w <;> decide)
          | (clear big' hle hwt; cases w <;> decide)

/-- `mkArray(short, long, unsigned)` is an array of `long`s with the values given. -/
example : mkArray (R := Unit) ⟨id, fun _ _ => (), fun _ _ => 0⟩ [(.short, .int (-5)), (.long, .int 7), (.uint, .int 4294967295)] =
    some (.long, [.int (-5), .int 7, .int 4294967295]) := rfl
example : ¬ Mixes [.int, .uint] := by
  intro h
  have := (C168_compiles (R := Unit) ⟨id, fun _ _ => (), fun _ _ => 0⟩ [(.int, .int 0), (.uint, .int 0)]).2 ⟨by simp, h⟩
  revert this; decide

end Verif.MakeArray
