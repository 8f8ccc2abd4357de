import Verif.Tmpl.LemmasMeans

/-! # Termination -/

namespace Verif.Tmpl

open Verif Spec

/-! ## One pass -/

theorem bind_ne_diverge {α β : Type} {x : Outcome α} {f : α → Outcome β} (hx : x ≠ .diverge) (hf : ∀ a, x = .ok a → f a ≠ .diverge) : (x >>= f) ≠ .diverge := by
  cases x with
  | ok a => exact hf a rfl
  | throw => simp
  | assertFail => simp
  | ub => simp
  | diverge => exact absurd rfl hx

theorem getC_ne (dbg : Bool) (src : Str) (i : Nat) : getC dbg src i ≠ .diverge := by
  unfold getC; split
  · simp
  · split
    · simp
    · split <;> simp

theorem getC_le {dbg : Bool} {src : Str} {i : Nat} {c : Char} (h : getC dbg src i = .ok c) : i ≤ src.length := by
  unfold getC at h
  split at h
  · next hc => exact Nat.le_of_lt (List.getElem?_eq_some_iff.1 hc).1
  · split at h
    · cases h
    · split at h
      · omega
      · cases h

theorem checkC_ne {dbg : Bool} {c : Outcome Bool} (h : c ≠ .diverge) : checkC dbg c ≠ .diverge := by
  unfold checkC; split
  · split <;> simp_all
  · simp

theorem escaped_ne (dbg : Bool) (src : Str) (i : Nat) : escaped dbg src i ≠ .diverge := by
  unfold escaped; split
  · exact bind_ne_diverge (getC_ne _ _ _) (fun _ _ => by simp)
  · simp

theorem isPlain_ne (dbg : Bool) (src : Str) (i : Nat) (c : Char) : isPlain dbg src i c ≠ .diverge := by
  unfold isPlain; split
  · simp
  · refine bind_ne_diverge (escaped_ne _ _ _) (fun _ _ => ?_)
    split
    · simp
    · exact bind_ne_diverge (getC_ne _ _ _) (fun _ _ => by simp)

theorem symbol_ne (dbg : Bool) (src : Str) (i : Nat) : symbol dbg src i ≠ .diverge :=
  bind_ne_diverge (getC_ne _ _ _) (fun _ _ => by simp)

theorem symbol_le {dbg : Bool} {src : Str} {i j : Nat} {k : Kind} (h : symbol dbg src i = .ok (k, j)) : i ≤ j := by
  unfold symbol at h
  obtain ⟨c, _, h⟩ := Outcome.bind_eq_ok.1 h
  simp only [Outcome.pure_eq, Outcome.ok.injEq] at h
  split at h
  · simp only [Prod.mk.injEq] at h; omega
  · split at h
    · simp only [Prod.mk.injEq] at h; omega
    · simp only [Prod.mk.injEq] at h; omega

theorem readKey_ne (dbg : Bool) (src : Str) : ∀ (f i : Nat), 1 ≤ f → src.length + 2 ≤ i + f → readKey dbg src f i ≠ .diverge := by
  intro f
  induction f with
  | zero => intro i h; omega
  | succ f ih =>
    intro i _ h
    rw [readKey]
    refine bind_ne_diverge (getC_ne _ _ _) (fun c hc => ?_)
    split
    · simp
    · have := getC_le hc
      exact bind_ne_diverge (ih (i + 1) (by omega) (by omega)) (fun _ _ => by simp)

theorem readKey_le {dbg : Bool} {src : Str} : ∀ (f i : Nat) {k : Str} {j : Nat}, readKey dbg src f i = .ok (k, j) → i ≤ j := by
  intro f
  induction f with
  | zero => intro i k j h; cases h
  | succ f ih =>
    intro i k j h
    rw [readKey] at h
    obtain ⟨c, _, h⟩ := Outcome.bind_eq_ok.1 h
    split at h
    · simp only [Outcome.pure_eq, Outcome.ok.injEq, Prod.mk.injEq] at h; omega
    · obtain ⟨⟨k', j'⟩, h1, h⟩ := Outcome.bind_eq_ok.1 h
      simp only [Outcome.pure_eq, Outcome.ok.injEq, Prod.mk.injEq] at h
      have := ih _ h1
      omega

theorem matchKey_ne (dbg : Bool) (src : Str) : ∀ (k : Str) (i : Nat), matchKey dbg src k i ≠ .diverge := by
  intro k
  induction k with
  | nil => intro i; simp [matchKey]
  | cons c k ih =>
    intro i
    rw [matchKey]
    refine bind_ne_diverge (getC_ne _ _ _) (fun _ _ => ?_)
    split
    · simp
    · exact ih _

theorem matchKey_le {dbg : Bool} {src : Str} : ∀ (k : Str) (i : Nat) {m : Bool} {j : Nat}, matchKey dbg src k i = .ok (m, j) → i ≤ j := by
  intro k
  induction k with
  | nil => intro i m j h; simp only [matchKey, Outcome.ok.injEq, Prod.mk.injEq] at h; omega
  | cons c k ih =>
    intro i m j h
    rw [matchKey] at h
    obtain ⟨d, _, h⟩ := Outcome.bind_eq_ok.1 h
    split at h
    · simp only [Outcome.pure_eq, Outcome.ok.injEq, Prod.mk.injEq] at h; omega
    · have := ih _ h; omega

theorem isClose_ne (dbg : Bool) (src : Str) (i : Nat) : isClose dbg src i ≠ .diverge := by
  unfold isClose
  refine bind_ne_diverge (getC_ne _ _ _) (fun _ _ => ?_)
  split
  · simp
  · refine bind_ne_diverge (getC_ne _ _ _) (fun _ _ => ?_)
    split
    · simp
    · refine bind_ne_diverge (getC_ne _ _ _) (fun _ _ => ?_)
      split
      · simp
      · exact bind_ne_diverge (getC_ne _ _ _) (fun _ _ => by simp)

theorem isClose_le {dbg : Bool} {src : Str} {i : Nat} {b : Bool} (h : isClose dbg src i = .ok b) : i ≤ src.length := by
  unfold isClose at h
  obtain ⟨c, hc, _⟩ := Outcome.bind_eq_ok.1 h
  exact getC_le hc

theorem findEnd_ne (dbg : Bool) (src key : Str) : ∀ (f i : Nat), 1 ≤ f → src.length + 2 ≤ i + f → findEnd dbg src key f i ≠ .diverge := by
  intro f
  induction f with
  | zero => intro i h; omega
  | succ f ih =>
    intro i _ h
    rw [findEnd]
    refine bind_ne_diverge (isClose_ne _ _ _) (fun b hb => ?_)
    have := isClose_le hb
    split
    · refine bind_ne_diverge (matchKey_ne _ _ _ _) (fun mj hm => ?_)
      obtain ⟨m, j⟩ := mj
      have := matchKey_le _ _ hm
      simp only
      split
      · refine bind_ne_diverge (checkC_ne ?_) (fun _ _ => by simp)
        exact bind_ne_diverge (getC_ne _ _ _) (fun _ _ => bind_ne_diverge (getC_ne _ _ _) (fun _ _ => by simp))
      · exact ih _ (by omega) (by omega)
    · exact ih _ (by omega) (by omega)

theorem findEnd_le {dbg : Bool} {src key : Str} : ∀ (f i : Nat) {a b : Nat}, findEnd dbg src key f i = .ok (a, b) → i ≤ b := by
  intro f
  induction f with
  | zero => intro i a b h; cases h
  | succ f ih =>
    intro i a b h
    rw [findEnd] at h
    obtain ⟨c, _, h⟩ := Outcome.bind_eq_ok.1 h
    split at h
    · obtain ⟨⟨m, j⟩, hm, h⟩ := Outcome.bind_eq_ok.1 h
      have := matchKey_le _ _ hm
      simp only at h
      split at h
      · obtain ⟨_, _, h⟩ := Outcome.bind_eq_ok.1 h
        simp only [Outcome.pure_eq, Outcome.ok.injEq, Prod.mk.injEq] at h; omega
      · have := ih _ h; omega
    · have := ih _ h; omega

theorem copy_ne (dbg : Bool) (src : Str) : ∀ (n i : Nat), copy dbg src i n ≠ .diverge := by
  intro n
  induction n with
  | zero => intro i; simp [copy]
  | succ n ih => intro i; rw [copy]; exact bind_ne_diverge (getC_ne _ _ _) (fun _ _ => bind_ne_diverge (ih _) (fun _ _ => by simp))

theorem forDicts_ne {g : Dict → Bool → Outcome (Str × Bool)} (h : ∀ d s, g d s ≠ .diverge) : ∀ ds, forDicts g ds ≠ .diverge := by
  intro ds
  induction ds with
  | nil => simp [forDicts]
  | cons d ds ih =>
    cases ds with
    | nil => exact bind_ne_diverge (h d false) (fun _ _ => by simp)
    | cons e ds =>
      rw [forDicts]
      · exact bind_ne_diverge (h d true) (fun _ _ => bind_ne_diverge ih (fun _ _ => by simp))
      · simp

theorem expand_ne (dbg : Bool) (set : Settings) (src : Str) : ∀ (f : Nat) (ch : List Dict) (i e : Nat) (sep : Bool), 1 ≤ f → src.length + 3 ≤ i + f →
    expand dbg set src f ch i e sep ≠ .diverge := by
  intro f
  induction f with
  | zero => intro ch i e sep h; omega
  | succ f ih =>
    intro ch i e sep _ h
    rw [expand]
    split
    · refine bind_ne_diverge (getC_ne _ _ _) (fun c hc => ?_)
      have hi := getC_le hc
      refine bind_ne_diverge (isPlain_ne _ _ _ _) (fun pl _ => ?_)
      split
      · exact bind_ne_diverge (ih _ _ _ _ (by omega) (by omega)) (fun _ _ => by simp)
      · refine bind_ne_diverge (symbol_ne _ _ _) (fun kj hkj => ?_)
        obtain ⟨kind, j⟩ := kj
        have := symbol_le hkj
        simp only
        refine bind_ne_diverge (readKey_ne _ _ _ _ (by omega) (by omega)) (fun kj hkj => ?_)
        obtain ⟨key, j'⟩ := kj
        have := readKey_le _ _ hkj
        simp only
        refine bind_ne_diverge (checkC_ne ?_) (fun _ _ => ?_)
        · exact bind_ne_diverge (getC_ne _ _ _) (fun _ _ => bind_ne_diverge (getC_ne _ _ _) (fun _ _ => by simp))
        · cases kind with
          | normal => exact bind_ne_diverge (ih _ _ _ _ (by omega) (by omega)) (fun _ _ => by simp)
          | separator => exact bind_ne_diverge (ih _ _ _ _ (by omega) (by omega)) (fun _ _ => by simp)
          | sect =>
            refine bind_ne_diverge (checkC_ne ?_) (fun _ _ => ?_)
            · exact bind_ne_diverge (getC_ne _ _ _) (fun _ _ => bind_ne_diverge (getC_ne _ _ _) (fun _ _ => by simp))
            · refine bind_ne_diverge (findEnd_ne _ _ _ _ _ (by omega) (by omega)) (fun ab hab => ?_)
              obtain ⟨a, b⟩ := ab
              have := findEnd_le _ _ hab
              simp only
              refine bind_ne_diverge ?_ (fun _ _ => bind_ne_diverge (ih _ _ _ _ (by omega) (by omega)) (fun _ _ => by simp))
              unfold replaceSection
              split
              · exact bind_ne_diverge (forDicts_ne (fun d s => ih _ _ _ _ (by omega) (by omega)) _) (fun _ _ => by simp)
              · split
                · exact bind_ne_diverge (copy_ne _ _ _ _) (fun _ _ => by simp)
                · exact bind_ne_diverge (copy_ne _ _ _ _) (fun _ _ => by simp)
                · simp
    · simp

/-! ## Ranks -/

/-- Every tag has a rank: 0 for a section, `ρ k + 1` for a key. Every tag has a rank below `n`, or the rank `n` and fewer than `m` sections around it. -/
def Lim (ρ : Str → Nat) (n : Nat) : Tmpl → Nat → Prop
  | .nil, _ => True
  | .text _ r, m => Lim ρ n r m
  | .brace r, m => Lim ρ n r m
  | .key k r, m => (ρ k + 1 < n ∨ ρ k + 1 = n ∧ 0 < m) ∧ Lim ρ n r m
  | .sep _ r, m => Lim ρ n r m
  | .sect _ b r, m => (0 < n ∨ 0 = n ∧ 0 < m) ∧ Lim ρ n b (m - 1) ∧ Lim ρ n r m

/-- The same, but tags outside of sections that can never be replaced are allowed. -/
def TopLim (set : Settings) (d : Dict) (ρ : Str → Nat) (n m : Nat) : Tmpl → Prop
  | .nil => True
  | .text _ r => TopLim set d ρ n m r
  | .brace r => TopLim set d ρ n m r
  | .key k r => ((set = .maintain ∧ lookupKey [d] k = none) ∨ (ρ k + 1 < n ∨ ρ k + 1 = n ∧ 0 < m)) ∧ TopLim set d ρ n m r
  | .sep _ r => TopLim set d ρ n m r
  | .sect k b r => ((set = .maintain ∧ lookupSect [d] k = none) ∨ (0 < n ∨ 0 = n ∧ 0 < m) ∧ Lim ρ n b (m - 1)) ∧ TopLim set d ρ n m r

theorem lim_mono {ρ : Str → Nat} {n : Nat} (t : Tmpl) : ∀ {m m' : Nat}, m ≤ m' → Lim ρ n t m → Lim ρ n t m' := by
  induction t with
  | nil => intro m m' _ _; trivial
  | text s r ih => intro m m' h hl; exact ih h hl
  | brace r ih => intro m m' h hl; exact ih h hl
  | key k r ih => intro m m' h hl; exact ⟨hl.1.imp id (fun h' => ⟨h'.1, by omega⟩), ih h hl.2⟩
  | sep s r ih => intro m m' h hl; exact ih h hl
  | sect k b r ihb ihr => intro m m' h hl; exact ⟨hl.1.imp id (fun h' => ⟨h'.1, by omega⟩), ihb (by omega) hl.2.1, ihr h hl.2.2⟩

/-- From rank `n` to any larger rank. -/
theorem lim_up {ρ : Str → Nat} {n n' : Nat} (hn : n < n') (t : Tmpl) : ∀ {m m' : Nat}, Lim ρ n t m → Lim ρ n' t m' := by
  induction t with
  | nil => intro m m' _; trivial
  | text s r ih => intro m m' hl; exact ih hl
  | brace r ih => intro m m' hl; exact ih hl
  | key k r ih => intro m m' hl; exact ⟨.inl (by rcases hl.1 with h | h <;> omega), ih hl.2⟩
  | sep s r ih => intro m m' hl; exact ih hl
  | sect k b r ihb ihr => intro m m' hl; exact ⟨.inl (by omega), ihb hl.2.1, ihr hl.2.2⟩

theorem lim_down {ρ : Str → Nat} {n : Nat} (t : Tmpl) : Lim ρ (n + 1) t 0 → ∃ M, Lim ρ n t M := by
  induction t with
  | nil => intro _; exact ⟨0, trivial⟩
  | text s r ih => exact ih
  | brace r ih => exact ih
  | key k r ih =>
    intro h
    obtain ⟨M, hM⟩ := ih h.2
    refine ⟨M + 1, ?_, lim_mono r (by omega) hM⟩
    rcases h.1 with h | h <;> omega
  | sep s r ih => exact ih
  | sect k b r ihb ihr =>
    intro h
    obtain ⟨M, hM⟩ := ihb h.2.1
    obtain ⟨M', hM'⟩ := ihr h.2.2
    refine ⟨M + M' + 1, by omega, lim_mono b (by omega) hM, lim_mono r (by omega) hM'⟩

theorem topLim_mono {set : Settings} {d : Dict} {ρ : Str → Nat} {n m m' : Nat} (h : m ≤ m') (t : Tmpl) : TopLim set d ρ n m t → TopLim set d ρ n m' t := by
  induction t with
  | nil => exact id
  | text s r ih => exact ih
  | brace r ih => exact ih
  | key k r ih => intro hl; exact ⟨hl.1.imp id (fun h' => h'.imp id (fun h'' => ⟨h''.1, by omega⟩)), ih hl.2⟩
  | sep s r ih => exact ih
  | sect k b r ihb ihr =>
    intro hl
    exact ⟨hl.1.imp id (fun h' => ⟨h'.1.imp id (fun h'' => ⟨h''.1, by omega⟩), lim_mono b (by omega) h'.2⟩), ihr hl.2⟩

theorem topLim_of_lim {set : Settings} {d : Dict} {ρ : Str → Nat} {n m : Nat} (t : Tmpl) : Lim ρ n t m → TopLim set d ρ n m t := by
  induction t with
  | nil => exact id
  | text s r ih => exact ih
  | brace r ih => exact ih
  | key k r ih => intro hl; exact ⟨.inr hl.1, ih hl.2⟩
  | sep s r ih => exact ih
  | sect k b r ihb ihr => intro hl; exact ⟨.inr ⟨hl.1, hl.2.1⟩, ihr hl.2.2⟩

theorem topLim_append {set : Settings} {d : Dict} {ρ : Str → Nat} {n m : Nat} (t u : Tmpl) :
    TopLim set d ρ n m (append t u) ↔ TopLim set d ρ n m t ∧ TopLim set d ρ n m u := by
  induction t with
  | nil => simp [append, TopLim]
  | text s r ih => simp [append, TopLim, ih]
  | brace r ih => simp [append, TopLim, ih]
  | key k r ih => simp [append, TopLim, ih, and_assoc]
  | sep s r ih => simp [append, TopLim, ih]
  | sect k b r _ ih => simp [append, TopLim, ih, and_assoc]

theorem topLim_down {set : Settings} {d : Dict} {ρ : Str → Nat} {n : Nat} (t : Tmpl) : TopLim set d ρ (n + 1) 0 t → ∃ M, TopLim set d ρ n M t := by
  induction t with
  | nil => intro _; exact ⟨0, trivial⟩
  | text s r ih => exact ih
  | brace r ih => exact ih
  | key k r ih =>
    intro h
    obtain ⟨M, hM⟩ := ih h.2
    refine ⟨M + 1, ?_, topLim_mono (by omega) r hM⟩
    rcases h.1 with h | h
    · exact .inl h
    · right; rcases h with h | h <;> omega
  | sep s r ih => exact ih
  | sect k b r ihb ihr =>
    intro h
    obtain ⟨M', hM'⟩ := ihr h.2
    rcases h.1 with h | h
    · exact ⟨M', .inl h, hM'⟩
    · obtain ⟨M, hM⟩ := lim_down b h.2
      exact ⟨M + M' + 1, .inr ⟨by omega, lim_mono b (by omega) hM⟩, topLim_mono (by omega) r hM'⟩

theorem topLim_zero {set : Settings} {d : Dict} {ρ : Str → Nat} (t : Tmpl) (h : TopLim set d ρ 0 0 t) : found t [d] = false := by
  induction t with
  | nil => rfl
  | text s r ih => exact ih h
  | brace r ih => exact ih h
  | key k r ih =>
    rcases h.1 with h' | h'
    · simp [found, h'.2, ih h.2]
    · omega
  | sep s r ih => exact ih h
  | sect k b r _ ih =>
    rcases h.1 with h' | h'
    · simp [found, h'.2, ih h.2]
    · omega

/-- The keys in a value have smaller ranks than the key. -/
def Falls (ρ : Str → Nat) (val : Str → Tmpl) (d : Dict) : Prop := AllValues (fun k v => ∀ k' ∈ plainKeys (val v), ρ k' < ρ k) d

theorem lim_of_plainKeys {ρ : Str → Nat} {a : Nat} (t : Tmpl) : ∀ m, (∀ k ∈ plainKeys t, ρ k < a) → Lim ρ (a + 1) t m := by
  induction t with
  | nil => intro _ _; trivial
  | text s r ih => intro m h; exact ih m h
  | brace r ih => intro m h; exact ih m h
  | key k r ih =>
    intro m h
    refine ⟨.inl ?_, ih m (fun k' hk' => h k' (by simp [plainKeys, hk']))⟩
    have := h k (by simp [plainKeys])
    omega
  | sep s r ih => intro m h; exact ih m h
  | sect k b r ihb ihr =>
    intro m h
    exact ⟨.inl (by omega), ihb _ (fun k' hk' => h k' (by simp [plainKeys, hk'])), ihr m (fun k' hk' => h k' (by simp [plainKeys, hk']))⟩

theorem lim_value {ρ : Str → Nat} {k : Str} {u : Tmpl} {n m m' : Nat} (h : ∀ k' ∈ plainKeys u, ρ k' < ρ k) (hn : ρ k + 1 < n ∨ ρ k + 1 = n ∧ 0 < m') :
    Lim ρ n u m := by
  have hl := lim_of_plainKeys u m h
  rcases hn with hn | hn
  · exact lim_up hn u hl
  · rw [← hn.1]; exact hl

theorem topLim_joinDicts {set : Settings} {d : Dict} {ρ : Str → Nat} {n m : Nat} {f : Dict → Bool → Tmpl} (ds : List Dict)
    (h : ∀ e ∈ ds, ∀ sp, TopLim set d ρ n m (f e sp)) : TopLim set d ρ n m (joinDicts f ds) := by
  induction ds with
  | nil => trivial
  | cons e ds ih =>
    cases ds with
    | nil => exact h e (by simp) false
    | cons e' ds => exact (topLim_append _ _).2 ⟨h e (by simp) true, ih (fun x hx => h x (by simp [hx]))⟩

theorem lim_residual {set : Settings} {val : Str → Tmpl} {root : Dict} {ρ : Str → Nat} {n : Nat} (t : Tmpl) : ∀ (ch : List Dict) (sep : Bool) (m : Nat),
    [root] <:+ ch → (∀ d ∈ ch, Falls ρ val d) → Lim ρ n t m → TopLim set root ρ n (m - 1) (residual set val t ch sep) := by
  induction t with
  | nil => intro ch sep m _ _ _; trivial
  | text s r ih => intro ch sep m hr hf hl; exact ih ch sep m hr hf hl
  | brace r ih => intro ch sep m hr hf hl; exact ih ch sep m hr hf hl
  | key k r ih =>
    intro ch sep m hr hf hl
    have h := ih ch sep m hr hf hl.2
    cases hk : lookupKey ch k with
    | some v =>
      simp only [residual, hk]
      exact (topLim_append _ _).2 ⟨topLim_of_lim _ (lim_value (allValues_key (P := fun k v => ∀ k' ∈ plainKeys (val v), ρ k' < ρ k) hf hk) hl.1), h⟩
    | none =>
      simp only [residual, hk]
      split
      · next hs => exact ⟨.inl ⟨hs, lookupKey_suffix_none hr hk⟩, h⟩
      · exact h
  | sep s r ih =>
    intro ch sep m hr hf hl
    have h := ih ch sep m hr hf hl
    rw [residual]
    split
    · exact h
    · exact h
  | sect k b r ihb ihr =>
    intro ch sep m hr hf hl
    have h := ihr ch sep m hr hf hl.2.2
    cases hs : lookupSect ch k with
    | some du =>
      obtain ⟨ds, up⟩ := du
      simp only [residual, hs]
      refine (topLim_append _ _).2 ⟨topLim_joinDicts ds (fun e he sp => ?_), h⟩
      exact topLim_mono (by omega) _ (ihb (e :: up) sp (m - 1) ((suffix_entries hr hs).trans (List.suffix_cons e up)) (allValues_sect hf hs he) hl.2.1)
    | none =>
      cases set with
      | maintain => simp only [residual, hs]; exact ⟨.inl ⟨rfl, lookupSect_suffix_none hr hs⟩, h⟩
      | onlyCnt => simp only [residual, hs]; exact (topLim_append _ _).2 ⟨topLim_of_lim b hl.2.1, h⟩
      | erase => simp only [residual, hs]; exact h

theorem topLim_residual {set : Settings} {val : Str → Tmpl} {root : Dict} {ρ : Str → Nat} {n : Nat} (hf : Falls ρ val root) (t : Tmpl) : ∀ (m : Nat),
    TopLim set root ρ n m t → TopLim set root ρ n (m - 1) (residual set val t [root] false) := by
  have hf' : ∀ d ∈ [root], Falls ρ val d := by simpa using hf
  induction t with
  | nil => intro m _; trivial
  | text s r ih => intro m hl; exact ih m hl
  | brace r ih => intro m hl; exact ih m hl
  | key k r ih =>
    intro m hl
    have h := ih m hl.2
    cases hk : lookupKey [root] k with
    | some v =>
      simp only [residual, hk]
      rcases hl.1 with hd | hd
      · rw [hd.2] at hk; cases hk
      · exact (topLim_append _ _).2 ⟨topLim_of_lim _ (lim_value (allValues_key (P := fun k v => ∀ k' ∈ plainKeys (val v), ρ k' < ρ k) hf' hk) hd), h⟩
    | none =>
      simp only [residual, hk]
      split
      · next hs => exact ⟨.inl ⟨hs, hk⟩, h⟩
      · exact h
  | sep s r ih => intro m hl; exact ih m hl
  | sect k b r ihb ihr =>
    intro m hl
    have h := ihr m hl.2
    cases hs : lookupSect [root] k with
    | some du =>
      obtain ⟨ds, up⟩ := du
      simp only [residual, hs]
      rcases hl.1 with hd | hd
      · rw [hd.2] at hs; cases hs
      · refine (topLim_append _ _).2 ⟨topLim_joinDicts ds (fun e he sp => ?_), h⟩
        exact topLim_mono (by omega) _ (lim_residual b (e :: up) sp (m - 1) ((suffix_entries (List.suffix_refl _) hs).trans (List.suffix_cons e up))
          (allValues_sect hf' hs he) hd.2)
    | none =>
      cases set with
      | maintain => simp only [residual, hs]; exact ⟨.inl ⟨rfl, hs⟩, h⟩
      | onlyCnt =>
        simp only [residual, hs]
        rcases hl.1 with hd | hd
        · cases hd.1
        · exact (topLim_append _ _).2 ⟨topLim_of_lim b hd.2, h⟩
      | erase => simp only [residual, hs]; exact h

theorem passes_terminate {dbg : Bool} {set : Settings} {val : Str → Tmpl} {d : Dict} {ρ : Str → Nat} (hv : ValWf val d) (hf : Falls ρ val d) :
    ∀ (n m : Nat) (t : Tmpl), Wf t → TopLim set d ρ n m t → ∃ o, Ev (fun f => passes dbg set d f (source t) = .ok o) := by
  intro n
  induction n with
  | zero =>
    intro m
    induction m with
    | zero => intro t hw hl; exact ⟨_, passes_done hw hv (topLim_zero t hl)⟩
    | succ m ih =>
      intro t hw hl
      cases hfd : found t [d] with
      | false => exact ⟨_, passes_done hw hv hfd⟩
      | true =>
        obtain ⟨o, ho⟩ := ih (residual set val t [d] false) (wf_residual t [d] false hw (by simpa using hv)) (topLim_residual hf t (m + 1) hl)
        exact ⟨o, passes_step hw hv hfd ho⟩
  | succ n ihn =>
    intro m
    induction m with
    | zero =>
      intro t hw hl
      obtain ⟨M, hM⟩ := topLim_down t hl
      exact ihn M t hw hM
    | succ m ih =>
      intro t hw hl
      cases hfd : found t [d] with
      | false => exact ⟨_, passes_done hw hv hfd⟩
      | true =>
        obtain ⟨o, ho⟩ := ih (residual set val t [d] false) (wf_residual t [d] false hw (by simpa using hv)) (topLim_residual hf t (m + 1) hl)
        exact ⟨o, passes_step hw hv hfd ho⟩

theorem plainKeys_bounded (ρ : Str → Nat) (l : List Str) : ∃ a, ∀ k ∈ l, ρ k < a := by
  induction l with
  | nil => exact ⟨0, by simp⟩
  | cons k l ih =>
    obtain ⟨a, ha⟩ := ih
    refine ⟨a + ρ k + 1, fun k' hk' => ?_⟩
    rcases List.mem_cons.1 hk' with rfl | hk'
    · omega
    · have := ha k' hk'; omega

theorem getExpanded_terminates {dbg : Bool} {set : Settings} {val : Str → Tmpl} {d : Dict} {ρ : Str → Nat} (hv : ValWf val d) (hf : Falls ρ val d)
    {t : Tmpl} (hw : Wf t) : ∃ o, Ev (fun f => getExpanded dbg set d f (source t) = .ok o) := by
  obtain ⟨a, ha⟩ := plainKeys_bounded ρ (plainKeys t)
  obtain ⟨o, ho⟩ := passes_terminate (dbg := dbg) (set := set) hv hf (a + 1) 0 t hw (topLim_of_lim t (lim_of_plainKeys t 0 ha))
  refine ⟨deEscape o, ho.mp (fun f hf => ?_)⟩
  rw [getExpanded, hf]; rfl

end Verif.Tmpl
