import Verif.Tmpl.Theorems

/-! # When the expansion of a template ends -/

namespace Verif.Tmpl

open Spec

namespace Spec

/-- `Uses ch t v`: the template `t`, in the dictionaries `ch`, has a tag with the value `v`, outside of sections or in a section that is
expanded. -/
inductive Uses : List Dict → Tmpl → Str → Prop where
  | key {ch k v rest} (h : Value ch k v) : Uses ch (.key k rest) v
  | inSect {ch k ds up e body rest v} (h : Entries ch k ds up) (he : e ∈ ds) (t : Uses (e :: up) body v) : Uses ch (.sect k body rest) v
  | afterText {ch s rest v} (t : Uses ch rest v) : Uses ch (.text s rest) v
  | afterBrace {ch rest v} (t : Uses ch rest v) : Uses ch (.brace rest) v
  | afterKey {ch k rest v} (t : Uses ch rest v) : Uses ch (.key k rest) v
  | afterSep {ch s rest v} (t : Uses ch rest v) : Uses ch (.sep s rest) v
  | afterSect {ch k body rest v} (t : Uses ch rest v) : Uses ch (.sect k body rest) v

end Spec

theorem uses_append_right {ch : List Dict} {u : Tmpl} {v : Str} (t : Tmpl) (h : Uses ch u v) : Uses ch (append t u) v := by
  induction t with
  | nil => exact h
  | text s r ih => exact .afterText ih
  | brace r ih => exact .afterBrace ih
  | key k r ih => exact .afterKey ih
  | sep s r ih => exact .afterSep ih
  | sect k b r _ ih => exact .afterSect ih

theorem uses_append_left {ch : List Dict} {t : Tmpl} {v : Str} (u : Tmpl) (h : Uses ch t v) : Uses ch (append t u) v := by
  induction h with
  | key h => exact .key h
  | inSect h he t _ => exact .inSect h he t
  | afterText _ ih => exact .afterText ih
  | afterBrace _ ih => exact .afterBrace ih
  | afterKey _ ih => exact .afterKey ih
  | afterSep _ ih => exact .afterSep ih
  | afterSect _ ih => exact .afterSect ih

theorem uses_found {ch : List Dict} {t : Tmpl} {v : Str} (h : Uses ch t v) : found t ch = true := by
  induction h with
  | key h => simp [found, value_iff.1 h]
  | inSect h _ _ _ => simp [found, entries_iff.1 h]
  | afterText _ ih => exact ih
  | afterBrace _ ih => exact ih
  | afterKey _ ih => simp [found, ih]
  | afterSep _ ih => exact ih
  | afterSect _ ih => simp [found, ih]

theorem uses_join {ch : List Dict} {f : Dict → Bool → Tmpl} {e : Dict} {v : Str} : ∀ (ds : List Dict), e ∈ ds → (∀ sp, Uses ch (f e sp) v) →
    Uses ch (joinDicts f ds) v
  | [], he, _ => by cases he
  | [d], he, h => by
    rw [List.mem_singleton] at he; subst he; exact h false
  | d :: d' :: ds, he, h => by
    rcases List.mem_cons.1 he with rfl | he
    · exact uses_append_left _ (h true)
    · exact uses_append_right _ (uses_join (d' :: ds) he h)

/-- A pass puts the value in place of the tag. -/
theorem uses_residual {set : Settings} {val : Str → Tmpl} {root : Dict} {ch : List Dict} {t : Tmpl} {v w : Str} (h : Uses ch t v)
    (hw : Uses [root] (val v) w) : ∀ sep, Uses [root] (residual set val t ch sep) w := by
  induction h with
  | key h => intro sep; simp only [residual, value_iff.1 h]; exact uses_append_left _ hw
  | inSect h he _ ih =>
    intro sep
    simp only [residual, entries_iff.1 h]
    exact uses_append_left _ (uses_join _ he (fun sp => ih hw sp))
  | afterText _ ih => intro sep; exact .afterText (ih hw sep)
  | afterBrace _ ih => intro sep; exact .afterBrace (ih hw sep)
  | afterKey _ ih =>
    intro sep
    rw [residual]
    split
    · exact uses_append_right _ (ih hw sep)
    · split
      · exact .afterKey (ih hw sep)
      · exact ih hw sep
  | afterSep _ ih =>
    intro sep
    rw [residual]
    split
    · exact .afterText (ih hw sep)
    · exact ih hw sep
  | @afterSect ch k _ _ _ _ ih =>
    intro sep
    cases hs : lookupSect ch k with
    | some du => simp only [residual, hs]; exact uses_append_right _ (ih hw sep)
    | none =>
      cases set <;> simp only [residual, hs]
      · exact ih hw sep
      · exact .afterSect (ih hw sep)
      · exact uses_append_right _ (ih hw sep)

theorem expand_le {dbg : Bool} {set : Settings} {src : Str} {ch : List Dict} {i e : Nat} {sep : Bool} {f g : Nat} (h : f ≤ g) :
    Le (expand dbg set src f ch i e sep) (expand dbg set src g ch i e sep) := by
  induction h with
  | refl => exact .refl _
  | @step m _ ih =>
    intro hne
    rw [← ih hne]
    exact expand_mono dbg set src m ch i e sep (by rw [ih hne]; exact hne)

theorem passes_loop {dbg : Bool} {set : Settings} {val : Str → Tmpl} {d : Dict} (hv : ValWf val d) {V : Str → Prop}
    (hV : ∀ v, V v → ∃ w, V w ∧ Uses [d] (val v) w) : ∀ (f : Nat) (t : Tmpl) (v : Str), Wf t → V v → Uses [d] t v →
    passes dbg set d f (source t) = .diverge := by
  intro f
  induction f with
  | zero => intros; rfl
  | succ f ih =>
    intro t v hw hv' hu
    obtain ⟨n, hn⟩ := expand_root (dbg := dbg) (set := set) hw hv
    obtain ⟨w, hw1, hw2⟩ := hV v hv'
    rw [passes]
    by_cases hd : expand dbg set (source t) (f + 1) [d] 0 (source t).length false = .diverge
    · rw [hd]; rfl
    · have := expand_le (g := f + 1 + n) (by omega) hd
      rw [← this, hn _ (by omega), Outcome.bind_ok]
      simp only [uses_found hu, if_true]
      exact ih _ w (wf_residual t [d] false hw (by simpa using hv)) hw1 (uses_residual hu hw2 false)

/-- **C56.** The expansion never ends if the template uses a value that goes round: one of a set of values each of which uses, as a
template in the root dictionary, a value of the set. -/
theorem C56_goes_round (dbg : Bool) (set : Settings) (val : Str → Tmpl) (d : Dict) (t : Tmpl) (hw : Wf t) (hv : ValuesAre val d)
    (V : Str → Prop) (hV : ∀ v, V v → ∃ w, V w ∧ Uses [d] (val v) w) (v : Str) (h : V v) (hu : Uses [d] t v) (fuel : Nat) :
    getExpanded dbg set d fuel (source t) = .diverge := by
  rw [getExpanded, passes_loop hv hV fuel t v hw h hu]; rfl

/-- A key whose value mentions the key itself outside of sections. -/
theorem C56_own_key (dbg : Bool) (set : Settings) (val : Str → Tmpl) (d : Dict) (t : Tmpl) (hw : Wf t) (hv : ValuesAre val d) (k v : Str)
    (hk : d.repls.lookup k = some v) (hu : ∃ a b, val v = append a (.key k b)) (ht : Uses [d] t v) (fuel : Nat) :
    getExpanded dbg set d fuel (source t) = .diverge := by
  refine C56_goes_round dbg set val d t hw hv (· = v) (fun w hw => ⟨v, rfl, ?_⟩) v rfl ht fuel
  obtain ⟨a, b, e⟩ := hu
  rw [hw, e]
  exact uses_append_right a (.key (.here hk))

/-! ## Results that end in a brace -/

theorem shown_nil (t : Tmpl) (h : shown t = []) : source t = [] := by
  induction t with
  | nil => rfl
  | text s r ih =>
    simp only [shown, List.append_eq_nil_iff] at h
    simp [source, h.1, ih h.2]
  | brace r ih => simp [shown] at h
  | key k r ih => simp [shown] at h
  | sep s r ih => simp [shown] at h
  | sect k b r _ ih => simp [shown] at h

theorem last_app {a b : Str} {c : Char} (h : (a ++ b).getLast? = some c) : (b = [] ∧ a.getLast? = some c) ∨ b.getLast? = some c := by
  cases b with
  | nil => exact .inl ⟨rfl, by simpa using h⟩
  | cons x b => right; rw [List.getLast?_append] at h; rw [List.getLast?_cons] at h ⊢; simpa using h

theorem split_last (t : Tmpl) : Wf t → (shown t).getLast? = some '{' →
    ∃ u, Wf u ∧ source t = source u ++ ['\\', '{'] ∧ shown t = shown u ++ ['{'] := by
  induction t with
  | nil => intro _ h; simp [shown] at h
  | text s r ih =>
    intro hw h
    rcases last_app h with ⟨_, h⟩ | h
    · exact absurd h hw.1.2.2.1
    · obtain ⟨u, h1, h2, h3⟩ := ih hw.2 h
      exact ⟨.text s u, ⟨hw.1, h1⟩, by simp [source, h2], by simp [shown, h3]⟩
  | brace r ih =>
    intro hw h
    by_cases he : shown r = []
    · exact ⟨.nil, trivial, by simp [source, shown_nil r he], by simp [shown, he]⟩
    · have : (shown r).getLast? = some '{' := by
        rw [shown, show '{' :: shown r = ['{'] ++ shown r from rfl] at h
        rcases last_app h with ⟨h, _⟩ | h
        · exact absurd h he
        · exact h
      obtain ⟨u, h1, h2, h3⟩ := ih hw this
      exact ⟨.brace u, h1, by simp [source, h2], by simp [shown, h3]⟩
  | key k r ih =>
    intro hw h
    rcases last_app h with ⟨_, h⟩ | h
    · rcases last_app h with ⟨h, _⟩ | h <;> simp at h
    · obtain ⟨u, h1, h2, h3⟩ := ih hw.2.2 h
      exact ⟨.key k u, ⟨hw.1, hw.2.1, h1⟩, by simp [source, h2], by simp [shown, h3]⟩
  | sep s r ih =>
    intro hw h
    rcases last_app h with ⟨_, h⟩ | h
    · rcases last_app h with ⟨h, _⟩ | h <;> simp at h
    · obtain ⟨u, h1, h2, h3⟩ := ih hw.2.2 h
      exact ⟨.sep s u, ⟨hw.1, hw.2.1, h1⟩, by simp [source, h2], by simp [shown, h3]⟩
  | sect k b r _ ih =>
    intro hw h
    rcases last_app h with ⟨_, h⟩ | h
    · rcases last_app h with ⟨h, _⟩ | h <;> simp at h
    · obtain ⟨u, h1, h2, h3⟩ := ih hw.2.2.2.2 h
      exact ⟨.sect k b u, ⟨hw.1, hw.2.1, hw.2.2.1, hw.2.2.2.1, h1⟩, by simp [source, h2], by simp [shown, h3]⟩

/-- **C55.** What `C55_expansion_partial` leaves out: if the meaning of a well-formed template ends in a brace, the result is the meaning with
this brace written twice. -/
theorem C55_trailing_brace (dbg : Bool) (set : Settings) (val : Str → Tmpl) (d : Dict) (t : Tmpl) (out : Str) (hw : Wf t) (hv : ValuesAre val d)
    (hm : Means set d val [d] false t out) (hl : out.getLast? = some '{') :
    ∃ n, ∀ fuel, n ≤ fuel → getExpanded dbg set d fuel (source t) = .ok (out ++ ['{']) := by
  obtain ⟨⟨n, hn⟩, h2⟩ := means_fins hm (List.suffix_refl _)
  obtain ⟨R, h3, h4, h5⟩ := passes_of_fin (dbg := dbg) hv n t hw h2 hn
  obtain ⟨u, g1, g2, g3⟩ := split_last R h3 (by rw [h4]; exact hl)
  refine h5.mp (fun f hf => ?_)
  rw [getExpanded, hf, Outcome.bind_ok, g2, deEscape_source u _ g1 (.inr (by simp)), ← h4, g3]
  simp [deEscape]

/-! ## Exactly when it ends -/

/-- What has no meaning uses a value that has none. -/
theorem no_meaning {set : Settings} (hs : set ≠ .onlyCnt) {root : Dict} {val : Str → Tmpl} (t : Tmpl) : ∀ (ch : List Dict) (sep : Bool),
    (¬ ∃ o, Means set root val ch sep t o) → ∃ v, Uses ch t v ∧ ¬ ∃ o, Means set root val [root] false (val v) o := by
  induction t with
  | nil => intro ch sep h; exact absurd ⟨_, .nil⟩ h
  | text s r ih =>
    intro ch sep h
    obtain ⟨v, h1, h2⟩ := ih ch sep (fun ⟨o, ho⟩ => h ⟨_, .text ho⟩)
    exact ⟨v, .afterText h1, h2⟩
  | brace r ih =>
    intro ch sep h
    obtain ⟨v, h1, h2⟩ := ih ch sep (fun ⟨o, ho⟩ => h ⟨_, .brace ho⟩)
    exact ⟨v, .afterBrace h1, h2⟩
  | key k r ih =>
    intro ch sep h
    by_cases hr : ∃ o, Means set root val ch sep r o
    · obtain ⟨o, ho⟩ := hr
      by_cases hk : ∃ v, Value ch k v
      · obtain ⟨v, hk⟩ := hk
        exact ⟨v, .key hk, fun ⟨p, hp⟩ => h ⟨_, .key hk hp ho⟩⟩
      · have hk' : ∀ v, ¬ Value ch k v := fun v hv => hk ⟨v, hv⟩
        by_cases hm : set = .maintain
        · exact absurd ⟨_, .keyKeep hm hk' ho⟩ h
        · exact absurd ⟨_, .keyErase hm hk' ho⟩ h
    · obtain ⟨v, h1, h2⟩ := ih ch sep hr
      exact ⟨v, .afterKey h1, h2⟩
  | sep s r ih =>
    intro ch sep h
    obtain ⟨v, h1, h2⟩ := ih ch sep (fun ⟨o, ho⟩ => h (by
      cases sep
      · exact ⟨_, .noSep ho⟩
      · exact ⟨_, .sep ho⟩))
    exact ⟨v, .afterSep h1, h2⟩
  | sect k b r ihb ihr =>
    intro ch sep h
    by_cases hr : ∃ o, Means set root val ch sep r o
    · obtain ⟨o, ho⟩ := hr
      by_cases hk : ∃ ds up, Entries ch k ds up
      · obtain ⟨ds, up, hk⟩ := hk
        by_cases hall : ∀ e ∈ ds, ∀ sp, ∃ p, Means set root val (e :: up) sp b p
        · have hne : ds ≠ [] := by
            have := lookupSect_mem (entries_iff.1 hk)
            exact this.1
          have : ∀ ds : List Dict, ds ≠ [] → (∀ e ∈ ds, ∀ sp, ∃ p, Means set root val (e :: up) sp b p) → ∃ p, MeansAll set root val up b ds p := by
            intro ds
            induction ds with
            | nil => intro h; exact absurd rfl h
            | cons e ds ih =>
              intro _ ha
              cases ds with
              | nil =>
                obtain ⟨p, hp⟩ := ha e (by simp) false
                exact ⟨p, .last hp⟩
              | cons e' ds =>
                obtain ⟨p, hp⟩ := ha e (by simp) true
                obtain ⟨q, hq⟩ := ih (by simp) (fun x hx => ha x (by simp [hx]))
                exact ⟨_, .cons hp hq⟩
          obtain ⟨p, hp⟩ := this ds hne hall
          exact absurd ⟨_, .sect hk hp ho⟩ h
        · simp only [Classical.not_forall] at hall
          obtain ⟨e, he, sp, hn⟩ := hall
          obtain ⟨v, h1, h2⟩ := ihb (e :: up) sp hn
          exact ⟨v, .inSect hk he h1, h2⟩
      · have hk' : ∀ ds up, ¬ Entries ch k ds up := fun ds up hv => hk ⟨ds, up, hv⟩
        cases hset : set with
        | erase => exact absurd ⟨_, .sectErase hset hk' ho⟩ h
        | maintain => exact absurd ⟨_, .sectKeep hset hk' ho⟩ h
        | onlyCnt => exact absurd hset hs
    · obtain ⟨v, h1, h2⟩ := ihr ch sep hr
      exact ⟨v, .afterSect h1, h2⟩

/-- **C56.** The expansion of a well-formed template ends exactly if the template has a meaning; if it has none, some value it uses goes
round. (Not under `onlyCnt`, where sections that are not in the dictionary have no meaning.) -/
theorem C56_ends_iff (dbg : Bool) (set : Settings) (hs : set ≠ .onlyCnt) (val : Str → Tmpl) (d : Dict) (t : Tmpl) (hw : Wf t) (hv : ValuesAre val d) :
    ((∃ fuel, getExpanded dbg set d fuel (source t) ≠ .diverge) ↔ ∃ out, Means set d val [d] false t out) ∧
    ((∀ fuel, getExpanded dbg set d fuel (source t) = .diverge) ↔
      ∃ V : Str → Prop, (∀ v, V v → ∃ w, V w ∧ Uses [d] (val v) w) ∧ ∃ v, V v ∧ Uses [d] t v) := by
  have a : (¬ ∃ out, Means set d val [d] false t out) →
      ∃ V : Str → Prop, (∀ v, V v → ∃ w, V w ∧ Uses [d] (val v) w) ∧ ∃ v, V v ∧ Uses [d] t v := by
    intro h
    refine ⟨fun v => ¬ ∃ o, Means set d val [d] false (val v) o, fun v hv => ?_, ?_⟩
    · obtain ⟨w, h1, h2⟩ := no_meaning hs (val v) [d] false hv
      exact ⟨w, h2, h1⟩
    · obtain ⟨w, h1, h2⟩ := no_meaning hs t [d] false h
      exact ⟨w, h2, h1⟩
  have b : (∃ V : Str → Prop, (∀ v, V v → ∃ w, V w ∧ Uses [d] (val v) w) ∧ ∃ v, V v ∧ Uses [d] t v) →
      ∀ fuel, getExpanded dbg set d fuel (source t) = .diverge := by
    rintro ⟨V, hV, v, h1, h2⟩ fuel
    exact C56_goes_round dbg set val d t hw hv V hV v h1 h2 fuel
  have c : (∃ out, Means set d val [d] false t out) → ∃ fuel, getExpanded dbg set d fuel (source t) ≠ .diverge := by
    rintro ⟨out, h⟩
    by_cases hl : out.getLast? = some '{'
    · obtain ⟨n, hn⟩ := C55_trailing_brace dbg set val d t out hw hv h hl
      exact ⟨n, by rw [hn n (Nat.le_refl _)]; simp⟩
    · obtain ⟨n, hn⟩ := C55_expansion_partial dbg set val d t out hw hv h hl
      exact ⟨n, by rw [hn n (Nat.le_refl _)]; simp⟩
  refine ⟨⟨fun ⟨f, hf⟩ => ?_, c⟩, fun h => ?_, b⟩
  · exact Classical.byContradiction (fun hn => hf (b (a hn) f))
  · refine a (fun hm => ?_)
    obtain ⟨f, hf⟩ := c hm
    exact hf (h f)

/-- Two keys whose values mention each other, used within a section. -/
def roundDict : Dict := .mk [(['a'], ['{', '{', 'b', '}', '}']), (['b'], ['x', '{', '{', 'a', '}', '}'])] [(['s'], [.empty])]

/-- Their values as templates. -/
def roundVal (v : Str) : Tmpl :=
  if v = ['{', '{', 'b', '}', '}'] then .key ['b'] .nil
  else if v = ['x', '{', '{', 'a', '}', '}'] then .text ['x'] (.key ['a'] .nil)
  else .text v .nil

example (dbg : Bool) (set : Settings) (fuel : Nat) :
    getExpanded dbg set roundDict fuel (source (.sect ['s'] (.key ['a'] .nil) .nil)) = .diverge := by
  have hx : TextOk ['x'] := by simp [TextOk, List.infix_cons_iff]
  refine C56_goes_round dbg set roundVal roundDict _ ?_ ?_ (fun v => v = ['{', '{', 'b', '}', '}'] ∨ v = ['x', '{', '{', 'a', '}', '}']) ?_
    ['{', '{', 'b', '}', '}'] (.inl rfl) (.inSect (ds := [.empty]) (e := .empty) (.here rfl (by simp)) (by simp) (.key (.outer rfl (.here rfl)))) fuel
  · simp [Wf, sectKeys, source]
  · intro e he k v hv
    have hE : e = roundDict ∨ e = .empty := by
      cases he with
      | refl => exact .inl rfl
      | @step _ e' _ k ds h he t =>
        right
        have : ds = [.empty] := by
          simp only [roundDict, Dict.sects, List.lookup] at h
          split at h
          · exact (Option.some.inj h).symm
          · cases h
        subst this
        rw [List.mem_singleton] at he
        subst he
        cases t with
        | refl => rfl
        | step h _ _ => cases h
    rcases hE with rfl | rfl
    · simp only [roundDict, Dict.repls, List.lookup] at hv
      split at hv
      · cases hv; exact ⟨rfl, by simp [roundVal, Wf]⟩
      · split at hv
        · cases hv; exact ⟨rfl, by simp [roundVal, Wf, hx]⟩
        · cases hv
    · cases hv
  · rintro v (rfl | rfl)
    · exact ⟨_, .inr rfl, .key (.here rfl)⟩
    · exact ⟨_, .inl rfl, .afterText (.key (.here rfl))⟩

end Verif.Tmpl
