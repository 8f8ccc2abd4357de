import Verif.Json.Theorems

/-!
# Which strings survive being written and read (C16): none with a quote or a backslash
-/

namespace Verif.Json

open Verif

variable {R : Type} {ops : RealOps R}

/-! ## One literal -/

theorem scanEnd_lt (dbg : Bool) : ∀ (l : List Char) {n : Nat}, scanEnd dbg l = .ok n → n < l.length
  | [], n, h => by cases dbg <;> simp [scanEnd] at h
  | [c], n, h => by
    rw [scanEnd] at h
    split at h
    · cases h; simp
    · cases dbg <;> simp at h
  | c :: d :: cs, n, h => by
    rw [scanEnd] at h
    split at h
    · cases h; simp
    · split at h
      · split at h
        · cases h
        · obtain ⟨k, hk, h⟩ := Outcome.bind_eq_ok.1 h
          cases h
          have := scanEnd_lt dbg cs hk
          simp; omega
      · obtain ⟨k, hk, h⟩ := Outcome.bind_eq_ok.1 h
        cases h
        have := scanEnd_lt dbg (d :: cs) hk
        simp at this ⊢; omega

/-- Decoding a literal shortens its text, unless there is no escape in it, and then it gives the text as it stands, without a quote. -/
theorem literal_length (x : Ctx) : ∀ (l : List Char) {n : Nat} {u r : List Char}, scanEnd x.dbg l = .ok n → convert x n l = .ok (u, r) →
    u.length ≤ n ∧ (u.length = n → u = l.take n ∧ NoSpecial u)
  | [], n, u, r, h, _ => by cases hx : x.dbg <;> simp [scanEnd, hx] at h
  | [c], n, u, r, h, hc => by
    rw [scanEnd] at h
    split at h
    · cases h; rw [convert] at hc; simp at hc; obtain ⟨rfl, -⟩ := hc; simp [NoSpecial]
    · cases hx : x.dbg <;> simp [hx] at h
  | c :: d :: cs, n, u, r, h, hc => by
    rw [scanEnd] at h
    split at h
    · cases h; rw [convert] at hc; simp at hc; obtain ⟨rfl, -⟩ := hc; simp [NoSpecial]
    · rename_i hq
      split at h
      · rename_i he
        split at h
        · cases h
        · obtain ⟨k, hk, h⟩ := Outcome.bind_eq_ok.1 h
          cases h
          subst he
          rw [convert] at hc
          simp only [show ¬ k + 2 = 0 by omega, dite_false, cur, Outcome.bind_ok, List.tail_cons, ne_eq,
            not_true_eq_false, if_false, Nat.add_sub_cancel] at hc
          obtain ⟨e', he', hc⟩ := Outcome.bind_eq_ok.1 hc
          obtain ⟨⟨a, b⟩, hab, hc⟩ := Outcome.bind_eq_ok.1 hc
          cases hc
          obtain ⟨h1, h2⟩ := literal_length x cs hk hab
          refine ⟨by simp; omega, ?_⟩
          intro he
          simp only [List.length_cons] at he
          omega
      · rename_i he
        obtain ⟨k, hk, h⟩ := Outcome.bind_eq_ok.1 h
        cases h
        rw [convert] at hc
        simp only [Nat.add_eq_zero_iff, Nat.one_ne_zero, and_false, dite_false, cur, Outcome.bind_ok, List.tail_cons, ne_eq,
          he, not_false_eq_true, if_true, Nat.add_sub_cancel] at hc
        obtain ⟨⟨a, b⟩, hab, hc⟩ := Outcome.bind_eq_ok.1 hc
        cases hc
        obtain ⟨h1, h2⟩ := literal_length x (d :: cs) hk hab
        refine ⟨by simp; omega, ?_⟩
        intro hl
        simp only [List.length_cons] at hl
        obtain ⟨h3, h4⟩ := h2 (by omega)
        refine ⟨by rw [List.take_succ_cons, ← h3], ?_⟩
        intro y hy
        rcases List.mem_cons.1 hy with rfl | hy
        · exact ⟨hq, he⟩
        · exact h4 y hy

theorem purgeStr_length (dbg : Bool) : ∀ (s : List Char) (prev : Char) {a b : List Char}, purgeStr dbg prev s = .ok (a, b) →
    a.length + b.length = s.length
  | [], prev, a, b, h => by cases dbg <;> simp [purgeStr] at h
  | c :: cs, prev, a, b, h => by
    rw [purgeStr] at h
    split at h
    · obtain ⟨⟨a', b'⟩, h1, h⟩ := Outcome.bind_eq_ok.1 h
      cases h
      have := purgeStr_length dbg cs c h1
      simp; omega
    · cases h; simp; omega

theorem purgeComment_length (dbg : Bool) : ∀ (s : List Char) {b : List Char}, purgeComment dbg s = .ok b → b.length ≤ s.length
  | [], b, h => by cases dbg <;> simp [purgeComment] at h
  | c :: cs, b, h => by
    rw [purgeComment] at h
    split at h
    · cases h; simp
    · have := purgeComment_length dbg cs h
      simp; omega

theorem purgeLoop_length (dbg : Bool) : ∀ (fuel : Nat) (s : List Char) {p : List Char}, purgeLoop dbg fuel s = .ok p → p.length ≤ s.length
  | 0, _, p, h => by simp [purgeLoop] at h
  | fuel + 1, [], p, h => by simp [purgeLoop] at h; simp [h]
  | fuel + 1, c :: cs, p, h => by
    rw [purgeLoop] at h
    split at h
    · obtain ⟨⟨a, b⟩, h1, h⟩ := Outcome.bind_eq_ok.1 h
      obtain ⟨r, h2, h⟩ := Outcome.bind_eq_ok.1 h
      cases h
      have := purgeStr_length dbg cs _ h1
      have := purgeLoop_length dbg fuel b h2
      simp; omega
    · split at h
      · cases h
      · split at h
        · obtain ⟨b, h1, h⟩ := Outcome.bind_eq_ok.1 h
          have := purgeComment_length dbg cs h1
          have := purgeLoop_length dbg fuel b h
          simp; omega
        · obtain ⟨r, h2, h⟩ := Outcome.bind_eq_ok.1 h
          have := purgeLoop_length dbg fuel cs h2
          split at h <;> (cases h; simp; omega)

/-- **C16 (strings, exactly).** A string comes back from writing and reading it, in any mode and build, if and only if it has neither a
quote nor a backslash. In particular every string with one of them is changed, or reading fails. -/
theorem C16_string_comes_back_iff (pretty dbg : Bool) (t : List Char) :
    (∃ txt, write ops pretty (.str t) = .ok txt ∧ read ops dbg txt = .ok (.str t)) ↔ ∀ c ∈ t, c ≠ '"' ∧ c ≠ '\\' := by
  have hw : write ops pretty (.str t) = .ok ('"' :: t ++ ['"']) := by
    cases pretty <;> simp [write, writeVal, W.put]
  rw [hw]
  constructor
  · rintro ⟨txt, h1, h⟩
    cases h1
    rw [read] at h
    obtain ⟨p, hp, h⟩ := Outcome.bind_eq_ok.1 h
    have hlen := purgeLoop_length dbg _ _ hp
    have hhead : ∃ p', p = '"' :: p' := by
      rw [purge, List.cons_append, purgeLoop, if_pos rfl] at hp
      obtain ⟨⟨a, b⟩, -, hp⟩ := Outcome.bind_eq_ok.1 hp
      obtain ⟨r, -, hp⟩ := Outcome.bind_eq_ok.1 hp
      cases hp
      exact ⟨_, rfl⟩
    obtain ⟨p', rfl⟩ := hhead
    obtain ⟨⟨w, r⟩, hv, h⟩ := Outcome.bind_eq_ok.1 h
    cases h
    have hsrc : purgedSrc ('"' :: t ++ ['"']) ('"' :: p') = '"' :: (p' ++ (t ++ ['"']).drop p'.length) := by simp [purgedSrc]
    rw [hsrc] at hv
    generalize hrest : p' ++ (t ++ ['"']).drop p'.length = rest at hv
    have hrl : rest.length = t.length + 1 := by
      rw [← hrest]
      simp at hlen ⊢
      omega
    rw [parseVal] at hv
    simp only [cur, Outcome.bind_ok, show ¬ '"' = '{' by decide, show ¬ '"' = '[' by decide, if_false, if_true] at hv
    obtain ⟨⟨u, r'⟩, hu, hv⟩ := Outcome.bind_eq_ok.1 hv
    cases hv
    rw [readStr] at hu
    obtain ⟨n, hn, hu⟩ := Outcome.bind_eq_ok.1 hu
    obtain ⟨⟨u', r''⟩, hc, hu⟩ := Outcome.bind_eq_ok.1 hu
    cases hu
    rw [List.tail_cons] at hn hc
    obtain ⟨h1, h2⟩ := literal_length _ _ hn hc
    have := scanEnd_lt _ _ hn
    simp only at h1 h2 hrl
    exact (h2 (by omega)).2
  · intro h
    have := C19_literal_is_decoded_partial (ops := ops) _ _ (plain_denotes h).1 (plain_denotes h).2.1 dbg
    rw [litText_plain h] at this
    exact ⟨_, rfl, this⟩

/-! ## Values that contain such strings -/

/-- All strings and keys in the value satisfy `p`. -/
inductive Strings {R : Type} (p : List Char → Prop) : Val R → Prop
  | nll : Strings p .nll
  | bln {b} : Strings p (.bln b)
  | num {n} : Strings p (.num n)
  | str {s} (h : p s) : Strings p (.str s)
  | arr {vs} (h : ∀ v ∈ vs, Strings p v) : Strings p (.arr vs)
  | obj {kvs} (h : ∀ q ∈ kvs, Strings p q.2) (hk : ∀ q ∈ kvs, p q.1) : Strings p (.obj kvs)

/-- The text has no backslash. -/
def Clean (l : List Char) : Prop := '\\' ∉ l

theorem Clean.tail {l : List Char} (h : Clean l) : Clean l.tail := fun hm => h (List.mem_of_mem_tail hm)

theorem Clean.drop {l : List Char} (h : Clean l) (n : Nat) : Clean (l.drop n) := fun hm => h (List.mem_of_mem_drop hm)

theorem convert_clean (x : Ctx) : ∀ (n : Nat) (l : List Char) {u r : List Char}, Clean l → convert x n l = .ok (u, r) →
    u.length = n ∧ r = l.drop n := by
  intro n
  induction n with
  | zero => intro l u r _ h; rw [convert] at h; simp at h; simp [h.1.symm, h.2.symm]
  | succ n ih =>
    intro l u r hl h
    rw [convert] at h
    simp only [Nat.add_eq_zero_iff, Nat.one_ne_zero, and_false, dite_false, Nat.add_sub_cancel] at h
    obtain ⟨c, hc, h⟩ := Outcome.bind_eq_ok.1 h
    split at h
    · obtain ⟨⟨a, b⟩, hab, h⟩ := Outcome.bind_eq_ok.1 h
      cases h
      obtain ⟨h1, h2⟩ := ih l.tail hl.tail hab
      refine ⟨by simp [h1], ?_⟩
      rw [h2]
      cases l <;> simp
    · rename_i hb
      have hb : c = '\\' := by simpa using hb
      cases l with
      | nil =>
        simp only [cur] at hc
        split at hc
        · cases hc
        · cases hc; cases hb
      | cons d l =>
        simp only [cur] at hc
        cases hc
        subst hb
        exact absurd List.mem_cons_self hl

theorem readStr_clean {x : Ctx} {l u r : List Char} (hl : Clean l) (h : readStr x l = .ok (u, r)) : NoSpecial u ∧ Clean r := by
  rw [readStr] at h
  obtain ⟨n, hn, h⟩ := Outcome.bind_eq_ok.1 h
  obtain ⟨⟨u', r'⟩, hc, h⟩ := Outcome.bind_eq_ok.1 h
  cases h
  obtain ⟨h1, h2⟩ := convert_clean x n _ hl.tail hc
  refine ⟨((literal_length x _ hn hc).2 h1).2, ?_⟩
  rw [h2]
  exact (hl.tail.drop n).tail

theorem matchKw_clean {x : Ctx} : ∀ (kw : List Char) {l r : List Char}, Clean l → matchKw x kw l = .ok r → Clean r
  | [], l, r, hl, h => by simp [matchKw] at h; exact h ▸ hl
  | k :: kw, l, r, hl, h => by
    rw [matchKw] at h
    obtain ⟨c, hc, h⟩ := Outcome.bind_eq_ok.1 h
    split at h
    · unfold Json.throwError at h
      split at h <;> cases h
    · exact matchKw_clean kw hl.tail h

mutual

theorem parseVal_clean (x : Ctx) (fuel : Nat) (rest : List Char) (hl : Clean rest) {v : Val R} {r : List Char}
    (h : parseVal ops x fuel rest = .ok (v, r)) : Strings NoSpecial v ∧ Clean r := by
  match fuel with
  | 0 => simp [parseVal] at h
  | fuel + 1 =>
    rw [parseVal] at h
    obtain ⟨c, hc, h⟩ := Outcome.bind_eq_ok.1 h
    split at h
    · obtain ⟨d, hd, h⟩ := Outcome.bind_eq_ok.1 h
      split at h
      · cases h; exact ⟨.obj (by simp) (by simp), hl.tail.tail⟩
      · exact objLoop_clean x fuel _ [] hl.tail (by simp) (by simp) List.Pairwise.nil h
    · split at h
      · obtain ⟨d, hd, h⟩ := Outcome.bind_eq_ok.1 h
        split at h
        · cases h; exact ⟨.arr (by simp), hl.tail.tail⟩
        · exact arrLoop_clean x fuel _ [] hl.tail (by simp) h
      · split at h
        · obtain ⟨⟨u, r'⟩, hd, h⟩ := Outcome.bind_eq_ok.1 h
          cases h
          obtain ⟨h1, h2⟩ := readStr_clean hl hd
          exact ⟨.str h1, h2⟩
        · split at h
          · obtain ⟨d, hd, h⟩ := Outcome.bind_eq_ok.1 h
            cases h; exact ⟨.bln, matchKw_clean _ hl hd⟩
          · split at h
            · obtain ⟨d, hd, h⟩ := Outcome.bind_eq_ok.1 h
              cases h; exact ⟨.bln, matchKw_clean _ hl hd⟩
            · split at h
              · obtain ⟨d, hd, h⟩ := Outcome.bind_eq_ok.1 h
                cases h; exact ⟨.nll, matchKw_clean _ hl hd⟩
              · obtain ⟨b, _, h⟩ := Outcome.bind_eq_ok.1 h
                split at h
                · unfold parseNum at h
                  simp only [] at h
                  split at h
                  · cases h
                  · cases h; exact ⟨.num, hl.drop _⟩
                · unfold Json.throwError at h
                  split at h <;> cases h

theorem arrLoop_clean (x : Ctx) (fuel : Nat) (rest : List Char) (acc : List (Val R)) (hl : Clean rest)
    (ha : ∀ v ∈ acc, Strings NoSpecial v) {v : Val R} {r : List Char}
    (h : arrLoop ops x fuel rest acc = .ok (v, r)) : Strings NoSpecial v ∧ Clean r := by
  match fuel with
  | 0 => simp [arrLoop] at h
  | fuel + 1 =>
    rw [arrLoop] at h
    obtain ⟨⟨w, r'⟩, hw, h⟩ := Outcome.bind_eq_ok.1 h
    obtain ⟨c, hc, h⟩ := Outcome.bind_eq_ok.1 h
    obtain ⟨hw', hr'⟩ := parseVal_clean x fuel rest hl hw
    have hacc : ∀ u ∈ acc ++ [w], Strings NoSpecial u := by
      intro u hu
      rcases List.mem_append.1 hu with hu | hu
      · exact ha u hu
      · rw [List.mem_singleton.1 hu]; exact hw'
    split at h
    · exact arrLoop_clean x fuel _ _ hr'.tail hacc h
    · split at h
      · cases h; exact ⟨.arr hacc, hr'.tail⟩
      · unfold Json.throwError at h
        split at h <;> cases h

theorem objLoop_clean (x : Ctx) (fuel : Nat) (rest : List Char) (acc : List (List Char × Val R)) (hl : Clean rest)
    (ha : ∀ p ∈ acc, Strings NoSpecial p.2) (hb : ∀ p ∈ acc, NoSpecial p.1) (hi : Container.Increasing strLt acc) {v : Val R}
    {r : List Char} (h : objLoop ops x fuel rest acc = .ok (v, r)) : Strings NoSpecial v ∧ Clean r := by
  match fuel with
  | 0 => simp [objLoop] at h
  | fuel + 1 =>
    rw [objLoop] at h
    obtain ⟨c, hc, h⟩ := Outcome.bind_eq_ok.1 h
    split at h
    · unfold Json.throwError at h
      split at h <;> cases h
    · obtain ⟨⟨k, r1⟩, hk, h⟩ := Outcome.bind_eq_ok.1 h
      obtain ⟨c2, hc2, h⟩ := Outcome.bind_eq_ok.1 h
      obtain ⟨hk', hr1⟩ := readStr_clean hl hk
      split at h
      · unfold Json.throwError at h
        split at h <;> cases h
      · obtain ⟨⟨w, r2⟩, hw, h⟩ := Outcome.bind_eq_ok.1 h
        obtain ⟨hw', hr2⟩ := parseVal_clean x fuel _ hr1.tail hw
        dsimp only at h
        rw [setIndex_eq_put _ hi] at h
        simp only [Outcome.bind_ok] at h
        obtain ⟨c3, hc3, h⟩ := Outcome.bind_eq_ok.1 h
        have hacc : ∀ p ∈ put acc k w, Strings NoSpecial p.2 := by
          intro p hp
          rcases put_mem k w hp with hp | hp
          · rw [hp]; exact hw'
          · exact ha p hp
        have hacc' : ∀ p ∈ put acc k w, NoSpecial p.1 := by
          intro p hp
          rcases put_mem k w hp with hp | hp
          · rw [hp]; exact hk'
          · exact hb p hp
        split at h
        · exact objLoop_clean x fuel _ _ hr2.tail hacc hacc' (put_increasing hi k w) h
        · split at h
          · cases h; exact ⟨.obj hacc hacc', hr2.tail⟩
          · unfold Json.throwError at h
            split at h <;> cases h

end

theorem purgeStr_clean (dbg : Bool) : ∀ (s : List Char) (prev : Char) {a b : List Char}, Clean s → purgeStr dbg prev s = .ok (a, b) →
    Clean a ∧ Clean b
  | [], prev, a, b, _, h => by cases dbg <;> simp [purgeStr] at h
  | c :: cs, prev, a, b, hs, h => by
    have hc : '\\' ≠ c := fun e => hs (e ▸ List.mem_cons_self)
    rw [purgeStr] at h
    split at h
    · obtain ⟨⟨a', b'⟩, h1, h⟩ := Outcome.bind_eq_ok.1 h
      cases h
      obtain ⟨h2, h3⟩ := purgeStr_clean dbg cs c hs.tail h1
      exact ⟨by simp only [Clean, List.mem_cons, not_or]; exact ⟨hc, h2⟩, h3⟩
    · cases h; exact ⟨by simp only [Clean, List.mem_singleton]; exact hc, hs.tail⟩

theorem purgeComment_clean (dbg : Bool) : ∀ (s : List Char) {b : List Char}, Clean s → purgeComment dbg s = .ok b → Clean b
  | [], b, _, h => by cases dbg <;> simp [purgeComment] at h
  | c :: cs, b, hs, h => by
    rw [purgeComment] at h
    split at h
    · cases h; exact hs.tail
    · exact purgeComment_clean dbg cs hs.tail h

theorem purgeLoop_clean (dbg : Bool) : ∀ (fuel : Nat) (s : List Char) {p : List Char}, Clean s → purgeLoop dbg fuel s = .ok p → Clean p
  | 0, _, p, _, h => by simp [purgeLoop] at h
  | fuel + 1, [], p, _, h => by simp [purgeLoop] at h; simp [Clean, h]
  | fuel + 1, c :: cs, p, hs, h => by
    have hc : '\\' ≠ c := fun e => hs (e ▸ List.mem_cons_self)
    rw [purgeLoop] at h
    split at h
    · obtain ⟨⟨a, b⟩, h1, h⟩ := Outcome.bind_eq_ok.1 h
      obtain ⟨r, h2, h⟩ := Outcome.bind_eq_ok.1 h
      cases h
      obtain ⟨h3, h4⟩ := purgeStr_clean dbg cs _ hs.tail h1
      have := purgeLoop_clean dbg fuel b h4 h2
      simp only [Clean, List.mem_cons, List.mem_append, not_or]
      exact ⟨hc, h3, this⟩
    · split at h
      · cases h
      · split at h
        · obtain ⟨b, h1, h⟩ := Outcome.bind_eq_ok.1 h
          exact purgeLoop_clean dbg fuel b (purgeComment_clean dbg cs hs.tail h1) h
        · obtain ⟨r, h2, h⟩ := Outcome.bind_eq_ok.1 h
          have := purgeLoop_clean dbg fuel cs hs.tail h2
          split at h
          · cases h; exact this
          · cases h
            simp only [Clean, List.mem_cons, not_or]
            exact ⟨hc, this⟩

/-- **C16.** Whatever text without backslashes is read, no string and no key of the value contains a quote or a backslash: the other
values can only be written in texts with escapes, which the writer never produces. -/
theorem C16_read_without_backslash (dbg : Bool) (s : List Char) (hs : '\\' ∉ s) (v : Val R) (h : read ops dbg s = .ok v) :
    Strings (fun t => ∀ c ∈ t, c ≠ '"' ∧ c ≠ '\\') v := by
  rw [read] at h
  obtain ⟨p, hp, h⟩ := Outcome.bind_eq_ok.1 h
  obtain ⟨⟨w, r⟩, hv, h⟩ := Outcome.bind_eq_ok.1 h
  cases h
  have hp' := purgeLoop_clean dbg _ _ hs hp
  refine (parseVal_clean _ _ _ ?_ hv).1
  simp only [Clean, purgedSrc, List.mem_append, not_or]
  exact ⟨hp', Clean.drop hs _⟩

/-- **C16 fails** for every value with a quote in one of its strings or keys, at any depth, if the text written has no backslash (there is
one only if a string, a key or the text of a real has one): whatever the mode and the build, it does not come back. -/
theorem C16_quote_never_comes_back (pretty dbg : Bool) (v : Val R) (txt : List Char) (_ : write ops pretty v = .ok txt) (hb : '\\' ∉ txt)
    (hq : ¬ Strings (fun t => '"' ∉ t) v) : read ops dbg txt ≠ .ok v := by
  intro h
  have mono : ∀ {v : Val R}, Strings (fun t => ∀ c ∈ t, c ≠ '"' ∧ c ≠ '\\') v → Strings (fun t => '"' ∉ t) v := by
    intro v hv
    induction hv with
    | nll => exact .nll
    | bln => exact .bln
    | num => exact .num
    | str h => exact .str (fun hm => (h _ hm).1 rfl)
    | arr _ ih => exact .arr ih
    | obj _ hk ih => exact .obj ih (fun q hq hm => (hk q hq _ hm).1 rfl)
  exact hq (mono (C16_read_without_backslash dbg txt hb v h))

/-- A value with a quote in a key: the text written reads as another value. -/
example : write demoOps false (.obj [("a\":0,\"b".toList, .num (.intS 1))]) = .ok "{\"a\":0,\"b\":1}".toList ∧
    ¬ Strings (fun t => '"' ∉ t) (.obj [("a\":0,\"b".toList, .num (.intS 1))] : Val Rat) ∧
    read demoOps true "{\"a\":0,\"b\":1}".toList = .ok (.obj [(['a'], .num (.intS 0)), (['b'], .num (.intS 1))]) := by
  refine ⟨by decide +kernel, ?_, by decide +kernel⟩
  intro h
  cases h with
  | obj _ hk => exact hk _ List.mem_cons_self (by decide)

end Verif.Json
