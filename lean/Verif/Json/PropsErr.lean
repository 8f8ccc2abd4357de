import Verif.Json.LemmasErr4
import Verif.Json.Theorems
import Verif.Str.Theorems
import Verif.Log.Theorems

/-!
# C142: read errors say what is wrong and where

Theorems about the exceptions of the reader. `k` is the text without whitespace and comments, `s` the text that is read (a
`Layout` of `k`). The reader overwrites the front of `s` with `k` and does not shorten it, so positions refer to
`k ++ s.drop k.length`.
-/

namespace Verif.Json

open Verif

variable {R : Type} {ops : RealOps R}

theorem dropNewlines_eq (s : List Char) : ∃ n, ∀ fuel > n, Str.replaceAllFuel fuel s ['\n'] [] = .ok (dropNewlines s) := by
  obtain ⟨cuts, last, n, hc, h⟩ := Str.C34_disjoint_partial s ['\n'] [] (by simp) (by simp) (.inr rfl)
  refine ⟨n, fun fuel hf => ?_⟩
  rw [h fuel hf]
  congr 1
  have hno : ∀ (t : List Char) (j : Nat), (∀ i < j, ¬ Str.Spec.OccursAt [['\n']] t i) → dropNewlines (t.take j) = t.take j := by
    intro t j hj
    refine List.filter_eq_self.2 fun c hc => ?_
    simp only [ne_eq, decide_not, Bool.not_eq_eq_eq_not, Bool.not_true, decide_eq_false_iff_not]
    rintro rfl
    obtain ⟨i, hi, e⟩ := List.mem_take_iff_getElem.1 hc
    refine hj i (by omega) ⟨['\n'], by simp, ?_⟩
    rw [List.drop_eq_getElem_cons (by omega), e]
    exact ⟨t.drop (i + 1), rfl⟩
  have happ : ∀ a b, dropNewlines (a ++ b) = dropNewlines a ++ dropNewlines b := by
    intro a b; unfold dropNewlines; rw [List.filter_append]
  clear h hf
  induction hc with
  | @last s hl =>
    have := hno s s.length (fun i hi => hl i (by omega))
    rw [List.take_length] at this
    simp [Str.Spec.joined, this]
  | @cut piece sep rest cuts last before here more ih =>
    have hsep : sep = ['\n'] := by
      obtain ⟨l, r, e, _⟩ := here
      cases l with
      | nil => cases e; rfl
      | cons x l => cases l <;> cases e
    subst hsep
    have h1 := hno _ piece.length before
    rw [List.append_assoc, List.take_left] at h1
    rw [happ, happ, h1, ← ih]
    simp [Str.Spec.joined, dropNewlines]

/-- What the exception `e`, raised while reading the layout `s` of `k`, says about position `i`, the character `c` found there and
the characters `ks` expected. -/
structure Reports (ops : RealOps R) (dbg : Bool) (k s : List Char) (e : ReadException) (i : Nat) (c : Char) (ks : List Char) :
    Prop where
  /-- the position is in the text or right after it -/
  within : i ≤ (k ++ s.drop k.length).length
  found : c = charAt (k ++ s.drop k.length) i
  /-- title and message name what was found and what was expected; as a C string the message ends at a zero character -/
  message : ∃ m, Says e.title m c ks ∧ e.what = m.takeWhile (· ≠ Char.ofNat 0)
  /-- the excerpt: up to 20 characters on each side, then the same with up to 4 on each side marked; the last character of the
  text is left out -/
  shown : e.src =
    excerpt (k ++ s.drop k.length) (i - 20) (min (k.length - 1) (i + 20)) ++ "\n".toList ++
    excerpt (k ++ s.drop k.length) (i - 20) (i - 4) ++ " o>>> ".toList ++
    excerpt (k ++ s.drop k.length) (i - 4) (min (k.length - 1) (i + 4)) ++ " <<<o ".toList ++
    excerpt (k ++ s.drop k.length) (min (k.length - 1) (i + 4)) (min (k.length - 1) (i + 20))
  /-- what stands before the position can be completed to a text that is read -/
  completable : ∃ suf v, Layout suf suf ∧ ∀ t, Layout ((k ++ s.drop k.length).take i ++ suf) t → read ops dbg t = .ok v
  /-- also by going on with any of the characters that the message says were expected -/
  expected : (',' ∈ ks → c ≠ '-' ∧ c.isDigit = false ∧ c.toNat < 128) → ∀ d ∈ ks, ∃ suf v, Layout (d :: suf) (d :: suf) ∧
    ∀ t, Layout ((k ++ s.drop k.length).take i ++ d :: suf) t → read ops dbg t = .ok v
  /-- what stands before the position together with the character found there cannot be completed -/
  hopeless : i < k.length → EndsNumber ops c → ∀ k' t, Layout k' t → k.take (i + 1) <+: k' → ∀ v, read ops dbg t ≠ .ok v

/-- **C142 (outcomes).** The model with exceptions has the outcomes of the reader of C16-C19. -/
theorem C142_same_outcomes (dbg : Bool) (s : List Char) :
    (∀ v, readE ops dbg s = .ok (.ok v) ↔ read ops dbg s = .ok v) ∧
    ((∃ e, readE ops dbg s = .ok (.error e)) ↔ read ops dbg s = .throw) := by
  unfold readE read
  have hp : purge dbg s ≠ .throw := purgeLoop_noThrow dbg (s.length + 1) s
  revert hp
  generalize purge dbg s = o
  intro hp
  cases o with
  | throw => exact absurd rfl hp
  | ok p =>
    simp only [Outcome.bind_ok]
    rw [← forget_parseValE]
    have ho := parseValE_noThrow (ops := ops) { dbg := dbg, size := (purgedSrc s p).length, realSize := p.length }
      (2 * (purgedSrc s p).length + 3) (purgedSrc s p)
    revert ho
    generalize parseValE ops _ _ _ = o
    intro ho
    cases o with
    | throw => exact absurd rfl ho
    | ok r => cases r with
      | ok p => obtain ⟨v, r⟩ := p; simp [forget]
      | error e => simp [forget]
    | _ => simp [forget]
  | _ => simp

theorem parseValE_enough (x : Ctx) (n : Nat) (rest : List Char) (h : 2 * rest.length + 1 ≤ n) :
    parseValE ops x n rest ≠ .diverge := by
  intro he
  have := parseVal_meets (ops := ops) (P := False) (x := x) (fun h => h.elim) n rest h (fun h => h.elim)
  rw [← forget_parseValE, he] at this
  exact this

theorem read_of_completes {dbg : Bool} {u suf : List Char} {v : Val R} {N : Nat}
    (h : ∀ m, N ≤ m → ∀ t (x' : Ctx), x'.dbg = dbg → parseValE ops x' m (u ++ (suf ++ t)) = .ok (.ok (v, t))) {t : List Char}
    (ht : Layout (u ++ suf) t) : read ops dbg t = .ok v := by
  rw [read, purge_layout dbg ht, Outcome.bind_ok]
  simp only [purgedSrc]
  rw [← forget_parseValE]
  generalize hx : ({ dbg := dbg, size := ((u ++ suf) ++ t.drop (u ++ suf).length).length, realSize := (u ++ suf).length } : Ctx) = x
  generalize hF : 2 * ((u ++ suf) ++ t.drop (u ++ suf).length).length + 3 = F
  have hnd : parseValE ops x F ((u ++ suf) ++ t.drop (u ++ suf).length) ≠ .diverge := parseValE_enough x F _ (by omega)
  have hm := parseValE_mono x F (max N F) (Nat.le_max_right _ _) _ hnd
  have := h (max N F) (Nat.le_max_left _ _) (t.drop (u ++ suf).length) x (by rw [← hx])
  rw [← hm, List.append_assoc, this]
  rfl

theorem errorSrc_eq (src : List Char) (n i : Nat) : errorSrc src n i =
    excerpt src (i - 20) (min (n - 1) (i + 20)) ++ "\n".toList ++
    excerpt src (i - 20) (i - 4) ++ " o>>> ".toList ++
    excerpt src (i - 4) (min (n - 1) (i + 4)) ++ " <<<o ".toList ++
    excerpt src (min (n - 1) (i + 4)) (min (n - 1) (i + 20)) := by
  have hr : ∀ a b, dropNewlines (range src a b) = excerpt src a b := by
    intro a b
    unfold dropNewlines range excerpt
    rw [List.drop_take]
  have hd : ∀ a b, dropNewlines (a ++ b) = dropNewlines a ++ dropNewlines b := by
    intro a b; unfold dropNewlines; rw [List.filter_append]
  unfold errorSrc
  simp only [hd, hr]
  have e1 : dropNewlines [' ', 'o', '>', '>', '>', ' '] = " o>>> ".toList := by decide
  have e2 : dropNewlines [' ', '<', '<', '<', 'o', ' '] = " <<<o ".toList := by decide
  rw [e1, e2]
  simp

/-- **C142 (partial: see below).** Whenever reading a layout of `k` raises a read error, there is a position such that title and
message say which character is there and what was expected; the text before it can be completed to a text that is read, also by
each of the expected characters, and no text that goes on with the character that is there can be read. The excerpt shows the
surroundings of the position. Missing: after a comma is expected, a character that begins a number but is none (`C142_minus`);
the last character is not shown (`C142_last_not_shown`); characters that may continue a number are not covered by `hopeless`
(`C142_number_goes_on`). -/
theorem C142_position_partial (hw : ∀ t, (ops.strtod t).2 ≤ t.length) (hE : ∀ d ∈ [',', ']', '}'], EndsNumber ops d) (dbg : Bool)
    (k s : List Char) (hl : Layout k s) (e : ReadException) (h : readE ops dbg s = .ok (.error e)) :
    ∃ i c ks, Reports ops dbg k s e i c ks := by
  unfold readE at h
  rw [purge_layout dbg hl, Outcome.bind_ok] at h
  simp only [purgedSrc] at h
  generalize hsrc : k ++ s.drop k.length = src at h
  generalize hx : ({ dbg := dbg, size := src.length, realSize := k.length } : Ctx) = x at h
  have hxd : x.dbg = dbg := by rw [← hx]
  have hs := parseVal_sim hw hE x (2 * src.length + 3) src
  cases hp : parseValE ops x (2 * src.length + 3) src with
  | ok r =>
    rw [hp] at h hs
    cases r with
    | ok p => cases h
    | error r =>
      obtain ⟨u, hu, ⟨suf, ⟨v, N, hf⟩, hfl, _⟩, ⟨c, ks, h1, h2, h3⟩, h4⟩ := hs
      have hi : src.length - r.rest.length = u.length := by rw [hu, List.length_append]; omega
      have htake : src.take u.length = u := by rw [hu, List.take_left]
      rw [Outcome.bind_ok] at h
      simp only [hi] at h
      cases h
      rw [hxd] at hf h3 h4
      refine ⟨u.length, c, ks, ?_⟩
      constructor
      · rw [hsrc, hu, List.length_append]; omega
      · rw [hsrc, h2, hu, charAt]
        cases r.rest <;> simp
      · exact ⟨_, h1, rfl⟩
      · rw [hsrc]; exact errorSrc_eq src k.length u.length
      · rw [hsrc, htake]
        exact ⟨suf, v, hfl, fun t ht => read_of_completes hf ht⟩
      · intro hc d hd
        rw [hsrc, htake]
        obtain ⟨suf, ⟨v, N, hf⟩, hfl, _⟩ := h3 (by
          intro hm hn
          obtain ⟨c1, c2, c3⟩ := hc hm
          unfold isNumStart at hn
          rw [if_neg c1, if_pos c3, c2] at hn
          cases hn) d hd
        exact ⟨suf, v, hfl, fun t ht => read_of_completes hf ht⟩
      · intro hik hEc k' t ht hpre v hv
        obtain ⟨z, hz⟩ := hpre
        -- the character is in the text
        have hrest : ∃ w, r.rest = c :: w := by
          cases hr : r.rest with
          | nil =>
            rw [hr, List.append_nil] at hu
            have : src.length = u.length := by rw [hu]
            rw [← hsrc, List.length_append] at this
            omega
          | cons d w => rw [hr] at h2; exact ⟨w, by rw [h2]; rfl⟩
        obtain ⟨w, hrw⟩ := hrest
        have hk1 : k.take (u.length + 1) = u ++ [c] := by
          have e1 : src.take (u.length + 1) = k.take (u.length + 1) := by
            rw [← hsrc, List.take_append_of_le_length (by omega)]
          rw [← e1, hu, hrw, List.take_append]
          simp [List.take_of_length_le]
        rw [read, purge_layout dbg ht, Outcome.bind_ok] at hv
        simp only [purgedSrc] at hv
        rw [← forget_parseValE] at hv
        have e2 : k' ++ t.drop k'.length = u ++ c :: (z ++ t.drop k'.length) := by
          rw [← hz, hk1]; simp
        generalize hx' : ({ dbg := dbg, size := (k' ++ t.drop k'.length).length, realSize := k'.length } : Ctx) = x' at hv
        generalize hF : 2 * (k' ++ t.drop k'.length).length + 3 = F at hv
        have hnd : parseValE ops x' F (k' ++ t.drop k'.length) ≠ .diverge := parseValE_enough x' F _ (by omega)
        have hm := parseValE_mono x' F (max (2 * src.length + 3) F) (Nat.le_max_right _ _) _ hnd
        rw [e2] at hm hv
        rw [← hm] at hv
        rcases h4 c w hrw hEc (z ++ t.drop k'.length) x' _ (by rw [← hx']) (Nat.le_max_left _ F) with h | h
        · rw [h] at hv; cases hv
        · rw [h] at hv; cases hv
  | _ => rw [hp] at h; cases h

/-- **C142 (message).** Unless the character found is a zero (also at the end of the text), the message is complete. -/
theorem C142_message {dbg : Bool} {k s : List Char} {e : ReadException} {i : Nat} {c : Char} {ks : List Char}
    (h : Reports ops dbg k s e i c ks) (hc : c ≠ Char.ofNat 0) : Says e.title e.what c ks := by
  obtain ⟨m, hm, he⟩ := h.message
  have hno : ∀ l : List Char, l.all (· ≠ Char.ofNat 0) = true → l.takeWhile (· ≠ Char.ofNat 0) = l := by
    intro l hl
    have h := List.takeWhile_append_of_pos (l₁ := l) (l₂ := []) (p := fun c : Char => decide (c ≠ Char.ofNat 0))
      (List.all_eq_true.1 hl)
    simpa using h
  have hall : ∀ (c : Char), c ≠ Char.ofNat 0 → ∀ a b : List Char, a.all (· ≠ Char.ofNat 0) = true → b.all (· ≠ Char.ofNat 0) = true →
      (a ++ [c] ++ b).takeWhile (· ≠ Char.ofNat 0) = a ++ [c] ++ b := by
    intro c hc a b ha hb
    refine hno _ ?_
    rw [List.all_append, List.all_append, ha, hb]
    simpa using hc
  have hm' : ∀ t m c ks, Says t m c ks → c ≠ Char.ofNat 0 → m.takeWhile (· ≠ Char.ofNat 0) = m := by
    intro t m c ks hm hc
    cases hm with
    | value => exact hall _ hc _ _ (by decide) (by decide)
    | array => exact hall _ hc _ _ (by decide) (by decide)
    | key => exact hall _ hc _ _ (by decide) (by decide)
    | colon => exact hall _ hc _ _ (by decide) (by decide)
    | object => exact hall _ hc _ _ (by decide) (by decide)
    | keyword kw before after k c hk hs hc => rcases hk with rfl | rfl | rfl <;> exact hno _ (by decide)
  rw [he, hm' _ _ _ _ hm hc]
  exact hm

/-- **C142 (log).** A read error is logged, and only a read error: the lines name title, message and excerpt. The value and the
result are those of the reader without exceptions (`C142_logged_value`). -/
theorem C142_logged (dbg : Bool) (con : Stringify.Con) (lit : List Char) (old : Val R) (s : List Char) (log : Log.LogSt)
    (hl : Log.Idle log) :
    (∀ e, readE ops dbg s = .ok (.error e) → ∃ log', tryParse ops dbg con lit old s log = .ok (false, old, log') ∧ Log.Idle log' ∧
      log'.log = log.log ++ Log.Spec.column "JSON".toList ++ "Error occured during read\n".toList ++
        Log.Spec.column e.title ++ e.what ++ " - at:\n".toList ++ e.src ++ "\n".toList) ∧
    (∀ v, readE ops dbg s = .ok (.ok v) → tryParse ops dbg con lit old s log = .ok (true, v, log)) := by
  constructor
  · intro e he
    refine ⟨Log.exec con lit (logOps e) log, by rw [tryParse, he], ?_⟩
    have ht : e.title ≠ [] := by
      unfold readE at he
      revert he
      generalize purge dbg s = o
      intro he
      cases o with
      | ok p =>
        rw [Outcome.bind_ok] at he
        simp only [] at he
        have h := parseValE_titled (ops := ops) { dbg := dbg, size := (purgedSrc s p).length, realSize := p.length }
          (2 * (purgedSrc s p).length + 3) (purgedSrc s p)
        revert he h
        generalize parseValE ops _ _ _ = o
        intro he h
        cases o with
        | ok r => cases r with
          | ok p => cases he
          | error r => cases he; exact h _ rfl
        | _ => cases he
      | _ => cases he
    have h1 : Log.step con lit log (.title (.leaf .other "JSON".toList)) = { log with title := "JSON".toList } := by
      obtain ⟨⟨o, c⟩, l, ti, su, co, la⟩ := log
      obtain ⟨h1, h2⟩ := hl
      simp only at h1 h2
      subst h1; subst h2
      simp [Log.step, Log.setTitle, Stringify.toStr, Stringify.callStringifyImpl, Stringify.stringify, Stringify.strLeaf,
        Stringify.baseOf, Stringify.put]
    have e1 : Log.exec con lit (logOps e) log = Log.exec con lit (Log.Spec.Line.mk (some e.title) (.leaf .other e.what)
        [.leaf .string (" - at:\n".toList ++ e.src)]).ops
        (Log.putVal con lit (.leaf .other "Error occured during read\n".toList)
          (Log.step con lit log (.title (.leaf .other "JSON".toList)))) := rfl
    have hi := Log.putVal_idle con lit (.leaf .other "Error occured during read\n".toList) { log with title := "JSON".toList } hl.2
    have hg := Log.putVal_titled_log con lit (.leaf .other "Error occured during read\n".toList) log hl "JSON".toList
    rw [e1, h1]
    obtain ⟨h2, h3⟩ := Log.line_log con lit (Log.Spec.Line.mk (some e.title) (.leaf .other e.what)
        [.leaf .string (" - at:\n".toList ++ e.src)]) _ hi
    refine ⟨h3, ?_⟩
    rw [h2, hg]
    obtain ⟨c, cs, hcs⟩ : ∃ c cs, e.title = c :: cs := by
      cases h : e.title with
      | nil => exact absurd h ht
      | cons c cs => exact ⟨c, cs, rfl⟩
    rw [hcs]
    simp [Log.Spec.Line.text, Log.Spec.Line.column, Stringify.text]
  · intro v hv
    rw [tryParse, hv]

/-- **C142 (log).** Result and value of `tryParse` are those of the model of C16-C19. -/
theorem C142_logged_value (dbg : Bool) (con : Stringify.Con) (lit : List Char) (old : Val R) (s : List Char) (log : Log.LogSt)
    (b : Bool) (v : Val R) :
    (∃ log', tryParse ops dbg con lit old s log = .ok (b, v, log')) ↔ readFromStr ops dbg old s = .ok (b, v) := by
  obtain ⟨h1, h2⟩ := C142_same_outcomes (ops := ops) dbg s
  unfold tryParse readFromStr
  revert h1 h2
  generalize readE ops dbg s = o
  generalize read ops dbg s = p
  intro h1 h2
  cases o with
  | ok r =>
    cases r with
    | ok w => rw [(h1 w).1 rfl]; simp
    | error e => rw [h2.1 ⟨e, rfl⟩]; simp
  | _ =>
    cases p with
    | ok w => have := (h1 w).2 rfl; cases this
    | throw => obtain ⟨e, he⟩ := h2.2 rfl; cases he
    | _ => simp

/-- **C142 (completing the text).** When the part before the position is in a layout of its own, it can be completed as it stands. -/
theorem C142_completes {dbg : Bool} {k s : List Char} {e : ReadException} {i : Nat} {c : Char} {ks : List Char}
    (h : Reports ops dbg k s e i c ks) (hp : Layout ((k ++ s.drop k.length).take i) ((k ++ s.drop k.length).take i)) :
    ∃ suf v, read ops dbg ((k ++ s.drop k.length).take i ++ suf) = .ok v := by
  obtain ⟨suf, v, hs, h⟩ := h.completable
  exact ⟨suf, v, h _ (hp.append hs)⟩

/-- **C142 (the mark).** Unless the offending character is a line break or the last of the text, it stands between the marks,
with up to four characters before and three after it. -/
theorem C142_marked {dbg : Bool} {k s : List Char} {e : ReadException} {i : Nat} {c : Char} {ks : List Char}
    (h : Reports ops dbg k s e i c ks) (hi : i + 1 < k.length) (hc : c ≠ '\n') :
    ∃ before after front back, e.src = front ++ " o>>> ".toList ++ (before ++ [c] ++ after) ++ " <<<o ".toList ++ back ∧
      before = excerpt k (i - 4) i ∧ after = excerpt k (i + 1) (min (k.length - 1) (i + 4)) := by
  refine ⟨_, _, excerpt (k ++ s.drop k.length) (i - 20) (min (k.length - 1) (i + 20)) ++ "\n".toList ++
    excerpt (k ++ s.drop k.length) (i - 20) (i - 4),
    excerpt (k ++ s.drop k.length) (min (k.length - 1) (i + 4)) (min (k.length - 1) (i + 20)), ?_, rfl, rfl⟩
  rw [h.shown]
  congr 2
  have hk : ∀ a b, b ≤ k.length → excerpt (k ++ s.drop k.length) a b = excerpt k a b := by
    intro a b hb
    unfold excerpt
    rw [← List.drop_take, ← List.drop_take, List.take_append_of_le_length hb]
  have hsplit : ∀ a b d, a ≤ b → b ≤ d → excerpt k a d = excerpt k a b ++ excerpt k b d := by
    intro a b d hab hbd
    unfold excerpt
    rw [← List.filter_append]
    congr 1
    have e1 : d - a = (b - a) + (d - b) := by omega
    rw [e1, List.take_add, List.drop_drop]
    congr 3
    omega
  have hc' : c = k[i] := by
    have := h.found
    rw [charAt, List.getD_eq_getElem?_getD, List.getElem?_append_left (by omega), List.getElem?_eq_getElem (by omega)] at this
    exact this
  have hs := hsplit (i - 4) i (min (k.length - 1) (i + 4)) (by omega) (by omega)
  rw [hsplit i (i + 1) _ (by omega) (by omega)] at hs
  rw [hk (i - 4) _ (by omega), hs]
  have : excerpt k i (i + 1) = [c] := by
    unfold excerpt
    rw [List.drop_eq_getElem_cons (by omega), ← hc']
    simp [hc]
  rw [this]
  simp

/-! ## Examples and counterexamples -/

/-- Numbers that are natural numbers in decimal digits: an instance in which every other character ends a number. -/
def miniOps : RealOps Nat where
  strtod s := ((s.takeWhile Char.isDigit).foldl (fun n c => 10 * n + (c.toNat - 48)) 0, (s.takeWhile Char.isDigit).length)
  toInt n := if n < 2 ^ 63 then some n else none
  toUInt n := if n < 2 ^ 64 then some n else none
  ofInt n := n.toNat
  eq a b := a == b
  toText n := Nat.toDigits 10 n
  isdigitHigh _ := some false

theorem miniOps_within (t : List Char) : (miniOps.strtod t).2 ≤ t.length :=
  (List.takeWhile_sublist _).length_le

theorem miniOps_ends {d : Char} (hd : d.isDigit = false) : EndsNumber miniOps d := by
  intro a b t h
  have h : ((a ++ b).takeWhile Char.isDigit).length = a.length := h
  have ha : (a ++ b).takeWhile Char.isDigit = a := by
    have := (List.takeWhile_prefix Char.isDigit (l := a ++ b))
    obtain ⟨w, hw⟩ := this
    exact (List.append_inj hw h).1
  have hall : ∀ x ∈ a, x.isDigit := by rw [← ha]; exact fun x hx => List.all_eq_true.1 List.all_takeWhile x hx
  have h2 : (a ++ d :: t).takeWhile Char.isDigit = a := by
    rw [List.takeWhile_append_of_pos hall]
    simp [hd]
  simp only [miniOps, ha, h2]

/-- The hypotheses of `C142_position_partial` are met: `{"a":[1;2]}`, with spaces. -/
example : ∃ e i c ks, readE miniOps true "{\"a\": [1; 2]}".toList = .ok (.error e) ∧
    Reports miniOps true "{\"a\":[1;2]}".toList "{\"a\": [1; 2]}".toList e i c ks := by
  have h : readE miniOps true "{\"a\": [1; 2]}".toList = .ok (.error ⟨"Invalid array".toList,
      "Expected either `,` or `]`, got `;`".toList, "{\"a\":[1;2]\n{\"a o>>> \":[1;2] <<<o ".toList⟩) := by
    decide +kernel
  have hl : Layout "{\"a\":[1;2]}".toList "{\"a\": [1; 2]}".toList :=
    .chr (by decide) (by decide) (by decide) (.lit (body := ['a']) (by simp [StrBody]) (.chr (by decide) (by decide) (by decide)
      (.ws (by decide) (.chr (by decide) (by decide) (by decide) (.chr (by decide) (by decide) (by decide)
      (.chr (by decide) (by decide) (by decide) (.ws (by decide) (.chr (by decide) (by decide) (by decide)
      (.chr (by decide) (by decide) (by decide) (.chr (by decide) (by decide) (by decide) .nil))))))))))
  obtain ⟨i, c, ks, hr⟩ := C142_position_partial miniOps_within (fun d hd => miniOps_ends (by
    simp only [List.mem_cons, List.not_mem_nil, or_false] at hd
    rcases hd with rfl | rfl | rfl <;> decide)) true _ _ hl _ h
  exact ⟨_, i, c, ks, h, hr⟩

/-- What the reader says about a text, title and message. -/
def saysOf (o : Outcome (Except ReadException (Val Rat))) : Option (List Char × List Char × List Char) :=
  match o with
  | .ok (.error e) => some (e.title, e.what, e.src)
  | _ => none

/-- **C142 (counterexample).** `[1,-]` is reported as "expected a comma or bracket", although what stands before the minus,
`[1,`, can be followed by neither. -/
theorem C142_minus :
    saysOf (readE demoOps true "[1,-]".toList) =
      some ("Invalid array".toList, "Expected either `,` or `]`, got `-`".toList, "[1,-\n o>>> [1,- <<<o ".toList) ∧
    read demoOps true "[1,]".toList = .throw ∧ read demoOps true "[1,,2]".toList = .throw ∧
    read demoOps true "[1,-2]".toList = .ok (.arr [.num (.intS 1), .num (.intS (-2))]) := by
  decide +kernel

/-- **C142 (counterexample).** When the text ends too early, the message ends after the opening quote (without assertions; with
them reading behind the end fails an assertion). -/
theorem C142_end_of_text :
    saysOf (readE demoOps false "[1".toList) =
      some ("Invalid array".toList, "Expected either `,` or `]`, got `".toList, "[\n o>>> [ <<<o ".toList) := by
  decide +kernel

/-- **C142 (counterexample).** When the offending character is the last one, it is not in the excerpt. -/
theorem C142_last_not_shown :
    saysOf (readE demoOps true "[1;".toList) =
      some ("Invalid array".toList, "Expected either `,` or `]`, got `;`".toList, "[1\n o>>> [1 <<<o ".toList) := by
  decide +kernel

/-- **C142 (counterexample).** An unfinished exponent is reported at the `e`, although the text can go on with it. -/
theorem C142_number_goes_on :
    saysOf (readE demoOps true "[1e]".toList) =
      some ("Invalid array".toList, "Expected either `,` or `]`, got `e`".toList, "[1e\n o>>> [1e <<<o ".toList) ∧
    read demoOps true "[1e5]".toList = .ok (.arr [.num (.intS 100000)]) := by
  decide +kernel

end Verif.Json
