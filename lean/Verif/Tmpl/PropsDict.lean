import Verif.Tmpl.Theorems

/-!
# Theorems: the values of a dictionary (C153)
-/

namespace Verif.Tmpl

open Verif Spec

namespace Spec

/-- What one does with the values of a dictionary that is not `const`. -/
inductive DOp where
  /-- `d[k] = v` -/
  | set (k v : Str)
  /-- `d[k].asStr()` read -/
  | read (k : Str)
  /-- `d[k].asStr() = v` -/
  | setRef (k v : Str)
  /-- `d[k].asStr() += v` -/
  | append (k v : Str)

/-- The values as a map. -/
def DOp.on (f : Str → Option Str) : DOp → Str → Option Str
  | .set k v, k' => if k' = k then some v else f k'
  | .setRef k v, k' => if k' = k then some v else f k'
  | .read k, k' => if k' = k then some ((f k).getD []) else f k'
  | .append k v, k' => if k' = k then some ((f k).getD [] ++ v) else f k'

end Spec

/-- The same on the model. -/
def DOp.run (d : Dict) : DOp → Dict
  | .set k v => d.setRepl k v
  | .read k => (d.asStr k).1
  | .setRef k v => d.asStrSet k v
  | .append k v => d.asStrAppend k v

theorem setRepl_sects (d : Dict) (k v : Str) : (d.setRepl k v).sects = d.sects := rfl

theorem asStr_spec (d : Dict) (k : Str) : (d.asStr k).2 = (d.repls.lookup k).getD [] ∧ (d.asStr k).1.sects = d.sects ∧
    ∀ k', (d.asStr k).1.repls.lookup k' = if k' = k then some ((d.repls.lookup k).getD []) else d.repls.lookup k' := by
  unfold Dict.asStr
  cases h : d.repls.lookup k with
  | some v =>
    refine ⟨rfl, rfl, fun k' => ?_⟩
    simp only
    by_cases e : k' = k
    · rw [if_pos e, e, h]; rfl
    · rw [if_neg e]
  | none => exact ⟨rfl, rfl, fun k' => C57_set_key d k k' []⟩

/-- **C153 (values).** After any sequence of assignments, readings and changes through `asStr()`, a dictionary has the values of a map in
which reading a missing key adds it with an empty text; `has` and the `const` `asStr()` tell the same, the latter ending the program
for a missing key. The sections are not touched. -/
theorem C153_values (d : Dict) (os : List DOp) (k : Str) :
    let d' := os.foldl DOp.run d
    let v := os.foldl DOp.on (fun k => d.repls.lookup k) k
    d'.repls.lookup k = v ∧ d'.has k = v.isSome ∧ d'.asStrConst k = (match v with | some t => .ok t | none => .assertFail) ∧
      (d'.asStr k).2 = v.getD [] ∧ d'.sects = d.sects := by
  have key : ∀ (os : List DOp) (d : Dict), (os.foldl DOp.run d).sects = d.sects ∧
      (fun k => (os.foldl DOp.run d).repls.lookup k) = os.foldl DOp.on (fun k => d.repls.lookup k) := by
    intro os
    induction os with
    | nil => intro d; exact ⟨rfl, rfl⟩
    | cons o os ih =>
      intro d
      obtain ⟨h1, h2⟩ := ih (DOp.run d o)
      simp only [List.foldl_cons]
      have e : (DOp.run d o).sects = d.sects ∧ (fun k => (DOp.run d o).repls.lookup k) = DOp.on (fun k => d.repls.lookup k) o := by
        cases o with
        | set k v => exact ⟨rfl, by funext k'; exact C57_set_key d k k' v⟩
        | read k => exact ⟨(asStr_spec d k).2.1, by funext k'; exact (asStr_spec d k).2.2 k'⟩
        | setRef k v =>
          refine ⟨(asStr_spec d k).2.1, ?_⟩
          funext k'
          simp only [DOp.run, Dict.asStrSet, DOp.on]
          rw [C57_set_key, (asStr_spec d k).2.2 k']
          split <;> rfl
        | append k v =>
          refine ⟨(asStr_spec d k).2.1, ?_⟩
          funext k'
          simp only [DOp.run, Dict.asStrAppend, DOp.on]
          rw [C57_set_key, (asStr_spec d k).2.2 k', (asStr_spec d k).1]
          split <;> rfl
      rw [← e.2]
      exact ⟨h1.trans e.1, h2⟩
  intro d' v
  have h : d'.repls.lookup k = v := congrFun (key os d).2 k
  refine ⟨h, by rw [Dict.has, h], ?_, by rw [(asStr_spec d' k).1, h], (key os d).1⟩
  unfold Dict.asStrConst
  rw [h]
  cases v <;> rfl

/-- **C153 (reading changes the expansion).** A template with a tag for a missing key, expanded so that such tags are kept: it is kept before,
and gone after the key has been read with `asStr()`. -/
theorem C153_reading_changes (dbg : Bool) (d : Dict) (a k b : Str) (ha : TextOk a) (hb : TextOk b) (hk : '{' ∉ k ∧ '}' ∉ k)
    (hk' : k.head? ≠ some '#' ∧ k.head? ≠ some '*' ∧ k.head? ≠ some '/') (hd : AllValues (fun _ v => TextOk v) d)
    (hv : d.repls.lookup k = none) :
    ∃ n, ∀ fuel, n ≤ fuel →
      getExpanded dbg .maintain d fuel (a ++ ['{', '{'] ++ k ++ ['}', '}'] ++ b) = .ok (a ++ ['{', '{'] ++ k ++ ['}', '}'] ++ b) ∧
      getExpanded dbg .maintain (d.asStr k).1 fuel (a ++ ['{', '{'] ++ k ++ ['}', '}'] ++ b) = .ok (a ++ b) := by
  have hroot : (d.asStr k).1.repls.lookup k = some [] := by rw [(asStr_spec d k).2.2 k, if_pos rfl, hv]; rfl
  have hall : AllValues (fun _ v => TextOk v) (d.asStr k).1 := by
    intro e he k' v hl
    have hse := (asStr_spec d k).2.1
    generalize hd' : (d.asStr k).1 = d' at he
    cases he with
    | refl =>
      subst hd'
      rw [(asStr_spec d k).2.2 k'] at hl
      split at hl
      · rw [hv] at hl
        simp only [Option.getD_none, Option.some.injEq] at hl
        subst hl
        exact ⟨by simp, by simp, by simp, by simp⟩
      · exact hd d (.refl d) k' v hl
    | step h1 h2 h3 =>
      subst hd'
      rw [hse] at h1
      exact hd e (.step h1 h2 h3) k' v hl
  obtain ⟨n1, h1⟩ := C55_key_partial dbg .maintain (d.asStr k).1 a k [] b ha hb hk hk' hall hroot
  have hno : ∀ v, ¬ Value [d] k v := by
    intro v h
    rw [value_findSome] at h
    simp [hv] at h
  have hm : Means .maintain d plainText [d] false (.text a (.key k (.text b .nil))) (a ++ (shown (.key k .nil) ++ (b ++ []))) :=
    .text (.keyKeep rfl hno (.text .nil))
  have hl : (a ++ (shown (.key k .nil) ++ (b ++ []))).getLast? ≠ some '{' := by
    have last : ∀ (p s : Str), p.getLast? ≠ some '{' → TextOk s → (p ++ s).getLast? ≠ some '{' := by
      intro p s hp hs
      rw [List.getLast?_append]
      cases hsl : s.getLast? with
      | none => simpa using hp
      | some c => have := hs.2.2.1; rw [hsl] at this; simpa using this
    simp only [shown, List.append_nil, ← List.append_assoc]
    exact last _ _ (last_tag _) hb
  obtain ⟨n2, h2⟩ := C55_expansion_partial dbg .maintain plainText d (.text a (.key k (.text b .nil))) _ ⟨ha, hk, hk', hb, trivial⟩
    (plain_valWf hd) hm hl
  refine ⟨max n1 n2, fun fuel hf => ⟨?_, ?_⟩⟩
  · have := h2 fuel (by omega)
    simpa [source, shown] using this
  · have := h1 fuel (by omega)
    simpa using this

/-- **C153 (a dictionary added to itself).** `d[k] += d` puts a copy of the dictionary as it was, with the section `k` in it, behind the
section's dictionaries; the values stay as they are. -/
theorem C153_self (d : Dict) (k k' : Str) :
    (d.addSelf k).repls = d.repls ∧
    ∃ c : Dict, (d.addSelf k).sects.lookup k' = (if k' = k then some ((d.sects.lookup k).getD [] ++ [c]) else d.sects.lookup k') ∧
      c.repls = d.repls ∧ ∀ j, c.sects.lookup j = if j = k then some ((d.sects.lookup k).getD []) else d.sects.lookup j := by
  refine ⟨rfl, Dict.mk d.repls (match d.sects.lookup k with | some _ => d.sects | none => assign k [] d.sects), ?_, rfl, ?_⟩
  · rw [Dict.addSelf, C57_add_section]
    simp only [Dict.sects]
    cases h : d.sects.lookup k with
    | some es => cases d; simp_all [Dict.sects]
    | none =>
      have := lookup_assign k k ([] : List Dict) d.sects
      have h' := lookup_assign k k' ([] : List Dict) d.sects
      cases d
      simp only [Dict.sects] at *
      simp only [h, this, h', Option.getD_some, Option.getD_none]
      by_cases e : k' = k <;> simp [e]
  · intro j
    cases h : d.sects.lookup k with
    | some es =>
      cases d
      simp only [Dict.sects] at *
      by_cases e : j = k
      · rw [if_pos e, e, h]; rfl
      · rw [if_neg e]
    | none => cases d; exact lookup_assign k j ([] : List Dict) _

/-- The theorems apply. -/
example : ∃ n, ∀ fuel, n ≤ fuel →
    getExpanded true .maintain (Dict.empty.setRepl ['a'] ['x']) fuel ['{', '{', 'k', '}', '}'] = .ok ['{', '{', 'k', '}', '}'] ∧
    getExpanded true .maintain ((Dict.empty.setRepl ['a'] ['x']).asStr ['k']).1 fuel ['{', '{', 'k', '}', '}'] = .ok [] :=
  C153_reading_changes true _ [] ['k'] [] ⟨by simp, by simp, by simp, by simp⟩ ⟨by simp, by simp, by simp, by simp⟩ (by simp) (by simp)
    (by
      intro e he k v hl
      cases he with
      | refl =>
        have : (Dict.empty.setRepl ['a'] ['x']).repls = [(['a'], ['x'])] := rfl
        rw [this] at hl
        have hv : v = ['x'] := by
          rw [List.lookup_cons] at hl
          split at hl <;> simp_all
        subst hv
        refine ⟨?_, ?_, by simp, by simp⟩ <;> intro h <;> have := h.length_le <;> simp at this
      | step h1 _ _ =>
        have : (Dict.empty.setRepl ['a'] ['x']).sects = [] := rfl
        rw [this] at h1; cases h1) rfl

end Verif.Tmpl
