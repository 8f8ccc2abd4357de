import Verif.Path.Lemmas

/-!
# Lemmas about the parts of a path
-/

namespace Verif.Path

open Verif Str

theorem sizeSub_eq {a b : Nat} (h : b ≤ a) (ha : a < 2 ^ 64) : sizeSub a b = a - b := by
  unfold sizeSub
  rw [show a + 2 ^ 64 - b = (a - b) + 2 ^ 64 by omega, Nat.add_mod_right, Nat.mod_eq_of_lt (by omega)]

/-- Every text is everything up to the last `c`, and the rest. -/
theorem split_last (c : Char) (s : Str) :
    ∃ pre name, s = pre ++ name ∧ c ∉ name ∧ (pre = [] ∨ ∃ q, pre = q ++ [c]) := by
  induction s with
  | nil => exact ⟨[], [], rfl, by simp, .inl rfl⟩
  | cons d s ih =>
    obtain ⟨pre, name, rfl, h1, h2⟩ := ih
    rcases h2 with rfl | ⟨q, rfl⟩
    · by_cases hd : d = c
      · exact ⟨[d], name, rfl, h1, .inr ⟨[], by rw [hd]; rfl⟩⟩
      · refine ⟨[], d :: name, rfl, ?_, .inl rfl⟩
        simp only [List.mem_cons, not_or]
        exact ⟨fun h => hd h.symm, h1⟩
    · exact ⟨d :: (q ++ [c]), name, rfl, h1, .inr ⟨d :: q, rfl⟩⟩

theorem findIdx?_not_mem (c : Char) (l : Str) (h : c ∉ l) : l.findIdx? (· == c) = none := by
  rw [List.findIdx?_eq_none_iff]
  intro x hx
  simp only [beq_eq_false_iff_ne, ne_eq]
  rintro rfl
  exact h hx

theorem findIdx?_first (c : Char) (l r : Str) (h : c ∉ l) : (l ++ c :: r).findIdx? (· == c) = some l.length := by
  rw [List.findIdx?_append, findIdx?_not_mem c l h]
  simp [List.findIdx?_cons]

theorem findLastOf_none (c : Char) (s : Str) (h : c ∉ s) : findLastOf s c = npos := by
  unfold findLastOf
  rw [findIdx?_not_mem c _ (by simpa using h)]

theorem findLastOf_some (c : Char) (q name : Str) (h : c ∉ name) : findLastOf (q ++ c :: name) c = q.length := by
  unfold findLastOf
  have : (q ++ c :: name).reverse = name.reverse ++ c :: q.reverse := by simp
  rw [this, findIdx?_first c _ _ (by simpa using h)]
  simp only [List.length_append, List.length_cons, List.length_reverse]
  omega

theorem findFirstOf_none (c : Char) (l r : Str) (h : c ∉ r) : findFirstOf (l ++ r) c l.length = npos := by
  unfold findFirstOf
  rw [List.drop_left' rfl, findIdx?_not_mem c _ h]

theorem findFirstOf_some (c : Char) (l q r : Str) (h : c ∉ q) :
    findFirstOf (l ++ (q ++ c :: r)) c l.length = l.length + q.length := by
  unfold findFirstOf
  rw [List.drop_left' rfl, findIdx?_first c _ _ h]

theorem npos_succ : (npos + 1) % 2 ^ 64 = 0 := by decide

theorem substr_eq (l m r : Str) (n : Nat) (h : n = m.length) : substr (l ++ m ++ r) l.length n = .ok m := by
  unfold substr
  rw [if_neg (by simp), List.append_assoc, List.drop_left' rfl, List.take_left' h.symm]

theorem substr_to_end (l m : Str) (n : Nat) (h : m.length ≤ n) : substr (l ++ m) l.length n = .ok m := by
  unfold substr
  rw [if_neg (by simp), List.drop_left' rfl, List.take_of_length_le h]

/-- Where the file name begins. -/
theorem nameBegin_eq (pre name : Str) (h : '/' ∉ name) (hp : pre = [] ∨ ∃ q, pre = q ++ ['/'])
    (hl : (pre ++ name).length < 2 ^ 63) : (findLastOf (pre ++ name) '/' + 1) % 2 ^ 64 = pre.length := by
  rcases hp with rfl | ⟨q, rfl⟩
  · rw [List.nil_append, findLastOf_none _ _ h]; exact npos_succ
  · rw [List.append_assoc, List.singleton_append, findLastOf_some _ _ _ h]
    simp only [List.length_append, List.length_cons, List.length_nil] at hl ⊢
    rw [Nat.mod_eq_of_lt (by omega)]

theorem getFileName_eq (fs : FS) (p : PathObj) (pre name : Str) (hs : getStr fs p = .ok (pre ++ name)) (h : '/' ∉ name)
    (hp : pre = [] ∨ ∃ q, pre = q ++ ['/']) (hl : (pre ++ name).length < 2 ^ 63) : getFileName fs p = .ok name := by
  unfold getFileName
  rw [hs]
  simp only [Outcome.bind_ok, nameBegin_eq pre name h hp hl]
  apply substr_to_end
  rw [sizeSub_eq (by simp) (by omega)]; simp

/-! ### `getParent` -/

theorem parentLoop_down (pre name : Str) (h : '/' ∉ name) (hpre : pre ≠ []) (k : Nat) (hk : k ≤ name.length) :
    parentLoop (pre ++ name) (pre.length - 1 + k) = parentLoop (pre ++ name) (pre.length - 1) := by
  have hpos : 0 < pre.length := List.length_pos_iff.2 hpre
  induction k with
  | zero => rfl
  | succ k ih =>
    rw [show pre.length - 1 + (k + 1) = (pre.length - 1 + k) + 1 by omega, parentLoop]
    have hlt : k < name.length := by omega
    have : (pre ++ name)[pre.length - 1 + k + 1]? = some name[k] := by
      rw [List.getElem?_append_right (by omega)]
      simp only [show pre.length - 1 + k + 1 - pre.length = k by omega]
      exact List.getElem?_eq_getElem hlt
    rw [this]
    simp only
    rw [if_neg (show ¬ name[k] = '/' from fun e => h (e ▸ List.getElem_mem hlt))]
    exact ih (by omega)

theorem parentLoop_none (name : Str) (h : '/' ∉ name) (k : Nat) (hk : k < name.length) :
    parentLoop name k = .ok [] := by
  induction k with
  | zero => rfl
  | succ k ih =>
    rw [parentLoop, List.getElem?_eq_getElem hk]
    simp only
    rw [if_neg (show ¬ name[k + 1] = '/' from fun e => h (e ▸ List.getElem_mem hk))]
    exact ih (by omega)

/-! ### `getFolderName` -/

theorem folderLoop_down (pre name rest : Str) (h : '/' ∉ name) (hpre : pre ≠ []) (k : Nat) (hk : k ≤ name.length) :
    folderLoop (pre ++ name ++ rest) (pre.length - 1 + k) = folderLoop (pre ++ name ++ rest) (pre.length - 1) := by
  have hpos : 0 < pre.length := List.length_pos_iff.2 hpre
  induction k with
  | zero => rfl
  | succ k ih =>
    rw [show pre.length - 1 + (k + 1) = (pre.length - 1 + k) + 1 by omega, folderLoop]
    have hlt : k < name.length := by omega
    have : (pre ++ name ++ rest)[pre.length - 1 + k + 1]? = some name[k] := by
      rw [List.append_assoc, List.getElem?_append_right (by omega)]
      simp only [show pre.length - 1 + k + 1 - pre.length = k by omega]
      rw [List.getElem?_append_left hlt]
      exact List.getElem?_eq_getElem hlt
    rw [this]
    simp only
    rw [if_neg (show ¬ name[k] = '/' from fun e => h (e ▸ List.getElem_mem hlt))]
    exact ih (by omega)

theorem folderLoop_none (name rest : Str) (h : '/' ∉ name) (k : Nat) (hk : k < name.length) :
    folderLoop (name ++ rest) k = .ok 0 := by
  induction k with
  | zero => rfl
  | succ k ih =>
    rw [folderLoop, List.getElem?_append_left hk, List.getElem?_eq_getElem hk]
    simp only
    rw [if_neg (show ¬ name[k + 1] = '/' from fun e => h (e ▸ List.getElem_mem hk))]
    exact ih (by omega)

end Verif.Path
