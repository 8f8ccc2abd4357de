import Verif.JsonFmt.Model
import Verif.JsonFmt.Spec
import Verif.IntStr.Theorems

/-! # The plain writer follows the specified layout -/

namespace Verif.JsonFmt

open Verif Verif.Json Verif.Stringify

variable {R : Type} {ops : RealOps R}

def ind (d : Nat) : List Char := List.replicate (4 * d) ' '

def tt (ts : List Tok) : List Char := (ts.map Tok.text).flatten

def nls (ls : List Line) : List Char := (ls.map fun l => '\n' :: l.render).flatten

def body : List Line → List Char
  | [] => []
  | l :: ls => tt l.toks ++ nls ls

theorem layout_cons (l : Line) (ls : List Line) : layout (l :: ls) = ind l.depth ++ body (l :: ls) := by
  induction ls generalizing l with
  | nil => simp [layout, joined, body, nls, Line.render, ind, tt]
  | cons l' ls ih =>
    have := ih l'
    simp only [layout, List.map_cons] at this ⊢
    rw [joined, this]
    simp [body, nls, Line.render, ind, tt]

theorem nls_cons (l : Line) (ls : List Line) : nls (l :: ls) = '\n' :: (ind l.depth ++ body (l :: ls)) := by
  simp [nls, body, Line.render, ind, tt]

theorem nls_append (ls ms : List Line) : nls (ls ++ ms) = nls ls ++ nls ms := by simp [nls]

theorem body_append {ls : List Line} (h : ls ≠ []) (ms : List Line) : body (ls ++ ms) = body ls ++ nls ms := by
  cases ls with
  | nil => exact absurd rfl h
  | cons l ls => simp [body, nls_append]

theorem nls_withLast (t : Tok) {ls : List Line} (h : ls ≠ []) : nls (withLast t ls) = nls ls ++ t.text := by
  induction ls with
  | nil => exact absurd rfl h
  | cons l ls ih =>
    cases ls with
    | nil => simp [withLast, nls, Line.render]
    | cons l' ls =>
      rw [withLast, ← List.singleton_append, nls_append, ih (by simp), ← List.singleton_append (l := l' :: ls), nls_append [l]]
      · simp
      · simp

theorem body_withLast (t : Tok) {ls : List Line} (h : ls ≠ []) : body (withLast t ls) = body ls ++ t.text := by
  cases ls with
  | nil => exact absurd rfl h
  | cons l ls =>
    cases ls with
    | nil => simp [withLast, body, nls, tt]
    | cons l' ls =>
      rw [withLast, body, nls_withLast _ (by simp), body]
      · simp
      · simp

theorem withLast_cons (t : Tok) (d : Nat) (ts : List Tok) (ls : List Line) :
    ∃ ts' ls', withLast t (⟨d, ts⟩ :: ls) = ⟨d, ts'⟩ :: ls' := by
  cases ls with
  | nil => exact ⟨_, _, rfl⟩
  | cons l ls => exact ⟨_, _, rfl⟩

theorem lines_head (f : R → List Char) (d : Nat) (v : Val R) : ∃ ts ls, lines f d v = ⟨d, ts⟩ :: ls := by
  cases v <;> simp [lines]

theorem elements_head (f : R → List Char) (d : Nat) (v : Val R) (vs : List (Val R)) :
    ∃ ts ls, elements f d (v :: vs) = ⟨d, ts⟩ :: ls := by
  obtain ⟨ts, ls, h⟩ := lines_head f d v
  cases vs with
  | nil => exact ⟨ts, ls, by simp [elements, h]⟩
  | cons v' vs =>
    obtain ⟨ts', ls', h'⟩ := withLast_cons (pun [',', ' ']) d ts ls
    exact ⟨ts', _, by rw [elements, h, h', List.cons_append]; simp⟩

theorem members_head (f : R → List Char) (d : Nat) (k : List Char) (v : Val R) (kvs : List (List Char × Val R)) :
    ∃ ts ls, members f d ((k, v) :: kvs) = ⟨d, ts⟩ :: ls := by
  cases kvs with
  | nil => rw [members]; cases atom f v <;> simp
  | cons p kvs =>
    rw [members]
    · cases atom f v <;> simp
    · simp

theorem isObjOrArr_eq (f : R → List Char) (v : Val R) : isObjOrArr v = (atom f v).isNone := by
  cases v <;> rfl

theorem lines_atom {f : R → List Char} {v : Val R} {t : Tok} (h : atom f v = some t) (d : Nat) :
    lines f d v = [⟨d, [t]⟩] := by
  cases v <;> simp_all [atom, lines]

theorem numText_fits {n : Num R} (h : NumFits n) : numText ops n = .ok (number ops.toText n) := by
  cases n with
  | intS n =>
    obtain ⟨h1, h2⟩ := h
    rw [numText, IntStr.C37_toStr_partial .long _ (by rfl) n, if_pos]
    · rfl
    · simp only [IntStr.safeLo, IntStr.safeHi]; omega
    · simp only [IntStr.IntType.InRange, IntStr.IntType.signed, IntStr.IntType.bits, if_true]; omega
  | intU n =>
    have h1 : n < 10 ^ 18 := h
    rw [numText, IntStr.C37_toStr_partial .ulong _ (by rfl) n, if_pos]
    · rfl
    · simp only [IntStr.safeLo, IntStr.safeHi]; omega
    · simp [IntStr.IntType.InRange, IntStr.IntType.signed, IntStr.IntType.bits]; omega
  | real r => rfl

theorem put_true (s o : List Char) (d : Nat) (ni : Bool) :
    W.put true s ⟨o, d, ni⟩ = ⟨o ++ (if ni then ind d else []) ++ s, d, false⟩ := by
  cases ni with
  | false => simp [W.put]
  | true =>
    have : ∀ d, (List.replicate d [' ', ' ', ' ', ' ']).flatten = ind d := by
      intro d
      induction d with
      | zero => rfl
      | succ d ih =>
        rw [List.replicate_succ, List.flatten_cons, ih, ind, ind, Nat.mul_succ]; rfl
    simp [W.put, W.indent, this]

theorem nl_true (o : List Char) (d : Nat) (ni : Bool) : W.nl true ⟨o, d, ni⟩ = ⟨o ++ ['\n'], d, true⟩ := rfl
theorem ws_true (o : List Char) (d : Nat) (ni : Bool) : W.ws true ⟨o, d, ni⟩ = ⟨o ++ [' '], d, ni⟩ := rfl

mutual
theorem write_lines (v : Val R) (hv : Fits v) (o : List Char) (d : Nat) (ni : Bool) :
    writeVal ops true v ⟨o, d, ni⟩
      = .ok ⟨o ++ (if ni then ind d else []) ++ body (lines ops.toText d v), d, false⟩ := by
  match v, hv with
  | .str s, _ => simp [writeVal, put_true, lines, body, nls, tt, quoted]
  | .num n, h => simp [writeVal, put_true, numText_fits (ops := ops) h, lines, body, nls, tt]
  | .bln b, _ => cases b <;> simp [writeVal, put_true, lines, body, nls, tt]
  | .nll, _ => simp [writeVal, put_true, lines, body, nls, tt]
  | .arr [], _ =>
    simp [writeVal, writeArr, put_true, nl_true, W.deeper, W.shallower, lines, elements, orBlank, body, nls, tt, pun, Line.render, ind]
  | .arr (v :: vs), h =>
    obtain ⟨ts, ls, e⟩ := elements_head ops.toText (d + 1) v vs
    have ih := write_elements (v :: vs) (by simp) (by simpa only [Fits] using h)
      (o ++ (if ni then ind d else []) ++ ['[', '\n']) (d + 1)
    have hb : orBlank (elements ops.toText (d + 1) (v :: vs)) = elements ops.toText (d + 1) (v :: vs) := by rw [e]; rfl
    rw [writeVal, put_true, nl_true]
    simp only [W.deeper]
    rw [show o ++ (if ni then ind d else []) ++ ['['] ++ ['\n'] = o ++ (if ni then ind d else []) ++ ['[', '\n'] by simp, ih]
    simp only [Outcome.bind_ok, Outcome.pure_eq, W.shallower, nl_true, put_true, Nat.add_sub_cancel]
    rw [lines, hb, List.singleton_append, List.cons_append, body, nls_append, e, nls_cons]
    simp [nls, Line.render, tt, ind, pun]
  | .obj [], _ =>
    simp [writeVal, writeObj, put_true, nl_true, W.deeper, W.shallower, lines, members, orBlank, body, nls, tt, pun, Line.render, ind]
  | .obj ((k, v) :: kvs), h =>
    obtain ⟨ts, ls, e⟩ := members_head ops.toText (d + 1) k v kvs
    have ih := write_members ((k, v) :: kvs) (by simp) (by simpa only [Fits] using h)
      (o ++ (if ni then ind d else []) ++ ['{', '\n']) (d + 1)
    have hb : orBlank (members ops.toText (d + 1) ((k, v) :: kvs)) = members ops.toText (d + 1) ((k, v) :: kvs) := by
      rw [e]; rfl
    rw [writeVal, put_true, nl_true]
    simp only [W.deeper]
    rw [show o ++ (if ni then ind d else []) ++ ['{'] ++ ['\n'] = o ++ (if ni then ind d else []) ++ ['{', '\n'] by simp, ih]
    simp only [Outcome.bind_ok, Outcome.pure_eq, W.shallower, nl_true, put_true, Nat.add_sub_cancel]
    rw [lines, hb, List.singleton_append, List.cons_append, body, nls_append, e, nls_cons]
    simp [nls, Line.render, tt, ind, pun]

theorem write_elements (vs : List (Val R)) (hn : vs ≠ []) (hv : FitsArr vs) (o : List Char) (d : Nat) :
    writeArr ops true vs ⟨o, d, true⟩ = .ok ⟨o ++ ind d ++ body (elements ops.toText d vs), d, false⟩ := by
  match vs, hv with
  | [], _ => exact absurd rfl hn
  | [v], h => simpa [writeArr, elements] using write_lines v h.1 o d true
  | v :: v' :: vs, h =>
    obtain ⟨ts, ls, e⟩ := lines_head ops.toText d v
    obtain ⟨ts', ls', e'⟩ := elements_head ops.toText d v' vs
    rw [writeArr, write_lines v h.1, elements, Outcome.bind_ok, put_true, ws_true, nl_true,
      write_elements (v' :: vs) (by simp) h.2, body_append, body_withLast, e', nls_cons]
    · simp [pun]
    · simp [e]
    · obtain ⟨a, b, c⟩ := withLast_cons (pun [',', ' ']) d ts ls
      simp [e, c]
    · simp
    · simp

theorem write_members (kvs : List (List Char × Val R)) (hn : kvs ≠ []) (hv : FitsObj kvs) (o : List Char) (d : Nat) :
    writeObj ops true kvs ⟨o, d, true⟩ = .ok ⟨o ++ ind d ++ body (members ops.toText d kvs), d, false⟩ := by
  match kvs, hv with
  | [], _ => exact absurd rfl hn
  | [(k, v)], h =>
    rw [writeObj, members, put_true, put_true, ws_true, isObjOrArr_eq ops.toText]
    cases ha : atom ops.toText v with
    | none =>
      obtain ⟨ts, ls, e⟩ := lines_head ops.toText d v
      simp only [Option.isNone_none, if_true, nl_true, write_lines v h.1]
      simp only [body, e, nls_cons]
      simp [tt, quoted, pun]
    | some t =>
      simp only [Option.isNone_some, Bool.false_eq_true, if_false, write_lines v h.1, lines_atom ha]
      simp [body, tt, quoted, pun, nls]
  | (k, v) :: p :: kvs, h =>
    obtain ⟨k', v'⟩ := p
    obtain ⟨ts', ls', e'⟩ := members_head ops.toText d k' v' kvs
    rw [writeObj, members, put_true, put_true, ws_true, isObjOrArr_eq ops.toText]
    · cases ha : atom ops.toText v with
      | none =>
        obtain ⟨ts, ls, e⟩ := lines_head ops.toText d v
        have hb : ∀ A, body (⟨d, A⟩ :: withLast (pun [',', ' ']) (lines ops.toText d v))
            = tt A ++ (nls (lines ops.toText d v) ++ [',', ' ']) := by
          intro A; rw [body, nls_withLast _ (by simp [e])]; rfl
        simp only [Option.isNone_none, if_true, nl_true, write_lines v h.1]
        rw [Outcome.bind_ok, put_true, ws_true, nl_true, write_members ((k', v') :: kvs) (by simp) h.2, body_append (by simp),
          e', nls_cons, hb, e, nls_cons]
        simp [tt, quoted, pun]
      | some t =>
        simp only [Option.isNone_some, Bool.false_eq_true, if_false, write_lines v h.1, lines_atom ha]
        rw [Outcome.bind_ok, put_true, ws_true, nl_true, write_members ((k', v') :: kvs) (by simp) h.2, body_append (by simp),
          e', nls_cons]
        simp [body, tt, quoted, pun, nls]
    · simp
    · simp
end

end Verif.JsonFmt
