import Verif.Md5.Model
import Verif.Md5.Sine

namespace Verif.Md5

open Verif

def toBuf (r : Regs) : Rfc.Buf := ⟨r.a, r.b, r.c, r.d⟩

/-- The variables in the order they are passed to operation `i`. -/
def view (i : Nat) (r : Regs) : Rfc.Buf :=
  match i % 4 with
  | 0 => ⟨r.a, r.b, r.c, r.d⟩
  | 1 => ⟨r.d, r.a, r.b, r.c⟩
  | 2 => ⟨r.c, r.d, r.a, r.b⟩
  | _ => ⟨r.b, r.c, r.d, r.a⟩

def order (i : Nat) : Reg × Reg × Reg × Reg :=
  match i % 4 with
  | 0 => (.a, .b, .c, .d)
  | 1 => (.d, .a, .b, .c)
  | 2 => (.c, .d, .a, .b)
  | _ => (.b, .c, .d, .a)

def fnOf (i : Nat) : Fn := if i < 16 then .FF else if i < 32 then .GG else if i < 48 then .HH else .II

/-- Instruction `ins` is operation `i`. -/
def good (i : Nat) (ins : Instr) : Bool :=
  decide (ins.f = fnOf i) && decide ((ins.a, ins.b, ins.c, ins.d) = order i) && decide (ins.k.val = Rfc.index i) &&
    decide (ins.s = Rfc.shift i) && decide (ins.s < 32) && Sine.fits (i + 1) ins.ac.toNat

def goodFrom : Nat → List Instr → Bool
  | _, [] => true
  | i, ins :: l => good i ins && goodFrom (i + 1) l

theorem program_good : goodFrom 0 program = true := by decide +kernel

theorem rotl_eq (x : W) {s : Nat} (h : s < 32) : rotl x s = x.rotateLeft s := by
  rw [rotl, BitVec.rotateLeft_def, Nat.mod_eq_of_lt h]

theorem T_eq {i : Nat} {t : W} (h : Sine.fits i t.toNat = true) : Rfc.T i = t := by
  rw [Rfc.T, Sine.fits_ok h]
  simp

theorem fnOf_eval (i : Nat) : (fnOf i).eval = Rfc.fn i := by
  unfold fnOf Rfc.fn
  split
  · rfl
  · split
    · rfl
    · split <;> rfl

theorem mod4_cases (i : Nat) : (i % 4 = 0 ∧ (i + 1) % 4 = 1) ∨ (i % 4 = 1 ∧ (i + 1) % 4 = 2) ∨ (i % 4 = 2 ∧ (i + 1) % 4 = 3) ∨
    (i % 4 = 3 ∧ (i + 1) % 4 = 0) := by omega

theorem exec_op {x : Fin 16 → W} {X : Nat → W} (hX : ∀ k : Fin 16, X k.val = x k) {i : Nat} {ins : Instr}
    (h : good i ins = true) (r : Regs) : view (i + 1) (ins.exec x r) = Rfc.op X i (view i r) := by
  simp only [good, Bool.and_eq_true, decide_eq_true_eq] at h
  obtain ⟨⟨⟨⟨⟨hf, ho⟩, hk⟩, hs⟩, hs32⟩, hT⟩ := h
  obtain ⟨f, a, b, c, d, k, s, ac⟩ := ins
  simp only at hf ho hk hs hs32 hT
  simp only [Instr.exec, Rfc.op]
  rw [T_eq hT, ← hs, ← hk, hX, hf, fnOf_eval, rotl_eq _ hs32]
  rcases mod4_cases i with ⟨h1, h2⟩ | ⟨h1, h2⟩ | ⟨h1, h2⟩ | ⟨h1, h2⟩ <;>
  · simp only [order, h1, Prod.mk.injEq] at ho
    obtain ⟨rfl, rfl, rfl, rfl⟩ := ho
    simp only [view, h1, h2, Regs.get, Regs.set, Rfc.Buf.mk.injEq, true_and, and_true]
    rw [BitVec.add_comm]
    congr 2
    simp only [BitVec.add_assoc]

theorem fold_op {x : Fin 16 → W} {X : Nat → W} (hX : ∀ k : Fin 16, X k.val = x k) (l : List Instr) (i : Nat)
    (h : goodFrom i l = true) (r : Regs) :
    view (i + l.length) (l.foldl (Instr.exec x) r) = (List.range' i l.length).foldl (fun w i => Rfc.op X i w) (view i r) := by
  induction l generalizing i r with
  | nil => simp
  | cons ins l ih =>
    simp only [goodFrom, Bool.and_eq_true] at h
    have := ih (i + 1) h.2 (ins.exec x r)
    rw [exec_op hX h.1] at this
    rw [List.length_cons, show i + (l.length + 1) = i + 1 + l.length by omega, List.foldl_cons, this, List.range'_succ,
      List.foldl_cons]

theorem program_op {x : Fin 16 → W} {X : Nat → W} (hX : ∀ k : Fin 16, X k.val = x k) (r : Regs) :
    toBuf (program.foldl (Instr.exec x) r) = (List.range 64).foldl (fun w i => Rfc.op X i w) (toBuf r) := by
  have := fold_op hX program 0 program_good r
  rw [show program.length = 64 from rfl] at this
  rw [List.range_eq_range']
  exact this

theorem or_add {a b n : Nat} (h : a < 2 ^ n) : a ||| (b * 2 ^ n) = a + 2 ^ n * b := by
  rw [Nat.or_comm, Nat.mul_comm, ← Nat.two_pow_add_eq_or_of_lt h, Nat.add_comm]

theorem or4 (a b c d : Byte) : a.setWidth 32 ||| (b.setWidth 32 <<< 8) ||| (c.setWidth 32 <<< 16) ||| (d.setWidth 32 <<< 24) =
    BitVec.ofNat 32 (a.toNat + 256 * (b.toNat + 256 * (c.toNat + 256 * (d.toNat + 256 * 0)))) := by
  apply BitVec.eq_of_toNat_eq
  have ha := a.isLt
  have hb := b.isLt
  have hc := c.isLt
  have hd := d.isLt
  simp only [BitVec.toNat_or, BitVec.toNat_setWidth, BitVec.toNat_shiftLeft, BitVec.toNat_ofNat, Nat.shiftLeft_eq]
  rw [Nat.mod_eq_of_lt (a := a.toNat) (by omega), Nat.mod_eq_of_lt (a := b.toNat) (by omega),
    Nat.mod_eq_of_lt (a := c.toNat) (by omega), Nat.mod_eq_of_lt (a := d.toNat) (by omega),
    Nat.mod_eq_of_lt (a := b.toNat * 2 ^ 8) (by omega), Nat.mod_eq_of_lt (a := c.toNat * 2 ^ 16) (by omega),
    Nat.mod_eq_of_lt (a := d.toNat * 2 ^ 24) (by omega)]
  rw [or_add (n := 8) (by omega), or_add (n := 16) (by omega), or_add (n := 24) (by omega)]
  omega

theorem decode_word {l : List Byte} (hl : l.length = 64) (k : Fin 16) :
    Rfc.word l k.val = decode (fun i => l[i.val]'(by omega)) k := by
  rw [decode, or4, Rfc.word]
  congr 1
  have hk := k.isLt
  have : (l.drop (4 * k.val)).take 4 = [l[4 * k.val]'(by omega), l[4 * k.val + 1]'(by omega), l[4 * k.val + 2]'(by omega),
      l[4 * k.val + 3]'(by omega)] := by
    rw [List.drop_eq_getElem_cons (by omega), List.drop_eq_getElem_cons (by omega), List.drop_eq_getElem_cons (by omega),
      List.drop_eq_getElem_cons (by omega)]
    simp only [List.take_succ_cons, List.take_zero]
  rw [this]
  rfl

theorem transform_compress {l : List Byte} (hl : l.length = 64) (r : Regs) :
    toBuf (transform r (fun i => l[i.val]'(by omega))) = Rfc.compress (toBuf r) l := by
  have := program_op (decode_word hl) r
  rw [Rfc.compress, ← this]
  simp only [transform]
  generalize List.foldl _ _ program = q
  rfl

theorem blockOf_some {l : List Byte} (hl : l.length = 64) : blockOf (l.map some) = .ok fun i => l[i.val]'(by omega) := by
  unfold blockOf
  rw [dif_pos ⟨by simpa using hl, by simp⟩]
  simp

end Verif.Md5
