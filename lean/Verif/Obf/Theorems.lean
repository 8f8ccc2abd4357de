import Verif.Obf.Model
import Verif.Obf.Spec
import Verif.IntStr.Theorems
import Verif.Base64.Theorems
import Mathlib.Data.List.TakeWhile
import Mathlib.Tactic.Linarith

/-! # C30: ObfuscatedValue -/

namespace Verif.Obf

open Verif IntStr Base64

/-- Width and signedness of the eight types. -/
def plainTy : IntType → Plain.Ty
  | .short => ⟨16, true⟩ | .int => ⟨32, true⟩ | .long => ⟨64, true⟩ | .longLong => ⟨64, true⟩
  | .ushort => ⟨16, false⟩ | .uint => ⟨32, false⟩ | .ulong => ⟨64, false⟩ | .ulongLong => ⟨64, false⟩

/-- The client operations correspond one to one. -/
def plainOp : Op → Plain.Op
  | .get => .read
  | .set v => .assign v
  | .compound .add v => .add v
  | .compound .sub v => .sub v
  | .compound .mul v => .mul v
  | .compound .div v => .div v

/-- The values `toStr` can convert without writing outside its buffer (C37). -/
def storable (t : IntType) (v : Int) : Bool := decide (safeLo t ≤ v ∧ v ≤ safeHi t)

/-- The operand is a value of the type. -/
def OpOk (t : IntType) : Op → Prop
  | .get => True
  | .set v => (plainTy t).lo ≤ v ∧ v ≤ (plainTy t).hi
  | .compound _ v => (plainTy t).lo ≤ v ∧ v ≤ (plainTy t).hi

instance (t : IntType) (op : Op) : Decidable (OpOk t op) := by
  cases op <;> unfold OpOk <;> infer_instance

/-! ## The stored text -/

theorem digit_chr {c : Char} (h : c.isDigit = true) : (chr c).val = c.toNat ∧ isDigit (chr c) = true ∧ isSpace (chr c) = false ∧
    chr c ≠ chr '-' ∧ chr c ≠ chr '+' := by
  have h1 : 48 ≤ c.toNat ∧ c.toNat ≤ 57 := by
    have := h
    simp only [Char.isDigit, ge_iff_le, Bool.and_eq_true, decide_eq_true_eq] at this
    obtain ⟨h1, h2⟩ := this
    exact ⟨h1, h2⟩
  have h2 : (chr c).val = c.toNat := by
    show c.toNat % 256 = c.toNat
    omega
  refine ⟨h2, ?_, ?_, ?_, ?_⟩
  · simp [isDigit, h2, h1.1, h1.2]
  · simp [isSpace, h2]; omega
  · intro h; have := congrArg Fin.val h; rw [h2] at this; have h3 : (chr '-').val = 45 := by decide
    omega
  · intro h; have := congrArg Fin.val h; rw [h2] at this; have h3 : (chr '+').val = 43 := by decide
    omega

theorem natText_digits (n : Nat) : ∀ c ∈ natText n, c.isDigit = true := fun c hc => Nat.isDigit_of_mem_toDigits (by omega) (by omega) hc

theorem digitsValue_map (ds : List Char) (h : ∀ c ∈ ds, c.isDigit = true) (n : Nat) :
    (ds.map chr).foldl (fun n d => n * 10 + (d.val - 48)) n = Nat.ofDigitChars 10 ds n := by
  induction ds generalizing n with
  | nil => rfl
  | cons c cs ih =>
    rw [List.map_cons, List.foldl_cons, ih (fun c hc => h c (List.mem_cons_of_mem _ hc)), Nat.ofDigitChars_cons,
      (digit_chr (h c (List.mem_cons_self ..))).1]
    congr 1
    show n * 10 + _ = 10 * n + _
    rw [Nat.mul_comm]
    rfl

theorem fromStr_intText (t : IntType) (v : Int) (hv : (plainTy t).lo ≤ v ∧ v ≤ (plainTy t).hi) :
    fromStr t ((intText v).map chr) = v := by
  have hds := natText_digits v.natAbs
  have hne : natText v.natAbs ≠ [] := by
    have : 0 < (natText v.natAbs).length := Nat.length_toDigits_pos
    intro h; rw [h] at this; exact absurd this (by decide)
  have hval := @Nat.ofDigitChars_ten_toDigits v.natAbs
  have htake : ((natText v.natAbs).map chr).takeWhile isDigit = (natText v.natAbs).map chr := by
    rw [List.takeWhile_eq_self_iff]
    intro x hx
    obtain ⟨c, hc, rfl⟩ := List.mem_map.1 hx
    exact (digit_chr (hds c hc)).2.1
  have hdv : digitsValue ((natText v.natAbs).map chr) = v.natAbs := by
    unfold digitsValue
    rw [digitsValue_map _ hds]; exact hval
  have hmatch : ∀ neg, (match ((natText v.natAbs).map chr).takeWhile isDigit with
      | [] => 0
      | ds => stored t neg (digitsValue ds)) = stored t neg v.natAbs := by
    intro neg
    rw [htake]
    cases h : (natText v.natAbs).map chr with
    | nil => simp at h; exact absurd h hne
    | cons a l => simp only; rw [← h, hdv]
  unfold intText
  split
  · rename_i hneg
    have h1 : fromStr t (('-' :: natText v.natAbs).map chr) = stored t true v.natAbs := by
      unfold fromStr
      rw [List.map_cons, List.dropWhile_cons_of_neg (by decide)]
      simp only [takeSign, if_true]
      exact hmatch true
    rw [h1]
    have h2 : ((v.natAbs : Nat) : Int) = -v := by omega
    generalize v.natAbs = n at h2
    unfold stored
    cases t <;> simp [plainTy, Plain.Ty.lo, Plain.Ty.hi, IntType.signed, IntType.bits] at hv ⊢ <;> omega
  · rename_i hneg
    have h1 : fromStr t ((natText v.natAbs).map chr) = stored t false v.natAbs := by
      cases hc : natText v.natAbs with
      | nil => exact absurd hc hne
      | cons c cs =>
        have hd := digit_chr (hds c (by rw [hc]; exact List.mem_cons_self ..))
        unfold fromStr
        rw [List.map_cons, List.dropWhile_cons_of_neg (by rw [hd.2.2.1]; decide)]
        simp only [takeSign, if_neg hd.2.2.2.1, if_neg hd.2.2.2.2]
        rw [← List.map_cons, ← hc]
        exact hmatch false
    rw [h1]
    have h2 : ((v.natAbs : Nat) : Int) = v := by omega
    generalize v.natAbs = n at h2
    unfold stored
    cases t <;> simp [plainTy, Plain.Ty.lo, Plain.Ty.hi, IntType.signed, IntType.bits] at hv ⊢ <;> omega

theorem inRange_iff (t : IntType) (v : Int) : t.InRange v ↔ (plainTy t).lo ≤ v ∧ v ≤ (plainTy t).hi := by
  cases t <;> simp [IntType.InRange, plainTy, Plain.Ty.lo, Plain.Ty.hi, IntType.signed, IntType.bits] <;> omega

theorem set_get {t : IntType} {buf : List Char} (hb : buf.length = t.bufferSize) {v : Int}
    (hv : (plainTy t).lo ≤ v ∧ v ≤ (plainTy t).hi) (hs : storable t v = true) :
    ∃ o, set t buf v = .ok o ∧ get t o = .ok v := by
  have h1 : toStr t buf v = .ok (intText v) := by
    rw [C37_toStr_partial t buf hb v ((inRange_iff t v).2 hv), if_pos (by simpa [storable] using hs)]
  have hl : (intText v).length ≤ 20 := by
    have hn : (natText v.natAbs).length ≤ 19 := by
      rw [natText_length_le (by decide)]
      simp only [storable, decide_eq_true_eq] at hs
      cases t <;> simp [safeLo, safeHi] at hs <;> omega
    unfold intText
    split <;> simp <;> omega
  obtain ⟨e, he, hd⟩ := C26_decode_inverts_encode_partial ((intText v).map chr) (by simp; omega)
  refine ⟨⟨v, e⟩, ?_, ?_⟩
  · unfold set; rw [h1]; simp [he]
  · unfold get; rw [hd]; simp [fromStr_intText t v hv]

theorem set_ub {t : IntType} {buf : List Char} (hb : buf.length = t.bufferSize) {v : Int}
    (hv : (plainTy t).lo ≤ v ∧ v ≤ (plainTy t).hi) (hs : storable t v = false) : set t buf v = .ub := by
  have h1 : toStr t buf v = .ub := by
    rw [C37_toStr_partial t buf hb v ((inRange_iff t v).2 hv), if_neg (by simpa [storable] using hs)]
  unfold set; rw [h1]; rfl

/-! ## Arithmetic -/

theorem tdiv_spec (a b : Int) (hb : b ≠ 0) : a.tdiv b = Int.sign a * Int.sign b * ((a.natAbs / b.natAbs : Nat) : Int) := by
  rcases lt_trichotomy a 0 with ha | rfl | ha
  · obtain ⟨a, rfl⟩ : ∃ c, a = -c := ⟨-a, by omega⟩
    have ha : 0 < a := by omega
    rcases lt_or_gt_of_ne hb with hb | hb
    · obtain ⟨b, rfl⟩ : ∃ c, b = -c := ⟨-b, by omega⟩
      have hb : 0 < b := by omega
      simp [Int.sign_eq_one_of_pos ha, Int.sign_eq_one_of_pos hb, Int.tdiv_eq_ediv_of_nonneg ha.le, abs_of_pos ha, abs_of_pos hb]
    · simp [Int.sign_eq_one_of_pos ha, Int.sign_eq_one_of_pos hb, Int.tdiv_eq_ediv_of_nonneg ha.le, abs_of_pos ha, abs_of_pos hb]
  · simp
  · rcases lt_or_gt_of_ne hb with hb | hb
    · obtain ⟨b, rfl⟩ : ∃ c, b = -c := ⟨-b, by omega⟩
      have hb : 0 < b := by omega
      simp [Int.sign_eq_one_of_pos ha, Int.sign_eq_one_of_pos hb, Int.tdiv_eq_ediv_of_nonneg ha.le, abs_of_pos ha, abs_of_pos hb]
    · simp [Int.sign_eq_one_of_pos ha, Int.sign_eq_one_of_pos hb, Int.tdiv_eq_ediv_of_nonneg ha.le, abs_of_pos ha, abs_of_pos hb]

/-- The rest of `Plain.next` once the mathematical result is known. -/
def fit (t : Plain.Ty) (x : Int) : Option Int :=
  if t.width < 32 then if -(2 ^ 31) ≤ x ∧ x < 2 ^ 31 then some (t.wrap x) else none
  else if t.signed then if t.lo ≤ x ∧ x ≤ t.hi then some x else none
  else some (t.wrap x)

theorem arithIn_signed {t : IntType} (h : t.signed = true) (x : Int) :
    arithIn t x = if -(2 ^ t.bits) ≤ x ∧ x < 2 ^ t.bits then .ok x else .ub := by unfold arithIn; rw [if_pos h]

theorem fit_arith (t : IntType) (x : Int) :
    (match arithIn (promoted t) x with | .ok y => some (convert t y) | _ => none) = fit (plainTy t) x := by
  have h31 : arithIn .int x = if -2147483648 ≤ x ∧ x < 2147483648 then .ok x else .ub := arithIn_signed rfl x
  have h63 : arithIn .long x = if -9223372036854775808 ≤ x ∧ x < 9223372036854775808 then .ok x else .ub := arithIn_signed rfl x
  have h63' : arithIn .longLong x = if -9223372036854775808 ≤ x ∧ x < 9223372036854775808 then .ok x else .ub :=
    arithIn_signed rfl x
  have f16 : ∀ b : Bool, fit ⟨16, b⟩ x = if -2147483648 ≤ x ∧ x < 2147483648 then some (Plain.Ty.wrap ⟨16, b⟩ x) else none :=
    fun b => rfl
  have f32 : fit ⟨32, true⟩ x = if -2147483648 ≤ x ∧ x ≤ 2147483648 - 1 then some x else none := rfl
  have f64 : fit ⟨64, true⟩ x = if -9223372036854775808 ≤ x ∧ x ≤ 9223372036854775808 - 1 then some x else none := rfl
  have g32 : fit ⟨32, false⟩ x = some (Plain.Ty.wrap ⟨32, false⟩ x) := rfl
  have g64 : fit ⟨64, false⟩ x = some (Plain.Ty.wrap ⟨64, false⟩ x) := rfl
  have hc : ∀ y, convert .short y = (y + 32768) % 65536 - 32768 ∧ convert .ushort y = y % 65536 ∧
      convert .int y = (y + 2147483648) % 4294967296 - 2147483648 ∧ convert .uint y = y % 4294967296 := fun _ => ⟨rfl, rfl, rfl, rfl⟩
  have hc' : ∀ y, convert .long y = (y + 9223372036854775808) % 18446744073709551616 - 9223372036854775808 ∧
      convert .longLong y = (y + 9223372036854775808) % 18446744073709551616 - 9223372036854775808 ∧
      convert .ulong y = y % 18446744073709551616 ∧ convert .ulongLong y = y % 18446744073709551616 := fun _ => ⟨rfl, rfl, rfl, rfl⟩
  have hw : Plain.Ty.wrap ⟨16, true⟩ x = -32768 + (x - -32768) % 65536 ∧ Plain.Ty.wrap ⟨16, false⟩ x = 0 + (x - 0) % 65536 ∧
      Plain.Ty.wrap ⟨32, false⟩ x = 0 + (x - 0) % 4294967296 ∧ Plain.Ty.wrap ⟨64, false⟩ x = 0 + (x - 0) % 18446744073709551616 :=
    ⟨rfl, rfl, rfl, rfl⟩
  have hu : arithIn .uint x = .ok (x % 4294967296) ∧ arithIn .ulong x = .ok (x % 18446744073709551616) ∧
      arithIn .ulongLong x = .ok (x % 18446744073709551616) := ⟨rfl, rfl, rfl⟩
  cases t <;> simp only [promoted, plainTy, h31, h63, h63', f16, f32, f64, g32, g64, hc, hc', hw, hu]
  case short | ushort =>
    by_cases h : -2147483648 ≤ x ∧ x < 2147483648
    · rw [if_pos h, if_pos h]; simp only [hc, Option.some.injEq]; omega
    · rw [if_neg h, if_neg h]
  case int =>
    by_cases h : -2147483648 ≤ x ∧ x < 2147483648
    · rw [if_pos h, if_pos (by omega)]; simp only [hc, Option.some.injEq]; omega
    · rw [if_neg h, if_neg (by omega)]
  case long | longLong =>
    by_cases h : -9223372036854775808 ≤ x ∧ x < 9223372036854775808
    · rw [if_pos h, if_pos (by omega)]; simp only [hc', Option.some.injEq]; omega
    · rw [if_neg h, if_neg (by omega)]
  all_goals
    simp only [Option.some.injEq]; omega

theorem fit_range {t : IntType} {x y : Int} (h : fit (plainTy t) x = some y) : (plainTy t).lo ≤ y ∧ y ≤ (plainTy t).hi := by
  unfold fit at h
  cases t <;>
    simp only [plainTy, Plain.Ty.wrap, Plain.Ty.lo, Plain.Ty.hi, Bool.false_eq_true, if_true, if_false, Nat.reduceLT,
      Int.reducePow, Nat.reduceSub] at h ⊢ <;> (try split at h) <;> (try cases h) <;> omega

theorem fit_self {t : IntType} {x : Int} (h : (plainTy t).lo ≤ x ∧ x ≤ (plainTy t).hi) : fit (plainTy t) x = some x := by
  unfold fit
  cases t <;>
    simp only [plainTy, Plain.Ty.wrap, Plain.Ty.lo, Plain.Ty.hi, Bool.false_eq_true, if_true, if_false, Nat.reduceLT,
      Int.reducePow, Nat.reduceSub] at h ⊢ <;> (try rw [if_pos (by omega)]) <;> (try simp only [Option.some.injEq]) <;> omega

theorem next_eq (t : Plain.Ty) (a : Int) (op : Plain.Op) : Plain.next t a op = (Plain.exact a op).bind (fit t) := rfl

/-! ## Histories -/

/-- One operation on an object that currently holds `a`. -/
theorem step_spec {dbg : Bool} {t : IntType} {buf : List Char} (hb : buf.length = t.bufferSize) {o : Obj} {a : Int}
    (ha : get t o = .ok a) (har : (plainTy t).lo ≤ a ∧ a ≤ (plainTy t).hi) (has : storable t a = true) (op : Op) (hop : OpOk t op) :
    match (Plain.next (plainTy t) a (plainOp op)).filter (storable t) with
    | some x => ((plainTy t).lo ≤ x ∧ x ≤ (plainTy t).hi) ∧
        ∃ o', step dbg t buf o op = .ok (o', Plain.returned x (plainOp op)) ∧ get t o' = .ok x
    | none => ∀ r, step dbg t buf o op ≠ .ok r := by
  have hset : ∀ v, (plainTy t).lo ≤ v ∧ v ≤ (plainTy t).hi → storable t v = false → set t buf v = .ub := fun v h1 h2 => set_ub hb h1 h2
  cases op with
  | get =>
    rw [next_eq]
    simp only [plainOp, Plain.exact, Option.bind_some, fit_self har, Option.filter_some, has, if_true]
    exact ⟨har, o, by simp [step, ha, Plain.returned], ha⟩
  | set v =>
    rw [next_eq]
    simp only [plainOp, Plain.exact, Option.bind_some, fit_self hop, Option.filter_some]
    cases hs : storable t v with
    | true =>
      obtain ⟨o', h1, h2⟩ := set_get hb hop hs
      simp only [if_true]
      exact ⟨hop, o', by simp [step, h1, Plain.returned], h2⟩
    | false =>
      simp only [Bool.false_eq_true, if_false]
      intro r
      simp [step, hset v hop hs]
  | compound op v =>
    have key : ¬ (op = .div ∧ v = 0) → Plain.exact a (plainOp (.compound op v)) = some (result op a v) := by
      intro h
      cases op with
      | add => rfl
      | sub => rfl
      | mul => rfl
      | div =>
        have hv : v ≠ 0 := fun hv => h ⟨rfl, hv⟩
        simp [plainOp, Plain.exact, hv, result, tdiv_spec a v hv]
    have hret : ∀ x, Plain.returned x (plainOp (.compound op v)) = some x := by intro x; cases op <;> rfl
    by_cases hz : op = .div ∧ v = 0
    · obtain ⟨rfl, rfl⟩ := hz
      rw [next_eq]
      simp only [plainOp, Plain.exact, if_true, Option.bind_none, Option.filter_none]
      intro r
      cases dbg <;> simp [step, compound, divAssert, ha, Outcome.check]
    · have hstep : step dbg t buf o (.compound op v) =
          (do let x ← arithIn (promoted t) (result op a v)
              let o ← set t buf (convert t x)
              let r ← get t o
              pure (o, some r)) := by
        have hchk : divAssert dbg op v = .ok () := by
          unfold divAssert
          split
          · rename_i h
            have hv : v ≠ 0 := fun hv => hz ⟨h.1, hv⟩
            simp [Outcome.check, hv]
          · rfl
        unfold step compound
        simp only [hchk, hz, if_false, ha, Outcome.bind_ok]
        cases arithIn (promoted t) (result op a v) with
        | ok x =>
          simp only [Outcome.bind_ok]
          cases set t buf (convert t x) with
          | ok o => simp only [Outcome.bind_ok]; cases get t o <;> rfl
          | _ => rfl
        | _ => rfl
      rw [next_eq, key hz, Option.bind_some, ← fit_arith, hstep]
      have hr := @fit_range t (result op a v)
      rw [← fit_arith] at hr
      cases harith : arithIn (promoted t) (result op a v) with
      | ok x =>
        rw [harith] at hr
        have hr := hr rfl
        simp only [Option.filter_some, Outcome.bind_ok]
        cases hs : storable t (convert t x) with
        | true =>
          obtain ⟨o', h1, h2⟩ := set_get hb hr hs
          simp only [if_true]
          exact ⟨hr, o', by simp [h1, h2, hret], h2⟩
        | false =>
          simp only [Bool.false_eq_true, if_false]
          intro r
          simp [hset _ hr hs]
      | _ => simp

theorem run_spec {dbg : Bool} {t : IntType} (ops : List (List Char × Op)) (hops : ∀ p ∈ ops, p.1.length = t.bufferSize ∧ OpOk t p.2)
    {o : Obj} {a : Int} (ha : get t o = .ok a) (har : (plainTy t).lo ≤ a ∧ a ≤ (plainTy t).hi) (has : storable t a = true)
    (outs : List (Option Int)) :
    run dbg t o ops = .ok outs ↔ Plain.run (plainTy t) (storable t) a (ops.map fun p => plainOp p.2) = some outs := by
  induction ops generalizing o a outs with
  | nil => simp [run, Plain.run]
  | cons p ops ih =>
    obtain ⟨buf, op⟩ := p
    obtain ⟨hb, hop⟩ := hops (buf, op) (List.mem_cons_self ..)
    have hs := step_spec (dbg := dbg) hb ha har has op hop
    simp only [List.map_cons, Plain.run, run]
    cases hn : Plain.next (plainTy t) a (plainOp op) with
    | none =>
      rw [hn] at hs
      simp only [Option.filter_none] at hs
      simp only [Option.bind_none, reduceCtorEq, iff_false]
      intro h
      obtain ⟨r, h1, _⟩ := Outcome.bind_eq_ok.1 h
      exact hs r h1
    | some x =>
      rw [hn] at hs
      simp only [Option.filter_some, Option.bind_some] at hs ⊢
      cases hx : storable t x with
      | false =>
        simp only [hx, Bool.false_eq_true, if_false] at hs ⊢
        simp only [reduceCtorEq, iff_false]
        intro h
        obtain ⟨r, h1, _⟩ := Outcome.bind_eq_ok.1 h
        exact hs r h1
      | true =>
        simp only [hx, if_true] at hs ⊢
        obtain ⟨hxr, o', h1, h2⟩ := hs
        have ih := fun outs => ih (fun p hp => hops p (List.mem_cons_of_mem _ hp)) h2 hxr hx outs
        rw [h1]
        simp only [Outcome.bind_ok]
        constructor
        · intro h
          obtain ⟨rs, h3, h4⟩ := Outcome.bind_eq_ok.1 h
          rw [(ih rs).1 h3]
          cases h4
          rfl
        · intro h
          obtain ⟨rs, h3, h4⟩ := Option.map_eq_some_iff.1 h
          rw [(ih rs).2 h3]
          simp [h4]

/-- **C30.** For every integer type, every stored value and every history of reads, assignments and compound assignments, in
both build modes: the obfuscated value returns what a plain variable of the type returns, and it does so exactly when the plain
variable's operations are all defined and all values stored are within the range that `toStr` converts without overrunning its
buffer. Missing: the values outside that range (`C30_extreme_values`). -/
theorem C30_plain_variable_partial (dbg : Bool) (t : IntType) (buf : List Char) (hb : buf.length = t.bufferSize) (v : Int)
    (hv : (plainTy t).lo ≤ v ∧ v ≤ (plainTy t).hi) (hs : safeLo t ≤ v ∧ v ≤ safeHi t)
    (ops : List (List Char × Op)) (hops : ∀ p ∈ ops, p.1.length = t.bufferSize ∧ OpOk t p.2) (outs : List (Option Int)) :
    runFrom dbg t buf v ops = .ok outs ↔ Plain.run (plainTy t) (storable t) v (ops.map fun p => plainOp p.2) = some outs := by
  have hs : storable t v = true := by simpa [storable] using hs
  obtain ⟨o, h1, h2⟩ := set_get hb hv hs
  unfold runFrom
  rw [h1]
  exact run_spec ops hops h2 hv hs outs

/-- The property is false of the code for large values: storing the largest value of any type overruns the buffer. -/
theorem C30_extreme_values (t : IntType) (buf : List Char) (hb : buf.length = t.bufferSize) : set t buf (plainTy t).hi = .ub := by
  apply set_ub hb
  · cases t <;> decide
  · cases t <;> decide

/-- Unlike a plain variable a wide intermediate value is not needed for that: adding 1 to 99999999 in an `int` is undefined here. -/
example : Plain.next (plainTy .int) 99999999 (.add 1) = some 100000000 ∧
    runFrom false .int (List.replicate 9 ' ') 99999999 [(List.replicate 9 ' ', .compound .add 1)] = .ub := by
  constructor <;> decide +kernel

/-- `ObfuscatedValue<char>` returns every character that is not white space … -/
theorem C30_char_partial (c : Byte) (h : c.val ≠ 32 ∧ ¬(9 ≤ c.val ∧ c.val ≤ 13)) : ∃ e, setChar c = .ok e ∧ getChar e = .ok c := by
  obtain ⟨e, h1, h2⟩ := C26_decode_inverts_encode_partial [c] (by simp)
  refine ⟨e, h1, ?_⟩
  have : isSpace c = false := by simp [isSpace, h.1]; omega
  simp [getChar, h2, this]

/-- … and an uninitialised one for each of the six white space characters. -/
theorem C30_char_white_space (c : Byte) (h : c.val = 32 ∨ (9 ≤ c.val ∧ c.val ≤ 13)) : ∃ e, setChar c = .ok e ∧ getChar e = .ub := by
  obtain ⟨e, h1, h2⟩ := C26_decode_inverts_encode_partial [c] (by simp)
  refine ⟨e, h1, ?_⟩
  have : isSpace c = true := by simp only [isSpace, Bool.or_eq_true, beq_iff_eq, Bool.and_eq_true, decide_eq_true_eq]; exact h
  simp [getChar, h2, this]

/-! Concrete histories that meet the hypotheses. -/

example : runFrom true .int (List.replicate 9 'x') 100
    [(List.replicate 9 ' ', .get), (List.replicate 9 ' ', .compound .sub 350), (List.replicate 9 '7', .compound .div 7),
     (List.replicate 9 'y', .set 12), (List.replicate 9 'y', .compound .mul (-1000))]
    = .ok [some 100, some (-250), some (-35), none, some (-12000)] := by
  rw [C30_plain_variable_partial true .int _ (by decide) _ (by decide) (by decide) _ (by decide +kernel)]
  decide +kernel

example : runFrom false .uint (List.replicate 9 'x') 3 [(List.replicate 9 ' ', .compound .add 4294967295)] = .ok [some 2] := by
  rw [C30_plain_variable_partial false .uint _ (by decide) _ (by decide) (by decide) _ (by decide +kernel)]
  decide +kernel

end Verif.Obf
